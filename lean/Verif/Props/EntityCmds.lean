import Verif.Model.EntityCmds
import Verif.Spec.EntityCmds
import Verif.Props.Collapse
import Verif.Props.CharRef
/-!
# C82: commands for entities
-/
namespace Xmq.Props
open Xmq.Spec Xmq.EntityCmds Xmq.Spec.EntityCmds

theorem ofNodes_append (a b : List Node) : ofNodes (a ++ b) = ofNodes a ++ ofNodes b := by
  induction a with
  | nil => rfl
  | cons k a ih => simp [ofNodes, ih]

theorem ofNodes_reverse_cons (k : Node) (done : List Node) : ofNodes (k :: done).reverse = ofNodes done.reverse ++ ofNode k := by
  simp [ofNodes_append, ofNodes]

/-! ## Deleting -/

theorem filter_attr (e : List Byte) (as : List Attr) :
    (as.flatMap ofAttr).filter (fun x => x ≠ .ref false e) = as.flatMap ofAttr := by
  rw [List.filter_eq_self]
  intro x hx
  simp only [List.mem_flatMap, ofAttr, List.mem_cons] at hx
  obtain ⟨a, _, rfl | ⟨v, _, hv⟩⟩ := hx
  · simp
  · cases v with
    | text s =>
      simp only [ofVal, List.mem_map] at hv
      obtain ⟨c, _, rfl⟩ := hv
      simp
    | entity n =>
      simp only [ofVal, List.mem_singleton] at hv
      subst hv
      simp

theorem filter_chars (p : Met → Bool) (s : List Byte) (h : ∀ c, p (.char c) = true) : (s.map Met.char).filter p = s.map .char := by
  rw [List.filter_eq_self]
  intro x hx
  simp only [List.mem_map] at hx
  obtain ⟨c, _, rfl⟩ := hx
  exact h c

mutual
theorem deleteNode_ev (e : List Byte) : ∀ k : Node, (∀ n, k ≠ .entity n) →
    ofNode (deleteNode e k) = (ofNode k).filter (fun x => x ≠ .ref false e)
  | .text s, _ => by rw [deleteNode, ofNode, filter_chars _ _ (by simp)]; simp
  | .comment s, _ => by simp [deleteNode, ofNode]
  | .entity n, h => absurd rfl (h n)
  | .element t as ks, _ => by
    rw [deleteNode, ofNode, ofNode, deleteEntities_ev e ks]
    have := filter_attr e as
    simp only [List.filter_cons, List.filter_append, this]
    simp
theorem deleteEntities_ev (e : List Byte) : ∀ ks : List Node,
    ofNodes (deleteEntities e ks) = (ofNodes ks).filter (fun x => x ≠ .ref false e)
  | [] => by simp [deleteEntities, ofNodes]
  | .entity n :: ks => by
    have ih := deleteEntities_ev e ks
    rw [deleteEntities]
    by_cases h : e = n
    · subst h
      simp [ofNodes, ofNode, ih]
    · have h' : n ≠ e := fun x => h x.symm
      simp [ofNodes, ofNode, ih, h, h']
  | .text s :: ks => by
    rw [deleteEntities, ofNodes, ofNodes, deleteNode_ev e (.text s) (by simp), deleteEntities_ev e ks, List.filter_append]
    simp
  | .comment s :: ks => by
    rw [deleteEntities, ofNodes, ofNodes, deleteNode_ev e (.comment s) (by simp), deleteEntities_ev e ks, List.filter_append]
    simp
  | .element t as js :: ks => by
    rw [deleteEntities, ofNodes, ofNodes, deleteNode_ev e (.element t as js) (by simp), deleteEntities_ev e ks, List.filter_append]
    simp
end

/-- C82: delete-entity leaves out exactly the references in the contents of elements, for all documents. -/
theorem C82_delete_exact (e : List Byte) (doc : List Node) :
    ofNodes (deleteEntities e doc) = (ofNodes doc).filter (fun x => x ≠ .ref false e) := deleteEntities_ev e doc

mutual
theorem noAttr_ev (e : List Byte) : ∀ k : Node, NoAttr (· = .entity e) k → Met.ref true e ∉ ofNode k
  | .text s, _ => by simp [ofNode]
  | .comment s, _ => by simp [ofNode]
  | .entity n, _ => by simp [ofNode]
  | .element t as ks, h => by
    have ih := noAttrIn_ev e ks h.2
    simp only [ofNode, List.mem_cons, List.mem_append, List.mem_flatMap, ofAttr, not_or]
    refine ⟨by simp, ?_, by simp, ih, by simp⟩
    rintro ⟨a, ha, h1 | ⟨v, hv, h1⟩⟩
    · cases h1
    · cases v with
      | text s => simp [ofVal] at h1
      | entity n =>
        simp only [ofVal, List.mem_singleton, Met.ref.injEq, true_and] at h1
        exact h.1 a ha _ hv (by rw [h1])
theorem noAttrIn_ev (e : List Byte) : ∀ ks : List Node, NoAttrIn (· = .entity e) ks → Met.ref true e ∉ ofNodes ks
  | [], _ => by simp [ofNodes]
  | k :: ks, h => by
    simp only [ofNodes, List.mem_append, not_or]
    exact ⟨noAttr_ev e k h.1, noAttrIn_ev e ks h.2⟩
end

/-- C82: delete-entity deletes all references and nothing else, if there are none in attributes. -/
theorem C82_delete_partial (e : List Byte) (doc : List Node) (h : NoAttrIn (· = .entity e) doc) :
    ofNodes (deleteEntities e doc) = without e (ofNodes doc) := by
  rw [C82_delete_exact, without]
  apply List.filter_congr
  intro x hx
  have : x ≠ .ref true e := fun hh => noAttrIn_ev e doc h (hh ▸ hx)
  simp [this]

/-! ## Replacing -/

theorem replaced_append (e : List Byte) (r a b : List Met) : replaced e r (a ++ b) = replaced e r a ++ replaced e r b := by
  simp [replaced]

theorem replaced_chars (e : List Byte) (r : List Met) (s : List Byte) : replaced e r (s.map .char) = s.map .char := by
  induction s with
  | nil => rfl
  | cons c s ih => simp [replaced] at ih ⊢; exact ih

theorem replaced_cons (e : List Byte) (r : List Met) (x : Met) (l : List Met) :
    replaced e r (x :: l) = (if x = .ref true e ∨ x = .ref false e then r else [x]) ++ replaced e r l := by
  simp [replaced]

/-- What a node looks like as part of a value. -/
theorem val_ev {rep : Node} {v : Val} (h : rep.val? = some v) (hr : ∀ n, rep ≠ .entity n) : ofVal v = ofNode rep := by
  cases rep with
  | text s => cases h; rfl
  | entity n => exact absurd rfl (hr n)
  | comment s => cases h
  | element t as ks => cases h

theorem replaceVals_ev (e : List Byte) (rep : Node) (hr : ∀ n, rep ≠ .entity n) (vs : List Val) :
    ∀ done out, replaceVals e rep done vs = some out →
      out.flatMap ofVal = done.reverse.flatMap ofVal ++ replaced e (ofNode rep) (vs.flatMap ofVal) := by
  suffices H : ∀ k (vs : List Val), vs.length ≤ k → ∀ done out, replaceVals e rep done vs = some out →
      out.flatMap ofVal = done.reverse.flatMap ofVal ++ replaced e (ofNode rep) (vs.flatMap ofVal) from H _ vs (Nat.le_refl _)
  intro k
  induction k with
  | zero =>
    intro vs hl done out h
    have : vs = [] := List.length_eq_zero_iff.1 (by omega)
    subst this
    simp only [replaceVals, Option.some.injEq] at h
    subst h
    simp [replaced]
  | succ k ih =>
    intro vs hl done out h
    match vs with
    | [] =>
      simp only [replaceVals, Option.some.injEq] at h
      subst h
      simp [replaced]
    | .text s :: vs =>
      rw [replaceVals] at h
      have := ih vs (by simpa using hl) _ _ h
      rw [this]
      simp [ofVal, replaced_append, replaced_chars]
    | .entity n :: vs =>
      have hl' : vs.length ≤ k := by simpa using hl
      rw [replaceVals.eq_def] at h
      simp only at h
      by_cases hn : n = e
      · subst hn
        simp only [beq_self_eq_true, if_true] at h
        cases hv : rep.val? with
        | none => simp [hv] at h
        | some v =>
          have hev := val_ev hv hr
          simp only [hv] at h
          cases v with
          | entity m =>
            cases rep with
            | entity n => exact absurd rfl (hr n)
            | text s => cases hv
            | comment s => cases hv
            | element t as ks => cases hv
          | text c =>
            simp only [ofVal] at hev
            simp only at h
            split at h
            · next p done' =>
              split at h
              · next q vs' =>
                have := ih vs' (by simp at hl'; omega) _ _ h
                rw [this]
                simp [ofVal, replaced_append, replaced_cons, replaced_chars, hev]
              · have := ih vs hl' _ _ h
                rw [this]
                simp [ofVal, replaced_cons, hev]
            · have := ih vs hl' _ _ h
              rw [this]
              simp [ofVal, replaced_cons, hev]
      · have hn' : (n == e) = false := by simpa using hn
        simp only [hn', Bool.false_eq_true, if_false] at h
        have := ih vs hl' _ _ h
        rw [this]
        simp [ofVal, replaced_cons, hn]

theorem replaceAttrs_ev (e : List Byte) (rep : Node) (hr : ∀ n, rep ≠ .entity n) (as : List Attr) :
    ∀ out, replaceAttrs e rep as = some out → out.flatMap ofAttr = replaced e (ofNode rep) (as.flatMap ofAttr) := by
  induction as with
  | nil =>
    intro out h
    simp only [replaceAttrs, Option.some.injEq] at h
    subst h
    rfl
  | cons a as ih =>
    intro out h
    rw [replaceAttrs] at h
    split at h
    · next v as' h1 h2 =>
      cases h
      have e1 := replaceVals_ev e rep hr a.value [] v h1
      simp only [List.reverse_nil, List.flatMap_nil, List.nil_append] at e1
      simp only [List.flatMap_cons, ofAttr, replaced_append, ih as' h2, e1, replaced_cons]
      simp
    · cases h

/-- One step of the loop over siblings. -/
theorem replaceSibs_step (e : List Byte) (rep : Node) (done ks : List Node) (n : List Byte) (out : List Node)
    (h : replaceSibs e rep done (.entity n :: ks) = some out) :
    (∃ p c q done' ks', done = .text p :: done' ∧ ks = .text q :: ks' ∧ n = e ∧ rep = .text c ∧
      replaceSibs e rep (.text (p ++ c ++ q) :: done') ks' = some out) ∨
    (∃ p c done', done = .text p :: done' ∧ n = e ∧ rep = .text c ∧ replaceSibs e rep (.text (p ++ c) :: done') ks = some out) ∨
    replaceSibs e rep ((if n == e then rep else .entity n) :: done) ks = some out := by
  rw [replaceSibs.eq_def] at h
  by_cases hn : n = e
  · subst hn
    rw [beq_self_eq_true, if_pos rfl]
    split at h
    · cases ‹_ :: _ = []›
    · next p done' n' q ks' heq =>
      cases heq
      rw [beq_self_eq_true, if_pos rfl] at h
      cases rep with
      | text c => exact .inl ⟨p, c, q, done', ks', rfl, rfl, rfl, rfl, h⟩
      | entity m => exact .inr (.inr h)
      | comment s => exact .inr (.inr h)
      | element t as js => exact .inr (.inr h)
    · next p done' n' ks' _ heq =>
      cases heq
      rw [beq_self_eq_true, if_pos rfl] at h
      cases rep with
      | text c => exact .inr (.inl ⟨p, c, done', rfl, rfl, rfl, h⟩)
      | entity m => exact .inr (.inr h)
      | comment s => exact .inr (.inr h)
      | element t as js => exact .inr (.inr h)
    · next heq =>
      cases heq
      rw [beq_self_eq_true, if_pos rfl] at h
      exact .inr (.inr h)
    · next heq => cases heq; simp_all
  · have hn' : (n == e) = false := by simpa using hn
    simp only [hn', Bool.false_eq_true, if_false]
    split at h
    · cases ‹_ :: _ = []›
    · next heq => cases heq; simp only [hn', Bool.false_eq_true, if_false] at h; exact .inr (.inr h)
    · next heq => cases heq; simp only [hn', Bool.false_eq_true, if_false] at h; exact .inr (.inr h)
    · next heq => cases heq; simp only [hn', Bool.false_eq_true, if_false] at h; exact .inr (.inr h)
    · next heq => cases heq; simp_all

theorem replaceSibs_other (e : List Byte) (rep : Node) (done ks : List Node) (k : Node) (hk : ∀ n, k ≠ .entity n) :
    replaceSibs e rep done (k :: ks) =
      match replaceNode e rep k with
      | some k' => replaceSibs e rep (k' :: done) ks
      | none => none := by
  rw [replaceSibs.eq_def]
  split
  · cases ‹_ :: _ = []›
  · next heq => cases heq; exact absurd rfl (hk _)
  · next heq => cases heq; exact absurd rfl (hk _)
  · next heq => cases heq; exact absurd rfl (hk _)
  · next heq => cases heq; rfl

theorem replaceSibs_ev (e : List Byte) (rep : Node) (hr : ∀ n, rep ≠ .entity n) :
    ∀ k, (∀ nd : Node, sizeOf nd ≤ k → (∀ n, nd ≠ .entity n) → ∀ out, replaceNode e rep nd = some out →
        ofNode out = replaced e (ofNode rep) (ofNode nd)) ∧
      (∀ ks : List Node, sizeOf ks ≤ k → ∀ done out, replaceSibs e rep done ks = some out →
        ofNodes out = ofNodes done.reverse ++ replaced e (ofNode rep) (ofNodes ks)) := by
  intro k
  induction k with
  | zero =>
    refine ⟨fun nd h => ?_, fun ks h => ?_⟩
    · cases nd <;> simp at h
    · cases ks <;> simp at h
  | succ k ih =>
    refine ⟨?_, ?_⟩
    · intro nd hs hne out h
      cases nd with
      | entity n => exact absurd rfl (hne n)
      | text s =>
        simp only [replaceNode, Option.some.injEq] at h
        subst h
        simp [ofNode, replaced_chars]
      | comment s =>
        simp only [replaceNode, Option.some.injEq] at h
        subst h
        simp [ofNode, replaced]
      | element t as ks =>
        rw [replaceNode] at h
        split at h
        · next as' ks' h1 h2 =>
          cases h
          have e1 := replaceAttrs_ev e rep hr as as' h1
          have e2 := ih.2 ks (by simp at hs; omega) [] ks' h2
          simp only [List.reverse_nil, ofNodes, List.nil_append] at e2
          simp only [ofNode, replaced_cons, replaced_append, e1, e2]
          simp [replaced]
        · cases h
    · intro ks hs done out h
      match ks with
      | [] =>
        simp only [replaceSibs, Option.some.injEq] at h
        subst h
        simp [ofNodes, replaced]
      | .entity n :: ks =>
        have hk : sizeOf ks ≤ k := by simp at hs; omega
        rcases replaceSibs_step e rep done ks n out h with ⟨p, c, q, done', ks', rfl, rfl, rfl, rfl, h'⟩ | ⟨p, c, done', rfl, rfl, rfl, h'⟩ | h'
        · have := ih.2 ks' (by simp at hk; omega) _ _ h'
          rw [this]
          simp [ofNodes_append, ofNodes, ofNode, replaced_append, replaced_cons, replaced_chars]
        · have := ih.2 ks hk _ _ h'
          rw [this]
          simp [ofNodes_append, ofNodes, ofNode, replaced_cons]
        · have := ih.2 ks hk _ _ h'
          rw [this]
          by_cases hn : n = e
          · subst hn
            simp [ofNodes_append, ofNodes, ofNode, replaced_cons]
          · have hn' : (n == e) = false := by simpa using hn
            simp [ofNodes_append, ofNodes, ofNode, replaced_cons, hn]
      | .text s :: ks | .comment s :: ks | .element t as js :: ks =>
        rw [replaceSibs_other _ _ _ _ _ (by simp)] at h
        split at h
        · next k' hk' =>
          have e1 := ih.1 _ (by simp at hs ⊢; omega) (by simp) _ hk'
          have e2 := ih.2 ks (by simp at hs; omega) _ _ h
          rw [e2, ofNodes_reverse_cons, e1, ofNodes, replaced_append]
          simp
        · cases h

theorem replaceNode_ev (e : List Byte) (rep : Node) (hr : ∀ n, rep ≠ .entity n) (nd : Node) (hn : ∀ n, nd ≠ .entity n) (out : Node)
    (h : replaceNode e rep nd = some out) : ofNode out = replaced e (ofNode rep) (ofNode nd) :=
  (replaceSibs_ev e rep hr _).1 nd (Nat.le_refl _) hn out h

theorem top_ev (e : List Byte) (rep : Node) (hr : ∀ n, rep ≠ .entity n) (ks : List Node) :
    ∀ out, replaceEntities.top e rep ks = some out → ofNodes out = replaced e (ofNode rep) (ofNodes ks) := by
  induction ks with
  | nil =>
    intro out h
    simp only [replaceEntities.top, Option.some.injEq] at h
    subst h
    rfl
  | cons k ks ih =>
    intro out h
    have other : (∀ n, k ≠ .entity n) → (match replaceNode e rep k, replaceEntities.top e rep ks with
        | some k', some ks' => some (k' :: ks')
        | _, _ => none) = some out → ofNodes out = replaced e (ofNode rep) (ofNodes (k :: ks)) := by
      intro hk h
      split at h
      · next k' ks' h1 h2 =>
        cases h
        simp only [ofNodes, replaced_append, replaceNode_ev e rep hr k hk k' h1, ih ks' h2]
      · cases h
    cases k with
    | entity n =>
      rw [replaceEntities.top] at h
      split at h
      · cases h
      · next hn =>
        simp only [Option.map_eq_some_iff] at h
        obtain ⟨ks', h1, rfl⟩ := h
        have hn : n ≠ e := by simpa using hn
        simp [ofNodes, ofNode, replaced_cons, hn, ih ks' h1]
    | text s => rw [replaceEntities.top] at h; exact other (by simp) h; simp
    | comment s => rw [replaceEntities.top] at h; exact other (by simp) h; simp
    | element t as js => rw [replaceEntities.top] at h; exact other (by simp) h; simp

/-- C82: whenever replace-entity gives a document, each reference is replaced by the text or the node and nothing else is changed,
    also in attributes. -/
theorem C82_replace (e : List Byte) (rep : Node) (hr : ∀ n, rep ≠ .entity n) (doc out : List Node)
    (h : replaceEntities e rep doc = some out) : ofNodes out = replaced e (ofNode rep) (ofNodes doc) := by
  unfold replaceEntities at h
  split at h
  · exact top_ev e rep hr doc out h
  · cases h

/-- A document with a root element and no references beside it. -/
def HasRoot (doc : List Node) : Prop :=
  (∃ t as ks, Node.element t as ks ∈ doc) ∧ ∀ n, Node.entity n ∉ doc

theorem hasRoot_any {doc : List Node} (h : ∃ t as ks, Node.element t as ks ∈ doc) :
    doc.any isElement = true := by
  obtain ⟨t, as, ks, hm⟩ := h
  exact List.any_eq_true.2 ⟨_, hm, rfl⟩

theorem replaceVals_text (e c : List Byte) : ∀ k (vs : List Val), vs.length ≤ k → ∀ done, ∃ out, replaceVals e (.text c) done vs = some out := by
  intro k
  induction k with
  | zero =>
    intro vs hl done
    have : vs = [] := List.length_eq_zero_iff.1 (by omega)
    subst this
    exact ⟨_, rfl⟩
  | succ k ih =>
    intro vs hl done
    match vs with
    | [] => exact ⟨_, rfl⟩
    | .text s :: vs => exact ih vs (by simpa using hl) _
    | .entity n :: vs =>
      have hl' : vs.length ≤ k := by simpa using hl
      rw [replaceVals.eq_def]
      simp only [Node.val?]
      by_cases hn : (n == e) = true
      · simp only [hn, if_true]
        split
        · split
          · exact ih _ (by simp at hl'; omega) _
          · exact ih _ hl' _
        · exact ih _ hl' _
      · simp only [hn, if_false, Bool.false_eq_true]
        exact ih _ hl' _

theorem replaceVals_none (e : List Byte) (rep : Node) (vs : List Val) (h : ∀ v ∈ vs, v ≠ .entity e) :
    ∀ done, replaceVals e rep done vs = some (done.reverse ++ vs) := by
  induction vs with
  | nil => intro done; simp [replaceVals]
  | cons v vs ih =>
    intro done
    have ih := ih (fun w hw => h w (by simp [hw]))
    cases v with
    | text s => rw [replaceVals, ih]; simp
    | entity n =>
      have hn : (n == e) = false := by
        simp only [beq_eq_false_iff_ne]
        rintro rfl
        exact h _ (by simp) rfl
      rw [replaceVals.eq_def]
      simp [hn, ih]

/-- The conditions under which replacing gives a document. -/
def Fits (e : List Byte) (rep : Node) (v : Val) : Prop := v = .entity e ∧ ∀ c, rep ≠ .text c

theorem replaceAttrs_some (e : List Byte) (rep : Node) (as : List Attr) (h : ∀ a ∈ as, ∀ v ∈ a.value, ¬ Fits e rep v) :
    ∃ out, replaceAttrs e rep as = some out := by
  induction as with
  | nil => exact ⟨_, rfl⟩
  | cons a as ih =>
    obtain ⟨as', h2⟩ := ih (fun b hb => h b (by simp [hb]))
    have hv : ∃ v, replaceVals e rep [] a.value = some v := by
      by_cases hc : ∃ c, rep = .text c
      · obtain ⟨c, rfl⟩ := hc
        exact replaceVals_text e c _ _ (Nat.le_refl _) []
      · refine ⟨_, replaceVals_none e rep a.value ?_ []⟩
        intro v hv hve
        exact h a (by simp) v hv ⟨hve, fun c hcc => hc ⟨c, hcc⟩⟩
    obtain ⟨v, hv⟩ := hv
    exact ⟨_, by rw [replaceAttrs, hv, h2]⟩

theorem replaceSibs_cons_entity (e : List Byte) (rep : Node) (done ks : List Node) (n : List Byte)
    (h : ∀ ks' done', (ks' = ks ∨ ∃ q, ks = .text q :: ks') → ∃ out, replaceSibs e rep done' ks' = some out) :
    ∃ out, replaceSibs e rep done (.entity n :: ks) = some out := by
  rw [replaceSibs.eq_def]
  split
  · exact ⟨_, rfl⟩
  · next heq =>
    cases heq
    split
    · exact h _ _ (.inr ⟨_, rfl⟩)
    · exact h _ _ (.inl rfl)
  · next heq =>
    cases heq
    split
    · exact h _ _ (.inl rfl)
    · exact h _ _ (.inl rfl)
  · next heq => cases heq; exact h _ _ (.inl rfl)
  · next heq => cases heq; simp_all

theorem replace_some (e : List Byte) (rep : Node) :
    ∀ k, (∀ nd : Node, sizeOf nd ≤ k → NoAttr (Fits e rep) nd → ∃ out, replaceNode e rep nd = some out) ∧
      (∀ ks : List Node, sizeOf ks ≤ k → NoAttrIn (Fits e rep) ks → ∀ done, ∃ out, replaceSibs e rep done ks = some out) := by
  intro k
  induction k with
  | zero =>
    refine ⟨fun nd h => ?_, fun ks h => ?_⟩
    · cases nd <;> simp at h
    · cases ks <;> simp at h
  | succ k ih =>
    refine ⟨?_, ?_⟩
    · intro nd hs ha
      cases nd with
      | entity n => exact ⟨_, rfl⟩
      | text s => exact ⟨_, rfl⟩
      | comment s => exact ⟨_, rfl⟩
      | element t as ks =>
        obtain ⟨as', h1⟩ := replaceAttrs_some e rep as ha.1
        obtain ⟨ks', h2⟩ := ih.2 ks (by simp at hs; omega) ha.2 []
        exact ⟨_, by rw [replaceNode, h1, h2]⟩
    · intro ks hs ha done
      match ks with
      | [] => exact ⟨_, by rw [replaceSibs]⟩
      | .entity n :: ks =>
        apply replaceSibs_cons_entity
        rintro ks' done' (rfl | ⟨q, rfl⟩)
        · exact ih.2 _ (by simp at hs; omega) ha.2 _
        · exact ih.2 _ (by simp at hs; omega) ha.2.2 _
      | .text s :: ks | .comment s :: ks | .element t as js :: ks =>
        rw [replaceSibs_other _ _ _ _ _ (by simp)]
        obtain ⟨k', hk'⟩ := ih.1 _ (by simp at hs ⊢; omega) ha.1
        rw [hk']
        exact ih.2 ks (by simp at hs; omega) ha.2 _

/-- C82: replace-entity gives a document if there is a root, no reference is beside it, and it is replaced by a text or does not
    occur in attributes. -/
theorem C82_replace_partial (e : List Byte) (rep : Node) (hr : ∀ n, rep ≠ .entity n) (doc : List Node) (hd : HasRoot doc)
    (ha : NoAttrIn (Fits e rep) doc) :
    ∃ out, replaceEntities e rep doc = some out ∧ ofNodes out = replaced e (ofNode rep) (ofNodes doc) := by
  have : ∃ out, replaceEntities.top e rep doc = some out := by
    have h2 := hd.2
    clear hd
    induction doc with
    | nil => exact ⟨_, rfl⟩
    | cons k ks ih =>
      obtain ⟨ks', h1⟩ := ih ha.2 (fun n hn => h2 n (by simp [hn]))
      obtain ⟨k', h3⟩ := (replace_some e rep _).1 k (Nat.le_refl _) ha.1
      cases k with
      | entity n => exact absurd (by simp) (h2 n)
      | text s => exact ⟨k' :: ks', by rw [replaceEntities.top, h3, h1]; simp⟩
      | comment s => exact ⟨k' :: ks', by rw [replaceEntities.top, h3, h1]; simp⟩
      | element t as js => exact ⟨k' :: ks', by rw [replaceEntities.top, h3, h1]; simp⟩
  obtain ⟨out, ho⟩ := this
  have h : replaceEntities e rep doc = some out := by
    unfold replaceEntities
    rw [if_pos (hasRoot_any hd.1)]
    exact ho
  exact ⟨out, h, C82_replace e rep hr doc out h⟩

/-- C82: a text that is put in leaves no reference behind. -/
theorem C82_none_left (e c : List Byte) (doc out : List Node) (h : replaceEntities e (.text c) doc = some out) :
    ∀ b, Met.ref b e ∉ ofNodes out := by
  rw [C82_replace e (.text c) (by simp) doc out h]
  intro b hb
  simp only [replaced, List.mem_flatMap] at hb
  obtain ⟨x, _, hx⟩ := hb
  split at hx
  · simp [ofNode] at hx
  · next hne =>
    simp only [List.mem_singleton] at hx
    subst hx
    cases b <;> simp at hne

/-! ## Substituting -/

/-- Every reference by number is replaced by its character, everything else stays. -/
inductive Substituted : List Met → List Met → Prop
  | nil : Substituted [] []
  | keep {x l l'} : (∀ b ds, x ≠ .ref b (35 :: ds)) → Substituted l l' → Substituted (x :: l) (x :: l')
  | char {b ds c l l'} : RefChar (35 :: ds) c → Substituted l l' →
      Substituted (.ref b (35 :: ds) :: l) (((rfc3629 c).map UInt8.ofNat).map .char ++ l')

theorem Substituted.append {a a' b b' : List Met} (h : Substituted a a') (h' : Substituted b b') : Substituted (a ++ b) (a' ++ b') := by
  induction h with
  | nil => exact h'
  | keep hx _ ih => exact .keep hx ih
  | char hc _ ih =>
    rw [List.cons_append, List.append_assoc]
    exact .char hc ih

theorem Substituted.same {l : List Met} (h : ∀ b ds, Met.ref b (35 :: ds) ∉ l) : Substituted l l := by
  induction l with
  | nil => exact .nil
  | cons x l ih => exact .keep (fun b ds e => h b ds (by simp [e])) (ih (fun b ds hm => h b ds (by simp [hm])))

theorem rfc_no_nul {n : Nat} (h0 : 0 < n) (hn : n < 0x110000) : ((rfc3629 n).map UInt8.ofNat).takeWhile (· != 0) = (rfc3629 n).map UInt8.ofNat := by
  have tw : ∀ l : List Byte, (∀ b ∈ l, (b != 0) = true) → l.takeWhile (· != 0) = l := by
    intro l hl
    have := List.takeWhile_append_of_pos (p := fun b : Byte => b != 0) (l₁ := l) (l₂ := []) hl
    simpa using this
  apply tw
  intro b hb
  have : ∀ x ∈ rfc3629 n, x ≠ 0 ∧ x < 256 := by
    unfold rfc3629
    intro x hx
    repeat' split at hx
    all_goals simp at hx; omega
  obtain ⟨x, hx, rfl⟩ := List.mem_map.1 hb
  obtain ⟨h1, h2⟩ := this x hx
  rw [bne_iff_ne]
  intro e
  have := congrArg UInt8.toNat e
  simp at this
  omega

/-- A reference by number that is decoded properly: it is decimal. -/
def GoodNumber (n : List Byte) : Prop := (∃ c, RefChar n c) ∧ peek (n.drop 1) ≠ b#'x'

theorem substitute_number {ds : List Byte} (h : GoodNumber (35 :: ds)) :
    ∃ c, RefChar (35 :: ds) c ∧ substitute none (.entity (35 :: ds)) = some (.text ((rfc3629 c).map UInt8.ofNat)) := by
  obtain ⟨⟨c, hc⟩, hx⟩ := h
  refine ⟨c, hc, ?_⟩
  have hd : Decodable (.entity (35 :: ds)) := ⟨by simp, fun hh => hx hh.2⟩
  have e := decodeEntityRef_right hc hd
  have hr : 0 < c ∧ c < 0x110000 := by
    generalize hn : (35 :: ds : List Byte) = n at hc
    cases hc <;> first | (constructor <;> assumption) | (simp at hn)
  rw [substitute]
  simp only [beq_self_eq_true, Bool.true_or, if_true, peek_cons, e, rfc_encode c hr.2, Option.map_some, rfc_no_nul hr.1 hr.2]

mutual
theorem substitute_ev : ∀ k : Node, (∀ ds, Met.ref false (35 :: ds) ∈ ofNode k → GoodNumber (35 :: ds)) →
    (∀ ds, Met.ref true (35 :: ds) ∉ ofNode k) → ∃ out, substitute none k = some out ∧ Substituted (ofNode k) (ofNode out)
  | .text s, _, _ => ⟨_, rfl, .same (by simp [ofNode])⟩
  | .comment s, _, _ => ⟨_, rfl, .same (by simp [ofNode])⟩
  | .entity [], _, _ => ⟨.entity [], by simp [substitute], .same (by simp [ofNode])⟩
  | .entity (c :: ds), h, _ => by
    by_cases hc : c = 35
    · subst hc
      obtain ⟨c, h1, h2⟩ := substitute_number (h ds (by simp [ofNode]))
      refine ⟨_, h2, ?_⟩
      have := Substituted.char (b := false) h1 .nil
      simpa [ofNode] using this
    · refine ⟨.entity (c :: ds), ?_, .same (by simp [ofNode]; intro e; exact absurd e.symm hc)⟩
      have : (c == b#'#') = false := by simpa using hc
      simp [substitute, this]
  | .element t as ks, h, h' => by
    obtain ⟨ks', h1, h2⟩ := substituteIn_ev ks (fun ds hm => h ds (by simp [ofNode, hm])) (fun ds hm => h' ds (by simp [ofNode, hm]))
    refine ⟨.element t as ks', by rw [substitute, h1]; rfl, ?_⟩
    rw [ofNode, ofNode]
    refine .keep (by simp) (Substituted.append (.same ?_) (.keep (by simp) (h2.append (.keep (by simp) .nil))))
    intro b ds hm
    cases b with
    | true => exact h' ds (by simp only [ofNode, List.mem_cons, List.mem_append]; exact .inr (.inl hm))
    | false =>
      simp only [List.mem_flatMap, ofAttr, List.mem_cons] at hm
      obtain ⟨a, _, e | ⟨v, _, hv⟩⟩ := hm
      · cases e
      · cases v <;> simp [ofVal] at hv
theorem substituteIn_ev : ∀ ks : List Node, (∀ ds, Met.ref false (35 :: ds) ∈ ofNodes ks → GoodNumber (35 :: ds)) →
    (∀ ds, Met.ref true (35 :: ds) ∉ ofNodes ks) → ∃ out, substituteIn none ks = some out ∧ Substituted (ofNodes ks) (ofNodes out)
  | [], _, _ => ⟨[], rfl, .nil⟩
  | k :: ks, h, h' => by
    obtain ⟨k', h1, h2⟩ := substitute_ev k (fun ds hm => h ds (by simp [ofNodes, hm])) (fun ds hm => h' ds (by simp [ofNodes, hm]))
    obtain ⟨ks', h3, h4⟩ := substituteIn_ev ks (fun ds hm => h ds (by simp [ofNodes, hm])) (fun ds hm => h' ds (by simp [ofNodes, hm]))
    exact ⟨k' :: ks', by rw [substituteIn, h1, h3], by rw [ofNodes, ofNodes]; exact h2.append h4⟩
end

/-- C82: substitute-char-entities replaces every reference by number by its character, if the root is the first node of the document,
    the numbers are decimal and not in attributes. -/
theorem C82_substitute_partial (t : List Byte) (as : List Attr) (ks rest : List Node)
    (hgood : ∀ ds, Met.ref false (35 :: ds) ∈ ofNode (.element t as ks) → GoodNumber (35 :: ds))
    (hattr : ∀ ds, Met.ref true (35 :: ds) ∉ ofNode (.element t as ks))
    (hrest : ∀ b ds, Met.ref b (35 :: ds) ∉ ofNodes rest) :
    ∃ out, cmdSubstitute none (.element t as ks :: rest) = some out ∧ Substituted (ofNodes (.element t as ks :: rest)) (ofNodes out) := by
  obtain ⟨k', h1, h2⟩ := substitute_ev _ hgood hattr
  refine ⟨k' :: rest, ?_, by rw [ofNodes, ofNodes]; exact h2.append (.same hrest)⟩
  unfold cmdSubstitute
  simp [isElement, h1]

/-- The claim about substitute-char-entities without the conditions. -/
def C82_substitute_full : Prop := ∀ doc : List Node, (∃ t as ks, Node.element t as ks ∈ doc) →
  (∀ b ds, Met.ref b (35 :: ds) ∈ ofNodes doc → ∃ c, RefChar (35 :: ds) c) →
  ∃ out, cmdSubstitute none doc = some out ∧ Substituted (ofNodes doc) (ofNodes out)

/-- Whatever is the result, the number must be gone. -/
theorem Substituted.gone {l l' : List Met} (h : Substituted l l') : ∀ b ds, Met.ref b (35 :: ds) ∉ l' := by
  induction h with
  | nil => simp
  | keep hx _ ih =>
    intro b ds hm
    rcases List.mem_cons.1 hm with e | e
    · exact hx b ds e.symm
    · exact ih b ds e
  | char _ _ ih =>
    intro b ds hm
    rcases List.mem_append.1 hm with e | e
    · simp at e
    · exact ih b ds e

theorem ref65 : RefChar b#"#65" 65 :=
  .dec (.snoc (s := b#"6") (c := 53) (v := 6) (d := 5) (.one (by unfold DigitIs; decide) (by omega)) (by unfold DigitIs; decide) (by omega)) (by omega) (by omega)

theorem refx41 : RefChar b#"#x41" 65 :=
  .hex (.snoc (s := b#"4") (c := 49) (v := 4) (d := 1) (.one (by unfold DigitIs; decide) (by omega)) (by unfold DigitIs; decide) (by omega)) (by omega) (by omega)

/-- Not so: with a comment before the root nothing is substituted. -/
theorem C82_substitute_false : ¬ C82_substitute_full := by
  intro h
  obtain ⟨out, h1, h2⟩ := h [.comment b#"c", .element b#"a" [] [.entity b#"#65"]] ⟨b#"a", _, _, by first | exact .head _ | exact .tail _ (.head _)⟩ (by
    intro b ds hm
    simp [ofNodes, ofNode] at hm
    rw [hm.2]
    exact ⟨65, ref65⟩)
  have e : cmdSubstitute none [.comment b#"c", .element b#"a" [] [.entity b#"#65"]] =
      some [.comment b#"c", .element b#"a" [] [.entity b#"#65"]] := by decide +kernel
  rw [e] at h1
  cases h1
  exact h2.gone false b#"65" (by simp [ofNodes, ofNode])

/-- Not so: in attributes nothing is substituted. -/
theorem C82_substitute_false_attribute : ¬ C82_substitute_full := by
  intro h
  obtain ⟨out, h1, h2⟩ := h [.element b#"a" [⟨b#"b", [.entity b#"#65"]⟩] []] ⟨b#"a", _, _, by first | exact .head _ | exact .tail _ (.head _)⟩ (by
    intro b ds hm
    simp [ofNodes, ofNode, ofAttr, ofVal] at hm
    rw [hm.2]
    exact ⟨65, ref65⟩)
  have e : cmdSubstitute none [.element b#"a" [⟨b#"b", [.entity b#"#65"]⟩] []] = some [.element b#"a" [⟨b#"b", [.entity b#"#65"]⟩] []] := by
    decide +kernel
  rw [e] at h1
  cases h1
  exact h2.gone true b#"65" (by simp [ofNodes, ofNode, ofAttr, ofVal])

/-- Not so: a hexadecimal reference is replaced by nothing. -/
theorem C82_substitute_false_hex : ¬ C82_substitute_full := by
  intro h
  obtain ⟨out, h1, h2⟩ := h [.element b#"a" [] [.entity b#"#x41"]] ⟨b#"a", _, _, by first | exact .head _ | exact .tail _ (.head _)⟩ (by
    intro b ds hm
    simp [ofNodes, ofNode] at hm
    rw [hm.2]
    exact ⟨65, refx41⟩)
  have e : cmdSubstitute none [.element b#"a" [] [.entity b#"#x41"]] = some [.element b#"a" [] [.text []]] := by decide +kernel
  rw [e] at h1
  cases h1
  have hlen : ∀ {l l' : List Met}, Substituted l l' → l.length ≤ l'.length := by
    intro l l' hs
    induction hs with
    | nil => simp
    | keep _ _ ih => simpa using ih
    | char hc _ ih =>
      have : ∀ c, 1 ≤ (rfc3629 c).length := by
        intro c
        unfold rfc3629
        repeat' split
        all_goals simp
      simp only [List.length_cons, List.length_append, List.length_map]
      have := this ‹Nat›
      omega
  have := hlen h2
  simp [ofNodes, ofNode] at this

/-- C82: substitute-entity with a name that is not a number changes nothing. -/
theorem C82_substitute_named (e : List Byte) (he : peek e ≠ b#'#') (doc out : List Node)
    (h : cmdSubstitute (some e) doc = some out) : out = doc := by
  have key : ∀ k, (∀ nd : Node, sizeOf nd ≤ k → substitute (some e) nd = some nd) ∧
      (∀ ks : List Node, sizeOf ks ≤ k → substituteIn (some e) ks = some ks) := by
    intro k
    induction k with
    | zero =>
      refine ⟨fun nd h => ?_, fun ks h => ?_⟩
      · cases nd <;> simp at h
      · cases ks <;> simp at h
    | succ k ih =>
      refine ⟨?_, ?_⟩
      · intro nd hs
        cases nd with
        | text s => rfl
        | comment s => rfl
        | entity n =>
          rw [substitute]
          by_cases hn : n = e
          · subst hn
            have : (peek n == b#'#') = false := by simpa using he
            simp [this]
          · have : (some e == some n) = false := by simpa using fun x => hn x.symm
            rw [this]
            simp
        | element t as ks => rw [substitute, ih.2 ks (by simp at hs; omega)]; rfl
      · intro ks hs
        cases ks with
        | nil => rfl
        | cons x xs => rw [substituteIn, ih.1 x (by simp at hs; omega), ih.2 xs (by simp at hs; omega)]
  unfold cmdSubstitute at h
  split at h
  · cases doc with
    | nil => cases h
    | cons k ks =>
      simp only [(key _).1 k (Nat.le_refl _), Option.map_some, Option.some.injEq] at h
      exact h.symm
  · cases h

/-! ## Where the other claims are false -/

/-- The claim about delete-entity without the condition. -/
def C82_delete_full : Prop := ∀ (e : List Byte) (doc : List Node), ofNodes (deleteEntities e doc) = without e (ofNodes doc)

/-- Not so: references in attributes stay. -/
theorem C82_delete_false : ¬ C82_delete_full := by
  intro h
  have := h b#"e" [.element b#"a" [⟨b#"b", [.entity b#"e"]⟩] [.entity b#"e"]]
  revert this
  decide +kernel

/-- C82: replacing a reference beside the root reads a node that has been freed; an element in place of a reference in an attribute
    makes a tree that cannot be. -/
theorem C82_replace_false : replaceEntities b#"e" (.text b#"x") [.entity b#"e", .element b#"a" [] []] = none ∧
    replaceEntities b#"e" (.element b#"x" [] []) [.element b#"a" [⟨b#"b", [.entity b#"e"]⟩] []] = none := by decide +kernel

/-- C82: of a file with a comment before its root only the comment is put in. -/
theorem C82_file_false : ∃ (file : List Node) (rep : Node), withFile file = some rep ∧ Node.element b#"r" [] [] ∈ file ∧
    replaceEntities b#"e" rep [.element b#"a" [] [.entity b#"e"]] = some [.element b#"a" [] [.comment b#"c"]] :=
  ⟨[.comment b#"c", .element b#"r" [] []], .comment b#"c", rfl, by simp, by decide +kernel⟩

/-! ## What is met determines the document -/

/-- The next thing does not belong to a text. -/
def NoChar (l : List Met) : Prop := ∀ c r, l ≠ .char c :: r

theorem chars_cancel {s s' : List Byte} {l l' : List Met} (h : NoChar l) (h' : NoChar l')
    (e : s.map Met.char ++ l = s'.map Met.char ++ l') : s = s' ∧ l = l' := by
  induction s generalizing s' with
  | nil =>
    cases s' with
    | nil => exact ⟨rfl, e⟩
    | cons c s' => exact absurd e (h c _)
  | cons c s ih =>
    cases s' with
    | nil => exact absurd e.symm (h' c _)
    | cons c' s' =>
      simp only [List.map_cons, List.cons_append, List.cons.injEq, Met.char.injEq] at e
      obtain ⟨rfl, e⟩ := e
      obtain ⟨rfl, rfl⟩ := ih e
      exact ⟨rfl, rfl⟩

/-- The values of an attribute are over. -/
def AttrOver (l : List Met) : Prop := (∃ n r, l = .attr n :: r) ∨ ∃ r, l = .inside :: r

theorem AttrOver.noChar {l : List Met} (h : AttrOver l) : NoChar l := by
  rintro c r rfl
  rcases h with ⟨n, r', e⟩ | ⟨r', e⟩ <;> cases e

theorem vals_noChar {vs : List Val} {l : List Met} (hl : AttrOver l) (hv : WholeVals vs) (h : ∀ t r, vs ≠ .text t :: r) :
    NoChar (vs.flatMap ofVal ++ l) := by
  cases vs with
  | nil => exact hl.noChar
  | cons v vs =>
    cases v with
    | text t => exact absurd rfl (h t vs)
    | entity n => rintro c r e; simp [ofVal] at e

theorem vals_cancel {vs ws : List Val} {l l' : List Met} (hv : WholeVals vs) (hw : WholeVals ws) (hl : AttrOver l) (hl' : AttrOver l')
    (e : vs.flatMap ofVal ++ l = ws.flatMap ofVal ++ l') : vs = ws ∧ l = l' := by
  induction vs generalizing ws with
  | nil =>
    cases ws with
    | nil => exact ⟨rfl, e⟩
    | cons w ws =>
      exfalso
      simp only [List.flatMap_nil, List.nil_append] at e
      subst e
      cases w with
      | entity n => rcases hl with ⟨_, _, h⟩ | ⟨_, h⟩ <;> simp [ofVal] at h
      | text s =>
        cases s with
        | nil => exact hw.1 rfl
        | cons c s => rcases hl with ⟨_, _, h⟩ | ⟨_, h⟩ <;> simp [ofVal] at h
  | cons v vs ih =>
    cases ws with
    | nil =>
      exfalso
      simp only [List.flatMap_nil, List.nil_append] at e
      subst e
      cases v with
      | entity n => rcases hl' with ⟨_, _, h⟩ | ⟨_, h⟩ <;> simp [ofVal] at h
      | text s =>
        cases s with
        | nil => exact hv.1 rfl
        | cons c s => rcases hl' with ⟨_, _, h⟩ | ⟨_, h⟩ <;> simp [ofVal] at h
    | cons w ws =>
      simp only [List.flatMap_cons, List.append_assoc] at e
      cases v with
      | entity n =>
        cases w with
        | entity m =>
          simp only [ofVal, List.cons_append, List.nil_append, List.cons.injEq, Met.ref.injEq, true_and] at e
          obtain ⟨rfl, rfl⟩ := ih hv.2.2 hw.2.2 e.2
          exact ⟨by rw [e.1], rfl⟩
        | text s =>
          cases s with
          | nil => exact absurd rfl hw.1
          | cons c s => simp [ofVal] at e
      | text s =>
        cases w with
        | entity m =>
          cases s with
          | nil => exact absurd rfl hv.1
          | cons c s => simp [ofVal] at e
        | text s' =>
          simp only [ofVal] at e
          obtain ⟨rfl, e2⟩ := chars_cancel (vals_noChar hl hv.2.2 (fun t r => hv.2.1 s t r rfl)) (vals_noChar hl' hw.2.2 (fun t r => hw.2.1 s' t r rfl)) e
          obtain ⟨rfl, rfl⟩ := ih hv.2.2 hw.2.2 e2
          exact ⟨rfl, rfl⟩

theorem attrs_over (as : List Attr) (l : List Met) : AttrOver (as.flatMap ofAttr ++ .inside :: l) := by
  cases as with
  | nil => exact .inr ⟨l, rfl⟩
  | cons a as => exact .inl ⟨a.name, a.value.flatMap ofVal ++ (as.flatMap ofAttr ++ .inside :: l), by simp [ofAttr]⟩

theorem attrs_cancel {as bs : List Attr} {l l' : List Met} (ha : ∀ a ∈ as, WholeVals a.value) (hb : ∀ b ∈ bs, WholeVals b.value)
    (e : as.flatMap ofAttr ++ .inside :: l = bs.flatMap ofAttr ++ .inside :: l') : as = bs ∧ l = l' := by
  induction as generalizing bs with
  | nil =>
    cases bs with
    | nil => exact ⟨rfl, by simpa using e⟩
    | cons b bs => simp [ofAttr] at e
  | cons a as ih =>
    cases bs with
    | nil => simp [ofAttr] at e
    | cons b bs =>
      simp only [List.flatMap_cons, ofAttr, List.cons_append, List.append_assoc, List.cons.injEq, Met.attr.injEq] at e
      obtain ⟨e1, e2⟩ := vals_cancel (ha a (by simp)) (hb b (by simp)) (attrs_over as l) (attrs_over bs l') e.2
      obtain ⟨rfl, rfl⟩ := ih (fun x hx => ha x (by simp [hx])) (fun x hx => hb x (by simp [hx])) e2
      refine ⟨?_, rfl⟩
      cases a; cases b
      simp only at e e1
      rw [e.1, e1]

/-- The children of an element or of the document are over. -/
def Over (l : List Met) : Prop := l = [] ∨ ∃ r, l = .stop :: r

/-- The head of what is met for some nodes. -/
theorem nodes_first {k : Node} {ks : List Node} {l : List Met} (h : Whole k) : ¬ Over (ofNodes (k :: ks) ++ l) := by
  rintro (e | ⟨r, e⟩)
  · cases k with
    | text s => cases s with
      | nil => exact h rfl
      | cons c s => simp [ofNodes, ofNode] at e
    | _ => simp [ofNodes, ofNode] at e
  · cases k with
    | text s => cases s with
      | nil => exact h rfl
      | cons c s => simp [ofNodes, ofNode] at e
    | _ => simp [ofNodes, ofNode] at e

theorem nodes_noChar {ks : List Node} {l : List Met} (hl : Over l) (h : ∀ t r, ks ≠ .text t :: r) : NoChar (ofNodes ks ++ l) := by
  cases ks with
  | nil =>
    rintro c r rfl
    rcases hl with e | ⟨r', e⟩ <;> cases e
  | cons k ks =>
    rintro c r e
    cases k with
    | text s => exact h s ks rfl
    | _ => simp [ofNodes, ofNode] at e

theorem nodes_cancel : ∀ n (ks js : List Node) (l l' : List Met), sizeOf ks ≤ n → WholeList ks → WholeList js → Over l → Over l' →
    ofNodes ks ++ l = ofNodes js ++ l' → ks = js ∧ l = l' := by
  intro n
  induction n with
  | zero =>
    intro ks js l l' hs
    cases ks <;> simp at hs
  | succ n ih =>
    intro ks js l l' hs hk hj hl hl' e
    cases ks with
    | nil =>
      cases js with
      | nil => exact ⟨rfl, e⟩
      | cons j js =>
        simp only [ofNodes, List.nil_append] at e
        subst e
        exact absurd hl (nodes_first (ks := js) (l := l') hj.1)
    | cons k ks =>
      cases js with
      | nil =>
        simp only [ofNodes, List.nil_append] at e
        subst e
        exact absurd hl' (nodes_first (ks := ks) (l := l) hk.1)
      | cons j js =>
        have hsz : sizeOf ks ≤ n := by simp at hs; omega
        simp only [ofNodes, List.append_assoc] at e
        cases k with
        | text s =>
          cases s with
          | nil => exact absurd rfl hk.1
          | cons c s =>
            cases j with
            | text s' =>
              simp only [ofNode] at e
              obtain ⟨h1, h2⟩ := chars_cancel (nodes_noChar hl (fun t r => hk.2.1 _ t r rfl)) (nodes_noChar hl' (fun t r => hj.2.1 _ t r rfl)) e
              obtain ⟨rfl, rfl⟩ := ih ks js l l' hsz hk.2.2 hj.2.2 hl hl' h2
              exact ⟨by rw [h1], rfl⟩
            | _ => simp [ofNode] at e
        | entity m =>
          cases j with
          | text s' =>
            cases s' with
            | nil => exact absurd rfl hj.1
            | cons c s => simp [ofNode] at e
          | entity m' =>
            simp only [ofNode, List.cons_append, List.nil_append, List.cons.injEq, Met.ref.injEq, true_and] at e
            obtain ⟨rfl, rfl⟩ := ih ks js l l' hsz hk.2.2 hj.2.2 hl hl' e.2
            exact ⟨by rw [e.1], rfl⟩
          | comment s => simp [ofNode] at e
          | element t as xs => simp [ofNode] at e
        | comment m =>
          cases j with
          | text s' =>
            cases s' with
            | nil => exact absurd rfl hj.1
            | cons c s => simp [ofNode] at e
          | entity s => simp [ofNode] at e
          | comment m' =>
            simp only [ofNode, List.cons_append, List.nil_append, List.cons.injEq, Met.comment.injEq] at e
            obtain ⟨rfl, rfl⟩ := ih ks js l l' hsz hk.2.2 hj.2.2 hl hl' e.2
            exact ⟨by rw [e.1], rfl⟩
          | element t as xs => simp [ofNode] at e
        | element t as xs =>
          cases j with
          | text s' =>
            cases s' with
            | nil => exact absurd rfl hj.1
            | cons c s => simp [ofNode] at e
          | entity s => simp [ofNode] at e
          | comment s => simp [ofNode] at e
          | element t' bs ys =>
            simp only [ofNode, List.cons_append, List.append_assoc, List.cons.injEq, Met.start.injEq, List.nil_append] at e
            obtain ⟨rfl, e⟩ := e
            obtain ⟨rfl, e2⟩ := attrs_cancel hk.1.1 hj.1.1 e
            obtain ⟨rfl, e3⟩ := ih xs ys _ _ (by simp at hs; omega) hk.1.2 hj.1.2 (.inr ⟨_, rfl⟩) (.inr ⟨_, rfl⟩) e2
            simp only [List.cons.injEq, true_and] at e3
            obtain ⟨rfl, rfl⟩ := ih ks js l l' hsz hk.2.2 hj.2.2 hl hl' e3
            exact ⟨rfl, rfl⟩

/-- C82: two documents in which no text is empty or next to another one are the same if the same is met in them. -/
theorem C82_determined (d d' : List Node) (h : WholeList d) (h' : WholeList d') (e : ofNodes d = ofNodes d') : d = d' :=
  (nodes_cancel _ d d' [] [] (Nat.le_refl _) h h' (.inl rfl) (.inl rfl) (by simpa using e)).1

/-- A use of C82_replace_partial and C82_delete_partial. -/
theorem entityCmds_example :
    replaceEntities b#"e" (.text b#"X") [.element b#"a" [⟨b#"b", [.text b#"1", .entity b#"e", .text b#"2"]⟩] [.text b#"1", .entity b#"e", .text b#"2", .entity b#"e"]] =
      some [.element b#"a" [⟨b#"b", [.text b#"1X2"]⟩] [.text b#"1X2X"]] ∧
    deleteEntities b#"e" [.element b#"a" [] [.text b#"1", .entity b#"e", .entity b#"f"]] = [.element b#"a" [] [.text b#"1", .entity b#"f"]] ∧
    cmdSubstitute none [.element b#"a" [] [.text b#"1", .entity b#"#8364"]] = some [.element b#"a" [] [.text b#"1", .text [0xe2, 0x82, 0xac]]] := by
  decide +kernel

end Xmq.Props
