import Verif.Model.JsonFixup
import Verif.Props.Collapse
import Verif.Props.JsonDoc
/-!
# C96: writing JSON joins texts and references and changes nothing else
-/
namespace Xmq.Props

open Xmq Xmq.Spec

/-- A text or a reference. -/
def IsTextOrRef : Node → Prop
  | .text _ => True
  | .entity _ => True
  | _ => False

instance (n : Node) : Decidable (IsTextOrRef n) := by
  cases n <;> unfold IsTextOrRef <;> infer_instance

/-- The bytes that texts and references stand for. -/
inductive ValueOf : List Node → List Byte → Prop
  | nil : ValueOf [] []
  | text {t r l} : ValueOf r l → ValueOf (.text t :: r) (t ++ l)
  | entity {n c r l} : RefChar n c → ValueOf r l → ValueOf (.entity n :: r) ((rfc3629 c).map UInt8.ofNat ++ l)

mutual
/-- The second document has one text for the texts and references of an element that has nothing else. -/
inductive Joins : Node → Node → Prop
  | text (s) : Joins (.text s) (.text s)
  | entity (n) : Joins (.entity n) (.entity n)
  | comment (s) : Joins (.comment s) (.comment s)
  | value {name attrs kids l} : kids ≠ [] → (∀ k ∈ kids, IsTextOrRef k) → ValueOf kids l →
      Joins (.element name attrs kids) (.element name attrs [.text l])
  | content {name attrs kids kids'} : (kids = [] ∨ ¬ ∀ k ∈ kids, IsTextOrRef k) → JoinsAll kids kids' →
      Joins (.element name attrs kids) (.element name attrs kids')
inductive JoinsAll : List Node → List Node → Prop
  | nil : JoinsAll [] []
  | cons {n n' t t'} : Joins n n' → JoinsAll t t' → JoinsAll (n :: t) (n' :: t')
end

mutual
/-- In the values of elements the texts have no NUL, and references have known characters and are decimal numbers or one of
apos, gt, lt, quot and nbsp. -/
def KnownRefs : Node → Prop
  | .element _ _ kids => ((∀ k ∈ kids, IsTextOrRef k) → ∀ k ∈ kids, (∀ s, k = .text s → (0 : Byte) ∉ s) ∧
      ∀ n, k = .entity n → (∃ c, RefChar n c) ∧ Decodable (.entity n)) ∧ KnownRefsAll kids
  | _ => True
def KnownRefsAll : List Node → Prop
  | [] => True
  | n :: t => KnownRefs n ∧ KnownRefsAll t
end

theorem measure_none (kids : List Node) : measure (kids.map asTextChild) = none ↔ ¬ ∀ k ∈ kids, IsTextOrRef k := by
  induction kids with
  | nil => simp [measure]
  | cons k t ih =>
    cases k with
    | text s =>
      rw [List.map_cons, asTextChild, measure]
      cases hm : measure (t.map asTextChild) with
      | none => simpa [IsTextOrRef] using ih.1 hm
      | some x =>
        simp only [reduceCtorEq, false_iff, Classical.not_not, List.mem_cons]
        have : ∀ k ∈ t, IsTextOrRef k := Classical.byContradiction fun h => by rw [ih.2 h] at hm; cases hm
        rintro k (rfl | h)
        · trivial
        · exact this k h
    | entity s =>
      rw [List.map_cons, asTextChild, measure]
      cases hm : measure (t.map asTextChild) with
      | none => simpa [IsTextOrRef] using ih.1 hm
      | some x =>
        simp only [reduceCtorEq, false_iff, Classical.not_not, List.mem_cons]
        have : ∀ k ∈ t, IsTextOrRef k := Classical.byContradiction fun h => by rw [ih.2 h] at hm; cases hm
        rintro k (rfl | h)
        · trivial
        · exact this k h
    | comment s =>
      simp only [List.map_cons, asTextChild, measure, true_iff]
      intro h
      exact h (.comment s) List.mem_cons_self
    | element a b c =>
      simp only [List.map_cons, asTextChild, measure, true_iff]
      intro h
      exact h (.element a b c) List.mem_cons_self

/-- Nothing is done exactly if there is something else, nothing, or a single text. -/
theorem collapse_unchanged (kids : List Node) : collapseText (kids.map asTextChild) = .unchanged ↔
    (¬ ∀ k ∈ kids, IsTextOrRef k) ∨ kids = [] ∨ ∃ s, kids = [.text s] := by
  by_cases h : ∀ k ∈ kids, IsTextOrRef k
  · rw [show ((¬ ∀ k ∈ kids, IsTextOrRef k) ∨ kids = [] ∨ ∃ s, kids = [.text s]) ↔ (kids = [] ∨ ∃ s, kids = [.text s]) from
      ⟨fun h' => h'.resolve_left (fun hn => hn h), Or.inr⟩]
    cases hm : measure (kids.map asTextChild) with
    | none => exact absurd h ((measure_none kids).1 hm)
    | some x =>
      obtain ⟨len, nt, ne⟩ := x
      have counts : nt + ne = kids.length ∧ (ne = 0 → ∀ k ∈ kids, ∃ s, k = .text s) := by
        clear h
        induction kids generalizing len nt ne with
        | nil => simp [measure] at hm; simp [← hm]
        | cons k t ih =>
          rw [List.map_cons] at hm
          cases k with
          | text s =>
            rw [asTextChild, measure] at hm
            split at hm
            · rename_i l n e hm'
              cases hm
              obtain ⟨h1, h2⟩ := ih _ _ _ hm'
              refine ⟨by simp; omega, fun he k hk => ?_⟩
              rcases List.mem_cons.1 hk with rfl | hk
              · exact ⟨s, rfl⟩
              · exact h2 he k hk
            · cases hm
          | entity s =>
            rw [asTextChild, measure] at hm
            split at hm
            · rename_i l n e hm'
              cases hm
              obtain ⟨h1, h2⟩ := ih _ _ _ hm'
              exact ⟨by simp; omega, fun he => by omega⟩
            · cases hm
          | comment s => simp [asTextChild, measure] at hm
          | element a b c => simp [asTextChild, measure] at hm
      unfold collapseText
      rw [hm]
      dsimp only
      by_cases hc : nt ≤ 1 ∧ ne = 0
      · rw [if_pos hc]
        simp only [true_iff]
        match kids, counts with
        | [], _ => exact Or.inl rfl
        | [k], counts =>
          obtain ⟨s, hs⟩ := counts.2 hc.2 k List.mem_cons_self
          exact Or.inr ⟨s, by rw [hs]⟩
        | _ :: _ :: _, counts => simp at counts; omega
      · rw [if_neg hc]
        constructor
        · intro h'
          split at h'
          · cases h'
          · split at h' <;> cases h'
        · rintro (rfl | ⟨s, rfl⟩)
          · simp [measure] at hm; omega
          · simp [measure, asTextChild] at hm; omega
  · refine ⟨fun _ => Or.inl h, fun _ => ?_⟩
    unfold collapseText
    rw [(measure_none kids).2 h]

theorem stands_children {kids : List Node} {l : List Byte} (h : ValueOf kids l) : Stands (kids.map asTextChild) l := by
  induction h with
  | nil => exact .nil
  | text _ ih => exact .text ih
  | entity hr _ ih => exact .entity hr ih

theorem rfc3629_noNul (c : Nat) (h0 : 0 < c) (h : c < 0x110000) : (0 : Byte) ∉ (rfc3629 c).map UInt8.ofNat := by
  unfold rfc3629
  intro hm
  obtain ⟨x, hx, he⟩ := List.mem_map.1 hm
  have e : x % 256 = 0 := by
    have := congrArg UInt8.toNat he
    simpa [UInt8.toNat_ofNat'] using this
  split at hx
  · simp at hx; omega
  · split at hx
    · simp at hx; omega
    · split at hx
      · simp at hx; omega
      · simp at hx; omega

theorem refChar_range {n : List Byte} {c : Nat} (h : RefChar n c) : 0 < c ∧ c < 0x110000 := by
  cases h <;> omega

theorem takeWhile_noNul (l : List Byte) (h : (0 : Byte) ∉ l) : l.takeWhile (· != 0) = l := by
  induction l with
  | nil => rfl
  | cons c l ih =>
    rw [List.takeWhile_cons, ih fun hx => h (List.mem_cons_of_mem _ hx)]
    have : c ≠ 0 := fun e => h (by rw [e]; exact List.mem_cons_self)
    simp [this]

theorem value_known (kids : List Node) (ho : ∀ k ∈ kids, IsTextOrRef k)
    (hk : ∀ k ∈ kids, (∀ s, k = .text s → (0 : Byte) ∉ s) ∧ ∀ n, k = .entity n → (∃ c, RefChar n c) ∧ Decodable (.entity n)) :
    ∃ l, ValueOf kids l ∧ (0 : Byte) ∉ l ∧ ∀ c ∈ kids.map asTextChild, Decodable c := by
  induction kids with
  | nil => exact ⟨[], .nil, by simp, by simp⟩
  | cons k t ih =>
    obtain ⟨l, h1, h2, h3⟩ := ih (fun x hx => ho x (List.mem_cons_of_mem _ hx)) (fun x hx => hk x (List.mem_cons_of_mem _ hx))
    cases k with
    | text s =>
      refine ⟨s ++ l, .text h1, ?_, ?_⟩
      · simp only [List.mem_append, not_or]
        exact ⟨(hk _ List.mem_cons_self).1 s rfl, h2⟩
      · intro c hc
        rcases List.mem_cons.1 hc with rfl | hc
        · trivial
        · exact h3 c hc
    | entity n =>
      obtain ⟨⟨c, hc⟩, hd⟩ := (hk _ List.mem_cons_self).2 n rfl
      refine ⟨_, .entity hc h1, ?_, ?_⟩
      · simp only [List.mem_append, not_or]
        exact ⟨rfc3629_noNul c (refChar_range hc).1 (refChar_range hc).2, h2⟩
      · intro c hc
        rcases List.mem_cons.1 hc with rfl | hc
        · exact hd
        · exact h3 c hc
    | comment s => exact absurd (ho _ List.mem_cons_self) (fun h => h)
    | element a b c => exact absurd (ho _ List.mem_cons_self) (fun h => h)

mutual
theorem fixup_joins (n : Node) (h : KnownRefs n) : ∃ n', fixupJson n = some n' ∧ Joins n n' := by
  cases n with
  | text s => exact ⟨_, by rw [fixupJson], .text s⟩
  | entity s => exact ⟨_, by rw [fixupJson], .entity s⟩
  | comment s => exact ⟨_, by rw [fixupJson], .comment s⟩
  | element name attrs kids =>
    rw [KnownRefs] at h
    obtain ⟨ks, hks, hj⟩ := fixups_join kids h.2
    rw [fixupJson]
    by_cases hu : collapseText (kids.map asTextChild) = .unchanged
    · rw [hu]
      simp only [hks]
      refine ⟨_, rfl, ?_⟩
      rcases (collapse_unchanged kids).1 hu with h' | rfl | ⟨s, rfl⟩
      · exact .content (Or.inr h') hj
      · exact .content (Or.inl rfl) hj
      · cases hj with
        | cons h1 h2 =>
          cases h1
          cases h2
          refine .value (by simp) (fun k hk => ?_) ?_
          · rw [List.mem_singleton.1 hk]; trivial
          · have := ValueOf.text (t := s) .nil
            rwa [List.append_nil] at this
    · have ho : ∀ k ∈ kids, IsTextOrRef k := Classical.byContradiction fun hn => hu ((collapse_unchanged kids).2 (Or.inl hn))
      obtain ⟨l, h1, h2, h3⟩ := value_known kids ho (h.1 ho)
      rw [C37_collapse_partial _ l (stands_children h1) h3 hu]
      simp only [takeWhile_noNul l h2]
      exact ⟨_, rfl, .value (fun e => hu ((collapse_unchanged kids).2 (Or.inr (Or.inl e)))) ho h1⟩
theorem fixups_join (ns : List Node) (h : KnownRefsAll ns) : ∃ ns', fixupJsons ns = some ns' ∧ JoinsAll ns ns' := by
  cases ns with
  | nil => exact ⟨[], by rw [fixupJsons], .nil⟩
  | cons n t =>
    rw [KnownRefsAll] at h
    obtain ⟨n', h1, h2⟩ := fixup_joins n h.1
    obtain ⟨t', h3, h4⟩ := fixups_join t h.2
    exact ⟨n' :: t', by rw [fixupJsons, h1, h3], .cons h2 h4⟩
end

/-- **C96.** With known references, the texts and references of an element that has nothing else become the text they
stand for; everything else stays. -/
theorem C96_joins_partial (doc : List Node) (h : KnownRefsAll doc) : ∃ doc', fixupJsons doc = some doc' ∧ JoinsAll doc doc' :=
  fixups_join doc h

mutual
/-- The document without texts and references. -/
def bare : Node → List Node
  | .text _ => []
  | .entity _ => []
  | .comment s => [.comment s]
  | .element name attrs kids => [.element name attrs (bares kids)]
def bares : List Node → List Node
  | [] => []
  | n :: t => bare n ++ bares t
end

theorem bares_texts (kids : List Node) (h : ∀ k ∈ kids, IsTextOrRef k) : bares kids = [] := by
  induction kids with
  | nil => rw [bares]
  | cons k t ih =>
    rw [bares, ih fun x hx => h x (List.mem_cons_of_mem _ hx)]
    cases k with
    | text s => rw [bare]; rfl
    | entity s => rw [bare]; rfl
    | comment s => exact absurd (h _ List.mem_cons_self) (fun h => h)
    | element a b c => exact absurd (h _ List.mem_cons_self) (fun h => h)

mutual
theorem fixup_bare (n n' : Node) (h : fixupJson n = some n') : bare n' = bare n := by
  cases n with
  | text s => rw [fixupJson] at h; cases h; rfl
  | entity s => rw [fixupJson] at h; cases h; rfl
  | comment s => rw [fixupJson] at h; cases h; rfl
  | element name attrs kids =>
    rw [fixupJson] at h
    by_cases hu : collapseText (kids.map asTextChild) = .unchanged
    · rw [hu] at h
      dsimp only at h
      split at h
      · rename_i ks hks
        cases h
        rw [bare, bare, fixups_bare kids ks hks]
      · cases h
    · have ho : ∀ k ∈ kids, IsTextOrRef k := Classical.byContradiction fun hn => hu ((collapse_unchanged kids).2 (Or.inl hn))
      split at h
      · cases h
        rw [bare, bare, bares_texts kids ho, bares_texts _ (by intro k hk; rw [List.mem_singleton.1 hk]; trivial)]
      · rename_i hc; exact absurd hc hu
      · cases h
      · cases h
theorem fixups_bare (ns ns' : List Node) (h : fixupJsons ns = some ns') : bares ns' = bares ns := by
  cases ns with
  | nil => rw [fixupJsons] at h; cases h; rfl
  | cons n t =>
    rw [fixupJsons] at h
    split at h
    · rename_i x y hx hy
      cases h
      rw [bares, bares, fixup_bare n x hx, fixups_bare t y hy]
    · cases h
end

/-- **C96.** For all documents: elements, attributes and comments stay as and where they are. -/
theorem C96_structure (doc doc' : List Node) (h : fixupJsons doc = some doc') : bares doc' = bares doc := fixups_bare doc doc' h

theorem fixup_kind (n n' : Node) (h : fixupJson n = some n') : (IsTextOrRef n' ↔ IsTextOrRef n) ∧ (IsTextOrRef n → n' = n) := by
  cases n with
  | text s => rw [fixupJson] at h; cases h; exact ⟨Iff.rfl, fun _ => rfl⟩
  | entity s => rw [fixupJson] at h; cases h; exact ⟨Iff.rfl, fun _ => rfl⟩
  | comment s => rw [fixupJson] at h; cases h; exact ⟨Iff.rfl, fun _ => rfl⟩
  | element name attrs kids =>
    have : ∃ ks, n' = .element name attrs ks := by
      rw [fixupJson] at h
      split at h
      · cases h; exact ⟨_, rfl⟩
      · split at h
        · cases h; exact ⟨_, rfl⟩
        · cases h
      · cases h
      · cases h
    obtain ⟨ks, rfl⟩ := this
    exact ⟨Iff.rfl, fun h => h.elim⟩

theorem fixups_kind (ns ns' : List Node) (h : fixupJsons ns = some ns') :
    ((∀ k ∈ ns', IsTextOrRef k) ↔ ∀ k ∈ ns, IsTextOrRef k) ∧ ((∀ k ∈ ns, IsTextOrRef k) → ns' = ns) := by
  induction ns generalizing ns' with
  | nil => rw [fixupJsons] at h; cases h; exact ⟨Iff.rfl, fun _ => rfl⟩
  | cons n t ih =>
    rw [fixupJsons] at h
    split at h
    · rename_i x y hx hy
      cases h
      obtain ⟨h1, h2⟩ := fixup_kind n x hx
      obtain ⟨h3, h4⟩ := ih y hy
      constructor
      · rw [List.forall_mem_cons, List.forall_mem_cons, h1, h3]
      · intro h
        rw [List.forall_mem_cons] at h
        rw [h2 h.1, h4 h.2]
    · cases h

mutual
theorem fixup_again (n n' : Node) (h : fixupJson n = some n') : fixupJson n' = some n' := by
  cases n with
  | text s => rw [fixupJson] at h; cases h; rw [fixupJson]
  | entity s => rw [fixupJson] at h; cases h; rw [fixupJson]
  | comment s => rw [fixupJson] at h; cases h; rw [fixupJson]
  | element name attrs kids =>
    rw [fixupJson] at h
    by_cases hu : collapseText (kids.map asTextChild) = .unchanged
    · rw [hu] at h
      dsimp only at h
      split at h
      · rename_i ks hks
        cases h
        have hk := fixups_kind kids ks hks
        have hu' : collapseText (ks.map asTextChild) = .unchanged := by
          rw [collapse_unchanged]
          rcases (collapse_unchanged kids).1 hu with h' | h'
          · exact Or.inl fun hn => h' (hk.1.1 hn)
          · have ho : ∀ k ∈ kids, IsTextOrRef k := by
              rcases h' with rfl | ⟨s, rfl⟩
              · simp
              · intro k hk; rw [List.mem_singleton.1 hk]; trivial
            rw [hk.2 ho]
            exact Or.inr h'
        rw [fixupJson, hu']
        simp only [fixups_again kids ks hks]
      · cases h
    · split at h
      · rename_i bs _
        cases h
        rw [fixupJson, show collapseText (([.text (bs.takeWhile (· != 0))] : List Node).map asTextChild) = .unchanged from
          (collapse_unchanged _).2 (Or.inr (Or.inr ⟨_, rfl⟩))]
        simp [fixupJsons, fixupJson]
      · rename_i hc; exact absurd hc hu
      · cases h
      · cases h
theorem fixups_again (ns ns' : List Node) (h : fixupJsons ns = some ns') : fixupJsons ns' = some ns' := by
  cases ns with
  | nil => rw [fixupJsons] at h; cases h; rw [fixupJsons]
  | cons n t =>
    rw [fixupJsons] at h
    split at h
    · rename_i x y hx hy
      cases h
      rw [fixupJsons, fixup_again n x hx, fixups_again t y hy]
    · cases h
end

/-- **C96.** For all documents: writing JSON a second time finds nothing to change and writes the same. -/
theorem C96_again (doc doc' : List Node) (out : List Byte) (h : writeJson doc = some (doc', out)) : writeJson doc' = some (doc', out) := by
  unfold writeJson at h ⊢
  split at h
  · cases h
  · rename_i d hd
    obtain ⟨o, ho, e⟩ := Option.map_eq_some_iff.1 h
    cases e
    rw [fixups_again doc _ hd]
    dsimp only
    rw [ho]
    rfl

mutual
theorem fixup_json (n : Node) (h : JsonNode n) : fixupJson n = some n := by
  cases n with
  | text s => rw [fixupJson]
  | entity s => rw [JsonNode] at h; exact h.elim
  | comment s => rw [fixupJson]
  | element name attrs kids =>
    rw [JsonNode] at h
    obtain ⟨_, _, _, hadj, hk⟩ := h
    have hu : collapseText (kids.map asTextChild) = .unchanged := by
      rw [collapse_unchanged]
      by_cases ho : ∀ k ∈ kids, IsTextOrRef k
      · right
        match kids, hadj, hk, ho with
        | [], _, _, _ => exact Or.inl rfl
        | [.text s], _, _, _ => exact Or.inr ⟨s, rfl⟩
        | .entity n :: _, _, hk, _ => rw [JsonNodes, JsonNode] at hk; exact hk.1.elim
        | .text a :: .text b :: r, hadj, _, _ => exact absurd rfl (hadj [] a b r)
        | .text a :: .entity n :: r, _, hk, _ => rw [JsonNodes, JsonNodes, JsonNode, JsonNode] at hk; exact hk.2.1.elim
        | .text a :: .comment n :: r, _, _, ho => exact absurd (ho (.comment n) (by simp)) (fun h => h)
        | .text a :: .element x y z :: r, _, _, ho => exact absurd (ho (.element x y z) (by simp)) (fun h => h)
        | .comment n :: r, _, _, ho => exact absurd (ho (.comment n) (by simp)) (fun h => h)
        | .element x y z :: r, _, _, ho => exact absurd (ho (.element x y z) (by simp)) (fun h => h)
      · exact Or.inl ho
    rw [fixupJson, hu]
    simp only [fixups_json kids hk]
theorem fixups_json (ns : List Node) (h : JsonNodes ns) : fixupJsons ns = some ns := by
  cases ns with
  | nil => rw [fixupJsons]
  | cons n t =>
    rw [JsonNodes] at h
    rw [fixupJsons, fixup_json n h.1, fixups_json t h.2]
end

/-- **C96.** The documents that survive JSON (C75) are not changed by writing them, and what is written is read as the same
document. -/
theorem C96_kept_partial (n : Node) (h : JsonRoot n) : ∃ out, writeJson [n] = some ([n], out) ∧ ReadsJson out [n] := by
  obtain ⟨out, h1, h2, _⟩ := C75_round_trip_partial n h
  refine ⟨out, ?_, h2⟩
  unfold writeJson
  rw [fixups_json [n] (by rw [JsonNodes, JsonNodes]; exact ⟨h.1, trivial⟩)]
  dsimp only
  rw [h1]
  rfl

/-- **C96.** With known references: what is written as JSON is read as the document with its texts joined. -/
theorem C96_round_trip_partial (n : Node) (h : KnownRefs n) (n' : Node) (hf : fixupJson n = some n') (hr : JsonRoot n') :
    ∃ out, writeJson [n] = some ([n'], out) ∧ Joins n n' ∧ ReadsJson out [n'] := by
  obtain ⟨n'', h1, h2⟩ := fixup_joins n h
  rw [hf] at h1
  cases h1
  have h1 := hf
  obtain ⟨out, h3, h4, _⟩ := C75_round_trip_partial n' hr
  refine ⟨out, ?_, h2, h4⟩
  unfold writeJson
  simp only [fixupJsons, h1, h3, Option.map_some]

/-- Every document with references of any kind keeps the texts. -/
def TextsKept : Prop := ∀ (name : List Byte) (a b ref : List Byte), (0 : Byte) ∉ a → (0 : Byte) ∉ b → ∀ n', fixupJson (.element name [] [.text a, .entity ref, .text b]) = some n' →
  ∃ l, n' = .element name [] [.text (a ++ l ++ b)]

/-- The text behind a reference to an entity of one's own is lost, as is that behind `&amp;` and hexadecimal references. -/
theorem C96_lost_false : ¬ TextsKept := fun h => by
  obtain ⟨l, hl⟩ := h b#"a" b#"x" b#"y" b#"copy" (by decide) (by decide) (.element b#"a" [] [.text b#"x"]) (by decide +kernel)
  have e : b#"x" = b#"x" ++ l ++ b#"y" := by
    have := (Node.element.inj hl).2.2
    exact Node.text.inj (List.cons.inj this).1
  have := congrArg List.length e
  simp at this

/-- Writing does not change the document. -/
def WritingKeeps : Prop := ∀ doc doc' out, writeJson doc = some (doc', out) → doc' = doc

/-- It does: references become characters, also for what is written afterwards in another format. -/
theorem C96_changed_false : ¬ WritingKeeps := fun h => by
  have := h [.element b#"a" [] [.element b#"b" [] [.text b#"x", .entity b#"nbsp"]]] [.element b#"a" [] [.element b#"b" [] [.text [120, 194, 160]]]]
    (b#"{\"_\":\"a\",\"b\":\"x" ++ [194, 160] ++ b#"\"}\n") (by decide +kernel)
  exact absurd this (by decide +kernel)

/-- A document with a reference in a value. -/
def fixupSample : Node := .element b#"a" [] [.element b#"b" [] [.text b#"x", .entity b#"lt", .text b#"y"], .entity b#"amp"]

example : KnownRefs fixupSample := by
  have hk : ∀ k ∈ ([.text b#"x", .entity b#"lt", .text b#"y"] : List Node), (∀ s, k = .text s → (0 : Byte) ∉ s) ∧
      ∀ n, k = .entity n → (∃ c, RefChar n c) ∧ Decodable (.entity n) := by
    intro k hk
    simp only [List.mem_cons, List.not_mem_nil, or_false] at hk
    rcases hk with rfl | rfl | rfl
    · exact ⟨(fun s e => by cases e; decide), (fun n e => by cases e)⟩
    · refine ⟨(fun s e => by cases e), (fun n e => ?_)⟩
      cases e
      exact ⟨⟨_, .lt⟩, (by decide), (by decide)⟩
    · exact ⟨(fun s e => by cases e; decide), (fun n e => by cases e)⟩
  unfold fixupSample
  simp only [KnownRefs, KnownRefsAll, and_true]
  exact ⟨fun h => absurd (h _ List.mem_cons_self) (fun h => h), fun _ => hk⟩
example : fixupJson fixupSample = some (.element b#"a" [] [.element b#"b" [] [.text b#"x<y"], .entity b#"amp"]) := by decide +kernel
example : writeJson [.element b#"a" [] [.element b#"b" [] [.text b#"x", .entity b#"lt", .text b#"y"]]] =
    some ([.element b#"a" [] [.element b#"b" [] [.text b#"x<y"]]], b#"{\"_\":\"a\",\"b\":\"x<y\"}\n") := by decide +kernel

end Xmq.Props
