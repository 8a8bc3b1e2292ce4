import Verif.Lemmas.NsFlat
import Verif.Lemmas.NsTop
/-!
# The document that belongs to an auxiliary tree, up to what does not matter for its meaning
-/
namespace Xmq
open Spec

/-- Prefix and name. -/
def splitName (s : List Byte) : Option (List Byte) × List Byte :=
  if (58 : Byte) ∈ s then
    (some (s.take (s.length - (s.reverse.takeWhile (· != (58 : Byte))).length - 1)), (s.reverse.takeWhile (· != (58 : Byte))).reverse)
  else (none, s)

theorem splitName_qual (p : Option (List Byte)) {n : List Byte} (h : (58 : Byte) ∉ n) : splitName (qual p n) = (p, n) := by
  cases p with
  | none => simp [splitName, qual, h]
  | some p =>
    have htw : (p ++ 58 :: n).reverse.takeWhile (· != (58 : Byte)) = n.reverse := by
      rw [List.reverse_append, List.reverse_cons, List.append_assoc, List.takeWhile_append_of_pos (fun x hx => by
        simp; rintro rfl; exact h (by simpa using hx))]
      simp
    unfold splitName qual
    rw [if_pos (by simp), htw]
    have e : (p ++ 58 :: n).length - n.reverse.length - 1 = p.length := by simp; omega
    rw [e]
    simp

/-- The value of a declaration. -/
def declVal : List Val → Option SVal
  | [] => none
  | [.text s] => some (.quoted s)
  | vs => some (.many vs)

/-- An attribute or a declaration. -/
def unflatA (a : Attr) : SAttr :=
  if a.name = b#"xmlns" then .decl none (declVal a.value)
  else if (b#"xmlns:").isPrefixOf a.name then .decl (some (a.name.drop 6)) (declVal a.value)
  else .attr (splitName a.name).1 (splitName a.name).2 (some (.many a.value))

/-- The value of a processing instruction. -/
def piVal : List Node → Option SVal
  | [.text s] => some (.quoted s)
  | _ => none

/-- The value of a doctype. -/
def docVal : List Node → Option SVal
  | [.text s] => some (.plain s)
  | _ => none

mutual
/-- A node. -/
def unflat : Node → SNode
  | .text s => .val (.text s)
  | .entity n => .val (.entity n)
  | .comment s => .comment s
  | .element name attrs kids =>
    if name = b#"!DOCTYPE" then .element none name none (docVal kids) []
    else if name.head? = some 63 then .element none name none (piVal kids) []
    else .element (splitName name).1 (splitName name).2 (some (attrs.map unflatA)) none (unflats kids)
/-- Nodes. -/
def unflats : List Node → List SNode
  | [] => []
  | n :: ns => unflat n :: unflats ns
end

/-! ## Attributes -/

/-- The same but for the way values are written. -/
inductive AEq : SAttr → SAttr → Prop
  | decl (p v v') : v'.bind SVal.text? = v.bind SVal.text? → AEq (.decl p v) (.decl p v')
  | attr (p n v v') : joinValues (valsOf v') = joinValues (valsOf v) → AEq (.attr p n v) (.attr p n v')

theorem joinVals_eq (vs : List Val) : joinVals vs = joinValues vs := by
  induction vs with
  | nil => rfl
  | cons v vs ih =>
    cases v with
    | entity n => simp only [joinVals, joinValues, ih]
    | text a =>
      simp only [joinVals, joinValues, ih]
      cases joinValues vs with
      | nil => rfl
      | cons y w => cases y <;> rfl

theorem joinValues_text (a b : List Byte) (t : List Val) : joinValues (.text a :: .text b :: t) = joinValues (.text (a ++ b) :: t) := by
  simp only [joinValues]
  cases h : joinValues t with
  | nil => rfl
  | cons y w => cases y <;> simp

theorem joinValues_idem (vs : List Val) : joinValues (joinValues vs) = joinValues vs := by
  induction vs with
  | nil => rfl
  | cons v vs ih =>
    cases v with
    | entity n => simp only [joinValues, ih]
    | text a =>
      have e : joinValues (.text a :: vs) = joinValues (.text a :: joinValues vs) := by
        simp only [joinValues, ih]
      cases hj : joinValues vs with
      | nil => rw [e, hj]; rfl
      | cons x t =>
        cases x with
        | entity n =>
          have h2 : joinValues (.text a :: vs) = .text a :: .entity n :: t := by simp only [joinValues, hj]
          rw [hj] at ih
          rw [h2]; simp only [joinValues] at ih ⊢; rw [ih]
        | text b =>
          have h2 : joinValues (.text a :: vs) = .text (a ++ b) :: t := by simp only [joinValues, hj]
          rw [h2, ← joinValues_text, ← hj, ← e, h2]

theorem aEq_flat (a : SAttr) (h : SimpleA a) : AEq a (unflatA (flatA a)) := by
  cases a with
  | decl p v =>
    have hv : (declVal (joinVals (valsOf v))).bind SVal.text? = v.bind SVal.text? := by
      rcases h with rfl | ⟨s, rfl | rfl⟩ <;> rfl
    cases p with
    | none =>
      exact .decl _ _ _ hv
    | some p =>
      show AEq _ (if b#"xmlns:" ++ p = b#"xmlns" then _ else if (b#"xmlns:").isPrefixOf (b#"xmlns:" ++ p) = true then SAttr.decl (some ((b#"xmlns:" ++ p).drop 6)) _ else _)
      rw [if_neg (by simp), if_pos (by simp)]
      exact .decl _ _ _ hv
  | attr p n v =>
    obtain ⟨h1, h2⟩ := h
    simp only [specialAttr, Bool.or_eq_false_iff, beq_eq_false_iff_ne] at h2
    have e : unflatA (flatA (.attr p n v)) = .attr p n (some (.many (joinVals (valsOf v)))) := by
      have key : ∀ x : Attr, x.name = qual p n → unflatA x = .attr p n (some (.many x.value)) := by
        intro x hx
        unfold unflatA
        rw [if_neg (by rw [hx]; exact h2.1), if_neg (by rw [hx]; simp [h2.2]), hx, splitName_qual p h1]
      exact key (flatA (.attr p n v)) rfl
    rw [e]
    refine .attr _ _ _ _ ?_
    show joinValues (joinVals (valsOf v)) = _
    rw [joinVals_eq, joinValues_idem]

section
variable {g : SAttr → SAttr}

theorem declared_map {as : List SAttr} (h : ∀ a ∈ as, AEq a (g a)) : declared (as.map g) = declared as := by
  funext p
  unfold declared
  induction as with
  | nil => rfl
  | cons a as ih =>
    rw [List.map_cons, List.findSome?_cons, List.findSome?_cons, ih (fun b hb => h b (by simp [hb]))]
    have ha := h a (by simp)
    generalize g a = b at ha
    cases ha with
    | decl q v v' e => simp only [e]
    | attr q n v v' e => rfl

theorem extend_map {as : List SAttr} (h : ∀ a ∈ as, AEq a (g a)) (env : Env) : extend env (as.map g) = extend env as := by
  funext p; unfold extend; rw [declared_map h]

theorem declares_map {as : List SAttr} (h : ∀ a ∈ as, AEq a (g a)) (p : Option (List Byte)) : declares (as.map g) p = declares as p := by
  unfold declares
  induction as with
  | nil => rfl
  | cons a as ih =>
    rw [List.map_cons, List.any_cons, List.any_cons, ih (fun b hb => h b (by simp [hb]))]
    have ha := h a (by simp)
    generalize g a = b at ha
    cases ha <;> rfl

theorem uses_map {as : List SAttr} (h : ∀ a ∈ as, AEq a (g a)) (p : List Byte) : uses (as.map g) p = uses as p := by
  unfold uses
  induction as with
  | nil => rfl
  | cons a as ih =>
    rw [List.map_cons, List.any_cons, List.any_cons, ih (fun b hb => h b (by simp [hb]))]
    have ha := h a (by simp)
    generalize g a = b at ha
    cases ha <;> rfl

theorem attributesOf_map {as : List SAttr} (h : ∀ a ∈ as, AEq a (g a)) (env : Env) : attributesOf env (as.map g) = attributesOf env as := by
  unfold attributesOf
  induction as with
  | nil => rfl
  | cons a as ih =>
    rw [List.map_cons, List.filterMap_cons, List.filterMap_cons, ih (fun b hb => h b (by simp [hb]))]
    have ha := h a (by simp)
    generalize g a = b at ha
    cases ha with
    | decl q v v' e => rfl
    | attr q n v v' e => simp only [e]

theorem tameAttrs_map (root : Bool) (env : Env) (pre : Option (List Byte)) {as seen : List SAttr} (h : ∀ a ∈ as, AEq a (g a))
    (hs : ∀ a ∈ seen, AEq a (g a)) : tameAttrs root env pre (seen.map g) (as.map g) = tameAttrs root env pre seen as := by
  induction as generalizing seen with
  | nil => rfl
  | cons a as ih =>
    have ha := h a (by simp)
    have has : ∀ b ∈ as, AEq b (g b) := fun b hb => h b (by simp [hb])
    have ih' := ih has (seen := seen ++ [a]) (fun b hb => by
      rcases List.mem_append.1 hb with hb | hb
      · exact hs b hb
      · simp at hb; subst hb; exact ha)
    rw [List.map_append, List.map_cons, List.map_nil] at ih'
    rw [List.map_cons]
    generalize g a = b at ha ih'
    cases ha with
    | decl q v v' e =>
      rw [tameAttrs, tameAttrs, ih', declares_map hs]
      unfold tameDecl
      rw [e]
    | attr q n v v' e =>
      cases q with
      | none => rw [tameAttrs, tameAttrs, ih']
      | some q => rw [tameAttrs, tameAttrs, ih', declares_map hs, declares_map has, uses_map hs]

end

/-! ## Nodes -/

theorem unflats_append (a b : List Node) : unflats (a ++ b) = unflats a ++ unflats b := by
  induction a with
  | nil => rfl
  | cons x t ih => rw [List.cons_append, unflats, ih]; rfl

theorem unflats_vals (vs : List Val) : unflats (vs.map Val.node) = vs.map SNode.val := by
  induction vs with
  | nil => rfl
  | cons v t ih => rw [List.map_cons, unflats, ih]; cases v <;> rfl

theorem resolveNodes_append (env : Env) (a b : List SNode) : resolveNodes env (a ++ b) = resolveNodes env a ++ resolveNodes env b := by
  induction a with
  | nil => rfl
  | cons x t ih => rw [List.cons_append, resolveNodes, ih]; rfl

theorem resolveNodes_vals (env : Env) (vs : List Val) : resolveNodes env (vs.map SNode.val) = vs.map valNode := by
  induction vs with
  | nil => rfl
  | cons v t ih => rw [List.map_cons, resolveNodes, ih]; rfl

theorem tameNodes_append (env : Env) (a b : List SNode) : tameNodes env (a ++ b) = (tameNodes env a && tameNodes env b) := by
  induction a with
  | nil => simp [tameNodes]
  | cons x t ih => rw [List.cons_append, tameNodes, tameNodes, ih, Bool.and_assoc]

theorem tameNodes_vals (env : Env) (vs : List Val) : tameNodes env (vs.map SNode.val) = true := by
  induction vs with
  | nil => rfl
  | cons v t ih => rw [List.map_cons, tameNodes, ih]; simp [tameNode]

theorem unflat_element_not_text (env : Env) (a : List Byte) (b : List Attr) (c : List Node) (s : List Byte) :
    resolveNode env (unflat (.element a b c)) ≠ .text s := by
  intro hs
  unfold unflat at hs
  split at hs
  · unfold resolveNode at hs; split at hs <;> (try split at hs) <;> cases hs
  · split at hs
    · unfold resolveNode at hs; split at hs <;> (try split at hs) <;> cases hs
    · unfold resolveNode at hs; split at hs <;> (try split at hs) <;> cases hs

theorem joinNodes_other {x : XNode} (h : ∀ s, x ≠ .text s) (l : List XNode) : joinNodes (x :: l) = x :: joinNodes l := by
  cases x with
  | text s => exact absurd rfl (h s)
  | _ => simp only [joinNodes]

/-- Joining texts of the auxiliary tree. -/
theorem joinNodes_unflats (env : Env) (l : List Node) :
    joinNodes (resolveNodes env (unflats (joinTexts l))) = joinNodes (resolveNodes env (unflats l)) := by
  induction l with
  | nil => rfl
  | cons n t ih =>
    cases n with
    | text a =>
      rw [joinTexts]
      have e : joinNodes (resolveNodes env (unflats (.text a :: t))) =
          match joinNodes (resolveNodes env (unflats (joinTexts t))) with
          | .text b :: ms => .text (a ++ b) :: ms
          | ms => .text a :: ms := by
        rw [ih]; rfl
      rw [e]
      cases hj : joinTexts t with
      | nil => rfl
      | cons x u =>
        cases x with
        | text b =>
          simp only [unflats, unflat, resolveNodes, resolveNode, valNode, joinNodes]
          cases hu : joinNodes (resolveNodes env (unflats u)) with
          | nil => rfl
          | cons y w => cases y <;> simp
        | entity s => simp only [unflats, unflat, resolveNodes, resolveNode, valNode, joinNodes]
        | comment s => simp only [unflats, unflat, resolveNodes, resolveNode, valNode, joinNodes]
        | element a b c =>
          simp only [unflats, resolveNodes, unflat.eq_1, resolveNode.eq_1, valNode]
          have hx := unflat_element_not_text env a b c
          generalize resolveNode env (unflat (.element a b c)) = x at hx ⊢
          rw [joinNodes, joinNodes_other hx]
          cases x with
          | text s => exact absurd rfl (hx s)
          | _ => rfl
    | entity s =>
      have e : joinTexts (.entity s :: t) = .entity s :: joinTexts t := by rw [joinTexts]; simp
      rw [e]
      simp only [unflats, unflat, resolveNodes, resolveNode, valNode, joinNodes, ih]
    | comment s =>
      have e : joinTexts (.comment s :: t) = .comment s :: joinTexts t := by rw [joinTexts]; simp
      rw [e]
      simp only [unflats, unflat, resolveNodes, resolveNode, joinNodes, ih]
    | element a b c =>
      have e : joinTexts (.element a b c :: t) = .element a b c :: joinTexts t := by rw [joinTexts]; simp
      rw [e]
      simp only [unflats, resolveNodes]
      rw [joinNodes_other (unflat_element_not_text env a b c), joinNodes_other (unflat_element_not_text env a b c), ih]

theorem tameNodes_unflats (env : Env) (l : List Node) : tameNodes env (unflats (joinTexts l)) = tameNodes env (unflats l) := by
  induction l with
  | nil => rfl
  | cons n t ih =>
    cases n with
    | text a =>
      rw [joinTexts]
      have e : tameNodes env (unflats (.text a :: t)) = tameNodes env (unflats (joinTexts t)) := by
        rw [ih]; simp [unflats, unflat, tameNodes, tameNode]
      rw [e]
      cases hj : joinTexts t with
      | nil => rfl
      | cons x u => cases x <;> simp [unflats, unflat, tameNodes, tameNode]
    | entity s =>
      have e : joinTexts (.entity s :: t) = .entity s :: joinTexts t := by rw [joinTexts]; simp
      rw [e]; simp only [unflats, tameNodes, ih]
    | comment s =>
      have e : joinTexts (.comment s :: t) = .comment s :: joinTexts t := by rw [joinTexts]; simp
      rw [e]; simp only [unflats, tameNodes, ih]
    | element a b c =>
      have e : joinTexts (.element a b c :: t) = .element a b c :: joinTexts t := by rw [joinTexts]; simp
      rw [e]; simp only [unflats, tameNodes, ih]

theorem peek_head {n : List Byte} {c : Byte} (h0 : c ≠ 0) : peek n = c ↔ n.head? = some c := by
  rw [peek_eq_head? _ _ h0]

theorem qual_doctype {pre : Option (List Byte)} {name : List Byte} : (qual pre name = b#"!DOCTYPE") ↔ isDoctype pre name = true := by
  cases pre with
  | none => simp [qual, isDoctype]
  | some p =>
    simp only [qual, isDoctype]
    constructor
    · intro h
      have : (58 : Byte) ∈ b#"!DOCTYPE" := by rw [← h]; simp
      exact absurd this (by decide)
    · simp

theorem qual_pi {pre : Option (List Byte)} {name : List Byte}
    (h : ∀ p, pre = some p → specialName name = false ∧ specialName (qual pre name) = false) :
    ((qual pre name).head? = some 63) ↔ isPi pre name = true := by
  cases pre with
  | none => simp [qual, isPi]
  | some p =>
    have := (h p rfl).2
    simp only [specialName, Bool.or_eq_false_iff, beq_eq_false_iff_ne] at this
    simp only [isPi]
    constructor
    · intro h; exact absurd ((peek_head (by decide)).2 h) this.2
    · simp

/-- The parts of a node that are special. -/
theorem unflat_special {pre : Option (List Byte)} {name : List Byte} {attrs : Option (List SAttr)} {value : Option SVal} {kids : List SNode}
    (h : SimpleN (.element pre name attrs value kids)) :
    (isDoctype pre name = true → pre = none ∧ attrs = none ∧ kids = [] ∧ (value = none ∨ ∃ s, value = some (.plain s)) ∧
      unflat (flatD (.element pre name attrs value kids)) = .element none name none value []) ∧
    (isDoctype pre name = false → isPi pre name = true → pre = none ∧ attrs = none ∧ kids = [] ∧
      ∃ v, v.bind SVal.text? = value.bind SVal.text? ∧ unflat (flatD (.element pre name attrs value kids)) = .element none name none v []) ∧
    (isDoctype pre name = false → isPi pre name = false → unflat (flatD (.element pre name attrs value kids)) =
      .element pre name (some ((attrs.getD []).map fun a => unflatA (flatA a))) none
        (unflats (joinTexts ((valsOf value).map Val.node ++ flatDs kids)))) := by
  rw [SimpleN] at h
  obtain ⟨h1, h2, h3, h4, h5, h6⟩ := h
  refine ⟨fun hd => ?_, fun hd hp => ?_, fun hd hp => ?_⟩
  · have hd' := hd
    rw [← qual_doctype] at hd
    simp only [isDoctype, Bool.and_eq_true, beq_iff_eq] at hd'
    obtain ⟨rfl, rfl⟩ := hd'
    obtain ⟨rfl, hv, rfl⟩ := h3 (by decide)
    have h4 := h4 (by decide)
    have hv : value = none ∨ ∃ s, value = some (.plain s) := by
      rcases hv with rfl | ⟨s, rfl | rfl⟩
      · exact .inl rfl
      · exact .inr ⟨s, rfl⟩
      · exact absurd rfl (h4 s)
    refine ⟨rfl, rfl, rfl, hv, ?_⟩
    rcases hv with rfl | ⟨s, rfl⟩ <;> rfl
  · have hq := (qual_pi h2).2 hp
    have hs : specialName (qual pre name) = true := by simp [specialName, (peek_head (by decide)).2 hq]
    obtain ⟨rfl, hv, rfl⟩ := h3 hs
    simp only [isPi, Bool.and_eq_true, beq_iff_eq] at hp
    obtain ⟨rfl, -⟩ := hp
    refine ⟨rfl, rfl, rfl, ?_⟩
    have hnd : ¬ qual none name = b#"!DOCTYPE" := by rw [qual_doctype]; simp [hd]
    refine ⟨piVal (joinTexts ((valsOf value).map Val.node)), ?_, ?_⟩
    · rcases hv with rfl | ⟨s, rfl | rfl⟩ <;> rfl
    · simp only [flatD, flatDs, List.append_nil]
      rw [unflat, if_neg hnd, if_pos hq]; rfl
  · have hnd : ¬ qual pre name = b#"!DOCTYPE" := by rw [qual_doctype]; simp [hd]
    have hnp : ¬ (qual pre name).head? = some 63 := by rw [qual_pi h2]; simp [hp]
    rw [flatD, unflat, if_neg hnd, if_neg hnp, splitName_qual pre h1, List.map_map]
    rfl

mutual
theorem resolve_unflat (n : SNode) (h : SimpleN n) (env : Env) : resolveNode env (unflat (flatD n)) = resolveNode env n := by
  cases n with
  | val v => cases v <;> rfl
  | comment s => rfl
  | element pre name attrs value kids =>
    obtain ⟨hd, hp, he⟩ := unflat_special h
    rw [SimpleN] at h
    cases h1 : isDoctype pre name with
    | true =>
      obtain ⟨rfl, rfl, rfl, -, e⟩ := hd h1
      rw [e]
    | false =>
      cases h2 : isPi pre name with
      | true =>
        obtain ⟨rfl, rfl, rfl, v, hv, e⟩ := hp h1 h2
        rw [e, resolveNode, resolveNode, h1, h2, hv]; rfl
      | false =>
        have ha : ∀ a ∈ attrs.getD [], AEq a (unflatA (flatA a)) := fun a hm => aEq_flat a (h.2.2.2.2.1 a hm)
        rw [he h1 h2, resolveNode, resolveNode, h1, h2]
        simp only [Bool.false_eq_true, if_false, Option.getD_some]
        rw [extend_map ha, declared_map ha, attributesOf_map ha]
        rw [show List.map valNode (valsOf none) = [] from rfl, List.nil_append, joinNodes_unflats, unflats_append, unflats_vals, resolveNodes_append,
          resolveNodes_vals, resolve_unflats kids h.2.2.2.2.2]
theorem resolve_unflats (ns : List SNode) (h : SimpleNs ns) (env : Env) : resolveNodes env (unflats (flatDs ns)) = resolveNodes env ns := by
  cases ns with
  | nil => rfl
  | cons n t =>
    rw [SimpleNs] at h
    rw [flatDs, unflats, resolveNodes, resolveNodes, resolve_unflat n h.1, resolve_unflats t h.2]
end

mutual
theorem tame_unflat (n : SNode) (h : SimpleN n) (root : Bool) (env : Env) : tameNode root env (unflat (flatD n)) = tameNode root env n := by
  cases n with
  | val v => cases v <;> rfl
  | comment s => rfl
  | element pre name attrs value kids =>
    obtain ⟨hd, hp, he⟩ := unflat_special h
    rw [SimpleN] at h
    cases h1 : isDoctype pre name with
    | true =>
      obtain ⟨rfl, rfl, rfl, -, e⟩ := hd h1
      rw [e]
    | false =>
      cases h2 : isPi pre name with
      | true =>
        obtain ⟨rfl, rfl, rfl, v, hv, e⟩ := hp h1 h2
        rw [e, tameNode_element, tameNode_element, h2]
        simp only [if_true, tamePi, hv]
      | false =>
        have ha : ∀ a ∈ attrs.getD [], AEq a (unflatA (flatA a)) := fun a hm => aEq_flat a (h.2.2.2.2.1 a hm)
        rw [he h1 h2, tameNode_element, tameNode_element, h2]
        simp only [Bool.false_eq_true, if_false, Option.getD_some]
        rw [extend_map ha, declares_fun ha, tameNodes_unflats, unflats_append, unflats_vals, tameNodes_append,
          tameNodes_vals, tame_unflats kids h.2.2.2.2.2, Bool.true_and]
        have := tameAttrs_map root env pre ha (seen := []) (by simp)
        rw [List.map_nil] at this
        rw [this]
theorem tame_unflats (ns : List SNode) (h : SimpleNs ns) (env : Env) : tameNodes env (unflats (flatDs ns)) = tameNodes env ns := by
  cases ns with
  | nil => rfl
  | cons n t =>
    rw [SimpleNs] at h
    rw [flatDs, unflats, tameNodes, tameNodes, tame_unflat n h.1, tame_unflats t h.2]
theorem declares_fun {g : SAttr → SAttr} {as : List SAttr} (h : ∀ a ∈ as, AEq a (g a)) : declares (as.map g) = declares as := by
  funext p; exact declares_map h p
end

theorem tameTop_unflats (doctype root : Bool) (l : List Node) :
    tameTop doctype root (unflats (joinTexts l)) = tameTop doctype root (unflats l) := by
  induction l generalizing doctype root with
  | nil => rfl
  | cons n t ih =>
    cases n with
    | text a =>
      rw [joinTexts]
      have e : tameTop doctype root (unflats (.text a :: t)) = tameTop doctype root (unflats (joinTexts t)) := by
        rw [ih]; rfl
      rw [e]
      cases hj : joinTexts t with
      | nil => rfl
      | cons x u => cases x <;> rfl
    | entity s =>
      have e : joinTexts (.entity s :: t) = .entity s :: joinTexts t := by rw [joinTexts]; simp
      rw [e]; simp only [unflats, unflat, tameTop, ih]
    | comment s =>
      have e : joinTexts (.comment s :: t) = .comment s :: joinTexts t := by rw [joinTexts]; simp
      rw [e]; simp only [unflats, unflat, tameTop, ih]
    | element a b c =>
      have e : joinTexts (.element a b c :: t) = .element a b c :: joinTexts t := by rw [joinTexts]; simp
      rw [e]; simp only [unflats]
      obtain ⟨pre, name, attrs, value, kids, hx⟩ : ∃ pre name attrs value kids, unflat (.element a b c) = .element pre name attrs value kids := by
        unfold unflat; split
        · exact ⟨_, _, _, _, _, rfl⟩
        · split <;> exact ⟨_, _, _, _, _, rfl⟩
      rw [hx, tameTop_element, tameTop_element, ih, ih, ih]

theorem tameTop_flat (ns : List SNode) (h : SimpleNs ns) (doctype root : Bool) :
    tameTop doctype root (unflats (flatDs ns)) = tameTop doctype root ns := by
  induction ns generalizing doctype root with
  | nil => rfl
  | cons n t ih =>
    rw [SimpleNs] at h
    rw [flatDs, unflats]
    have ih := ih h.2
    cases n with
    | val v => cases v <;> exact ih _ _
    | comment s => exact ih _ _
    | element pre name attrs value kids =>
      have ht := tame_unflat _ h.1 true topEnv
      obtain ⟨hd, hp, he⟩ := unflat_special h.1
      cases h1 : isDoctype pre name with
      | true =>
        obtain ⟨rfl, rfl, rfl, -, e⟩ := hd h1
        rw [e, tameTop_element, tameTop_element, h1]
        simp only [if_true, ih]
      | false =>
        cases h2 : isPi pre name with
        | true =>
          obtain ⟨rfl, rfl, rfl, v, hv, e⟩ := hp h1 h2
          rw [e] at ht ⊢
          rw [tameTop_element, tameTop_element, h1, h2, ht, ih]
          simp only [Bool.false_eq_true, if_false, if_true, ih]
        | false =>
          have e := he h1 h2
          rw [e] at ht ⊢
          rw [tameTop_element, tameTop_element, h1, h2, ht]
          simp only [Bool.false_eq_true, if_false, ih]

/-- A text that is read as an auxiliary tree is written as a document with the same meaning. -/
theorem flatReads_names [Mode] (hq : Mode.qual = true) {input : List Byte} {doc : List Node} (h : FlatReads input doc) :
    ∃ toks d, Tokenizes input toks ∧ Doc (noWs toks) d ∧ resolve d = resolve (unflats doc) ∧ (Tame (unflats doc) → Tame d) := by
  obtain ⟨toks, d, ht, hd, hs, rfl⟩ := flatReads_written hq h
  refine ⟨toks, d, ht, hd, ?_, fun h => ?_⟩
  · unfold resolve
    rw [joinNodes_unflats, resolve_unflats d hs]
  · unfold Tame at h ⊢
    rw [tameTop_unflats, tameTop_flat d hs] at h
    exact h

end Xmq
