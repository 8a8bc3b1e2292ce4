import Verif.Lemmas.NsRun
/-!
# What the stack of open elements knows about prefixes
-/
namespace Xmq
open Spec

/-- The namespaces stay; a missing href may have been filled in. -/
def Ext (h h' : List Ns) : Prop :=
  ∀ (i : Nat) (n : Ns), h[i]? = some n → ∃ n' : Ns, h'[i]? = some n' ∧ n'.pre = n.pre ∧ (n.href.isSome → n' = n)

theorem Ext.refl (h : List Ns) : Ext h h := fun _ n hn => ⟨n, hn, rfl, fun _ => rfl⟩

theorem Ext.trans {a b c : List Ns} (h : Ext a b) (k : Ext b c) : Ext a c := by
  intro i n hn
  obtain ⟨m, hm, hp, hs⟩ := h i n hn
  obtain ⟨q, hq, hp', hs'⟩ := k i m hm
  refine ⟨q, hq, hp'.trans hp, fun hx => ?_⟩
  have := hs hx
  subst this
  exact hs' hx

theorem Ext.bound {h h' : List Ns} (e : Ext h h') {i : Nat} {p : Option (List Byte)} {u : List Byte}
    (hi : h[i]? = some ⟨p, some u⟩) : h'[i]? = some ⟨p, some u⟩ := by
  obtain ⟨n, hn, -, hs⟩ := e i _ hi
  rw [hn, hs rfl]

theorem Ext.append (h : List Ns) (n : Ns) : Ext h (h ++ [n]) := by
  intro i m hm
  refine ⟨m, ?_, rfl, fun _ => rfl⟩
  have : i < h.length := by
    rcases Nat.lt_or_ge i h.length with hl | hl
    · exact hl
    · rw [List.getElem?_eq_none hl] at hm; cases hm
  rw [List.getElem?_append_left this, hm]

theorem Ext.fill {h : List Ns} {i : Nat} {p : Option (List Byte)} (u : List Byte) (hi : h[i]? = some ⟨p, none⟩) :
    Ext h (h.modify i fun n => { n with href := some u }) := by
  intro j m hm
  rw [List.getElem?_modify]
  by_cases hj : i = j
  · subst hj
    rw [hi] at hm; cases hm
    exact ⟨⟨p, some u⟩, by simp [hi], rfl, by simp⟩
  · exact ⟨m, by simp [hj, hm], rfl, fun _ => rfl⟩

/-- The entry has an href. -/
def Bound (h : List Ns) (i : Nat) : Prop := ∃ p u, h[i]? = some ⟨p, some u⟩

theorem Bound.ext {h h' : List Ns} {i : Nat} (e : Ext h h') (b : Bound h i) : Bound h' i := by
  obtain ⟨p, u, hi⟩ := b; exact ⟨p, u, e.bound hi⟩

theorem Bound.same {h h' : List Ns} {i : Nat} (e : Ext h h') (b : Bound h i) : h'[i]? = h[i]? := by
  obtain ⟨p, u, hi⟩ := b; rw [hi, e.bound hi]

/-- What is seen does not change any more. -/
def Stable (h : List Ns) (ns : List NNode) : Prop := ∀ h', Ext h h' → seeNodes h' ns = seeNodes h ns

theorem Stable.ext {h h' : List Ns} {ns : List NNode} (s : Stable h ns) (e : Ext h h') : Stable h' ns := by
  intro h'' e'
  rw [s h'' (e.trans e'), s h' e]

theorem stable_nil (h : List Ns) : Stable h [] := fun _ _ => rfl

theorem Stable.add {h : List Ns} {ns : List NNode} (s : Stable h ns) {n : NNode} (hn : ∀ h', Ext h h' → seeNode h' n = seeNode h n) :
    Stable h (addNChild ns n) := by
  intro h' e
  rw [seeNodes_add, seeNodes_add, s h' e, hn h' e]

theorem Stable.cons {h : List Ns} {ns : List NNode} (s : Stable h ns) {n : NNode} (hn : ∀ h', Ext h h' → seeNode h' n = seeNode h n) :
    Stable h (n :: ns) := by
  intro h' e
  rw [seeNodes, seeNodes, s h' e, hn h' e]

theorem Stable.reverse {h : List Ns} {ns : List NNode} (s : Stable h ns) : Stable h ns.reverse := by
  intro h' e
  rw [seeNodes_reverse, seeNodes_reverse, s h' e]

theorem Stable.addVals {h : List Ns} {ns : List NNode} (s : Stable h ns) (vs : List Val) : Stable h (addVals ns vs) := by
  intro h' e
  rw [seeNodes_addVals, seeNodes_addVals, s h' e]

/-- The stack knows the declarations `env`. -/
structure Known (h : List Ns) (env : Env) (st : List NOpen) (dflt : Option Nat) : Prop where
  bound : ∀ o ∈ st, ∀ i, i ∈ o.defs ∨ o.ns = some i → ∃ p u, h[i]? = some ⟨p, some u⟩ ∧ ∀ q, p = some q → env (some q) = some u
  has : ∀ q u, env (some q) = some u → q ≠ xmlPrefix → ∃ o ∈ st, ∃ i ∈ o.defs, h[i]? = some ⟨some q, some u⟩
  xmlEnv : env (some xmlPrefix) = some xmlNamespace
  xmlHeap : h[0]? = some ⟨some xmlPrefix, some xmlNamespace⟩
  dfltSome : ∀ u, env none = some u → ∃ i, dflt = some i ∧ h[i]? = some ⟨none, some u⟩
  dfltNone : env none = none → dflt = none

theorem Known.ext {h h' : List Ns} {env : Env} {st : List NOpen} {d : Option Nat} (k : Known h env st d) (e : Ext h h') :
    Known h' env st d where
  bound o ho i hi := by
    obtain ⟨p, u, h1, h2⟩ := k.bound o ho i hi
    exact ⟨p, u, e.bound h1, h2⟩
  has q u hq hx := by
    obtain ⟨o, ho, i, hi, h1⟩ := k.has q u hq hx
    exact ⟨o, ho, i, hi, e.bound h1⟩
  xmlEnv := k.xmlEnv
  xmlHeap := e.bound k.xmlHeap
  dfltSome u hu := by
    obtain ⟨i, hi, h1⟩ := k.dfltSome u hu
    exact ⟨i, hi, e.bound h1⟩
  dfltNone := k.dfltNone

/-- Only the namespaces and declarations of the open elements matter. -/
theorem Known.congr {h : List Ns} {env : Env} {o o' : NOpen} {st : List NOpen} {d : Option Nat} (k : Known h env (o :: st) d)
    (h1 : o'.defs = o.defs) (h2 : o'.ns = o.ns) : Known h env (o' :: st) d where
  bound x hx i hi := by
    rcases List.mem_cons.1 hx with rfl | hx
    · rw [h1, h2] at hi; exact k.bound o (by simp) i hi
    · exact k.bound x (by simp [hx]) i hi
  has q u hq hx := by
    obtain ⟨x, hx, i, hi, h3⟩ := k.has q u hq hx
    rcases List.mem_cons.1 hx with rfl | hx
    · exact ⟨o', by simp, i, by rw [h1]; exact hi, h3⟩
    · exact ⟨x, by simp [hx], i, hi, h3⟩
  xmlEnv := k.xmlEnv
  xmlHeap := k.xmlHeap
  dfltSome := k.dfltSome
  dfltNone := k.dfltNone

theorem nsMatch_iff (h : List Ns) (p : List Byte) (i : Nat) : nsMatch h p i = true ↔ ∃ u, h[i]? = some ⟨some p, some u⟩ := by
  unfold nsMatch
  split
  · rename_i q u hq
    rw [hq]
    simp only [beq_iff_eq]
    constructor
    · rintro rfl; exact ⟨u, rfl⟩
    · rintro ⟨w, hw⟩; cases hw; rfl
  · rename_i hx
    constructor
    · intro hf; cases hf
    · rintro ⟨u, hu⟩; exact absurd hu (hx p u)

theorem searchUp_sound (h : List Ns) (p : List Byte) : ∀ (st : List NOpen) (own : Bool) (i : Nat), searchUp h p own st = some i →
    nsMatch h p i = true ∧ ∃ o ∈ st, i ∈ o.defs ∨ o.ns = some i := by
  intro st
  induction st with
  | nil => intro own i hi; cases hi
  | cons o st ih =>
    intro own i hi
    unfold searchUp at hi
    split at hi
    · rename_i j hj
      cases hi
      exact ⟨List.find?_some hj, o, by simp, .inl (List.mem_of_find?_eq_some hj)⟩
    · split at hi
      · rename_i j hj
        cases hi
        split at hj
        · cases hj
        · rw [Option.filter_eq_some_iff] at hj
          exact ⟨hj.2, o, by simp, .inr hj.1⟩
      · obtain ⟨h1, x, hx, h2⟩ := ih _ _ hi
        exact ⟨h1, x, by simp [hx], h2⟩

theorem searchUp_none (h : List Ns) (p : List Byte) : ∀ (st : List NOpen) (own : Bool), searchUp h p own st = none →
    ∀ o ∈ st, ∀ i ∈ o.defs, nsMatch h p i = false := by
  intro st
  induction st with
  | nil => intro own _ o ho; cases ho
  | cons x st ih =>
    intro own hn o ho i hi
    unfold searchUp at hn
    split at hn
    · cases hn
    · rename_i hf
      split at hn
      · cases hn
      · rcases List.mem_cons.1 ho with rfl | ho
        · have := List.find?_eq_none.1 hf i hi
          simpa using this
        · exact ih _ hn o ho i hi

/-- The search finds what is declared. -/
theorem Known.search {h : List Ns} {env : Env} {st : List NOpen} {d : Option Nat} (k : Known h env st d) (p : List Byte)
    (hp : p ≠ xmlPrefix) :
    (∀ u, env (some p) = some u → ∃ i, searchUp h p false st = some i ∧ h[i]? = some ⟨some p, some u⟩) ∧
    (env (some p) = none → searchUp h p false st = none) := by
  constructor
  · intro u hu
    cases hs : searchUp h p false st with
    | none =>
      obtain ⟨o, ho, i, hi, h1⟩ := k.has p u hu hp
      have := searchUp_none h p st false hs o ho i hi
      rw [(nsMatch_iff h p i).2 ⟨u, h1⟩] at this
      cases this
    | some i =>
      obtain ⟨h1, o, ho, h2⟩ := searchUp_sound h p st false i hs
      obtain ⟨q, w, h3, h4⟩ := k.bound o ho i h2
      obtain ⟨w', h5⟩ := (nsMatch_iff h p i).1 h1
      rw [h3] at h5
      cases h5
      have := h4 p rfl
      rw [hu] at this; cases this
      exact ⟨i, rfl, h3⟩
  · intro hn
    cases hs : searchUp h p false st with
    | none => rfl
    | some i =>
      obtain ⟨h1, o, ho, h2⟩ := searchUp_sound h p st false i hs
      obtain ⟨q, w, h3, h4⟩ := k.bound o ho i h2
      obtain ⟨w', h5⟩ := (nsMatch_iff h p i).1 h1
      rw [h3] at h5
      cases h5
      rw [h4 p rfl] at hn; cases hn

/-- The state at the beginning knows nothing but `xml`. -/
theorem known_init : Known NSt.init.heap topEnv NSt.init.stack NSt.init.dflt where
  bound o ho i hi := by
    simp only [NSt.init, List.mem_singleton] at ho
    subst ho
    rcases hi with hi | hi <;> cases hi
  has q u hq hx := by
    unfold topEnv at hq
    split at hq
    · rename_i hq'; exact absurd (Option.some.inj hq') hx
    · cases hq
  xmlEnv := rfl
  xmlHeap := rfl
  dfltSome u hu := by simp [topEnv] at hu
  dfltNone _ := rfl

end Xmq
