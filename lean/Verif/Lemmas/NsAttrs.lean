import Verif.Lemmas.NsKnown
/-!
# Attribute lists with declarations
-/
namespace Xmq
open Spec

theorem declared_snoc (seen : List SAttr) (a : SAttr) (x : Option (List Byte)) :
    declared (seen ++ [a]) x = (declared seen x).or (declared [a] x) := by
  unfold declared; rw [List.findSome?_append]

theorem declared_decl (p : Option (List Byte)) (v : Option SVal) (x : Option (List Byte)) :
    declared [.decl p v] x = if p = x then v.bind SVal.text? else none := by
  by_cases h : p = x
  · simp only [declared, List.findSome?_cons, List.findSome?_nil, h, if_true]
    cases v.bind SVal.text? <;> rfl
  · simp [declared, h]

theorem declared_attr (p n v) (x : Option (List Byte)) : declared [.attr p n v] x = none := by
  simp [declared]

theorem declares_snoc (seen : List SAttr) (a : SAttr) (x : Option (List Byte)) :
    declares (seen ++ [a]) x = (declares seen x || declares [a] x) := by
  simp [declares]

theorem uses_snoc (seen : List SAttr) (a : SAttr) (x : List Byte) : uses (seen ++ [a]) x = (uses seen x || uses [a] x) := by
  simp [uses]

theorem declared_of_declares (seen : List SAttr) (x : Option (List Byte)) (h : declares seen x = false) : declared seen x = none := by
  unfold declared
  rw [List.findSome?_eq_none_iff]
  intro a ha
  cases a with
  | attr => rfl
  | decl q v =>
    simp only
    split
    · rename_i hq
      simp only [declares, List.any_eq_false] at h
      have := h _ ha
      simp [hq] at this
    · rfl

/-- The declarations so far together with those of the outer elements. -/
def curEnv (env : Env) (seen : List SAttr) : Env := fun p => (declared seen p).or (env p)

/-- A later heap in which what is missing has been filled in. -/
structure Later (h : List Ns) (cur : Env) (defs : List Nat) (h' : List Ns) (cur' : Env) : Prop where
  ext : Ext h h'
  env : ∀ q u, cur (some q) = some u → cur' (some q) = some u
  filled : ∀ i ∈ defs, ∀ q, h[i]? = some ⟨some q, none⟩ → ∃ u, h'[i]? = some ⟨some q, some u⟩ ∧ cur' (some q) = some u

/-- What holds of the open element `e` in the middle of its attribute list; `d0` is the default namespace outside. -/
structure Own (h : List Ns) (env : Env) (d0 dflt : Option Nat) (pre : Option (List Byte)) (seen as : List SAttr) (e : NOpen) : Prop where
  unique : ∀ i ∈ e.defs, ∀ j ∈ e.defs, ∀ p v w, h[i]? = some ⟨p, v⟩ → h[j]? = some ⟨p, w⟩ → i = j
  entry : ∀ i ∈ e.defs, (∃ p u, h[i]? = some ⟨p, some u⟩ ∧ declared seen p = some u) ∨
    ∃ q, h[i]? = some ⟨some q, none⟩ ∧ declared seen (some q) = none ∧ env (some q) = none ∧ declares as (some q) = true ∧
      (pre = some q ∨ uses seen q = true)
  has : ∀ p u, declared seen p = some u → ∃ i ∈ e.defs, h[i]? = some ⟨p, some u⟩
  agree : ∀ q u, declared seen (some q) = some u → env (some q) = none ∨ env (some q) = some u
  full : ∀ p, declares seen p = true → ∃ u, declared seen p = some u ∧ u ≠ []
  noXml : declared seen (some xmlPrefix) = none
  dfltSome : ∀ u, declared seen none = some u → ∃ i, dflt = some i ∧ h[i]? = some ⟨none, some u⟩
  dfltNone : declared seen none = none → dflt = d0
  nsNone : pre = none → e.ns = dflt
  nsSome : ∀ p, pre = some p → e.ns.isSome ∧ ∀ h' cur', Later h (curEnv env seen) e.defs h' cur' →
    nsName h' e.ns e.name = elementName cur' (some p) e.name
  nsBound : ∀ i, e.ns = some i → i ∈ e.defs ∨ Bound h i ∧ ∀ q u, h[i]? = some ⟨some q, some u⟩ → env (some q) = some u
  attrs : ∀ h' cur', Later h (curEnv env seen) e.defs h' cur' →
    e.attrs.reverse.map (fun a => (nsName h' a.ns a.name, a.value)) = attributesOf cur' seen

theorem nsName_eq {h : List Ns} {i : Nat} {p u : List Byte} {env : Env} (name : List Byte) (hi : h[i]? = some ⟨some p, some u⟩)
    (he : env (some p) = some u) : nsName h (some i) name = elementName env (some p) name := by
  simp [nsName, elementName, hi, he]

theorem attributesOf_snoc (env : Env) (seen : List SAttr) (a : SAttr) :
    attributesOf env (seen ++ [a]) = attributesOf env seen ++ attributesOf env [a] := by
  simp [attributesOf]

theorem getElem?_lt {h : List Ns} {i : Nat} {n : Ns} (hi : h[i]? = some n) : i < h.length := by
  rcases Nat.lt_or_ge i h.length with hl | hl
  · exact hl
  · rw [List.getElem?_eq_none hl] at hi; cases hi

theorem getElem?_snoc {h : List Ns} {i : Nat} {n : Ns} (m : Ns) (hi : h[i]? = some n) : (h ++ [m])[i]? = some n := by
  rw [List.getElem?_append_left (getElem?_lt hi), hi]

theorem getElem?_last (h : List Ns) (m : Ns) : (h ++ [m])[h.length]? = some m := by simp

theorem Own.index {h env d0 dflt pre seen as e} (w : Own h env d0 dflt pre seen as e) {i : Nat} (hi : i ∈ e.defs) : ∃ n, h[i]? = some n := by
  rcases w.entry i hi with ⟨p, u, h1, -⟩ | ⟨q, h1, -⟩ <;> exact ⟨_, h1⟩

theorem ownDef_some {h : List Ns} {p : Option (List Byte)} {defs : List Nat} {i : Nat} (hd : ownDef h p defs = some i) :
    i ∈ defs ∧ ∃ v, h[i]? = some ⟨p, v⟩ := by
  refine ⟨List.mem_of_find?_eq_some hd, ?_⟩
  have := List.find?_some hd
  split at this
  · rename_i n hn
    simp only [beq_iff_eq] at this
    subst this
    exact ⟨n.href, hn⟩
  · cases this

theorem ownDef_none {h : List Ns} {p : Option (List Byte)} {defs : List Nat} (hd : ownDef h p defs = none) {i : Nat} (hi : i ∈ defs)
    {v} : h[i]? ≠ some ⟨p, v⟩ := by
  intro hv
  have := List.find?_eq_none.1 hd i hi
  simp [hv] at this

/-- The state inside the element. -/
def NSt.put (s : NSt) (h : List Ns) (st : List NOpen) (d : Option Nat) : NSt := { s with heap := h, stack := st, dflt := d }

theorem NsCalm.put {s : NSt} (c : NsCalm s) (h st d) : NsCalm (s.put h st d) := ⟨c.elemPre, c.attrPre, c.decl, c.pi, c.doctype⟩

/-- A new attribute, with a pointer that is right later on. -/
theorem Own.addAttr {h env d0 dflt pre seen as e} {p : Option (List Byte)} {n : List Byte} {v : Option SVal}
    (w : Own h env d0 dflt pre seen (.attr p n v :: as) e) (ns : Option Nat) (la : Bool)
    (hns : ∀ h' cur', Later h (curEnv env seen) e.defs h' cur' → nsName h' ns n = attributeQName cur' p n) :
    Own h env d0 dflt pre (seen ++ [.attr p n v]) as
      { e with attrs := ⟨n, ns, joinValues (valsOf v)⟩ :: e.attrs, lastAttr := la } := by
  have hd : declared (seen ++ [.attr p n v]) = declared seen := by
    funext x; rw [declared_snoc, declared_attr]; simp
  have hc : curEnv env (seen ++ [.attr p n v]) = curEnv env seen := by unfold curEnv; rw [hd]
  refine ⟨w.unique, ?_, ?_, ?_, ?_, ?_, ?_, ?_, w.nsNone, ?_, w.nsBound, ?_⟩
  · intro i hi
    rw [hd]
    rcases w.entry i hi with h1 | ⟨q, h1, h2, h3, h4, h5⟩
    · exact .inl h1
    · refine .inr ⟨q, h1, h2, h3, by simpa [declares] using h4, ?_⟩
      rcases h5 with h5 | h5
      · exact .inl h5
      · exact .inr (by rw [uses_snoc, h5]; rfl)
  · rw [hd]; exact w.has
  · rw [hd]; exact w.agree
  · intro x hx
    rw [hd]
    exact w.full x (by rw [declares_snoc] at hx; simpa [declares] using hx)
  · rw [hd]; exact w.noXml
  · rw [hd]; exact w.dfltSome
  · rw [hd]; exact w.dfltNone
  · rw [hc]; exact w.nsSome
  · intro h' cur' hl
    rw [hc] at hl
    rw [attributesOf_snoc, ← w.attrs h' cur' hl]
    simp only [List.reverse_cons, List.map_append, List.map_cons, List.map_nil, attributesOf, List.filterMap_cons, List.filterMap_nil]
    rw [hns h' cur' hl]

/-- The declaration `p = u` is complete: its entry `j` has been filled in. -/
theorem Own.addDecl {h h1 env d0 dflt pre seen as e} {p : Option (List Byte)} {v : Option SVal} {u : List Byte} {root : Bool}
    (w : Own h env d0 dflt pre seen (.decl p v :: as) e) (hv : v.bind SVal.text? = some u) (hu : u ≠ []) (hs : declares seen p = false)
    (hx : p ≠ some xmlPrefix) (hp : ∀ q, p = some q → env (some q) = none ∨ env (some q) = some u) (hr : p = none → root = true)
    (hd0 : root = true → d0 = none) (j : Nat) (defs : List Nat) (hsub : ∀ i ∈ e.defs, i ∈ defs) (hj : j ∈ defs)
    (hdefs : ∀ i ∈ defs, i = j ∨ i ∈ e.defs) (h1j : h1[j]? = some ⟨p, none⟩) (hext : Ext h h1)
    (hold : ∀ i ∈ e.defs, h1[i]? = h[i]?) (huniq : ∀ i ∈ e.defs, i ≠ j → ∀ w, h[i]? ≠ some ⟨p, w⟩) :
    Own (h1.modify j fun n => { n with href := some u }) env d0 (if p.isNone then some j else dflt) pre (seen ++ [.decl p v]) as
      { e with defs := defs, ns := if p.isNone && e.ns.isNone then some j else e.ns } := by
  have hd : ∀ x, declared (seen ++ [.decl p v]) x = if p = x then some u else declared seen x := by
    intro x
    rw [declared_snoc, declared_decl, hv]
    split
    · rename_i hx; subst hx; rw [declared_of_declares seen p hs]; rfl
    · simp
  have hds := declared_of_declares seen p hs
  have hext2 := hext.trans (Ext.fill u h1j)
  have hjj : (h1.modify j fun n => { n with href := some u })[j]? = some ⟨p, some u⟩ := by
    rw [List.getElem?_modify]; simp [h1j]
  have hne : ∀ i ∈ e.defs, i ≠ j → (h1.modify j fun n => { n with href := some u })[i]? = h[i]? := by
    intro i hi hij
    rw [List.getElem?_modify, hold i hi]
    simp [Ne.symm hij]
  have later : ∀ h' cur', Later (h1.modify j fun n => { n with href := some u }) (curEnv env (seen ++ [.decl p v])) defs h' cur' →
      Later h (curEnv env seen) e.defs h' cur' := by
    intro h' cur' l
    refine ⟨hext2.trans l.ext, ?_, ?_⟩
    · intro q x hq
      refine l.env q x ?_
      unfold curEnv at hq ⊢
      rw [hd]
      split
      · rename_i hpq
        rw [← hpq, hds] at hq
        subst hpq
        rcases hp q rfl with h3 | h3 <;> rw [h3] at hq
        · cases hq
        · exact hq
      · exact hq
    · intro i hi q hq
      by_cases hij : i = j
      · subst hij
        rw [← hold i hi, h1j] at hq
        cases hq
        exact ⟨u, l.ext.bound hjj, l.env q u (by simp [curEnv, hd])⟩
      · exact l.filled i (hsub i hi) q (by rw [hne i hi hij]; exact hq)
  refine ⟨?_, ?_, ?_, ?_, ?_, ?_, ?_, ?_, ?_, ?_, ?_, ?_⟩
  · intro i hi k hk x a b ha hb
    by_cases hij : i = j
    · by_cases hkj : k = j
      · rw [hij, hkj]
      · exfalso
        have hk' := (hdefs k hk).resolve_left hkj
        rw [hij, hjj] at ha; cases ha
        rw [hne k hk' hkj] at hb
        exact huniq k hk' hkj _ hb
    · have hi' := (hdefs i hi).resolve_left hij
      by_cases hkj : k = j
      · exfalso
        rw [hkj, hjj] at hb; cases hb
        rw [hne i hi' hij] at ha
        exact huniq i hi' hij _ ha
      · have hk' := (hdefs k hk).resolve_left hkj
        rw [hne i hi' hij] at ha
        rw [hne k hk' hkj] at hb
        exact w.unique i hi' k hk' x a b ha hb
  · intro i hi
    by_cases hij : i = j
    · exact .inl ⟨p, u, by rw [hij]; exact hjj, by simp [hd]⟩
    · have hi' := (hdefs i hi).resolve_left hij
      rw [hne i hi' hij]
      have hpne := huniq i hi' hij
      rcases w.entry i hi' with ⟨x, y, h3, h4⟩ | ⟨q, h3, h4, h5, h6, h7⟩
      · refine .inl ⟨x, y, h3, ?_⟩
        rw [hd, if_neg]
        · exact h4
        · rintro rfl; exact hpne _ h3
      · have hpq : p ≠ some q := by rintro rfl; exact hpne _ h3
        refine .inr ⟨q, h3, by rw [hd, if_neg hpq]; exact h4, h5, ?_, ?_⟩
        · simp only [declares, List.any_cons, Bool.or_eq_true] at h6
          rcases h6 with h6 | h6
          · exact absurd (by simpa using h6) hpq
          · exact h6
        · rcases h7 with h7 | h7
          · exact .inl h7
          · exact .inr (by rw [uses_snoc, h7]; rfl)
  · intro x y hxy
    rw [hd] at hxy
    split at hxy
    · rename_i hpx
      cases hxy
      exact ⟨j, hj, by rw [← hpx]; exact hjj⟩
    · obtain ⟨i, hi, h3⟩ := w.has x y hxy
      exact ⟨i, hsub i hi, hext2.bound h3⟩
  · intro q x hq
    rw [hd] at hq
    split at hq
    · rename_i hpq
      cases hq
      exact hp q hpq
    · exact w.agree q x hq
  · intro x hxs
    rw [hd]
    split
    · exact ⟨u, rfl, hu⟩
    · rename_i hpx
      rw [declares_snoc] at hxs
      refine w.full x ?_
      simpa [declares, hpx] using hxs
  · rw [hd, if_neg hx]; exact w.noXml
  · intro x hxs
    rw [hd] at hxs
    split at hxs
    · rename_i hpn
      cases hxs
      subst hpn
      exact ⟨j, by simp, hjj⟩
    · rename_i hpn
      obtain ⟨i, h3, h4⟩ := w.dfltSome x hxs
      refine ⟨i, ?_, hext2.bound h4⟩
      cases p with
      | none => exact absurd rfl hpn
      | some => exact h3
  · intro hxs
    rw [hd] at hxs
    split at hxs
    · cases hxs
    · rename_i hpn
      cases p with
      | none => exact absurd rfl hpn
      | some => exact w.dfltNone hxs
  · intro hpre
    have := w.nsNone hpre
    cases p with
    | none =>
      rw [w.dfltNone hds, hd0 (hr rfl)] at this
      simp [this]
    | some q => simpa using this
  · intro q hq
    obtain ⟨h3, h4⟩ := w.nsSome q hq
    have h5 : (if p.isNone && e.ns.isNone then some j else e.ns) = e.ns := by
      cases hn : e.ns with
      | none => rw [hn] at h3; cases h3
      | some => simp
    simp only [h5]
    exact ⟨h3, fun h' cur' l => h4 h' cur' (later h' cur' l)⟩
  · intro i hi
    simp only at hi
    split at hi
    · cases hi; exact .inl hj
    · rcases w.nsBound i hi with h3 | ⟨h3, h4⟩
      · exact .inl (hsub i h3)
      · refine .inr ⟨h3.ext hext2, ?_⟩
        rw [h3.same hext2]
        exact h4
  · intro h' cur' l
    rw [attributesOf_snoc, ← w.attrs h' cur' (later h' cur' l)]
    simp [attributesOf]

end Xmq
