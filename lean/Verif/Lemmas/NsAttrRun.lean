import Verif.Lemmas.NsAttrs
/-!
# Running over an attribute list
-/
namespace Xmq
open Spec

/-- The first attribute with a prefix that is declared behind it. -/
theorem Own.addPending {h env d0 dflt pre seen as e} {p n : List Byte} {v : Option SVal}
    (w : Own h env d0 dflt pre seen (.attr (some p) n v :: as) e) (la : Bool) (henv : env (some p) = none)
    (hds : declared seen (some p) = none) (has : declares as (some p) = true) (hno : ownDef h (some p) e.defs = none) :
    Own (h ++ [⟨some p, none⟩]) env d0 dflt pre (seen ++ [.attr (some p) n v]) as
      { e with defs := e.defs ++ [h.length], attrs := ⟨n, some h.length, joinValues (valsOf v)⟩ :: e.attrs, lastAttr := la } := by
  have hd : declared (seen ++ [.attr (some p) n v]) = declared seen := by
    funext x; rw [declared_snoc, declared_attr]; simp
  have hc : curEnv env (seen ++ [.attr (some p) n v]) = curEnv env seen := by unfold curEnv; rw [hd]
  have hext := Ext.append h ⟨some p, none⟩
  have hlast := getElem?_last h ⟨some p, none⟩
  have hold : ∀ i ∈ e.defs, (h ++ [⟨some p, none⟩])[i]? = h[i]? := by
    intro i hi
    obtain ⟨m, hm⟩ := w.index hi
    rw [getElem?_snoc _ hm, hm]
  have hmem : ∀ i, i ∈ e.defs ++ [h.length] → i ∈ e.defs ∨ i = h.length := by
    intro i hi; simpa using hi
  have later : ∀ h' cur', Later (h ++ [⟨some p, none⟩]) (curEnv env seen) (e.defs ++ [h.length]) h' cur' →
      Later h (curEnv env seen) e.defs h' cur' := by
    intro h' cur' l
    exact ⟨hext.trans l.ext, l.env, fun i hi q hq => l.filled i (by simp [hi]) q (by rw [hold i hi]; exact hq)⟩
  refine ⟨?_, ?_, ?_, ?_, ?_, ?_, ?_, ?_, w.nsNone, ?_, ?_, ?_⟩
  · intro i hi k hk x a b ha hb
    rcases hmem i hi with hi | rfl
    · rcases hmem k hk with hk | rfl
      · rw [hold i hi] at ha; rw [hold k hk] at hb
        exact w.unique i hi k hk x a b ha hb
      · rw [hlast] at hb; cases hb
        rw [hold i hi] at ha
        exact absurd ha (ownDef_none hno hi)
    · rcases hmem k hk with hk | rfl
      · rw [hlast] at ha; cases ha
        rw [hold k hk] at hb
        exact absurd hb (ownDef_none hno hk)
      · rfl
  · intro i hi
    rw [hd]
    rcases hmem i hi with hi | rfl
    · rw [hold i hi]
      rcases w.entry i hi with h1 | ⟨q, h1, h2, h3, h4, h5⟩
      · exact .inl h1
      · refine .inr ⟨q, h1, h2, h3, by simpa [declares] using h4, ?_⟩
        rcases h5 with h5 | h5
        · exact .inl h5
        · exact .inr (by rw [uses_snoc, h5]; rfl)
    · exact .inr ⟨p, hlast, hds, henv, has, .inr (by rw [uses_snoc]; simp [uses])⟩
  · rw [hd]
    intro x u hx
    obtain ⟨i, hi, h1⟩ := w.has x u hx
    exact ⟨i, by simp [hi], by rw [hold i hi]; exact h1⟩
  · rw [hd]; exact w.agree
  · intro x hx
    rw [hd]
    exact w.full x (by rw [declares_snoc] at hx; simpa [declares] using hx)
  · rw [hd]; exact w.noXml
  · rw [hd]
    intro u hu
    obtain ⟨i, h1, h2⟩ := w.dfltSome u hu
    exact ⟨i, h1, hext.bound h2⟩
  · rw [hd]; exact w.dfltNone
  · rw [hc]
    intro q hq
    obtain ⟨h1, h2⟩ := w.nsSome q hq
    exact ⟨h1, fun h' cur' l => h2 h' cur' (later h' cur' l)⟩
  · intro i hi
    rcases w.nsBound i hi with h1 | ⟨h1, h2⟩
    · exact .inl (by simp [h1])
    · refine .inr ⟨h1.ext hext, ?_⟩
      rw [h1.same hext]
      exact h2
  · intro h' cur' l
    rw [hc] at l
    rw [attributesOf_snoc, ← w.attrs h' cur' (later h' cur' l)]
    simp only [List.reverse_cons, List.map_append, List.map_cons, List.map_nil, attributesOf, List.filterMap_cons, List.filterMap_nil]
    obtain ⟨u, h1, h2⟩ := l.filled h.length (by simp) p hlast
    rw [nsName_eq n h1 h2]
    rfl

/-- The same element. -/
structure SameElem (e e' : NOpen) : Prop where
  isAttr : e'.isAttr = e.isAttr
  name : e'.name = e.name
  kids : e'.kids = e.kids

theorem SameElem.trans {a b c : NOpen} (h : SameElem a b) (k : SameElem b c) : SameElem a c :=
  ⟨k.isAttr.trans h.isAttr, k.name.trans h.name, k.kids.trans h.kids⟩

/-- The value of a declaration. -/
theorem run_declValue {us : List Tok} {v : Option SVal} {u : List Byte} (h : MaybeValue true us v) (hv : v.bind SVal.text? = some u)
    (hu : u ≠ []) (s : NSt) (j : Nat) (hj : s.decl = some j) (rest : List Tok) :
    nsRun s (us ++ rest) = nsRun { s with heap := s.heap.modify j fun n => { n with href := some u }, decl := none } rest := by
  have he : u.isEmpty = false := by cases u with
    | nil => exact absurd rfl hu
    | cons => rfl
  cases h with
  | none => cases hv
  | some e ts v he' hval =>
    rw [List.cons_append, nsRun_step (step_equals he')]
    cases hval with
    | plain t hk =>
      simp only [Option.bind_some, SVal.text?, Option.some.injEq] at hv
      subst hv
      refine nsRun_step ?_
      unfold nsStep
      simp only [if_true] at hk
      simp [hk, hj, updateHref]
    | quoted t w hk hw =>
      simp only [Option.bind_some, SVal.text?, Option.some.injEq] at hv
      subst hv
      refine nsRun_step ?_
      unfold nsStep
      simp only [if_true] at hk
      simp [hk, hw, hj, updateHref, hu]
    | ref => cases hv
    | many => cases hv

/-- What a run over (a part of) an attribute list does. -/
def AttrRun (s : NSt) (env : Env) (d0 : Option Nat) (root : Bool) (pre : Option (List Byte)) (seen as : List SAttr) (e o : NOpen)
    (st : List NOpen) (ts rest : List Tok) : Prop :=
  ∃ h' e' d', nsRun s (ts ++ rest) = nsRun (s.put h' (e' :: o :: st) d') rest ∧ Own h' env d0 d' pre seen as e' ∧ Ext s.heap h' ∧
    SameElem e e' ∧ (root = false → d' = s.dflt)

/-- A declaration, from the moment its tokens before the value have been seen. -/
theorem run_decl {s : NSt} {env : Env} {d0 : Option Nat} {root : Bool} {pre : Option (List Byte)} {seen as : List SAttr} {e o : NOpen}
    {st : List NOpen} {p : Option (List Byte)} {v : Option SVal} {us : List Tok} (rest : List Tok) (hc : NsCalm s)
    (hs : s.stack = e :: o :: st) (w : Own s.heap env d0 s.dflt pre seen (.decl p v :: as) e) (hm : MaybeValue true us v)
    (ht : tameDecl root env p v = true) (hd : declares seen p = false) (hd0 : root = true → d0 = none) :
    ∃ s1, declareNs s p = some s1 ∧ s1.decl.isSome ∧
      ∃ h' e' d', nsRun s1 (us ++ rest) = nsRun (s.put h' (e' :: o :: st) d') rest ∧
        Own h' env d0 d' pre (seen ++ [.decl p v]) as e' ∧ Ext s.heap h' ∧ SameElem e e' ∧ (root = false → d' = s.dflt) := by
  unfold tameDecl at ht
  split at ht
  · rename_i u hv
    simp only [Bool.and_eq_true, Bool.not_eq_true', bne_iff_ne, ne_eq] at ht
    obtain ⟨⟨hu, hx⟩, hpp⟩ := ht
    have hu : u ≠ [] := by rintro rfl; cases hu
    have hp : ∀ q, p = some q → env (some q) = none ∨ env (some q) = some u := by
      rintro q rfl
      simpa using hpp
    have hr : p = none → root = true := by rintro rfl; exact hpp
    have hdflt : ∀ j : Nat, root = false → (if p.isNone then some j else s.dflt) = s.dflt := by
      intro j hrf
      cases p with
      | none => rw [hr rfl] at hrf; cases hrf
      | some => rfl
    have hx' : (p == some xmlPrefix) = false := by
      rw [beq_eq_false_iff_ne]; exact hx
    have hds := declared_of_declares seen p hd
    cases ho : ownDef s.heap p e.defs with
    | some j =>
      obtain ⟨hj, y, hy⟩ := ownDef_some ho
      have hyn : y = none := by
        rcases w.entry j hj with ⟨a, b, h1, h2⟩ | ⟨q, h1, -⟩
        · rw [hy] at h1; cases h1; rw [hds] at h2; cases h2
        · rw [hy] at h1; cases h1; rfl
      subst hyn
      have own := w.addDecl (root := root) hv hu hd hx hp hr hd0 j e.defs (fun _ h => h) hj (fun _ h => .inr h) hy (Ext.refl _)
        (fun _ _ => rfl) (fun i hi hij x hx => hij (w.unique i hi j hj _ _ _ hx hy))
      refine ⟨{ s with stack := { e with ns := if p.isNone && e.ns.isNone then some j else e.ns } :: o :: st,
                       dflt := if p.isNone then some j else s.dflt, decl := some j }, ?_, rfl, _, _, _, ?_, own,
        Ext.fill u hy, ⟨rfl, rfl, rfl⟩, hdflt j⟩
      · unfold declareNs
        cases p with
        | none => simp [hx', hs, ho]
        | some q => simp [hx', hs, ho]
      · rw [run_declValue hm hv hu _ j rfl]
        simp only [NSt.put, ← hc.decl]
    | none =>
      have hold : ∀ i ∈ e.defs, (s.heap ++ [⟨p, none⟩])[i]? = s.heap[i]? := by
        intro i hi
        obtain ⟨m, hm⟩ := w.index hi
        rw [getElem?_snoc _ hm, hm]
      have own := w.addDecl (root := root) hv hu hd hx hp hr hd0 s.heap.length (e.defs ++ [s.heap.length]) (fun _ h => by simp [h])
        (by simp) (fun i hi => by simp at hi; exact hi.symm) (getElem?_last _ _) (Ext.append _ _) hold
        (fun i hi _ x => ownDef_none ho hi)
      refine ⟨{ s with heap := s.heap ++ [⟨p, none⟩],
                       stack := { e with defs := e.defs ++ [s.heap.length],
                                         ns := if p.isNone && e.ns.isNone then some s.heap.length else e.ns } :: o :: st,
                       dflt := if p.isNone then some s.heap.length else s.dflt, decl := some s.heap.length }, ?_, rfl, _, _, _, ?_, own,
        (Ext.append _ _).trans (Ext.fill u (getElem?_last _ _)), ⟨rfl, rfl, rfl⟩, hdflt _⟩
      · unfold declareNs
        cases p with
        | none => simp [hx', hs, ho]
        | some q => simp [hx', hs, ho]
      · rw [run_declValue hm hv hu _ s.heap.length rfl]
        simp only [NSt.put, ← hc.decl]
  · cases ht

/-- The state behind the name of an attribute. -/
def NSt.keyed (s : NSt) (h : List Ns) (st : List NOpen) : NSt := { s with heap := h, stack := st, attrPre := none }

/-- The name of an attribute: an attribute without a value is added. -/
theorem run_attrKey {s : NSt} {env : Env} {d0 : Option Nat} {pre : Option (List Byte)} {seen as : List SAttr} {e o : NOpen}
    {st : List NOpen} {p n : List Byte} {v : Option SVal} (hc : s.attrPre = some p) (hs : s.stack = e :: o :: st)
    (k : Known s.heap env (o :: st) d0) (w : Own s.heap env d0 s.dflt pre seen (.attr (some p) n v :: as) e)
    (ht : (env (some p)).isSome = true ∨ declares seen (some p) = true ∨
      pre ≠ some p ∧ uses seen p = false ∧ declares as (some p) = true) :
    ∃ h' defs ns, attrKey s n = some (s.keyed h'
        ({ e with defs := defs, attrs := ⟨n, ns, []⟩ :: e.attrs, lastAttr := true } :: o :: st)) ∧ Ext s.heap h' ∧
      Own h' env d0 s.dflt pre (seen ++ [.attr (some p) n v]) as
        { e with defs := defs, attrs := ⟨n, ns, joinValues (valsOf v)⟩ :: e.attrs, lastAttr := true } := by
  have found : ∀ i u, searchNs s.heap p true (e :: o :: st) = some i → s.heap[i]? = some ⟨some p, some u⟩ →
      curEnv env seen (some p) = some u → ∃ h' defs ns, attrKey s n = some (s.keyed h'
        ({ e with defs := defs, attrs := ⟨n, ns, []⟩ :: e.attrs, lastAttr := true } :: o :: st)) ∧ Ext s.heap h' ∧
      Own h' env d0 s.dflt pre (seen ++ [.attr (some p) n v]) as
        { e with defs := defs, attrs := ⟨n, ns, joinValues (valsOf v)⟩ :: e.attrs, lastAttr := true } := by
    intro i u h1 h2 h3
    refine ⟨s.heap, e.defs, some i, ?_, Ext.refl _, w.addAttr (some i) true ?_⟩
    · unfold attrKey
      simp only [hs, hc, h1, NSt.keyed]
    · intro h' cur' l
      exact nsName_eq n (l.ext.bound h2) (l.env p u h3)
  by_cases hx : p = xmlPrefix
  · subst hx
    refine found 0 xmlNamespace (by simp [searchNs]) k.xmlHeap ?_
    unfold curEnv
    rw [w.noXml, k.xmlEnv]; rfl
  · have hsn : searchNs s.heap p true (e :: o :: st) = searchUp s.heap p true (e :: o :: st) := by
      unfold searchNs; simp [hx]
    cases hf : e.defs.find? (nsMatch s.heap p) with
    | some i =>
      obtain ⟨u, hu⟩ := (nsMatch_iff _ _ _).1 (List.find?_some hf)
      refine found i u ?_ hu ?_
      · rw [hsn]; unfold searchUp; rw [hf]
      · rcases w.entry i (List.mem_of_find?_eq_some hf) with ⟨a, b, h1, h2⟩ | ⟨q, h1, -⟩
        · rw [hu] at h1; cases h1
          unfold curEnv; rw [h2]; rfl
        · rw [hu] at h1; cases h1
    | none =>
      have hnone : ∀ i ∈ e.defs, ∀ u, s.heap[i]? ≠ some ⟨some p, some u⟩ := by
        intro i hi u hu
        have := List.find?_eq_none.1 hf i hi
        exact this ((nsMatch_iff _ _ _).2 ⟨u, hu⟩)
      have hds : declared seen (some p) = none := by
        cases hd : declared seen (some p) with
        | none => rfl
        | some u =>
          obtain ⟨i, hi, h1⟩ := w.has _ u hd
          exact absurd h1 (hnone i hi u)
      have hup : searchUp s.heap p true (e :: o :: st) = searchUp s.heap p false (o :: st) := by
        rw [searchUp, hf]; rfl
      cases he : env (some p) with
      | some u =>
        obtain ⟨i, h1, h2⟩ := (k.search p hx).1 u he
        refine found i u (by rw [hsn, hup, h1]) h2 ?_
        unfold curEnv; rw [hds, he]; rfl
      | none =>
        have h1 := (k.search p hx).2 he
        obtain ⟨h3, h4, h5⟩ : pre ≠ some p ∧ uses seen p = false ∧ declares as (some p) = true := by
          rcases ht with ht | ht | ht
          · rw [he] at ht; cases ht
          · obtain ⟨u, hu, -⟩ := w.full _ ht
            rw [hds] at hu; cases hu
          · exact ht
        have hno : ownDef s.heap (some p) e.defs = none := by
          cases hod : ownDef s.heap (some p) e.defs with
          | none => rfl
          | some j =>
            exfalso
            obtain ⟨hj, y, hy⟩ := ownDef_some hod
            rcases w.entry j hj with ⟨a, b, h6, h7⟩ | ⟨q, h6, -, -, -, h7⟩
            · rw [hy] at h6; cases h6; rw [hds] at h7; cases h7
            · rw [hy] at h6; cases h6
              rcases h7 with h7 | h7
              · exact h3 h7
              · rw [h4] at h7; cases h7
        refine ⟨s.heap ++ [⟨some p, none⟩], e.defs ++ [s.heap.length], some s.heap.length, ?_, Ext.append _ _,
          w.addPending true he hds h5 hno⟩
        unfold attrKey
        simp only [hs, hc, hsn, hup, h1, hno]
        rfl

/-- One entry of the list. -/
theorem run_attribute {ts : List Tok} {a : SAttr} (ha : Attribute ts a) {s : NSt} {env : Env} {d0 : Option Nat} {root : Bool}
    {pre : Option (List Byte)} {seen as : List SAttr} {e o : NOpen} {st : List NOpen} (rest : List Tok) (hc : NsCalm s)
    (hs : s.stack = e :: o :: st) (k : Known s.heap env (o :: st) d0) (w : Own s.heap env d0 s.dflt pre seen (a :: as) e)
    (ht : tameAttrs root env pre seen (a :: as) = true) (hd0 : root = true → d0 = none) :
    AttrRun s env d0 root pre (seen ++ [a]) as e o st ts rest ∧ tameAttrs root env pre (seen ++ [a]) as = true := by
  cases ha with
  | plain x us v hx hm =>
    refine ⟨?_, by simpa [tameAttrs] using ht⟩
    have own := w.addAttr none true (fun _ _ _ => rfl)
    refine ⟨s.heap, _, s.dflt, ?_, own, Ext.refl _, ⟨rfl, rfl, rfl⟩, fun _ => rfl⟩
    have h1 : nsStep s x (us ++ rest) = some (s.on ({ e with attrs := ⟨x.text, none, []⟩ :: e.attrs, lastAttr := true } :: o :: st)) := by
      unfold nsStep
      simp only [hx, attrKey, hs, hc.attrPre, NSt.on]
    rw [List.cons_append, nsRun_step h1, run_attrValue hm _ (hc.on _) _ _ x.text none e.attrs rest rfl rfl rfl]
    rfl
  | prefixed p c x us v hp hcol hx hm =>
    simp only [tameAttrs, Bool.and_eq_true, Bool.or_eq_true, bne_iff_ne, ne_eq, Bool.not_eq_true'] at ht
    obtain ⟨ht1, ht2⟩ := ht
    refine ⟨?_, ht2⟩
    have h1 : nsStep s p (c :: x :: (us ++ rest)) = some { s with attrPre := some p.text } := by
      unfold nsStep
      simp [hp, hc.decl]
    obtain ⟨h', defs, ns, h2, hext, own⟩ := run_attrKey (s := { s with attrPre := some p.text }) (n := x.text) (v := v) rfl hs k w
      (by rcases ht1 with (h | h) | ⟨⟨h3, h4⟩, h5⟩
          · exact .inl h
          · exact .inr (.inl h)
          · exact .inr (.inr ⟨h3, h4, h5⟩))
    have h3 : nsStep { s with attrPre := some p.text } x (us ++ rest) = attrKey { s with attrPre := some p.text } x.text := by
      unfold nsStep; simp only [hx]
    refine ⟨h', _, s.dflt, ?_, own, hext, ⟨rfl, rfl, rfl⟩, fun _ => rfl⟩
    simp only [List.cons_append]
    rw [nsRun_step h1, nsRun_step (step_colon hcol), nsRun_step (h3.trans h2)]
    have hc' : ∀ X, NsCalm (NSt.keyed { s with attrPre := some p.text } h' X) := fun X => ⟨hc.elemPre, rfl, hc.decl, hc.pi, hc.doctype⟩
    rw [run_attrValue hm _ (hc' _) _ _ x.text ns e.attrs rest rfl rfl rfl]
    simp only [NSt.put, NSt.on, NSt.keyed, ← hc.attrPre]
  | declDefault x us v hx hm =>
    simp only [tameAttrs, Bool.and_eq_true, Bool.not_eq_true'] at ht
    obtain ⟨⟨ht1, ht2⟩, ht3⟩ := ht
    refine ⟨?_, ht3⟩
    obtain ⟨s1, h1, -, h', e', d', h2, own, hext, same, hd⟩ := run_decl rest hc hs w hm ht2 ht1 hd0
    refine ⟨h', e', d', ?_, own, hext, same, hd⟩
    have hus : ∃ q ts', us = q :: ts' ∧ q.kind = .equals := by
      cases hm with
      | none => cases ht2
      | some q ts' v hq _ => exact ⟨q, ts', rfl, hq⟩
    have h3 : nsStep s x (us ++ rest) = some s1 := by
      obtain ⟨q, ts', rfl, hq⟩ := hus
      unfold nsStep
      simp only [hx, List.cons_append, List.filter_cons, hq]
      rw [if_pos (by decide)]
      rw [← h1]
      congr 1
      split
      · rename_i heq
        have := (List.cons.inj heq).1
        subst this
        rw [if_neg (by rw [hq]; decide)]
      · rfl
    rw [List.cons_append, nsRun_step h3, h2]
  | declPrefix x c p us v hx hcol hp hm =>
    simp only [tameAttrs, Bool.and_eq_true, Bool.not_eq_true'] at ht
    obtain ⟨⟨ht1, ht2⟩, ht3⟩ := ht
    refine ⟨?_, ht3⟩
    obtain ⟨s1, h1, hsome, h', e', d', h2, own, hext, same, hd⟩ := run_decl rest hc hs w hm ht2 ht1 hd0
    refine ⟨h', e', d', ?_, own, hext, same, hd⟩
    have h3 : nsStep s x (c :: p :: (us ++ rest)) = some s1 := by
      unfold nsStep
      simp only [hx, List.filter_cons, hcol, hp]
      simpa [hcol] using h1
    have h4 : nsStep s1 p (us ++ rest) = some s1 := by
      unfold nsStep
      simp [hp, hsome]
    simp only [List.cons_append]
    rw [nsRun_step h3, nsRun_step (step_colon hcol), nsRun_step h4, h2]

/-- The whole list. -/
theorem run_attributes {ts : List Tok} {as : List SAttr} (ha : Attributes ts as) : ∀ {s : NSt} {env : Env} {d0 : Option Nat}
    {root : Bool} {pre : Option (List Byte)} {seen : List SAttr} {e o : NOpen} {st : List NOpen} (rest : List Tok), NsCalm s →
    s.stack = e :: o :: st → Known s.heap env (o :: st) d0 → Own s.heap env d0 s.dflt pre seen as e →
    tameAttrs root env pre seen as = true → (root = true → d0 = none) →
    AttrRun s env d0 root pre (seen ++ as) [] e o st ts rest := by
  induction ha with
  | nil =>
    intro s env d0 root pre seen e o st rest hc hs k w ht hd0
    refine ⟨s.heap, e, s.dflt, ?_, by simpa using w, Ext.refl _, ⟨rfl, rfl, rfl⟩, fun _ => rfl⟩
    have : s.put s.heap (e :: o :: st) s.dflt = s := by rw [← hs]; rfl
    rw [this]; rfl
  | cons ts us a as h1 _ ih =>
    intro s env d0 root pre seen e o st rest hc hs k w ht hd0
    obtain ⟨⟨h', e', d', h2, own, hext, same, hd⟩, ht'⟩ := run_attribute h1 (us ++ rest) hc hs k w ht hd0
    obtain ⟨h'', e'', d'', h3, own', hext', same', hd'⟩ := ih rest (hc.put h' (e' :: o :: st) d') rfl (k.ext hext) own ht' hd0
    refine ⟨h'', e'', d'', ?_, by simpa using own', hext.trans hext', same.trans same', fun hr => (hd' hr).trans (hd hr)⟩
    rw [List.append_assoc, h2, h3]
    rfl

end Xmq
