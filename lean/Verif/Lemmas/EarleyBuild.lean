import Verif.Lemmas.EarleyTree
/-!
# Building the tree comes to an end; when the result is unique
-/
namespace Xmq.Yaep
open Xmq.Ixml (Sym)
open Xmq.Spec Xmq.Cfg

variable {g : Gram} {w : List Int} {start : List Byte} {sets : List SSet}

/-! ## How often a nonterminal can be replaced without losing tokens -/

theorem countP_lt {α : Type} {p q : α → Bool} : ∀ {l : List α}, (∀ x ∈ l, p x = true → q x = true) → (∃ x ∈ l, q x = true ∧ p x = false) → l.countP p < l.countP q
  | [], _, ⟨_, h, _⟩ => by cases h
  | y :: l, h1, ⟨x, hx, h2, h3⟩ => by
    have hle : l.countP p ≤ l.countP q := List.countP_mono_left fun x hx => h1 x (List.mem_cons_of_mem _ hx)
    rw [List.countP_cons, List.countP_cons]
    rcases List.mem_cons.1 hx with rfl | hx
    · rw [h2, h3]
      simp
      omega
    · have := countP_lt (fun x hx => h1 x (List.mem_cons_of_mem _ hx)) ⟨x, hx, h2, h3⟩
      have hy := h1 y List.mem_cons_self
      cases hp : p y with
      | true => rw [hy hp]; simp; omega
      | false => simp; omega

open Classical in
/-- The number of nonterminals that can take the place of `a`. -/
noncomputable def rank (g : Gram) (a : List Byte) : Nat := (nonterms g.rules).countP fun b => decide (Chain (Prods g.rules) (.n a) (.n b))

theorem rank_le (a : List Byte) : rank g a ≤ (nonterms g.rules).length := List.countP_le_length

open Classical in
theorem rank_lt (hg : Proper g start) {a b : List Byte} (hb : b ∈ nonterms g.rules) (h : Chain (Prods g.rules) (.n a) (.n b)) : rank g b < rank g a := by
  unfold rank
  refine countP_lt ?_ ⟨b, hb, decide_eq_true h, decide_eq_false fun h' => hg.loops _ (loops_iff.2 h')⟩
  intro x _ hx
  exact decide_eq_true (h.trans (of_decide_eq_true hx))

theorem rhs_size {r : Nat} (hr : r < g.rules.length) : (g.rhs r).length + 1 ≤ g.size := by
  rw [rhs_of_lt hr]
  unfold Gram.size
  have : (g.rules[r]).rhs.length + 1 ∈ g.rules.map fun r => r.rhs.length + 1 := List.mem_map.2 ⟨_, List.getElem_mem hr, rfl⟩
  generalize (g.rules.map fun r => r.rhs.length + 1) = l at this
  generalize (g.rules[r]).rhs.length + 1 = x at this
  induction l with
  | nil => cases this
  | cons y l ih =>
    rw [List.sum_cons]
    rcases List.mem_cons.1 this with rfl | h
    · omega
    · have := ih h
      omega

/-- The fuel for `s` tokens, rank `ρ` and `pos` symbols. -/
def need (g : Gram) (s ρ pos : Nat) : Nat := (s * ((nonterms g.rules).length + 2) + ρ) * (g.size + 1) + pos + 1

theorem need_less {s ρ pos s' ρ' pos' : Nat} (h : s' * ((nonterms g.rules).length + 2) + ρ' < s * ((nonterms g.rules).length + 2) + ρ) (hp : pos' ≤ g.size) :
    need g s' ρ' pos' < need g s ρ pos := by
  unfold need
  generalize s' * ((nonterms g.rules).length + 2) + ρ' = a at *
  generalize s * ((nonterms g.rules).length + 2) + ρ = b at *
  have := Nat.mul_le_mul_right (g.size + 1) (Nat.succ_le_of_lt h)
  rw [Nat.succ_mul] at this
  omega

theorem need_fewer {s ρ pos s' ρ' pos' : Nat} (h : s' < s) (hρ : ρ' ≤ (nonterms g.rules).length + 1) (hp : pos' ≤ g.size) : need g s' ρ' pos' < need g s ρ pos := by
  refine need_less ?_ hp
  have := Nat.mul_le_mul_right ((nonterms g.rules).length + 2) (Nat.succ_le_of_lt h)
  rw [Nat.succ_mul] at this
  omega

theorem candidates_some (hg : Proper g start) (hc : Chart g w sets) (hL : Lossless g w) {r pos i k : Nat} (hin : In sets k (⟨r, pos + 1⟩, k - i)) (hi : i ≤ k) {a : List Byte}
    (hn : g.next ⟨r, pos⟩ = some (.n a)) : candidates g sets r pos i k a ≠ [] := by
  have hk : k ≤ w.length := by
    have := in_lt hin
    have := hc.short
    omega
  rcases in_origin hc hin with ⟨k', c', rfl, h1, h2, h3, h4⟩ | ⟨k', q, rfl, h1, h2, h3, h4, h5, h6, h7⟩ | ⟨x, h1, h2, h3⟩
  · rw [hn] at h3
    cases h3
  · rw [hn] at h7
    injection h7 with h7
    injection h7 with h7
    subst h7
    refine List.ne_nil_of_mem (a := (q.1.rule, k' + 1 - q.2)) ((mem_candidates hg hc).2 ⟨Nat.sub_le _ _, by omega, ?_, rfl, ?_, hn⟩)
    · rw [show k' + 1 - (k' + 1 - q.2) = q.2 by omega]
      exact in_complete hg hc h1 h2
    · rw [show k' + 1 - q.2 - i = k' + 1 - i - q.2 by omega]
      exact h6
  · rw [hn] at h1
    cases h1
    have hs : Span g w [.n a] k k := span_nulls (by simpa using (hg.empty _).1 h2) hk
    obtain ⟨r', hr', rfl, hs'⟩ := hs.single_n
    refine List.ne_nil_of_mem (a := (r', k)) ((mem_candidates hg hc).2 ⟨Nat.le_refl _, hi, ?_, rfl, h3, hn⟩)
    rw [Nat.sub_self]
    exact in_nulls hg hc hL (g.rhs r').length 0 (by simp) (in_rule hc h3 hr' hn) hs'.nulls

/-- The tree is built. -/
theorem build_ok (hg : Proper g start) (hc : Chart g w sets) (hL : Lossless g w) : ∀ (n r pos i k : Nat) (acc : List PT) (ρ : Nat), In sets k (⟨r, pos⟩, k - i) → i ≤ k →
    (ρ = (nonterms g.rules).length + 1 ∨ ((∀ x ∈ (g.rhs r).drop pos, Nullable (Prods g.rules) x) ∧ ρ = rank g (g.lhs r))) → need g (k - i) ρ pos ≤ n →
    ∃ out amb, build g sets n r pos i k acc = .ok (out, amb)
  | 0, r, pos, i, k, acc, ρ, hin, hi, hρ, hn => by
    unfold need at hn
    omega
  | n + 1, r, 0, i, k, acc, ρ, hin, hi, hρ, hn => ⟨acc, false, rfl⟩
  | n + 1, r, pos + 1, i, k, acc, ρ, hin, hi, hρ, hn => by
    have hsn := sound hg hc k _ hin
    have hlt : pos < (g.rhs r).length := hsn.valid.2
    have hsize := rhs_size hsn.valid.1
    simp only at hsize
    have hx : g.next ⟨r, pos⟩ = some ((g.rhs r)[pos]) := List.getElem?_eq_getElem hlt
    have hdrop : (g.rhs r).drop pos = (g.rhs r)[pos] :: (g.rhs r).drop (pos + 1) := List.drop_eq_getElem_cons hlt
    unfold build
    rw [List.getElem?_eq_getElem hlt]
    cases hy : (g.rhs r)[pos] with
    | t c =>
      dsimp only
      rw [hy] at hx
      obtain ⟨h1, h2, h3, h4⟩ := in_terminal hg hc hin hx
      refine build_ok hg hc hL n r pos i (k - 1) _ ((nonterms g.rules).length + 1) (by rw [show k - 1 - i = k - i - 1 by omega]; exact h4) (by omega) (.inl rfl) ?_
      have := need_fewer (g := g) (s := k - i) (ρ := ρ) (pos := pos + 1) (s' := k - 1 - i) (ρ' := (nonterms g.rules).length + 1) (pos' := pos) (by omega) (Nat.le_refl _) (by omega)
      omega
    | n a =>
      dsimp only
      rw [hy] at hx hdrop
      have hcand := candidates_some hg hc hL hin hi hx
      cases hcs : candidates g sets r pos i k a with
      | nil => exact absurd hcs hcand
      | cons q others =>
        obtain ⟨r', j⟩ := q
        dsimp only
        obtain ⟨h1, h2, h3, h4, h5, _⟩ := (mem_candidates hg hc).1 (hcs ▸ List.mem_cons_self : (r', j) ∈ candidates g sets r pos i k a)
        have hsn' := sound hg hc k _ h3
        have hsize' := rhs_size hsn'.valid.1
        simp only at hsize'
        have hkids : need g (k - j) (rank g (g.lhs r')) (g.rhs r').length ≤ n := by
          rcases Nat.lt_or_ge i j with hij | hij
          · have := need_fewer (g := g) (s := k - i) (ρ := ρ) (pos := pos + 1) (s' := k - j) (ρ' := rank g (g.lhs r')) (pos' := (g.rhs r').length) (by omega)
              (by have := rank_le (g := g) (g.lhs r'); omega) (by omega)
            omega
          · obtain rfl : i = j := by omega
            have hr : rank g (g.lhs r') < ρ := by
              rcases hρ with rfl | ⟨hnull, rfl⟩
              · have := rank_le (g := g) (g.lhs r')
                omega
              · rw [h4]
                have hpre : ∀ x ∈ (g.rhs r).take pos, Nullable (Prods g.rules) x := by
                  have := (sound hg hc i _ h5).span
                  simp only [Nat.sub_self, Nat.sub_zero] at this
                  exact this.nulls
                have hp := prods_rule (g := g) hsn.valid.1
                rw [rhs_split hx] at hp
                refine rank_lt hg ?_ (.one ⟨_, _, hp, hpre, hnull⟩)
                rw [mem_nonterms]
                refine ⟨g.rules[r]'hsn.valid.1, List.getElem_mem _, .inr ?_⟩
                rw [← rhs_of_lt, ← hy]
                exact List.getElem_mem _
            have := need_less (g := g) (s := k - i) (ρ := ρ) (pos := pos + 1) (s' := k - i) (ρ' := rank g (g.lhs r')) (pos' := (g.rhs r').length) (by omega) (by omega)
            omega
        obtain ⟨kids, amb1, hb1⟩ := build_ok hg hc hL n r' (g.rhs r').length j k [] (rank g (g.lhs r')) h3 h1 (.inr ⟨by simp, rfl⟩) hkids
        rw [hb1]
        dsimp only
        have hrest : ∃ out amb, build g sets n r pos i j (.node r' kids :: acc) = .ok (out, amb) := by
          rcases Nat.lt_or_ge j k with hjk | hjk
          · refine build_ok hg hc hL n r pos i j _ ((nonterms g.rules).length + 1) h5 h2 (.inl rfl) ?_
            have := need_fewer (g := g) (s := k - i) (ρ := ρ) (pos := pos + 1) (s' := j - i) (ρ' := (nonterms g.rules).length + 1) (pos' := pos) (by omega) (Nat.le_refl _) (by omega)
            omega
          · obtain rfl : j = k := by omega
            refine build_ok hg hc hL n r pos i j _ ρ h5 h2 ?_ ?_
            · refine hρ.imp id fun ⟨hnull, e⟩ => ⟨?_, e⟩
              rw [hdrop]
              intro x hx'
              rcases List.mem_cons.1 hx' with rfl | hx'
              · have := (sound hg hc j _ h3).complete hg (by unfold Gram.emptyTail Gram.tail; simp) (by have := in_lt h3; have := hc.short; omega)
                simp only [Nat.sub_self, Nat.sub_zero, h4] at this
                exact this.nulls _ (by simp)
              · exact hnull x hx'
            · unfold need at hn ⊢
              omega
        obtain ⟨out, amb2, hb2⟩ := hrest
        rw [hb2]
        exact ⟨_, _, rfl⟩

/-! ## One tree -/

/-- Where a rule began, it is there with the dot at its beginning. -/
theorem in_begin (hg : Proper g start) (hc : Chart g w sets) {k r pos m : Nat} (h : In sets k (⟨r, pos⟩, m)) : In sets (k - m) (⟨r, 0⟩, 0) := by
  have hsn := sound hg hc k _ h
  rcases hsn.why with ⟨h0, ha⟩ | ⟨q, hq, hn⟩
  · simp only at h0 ha
    rw [h0]
    have hpos : 0 < sets.length := List.length_pos_iff.2 hc.ne
    have hs : sets[0]? = some (sets[0]) := List.getElem?_eq_getElem hpos
    refine ⟨_, hs, (hc.ok 0 _ hs).mem_started ?_⟩
    rw [hc.first _ hs]
    exact List.mem_map.2 ⟨r, mem_ruleIds.2 ⟨hsn.valid.1, ha⟩, rfl⟩
  · exact in_rule hc hq hsn.valid.1 hn

/-- Every derivation is taken into account. -/
theorem candidate_of (hg : Proper g start) (hc : Chart g w sets) (hL : Lossless g w) {r pos i k k'' : Nat} (hin : In sets k (⟨r, pos + 1⟩, k - i)) (hi : i ≤ k) {a : List Byte}
    (hn : g.next ⟨r, pos⟩ = some (.n a)) (hrest : Span g w ((g.rhs r).drop (pos + 1)) k k'') (hf : Fol g w (g.lhs r) k'') {r' j : Nat}
    (hs : Span g w ((g.rhs r).take pos) i j) (hr' : r' < g.rules.length) (ha : g.lhs r' = a) (hs' : Span g w (g.rhs r') j k) : (r', j) ∈ candidates g sets r pos i k a := by
  subst ha
  have hk := in_lt hin
  have hjk := hs'.le
  have hlen : pos < (g.rhs r).length := (List.getElem?_eq_some_iff.1 hn).1
  have hb : In sets i (⟨r, 0⟩, 0) := by
    have := in_begin hg hc hin
    rwa [show k - (k - i) = i by omega] at this
  have hdrop : (g.rhs r).drop pos = .n (g.lhs r') :: (g.rhs r).drop (pos + 1) := next_tail (d := ⟨r, pos⟩) hn
  have h1 := (walk hg hc hL hs r 0 0 ((g.rhs r).drop pos) k'' hb (by rw [List.drop_zero, List.take_append_drop])
    (by rw [hdrop]; exact .node r' _ j k k'' hr' hs' hrest) hf (by omega)).1
  rw [Nat.zero_add, Nat.zero_add, List.length_take, Nat.min_eq_left (by omega)] at h1
  have hrv := in_valid hg hc hin
  have hfol : Fol g w (g.lhs r') k := fol_of (r := r) hrv (rhs_split hn) hrest hf
  have h2 := (walk hg hc hL hs' r' 0 0 [] k (in_rule hc h1 hr' hn) (by simp) (.nil k) hfol hk).1
  rw [Nat.zero_add, Nat.zero_add] at h2
  exact (mem_candidates hg hc).2 ⟨hjk, hs.le, h2, rfl, h1, hn⟩

/-- If nothing was found ambiguous there is no other derivation. -/
theorem build_unique (hg : Proper g start) (hc : Chart g w sets) (hL : Lossless g w) : ∀ (n r pos i k : Nat) (acc out : List PT) (k'' : Nat), In sets k (⟨r, pos⟩, k - i) → i ≤ k →
    Span g w ((g.rhs r).drop pos) k k'' → Fol g w (g.lhs r) k'' →
    build g sets n r pos i k acc = .ok (out, false) → ∀ ts, TSpan g w ((g.rhs r).take pos) ts i k → out = ts ++ acc
  | 0, r, pos, i, k, acc, out, k'', hin, hi, hsp, hf, h => by
    simp [build] at h
  | n + 1, r, 0, i, k, acc, out, k'', hin, hi, hsp, hf, h => by
    simp only [build, Except.ok.injEq, Prod.mk.injEq] at h
    intro ts ht
    rw [List.take_zero] at ht
    cases ht
    exact h.1.symm
  | n + 1, r, pos + 1, i, k, acc, out, k'', hin, hi, hsp, hf, h => by
    intro ts ht
    unfold build at h
    cases hx : (g.rhs r)[pos]? with
    | none => rw [hx] at h; cases h
    | some x =>
      rw [hx] at h
      have hn : g.next ⟨r, pos⟩ = some x := hx
      have htake : (g.rhs r).take (pos + 1) = (g.rhs r).take pos ++ [x] := take_succ_next hn
      have hdrop : (g.rhs r).drop pos = x :: (g.rhs r).drop (pos + 1) := next_tail (d := ⟨r, pos⟩) hn
      rw [htake] at ht
      obtain ⟨ta, tb, j', rfl, hta, htb⟩ := ht.split
      cases x with
      | t c =>
        dsimp only at h
        obtain ⟨h1, h2, h3, h4⟩ := in_terminal hg hc hin hn
        obtain ⟨h5, h6, rfl⟩ := htb.single_t
        obtain rfl : j' = k - 1 := by omega
        have := build_unique hg hc hL n r pos i (k - 1) _ _ k'' (by rw [show k - 1 - i = k - i - 1 by omega]; exact h4) (by omega)
          (by rw [hdrop]; exact .term c _ _ _ h3 (by rw [show k - 1 + 1 = k by omega]; exact hsp)) hf h ta hta
        simp [this]
      | n a =>
        dsimp only at h
        obtain ⟨r'', kids'', hr'', ha'', hk'', rfl⟩ := htb.single_n
        have hmem := candidate_of hg hc hL hin hi hn hsp hf hta.span hr'' ha'' hk''.span
        cases hcand : candidates g sets r pos i k a with
        | nil => rw [hcand] at h; cases h
        | cons q others =>
          obtain ⟨r', j⟩ := q
          rw [hcand] at h hmem
          dsimp only at h
          cases hb : build g sets n r' (g.rhs r').length j k [] with
          | error e => rw [hb] at h; cases h
          | ok res =>
            obtain ⟨kids, amb1⟩ := res
            rw [hb] at h
            dsimp only at h
            cases hb2 : build g sets n r pos i j (.node r' kids :: acc) with
            | error e => rw [hb2] at h; cases h
            | ok res2 =>
              obtain ⟨out2, amb2⟩ := res2
              rw [hb2] at h
              simp only [Except.ok.injEq, Prod.mk.injEq, Bool.or_eq_false_iff] at h
              obtain ⟨rfl, ⟨rfl, rfl⟩, hoth⟩ := h
              obtain rfl : others = [] := by simpa using hoth
              obtain ⟨h1, h2, h3, h4, h5, _⟩ := (mem_candidates hg hc).1 (hcand ▸ List.mem_cons_self : (r', j) ∈ candidates g sets r pos i k a)
              rw [List.mem_singleton, Prod.mk.injEq] at hmem
              obtain ⟨rfl, rfl⟩ := hmem
              have hfol : Fol g w (g.lhs r'') k := by
                rw [ha'']
                exact fol_of (r := r) (in_valid hg hc hin) (rhs_split hn) hsp hf
              have e1 := build_unique hg hc hL n r'' _ j' k [] _ k h3 h1 (by rw [List.drop_length]; exact .nil k) hfol hb kids'' (by rw [List.take_length]; exact hk'')
              rw [List.append_nil] at e1
              subst e1
              have e2 := build_unique hg hc hL n r pos i j' _ _ k'' h5 h2 (by rw [hdrop, ← ha'']; exact .node r'' _ j' k k'' hr'' hk''.span hsp) hf hb2 ta hta
              simp [e2]

end Xmq.Yaep
