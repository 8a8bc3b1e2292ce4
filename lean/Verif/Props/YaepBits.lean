import Verif.Spec.YaepBits
/-!
# C93: the sets of the Earley parser are sets
-/
namespace Xmq.Props

open Xmq Xmq.Yaep Xmq.Spec

/-! ## Words -/

theorem bitOf_get (num j : Nat) (hj : j < 64) : (bitOf num).getLsbD j = decide (j = num % 64) := by
  have hk : num % 64 < 64 := Nat.mod_lt _ (by omega)
  unfold bitOf
  rw [BitVec.getLsbD_shiftLeft]
  show (decide (j < 64) && !decide (j < num % 64) && BitVec.getLsbD 1#64 (j - num % 64)) = _
  by_cases h : j = num % 64
  · subst h; simp [hk]
  · by_cases h2 : j < num % 64
    · simp [h, h2]
    · have : j - num % 64 ≠ 0 := by omega
      simp [h, h2, BitVec.getLsbD_one, this]

theorem word_ne_zero (w : Word) : w ≠ 0#64 ↔ ∃ j, j < 64 ∧ w.getLsbD j = true := by
  constructor
  · intro h
    refine Classical.byContradiction fun hn => h ?_
    apply BitVec.eq_of_getLsbD_eq
    intro i hi
    cases hc : w.getLsbD i with
    | false => simp
    | true => exact absurd ⟨i, hi, hc⟩ hn
  · rintro ⟨j, _, hj⟩ e
    rw [e] at hj
    simp at hj

theorem word_test (w : Word) (num : Nat) : w &&& bitOf num ≠ 0#64 ↔ w.getLsbD (num % 64) = true := by
  have hk : num % 64 < 64 := Nat.mod_lt _ (by omega)
  rw [word_ne_zero]
  constructor
  · rintro ⟨j, hj, h⟩
    rw [BitVec.getLsbD_and, bitOf_get num j hj] at h
    simp at h
    rw [← h.2]; exact h.1
  · intro h
    exact ⟨num % 64, hk, by rw [BitVec.getLsbD_and, bitOf_get num _ hk]; simp [h]⟩

theorem word_or_changed (a b : Word) : a ||| b ≠ a ↔ ∃ j, j < 64 ∧ b.getLsbD j = true ∧ a.getLsbD j = false := by
  constructor
  · intro h
    refine Classical.byContradiction fun hn => h ?_
    apply BitVec.eq_of_getLsbD_eq
    intro i hi
    rw [BitVec.getLsbD_or]
    cases hb : b.getLsbD i with
    | false => simp
    | true =>
      cases ha : a.getLsbD i with
      | true => rfl
      | false => exact absurd ⟨i, hi, hb, ha⟩ hn
  · rintro ⟨j, _, hb, ha⟩ e
    have := congrArg (fun w : Word => w.getLsbD j) e
    simp [BitVec.getLsbD_or, hb, ha] at this

/-! ## Sets of words -/

/-- The number is in the set. -/
def hasBit (l : List Word) (i : Nat) : Prop := ∃ w, l[i / 64]? = some w ∧ w.getLsbD (i % 64) = true

/-- The words stand for the set, and no bit beyond the bound is set. -/
structure StandsFor64 (n : Nat) (l : List Word) (s : Nat → Prop) : Prop where
  length : l.length = numElements n
  has : ∀ i, hasBit l i ↔ s i
  below : ∀ i, s i → i < n

theorem word_of_bound (n num : Nat) (h : num < n) : num / 64 < numElements n := by
  unfold numElements
  omega

theorem stands_clear (n : Nat) : StandsFor64 n (bitsClear n) fun _ => False := by
  refine ⟨by simp [bitsClear], fun i => ⟨?_, fun h => h.elim⟩, fun i h => h.elim⟩
  rintro ⟨w, hw, hb⟩
  have := (List.mem_replicate.1 (List.mem_of_getElem? hw)).2
  rw [this] at hb
  simp at hb

theorem hasBit_set (l : List Word) (num : Nat) (v : Word) (hlt : num / 64 < l.length) (i : Nat) :
    hasBit (l.set (num / 64) v) i ↔ (i / 64 = num / 64 ∧ v.getLsbD (i % 64) = true) ∨ (i / 64 ≠ num / 64 ∧ hasBit l i) := by
  unfold hasBit
  rw [List.getElem?_set]
  by_cases h : num / 64 = i / 64
  · rw [if_pos h, if_pos hlt]
    simp [h]
  · rw [if_neg h]
    simp [Ne.symm h]

theorem div_mod_eq (i j : Nat) (h1 : i / 64 = j / 64) (h2 : i % 64 = j % 64) : i = j := by omega

theorem bitsUp_spec (n : Nat) (l : List Word) (s : Nat → Prop) (S : StandsFor64 n l s) (num : Nat) (h : num < n) :
    ∃ l' b, bitsUp n l num = some (l', b) ∧ StandsFor64 n l' (fun i => s i ∨ i = num) ∧ (b = true ↔ ¬ s num) := by
  have hlt : num / 64 < l.length := by rw [S.length]; exact word_of_bound n num h
  have hw := List.getElem?_eq_getElem hlt
  have hk : ∀ i, i % 64 < 64 := fun i => Nat.mod_lt _ (by omega)
  have hs : s num ↔ l[num / 64].getLsbD (num % 64) = true := by
    rw [← S.has]
    unfold hasBit
    rw [hw]
    simp
  refine ⟨l.set (num / 64) (l[num / 64] ||| bitOf num), if l[num / 64] &&& bitOf num ≠ 0#64 then false else true,
    by unfold bitsUp; rw [if_pos h]; simp only [Nat.reduceMul, hw], ⟨by simp [S.length], fun i => ?_, ?_⟩, ?_⟩
  · rw [hasBit_set l num _ hlt, BitVec.getLsbD_or, bitOf_get num _ (hk i)]
    by_cases h1 : i / 64 = num / 64
    · have hi : hasBit l i ↔ l[num / 64].getLsbD (i % 64) = true := by
        unfold hasBit
        rw [h1, hw]
        simp
      rw [← S.has i, hi]
      simp only [h1, true_and, ne_eq, not_true_eq_false, false_and, or_false, Bool.or_eq_true, decide_eq_true_eq]
      constructor
      · rintro (h2 | h2)
        · exact Or.inl h2
        · exact Or.inr (div_mod_eq _ _ h1 h2)
      · rintro (h2 | h2)
        · exact Or.inl h2
        · exact Or.inr (by rw [h2])
    · have : i ≠ num := fun e => h1 (by rw [e])
      simp [h1, this, S.has i]
  · rintro i (hi | hi)
    · exact S.below i hi
    · omega
  · rw [hs]
    by_cases hc : l[num / 64] &&& bitOf num ≠ 0#64
    · rw [if_pos hc]
      simp [(word_test _ _).1 hc]
    · rw [if_neg hc]
      simp only [true_iff]
      exact fun h => hc ((word_test _ _).2 h)

theorem bitsDown_spec (n : Nat) (l : List Word) (s : Nat → Prop) (S : StandsFor64 n l s) (num : Nat) (h : num < n) :
    ∃ l' b, bitsDown n l num = some (l', b) ∧ StandsFor64 n l' (fun i => s i ∧ i ≠ num) ∧ (b = true ↔ s num) := by
  have hlt : num / 64 < l.length := by rw [S.length]; exact word_of_bound n num h
  have hw := List.getElem?_eq_getElem hlt
  have hk : ∀ i, i % 64 < 64 := fun i => Nat.mod_lt _ (by omega)
  have hs : s num ↔ l[num / 64].getLsbD (num % 64) = true := by
    rw [← S.has]
    unfold hasBit
    rw [hw]
    simp
  refine ⟨l.set (num / 64) (l[num / 64] &&& ~~~ bitOf num), if l[num / 64] &&& bitOf num ≠ 0#64 then true else false,
    by unfold bitsDown; rw [if_pos h]; simp only [Nat.reduceMul, hw], ⟨by simp [S.length], fun i => ?_, ?_⟩, ?_⟩
  · rw [hasBit_set l num _ hlt, BitVec.getLsbD_and, BitVec.getLsbD_not, bitOf_get num _ (hk i)]
    by_cases h1 : i / 64 = num / 64
    · have hi : hasBit l i ↔ l[num / 64].getLsbD (i % 64) = true := by
        unfold hasBit
        rw [h1, hw]
        simp
      rw [← S.has i, hi]
      simp only [h1, true_and, ne_eq, not_true_eq_false, false_and, or_false, Bool.and_eq_true, decide_eq_true_eq, hk i,
        Bool.not_eq_true', decide_eq_false_iff_not, decide_true]
      constructor
      · rintro ⟨h2, h3⟩
        exact ⟨h2, fun e => h3 (by rw [e])⟩
      · rintro ⟨h2, h3⟩
        exact ⟨h2, fun e => h3 (div_mod_eq _ _ h1 e)⟩
    · have : i ≠ num := fun e => h1 (by rw [e])
      simp [h1, this, S.has i]
  · rintro i ⟨hi, _⟩
    exact S.below i hi
  · rw [hs]
    by_cases hc : l[num / 64] &&& bitOf num ≠ 0#64
    · rw [if_pos hc]
      simp [(word_test _ _).1 hc]
    · rw [if_neg hc]
      simp only [Bool.false_eq_true, false_iff]
      exact fun h => hc ((word_test _ _).2 h)

theorem bitsTest_spec (n : Nat) (l : List Word) (s : Nat → Prop) (S : StandsFor64 n l s) (num : Nat) (h : num < n) :
    ∃ b, bitsTest n l num = some b ∧ (b = true ↔ s num) := by
  have hlt : num / 64 < l.length := by rw [S.length]; exact word_of_bound n num h
  have hw := List.getElem?_eq_getElem hlt
  refine ⟨_, by unfold bitsTest; rw [if_pos h]; simp only [Nat.reduceMul, hw]; rfl, ?_⟩
  rw [decide_eq_true_eq, word_test, ← S.has]
  unfold hasBit
  rw [hw]
  simp

theorem bitsOrLoop_spec (k : Nat) (a b : List Word) (ha : a.length = k) (hb : b.length = k) :
    ∃ l c, bitsOrLoop k a b = some (l, c) ∧ l.length = k ∧ (∀ i, hasBit l i ↔ hasBit a i ∨ hasBit b i) ∧
      (c = true ↔ ∃ i, hasBit b i ∧ ¬ hasBit a i) := by
  induction k generalizing a b with
  | zero =>
    have ea : a = [] := List.length_eq_zero_iff.1 ha
    have eb : b = [] := List.length_eq_zero_iff.1 hb
    subst ea eb
    exact ⟨[], false, rfl, rfl, by simp [hasBit], by simp [hasBit]⟩
  | succ k ih =>
    cases a with
    | nil => simp at ha
    | cons x a => cases b with
      | nil => simp at hb
      | cons y b =>
        obtain ⟨l, c, h1, h2, h3, h4⟩ := ih a b (by simpa using ha) (by simpa using hb)
        have step : ∀ (z : Word) (t : List Word) (i : Nat), hasBit (z :: t) i ↔
            (i < 64 ∧ z.getLsbD i = true) ∨ (64 ≤ i ∧ hasBit t (i - 64)) := by
          intro z t i
          unfold hasBit
          by_cases hi : i < 64
          · have e1 : i / 64 = 0 := by omega
            have e2 : i % 64 = i := by omega
            have e3 : ¬ 64 ≤ i := by omega
            rw [e1, e2]
            simp [hi, e3]
          · have e1 : i / 64 = (i - 64) / 64 + 1 := by omega
            have e2 : i % 64 = (i - 64) % 64 := by omega
            have e3 : 64 ≤ i := by omega
            rw [e1, e2]
            simp [hi, e3]
        refine ⟨(x ||| y) :: l, decide ((x ||| y) ≠ x) || c, by unfold bitsOrLoop; rw [h1]; rfl, by simp [h2], fun i => ?_, ?_⟩
        · rw [step, step, step, BitVec.getLsbD_or, Bool.or_eq_true]
          by_cases hi : i < 64
          · have e3 : ¬ 64 ≤ i := by omega
            simp [hi, e3]
          · have e3 : 64 ≤ i := by omega
            simp [hi, e3, h3]
        · rw [Bool.or_eq_true, decide_eq_true_eq, word_or_changed, h4]
          constructor
          · rintro (⟨j, hj, hy, hx⟩ | ⟨i, hi, hn⟩)
            · refine ⟨j, (step y b j).2 (Or.inl ⟨hj, hy⟩), fun h => ?_⟩
              rcases (step x a j).1 h with ⟨_, h⟩ | ⟨h, _⟩
              · rw [hx] at h; cases h
              · omega
            · refine ⟨i + 64, (step y b _).2 (Or.inr ⟨by omega, by simpa using hi⟩), fun h => ?_⟩
              rcases (step x a _).1 h with ⟨h, _⟩ | ⟨_, h⟩
              · omega
              · exact hn (by simpa using h)
          · rintro ⟨i, hi, hn⟩
            rcases (step y b i).1 hi with ⟨hl, hy⟩ | ⟨hl, hy⟩
            · left
              refine ⟨i, hl, hy, ?_⟩
              cases hx : x.getLsbD i with
              | false => rfl
              | true => exact absurd ((step x a i).2 (Or.inl ⟨hl, hx⟩)) hn
            · right
              exact ⟨i - 64, hy, fun h => hn ((step x a i).2 (Or.inr ⟨hl, h⟩))⟩

theorem bitsOr_spec (n : Nat) (a b : List Word) (s t : Nat → Prop) (S : StandsFor64 n a s) (T : StandsFor64 n b t) :
    ∃ l c, bitsOr n a b = some (l, c) ∧ StandsFor64 n l (fun i => s i ∨ t i) ∧ (c = true ↔ ∃ i, i < n ∧ t i ∧ ¬ s i) := by
  obtain ⟨l, c, h1, h2, h3, h4⟩ := bitsOrLoop_spec (numElements n) a b S.length T.length
  refine ⟨l, c, h1, ⟨h2, fun i => by rw [h3, S.has, T.has], ?_⟩, ?_⟩
  · rintro i (h | h)
    · exact S.below i h
    · exact T.below i h
  · rw [h4]
    constructor
    · rintro ⟨i, hi, hn⟩
      rw [T.has] at hi
      rw [S.has] at hn
      exact ⟨i, T.below i hi, hi, hn⟩
    · rintro ⟨i, _, hi, hn⟩
      exact ⟨i, (T.has i).2 hi, fun h => hn ((S.has i).1 h)⟩

theorem stands_put {n : Nat} {f : Nat → List Word} {g : Nat → Nat → Prop} (H : ∀ r, StandsFor64 n (f r) (g r)) (r : Nat)
    {l : List Word} {s : Nat → Prop} (h : StandsFor64 n l s) : ∀ q, StandsFor64 n (putSet f r l q) (putSet g r s q) := by
  intro q
  unfold putSet
  by_cases e : q = r
  · simp only [e, if_true]; exact h
  · simp only [e, if_false]; exact H q

theorem bstep_spec (n : Nat) (f : Nat → List Word) (g : Nat → Nat → Prop) (H : ∀ r, StandsFor64 n (f r) (g r)) (op : BOp)
    (hf : ∀ r, op ≠ .fill r) (hb : BelowBound n [op]) :
    ∃ f' b, bstep n f op = some (f', b) ∧ (∀ r, StandsFor64 n (f' r) (bitsAfter n g op r)) ∧ (b = true ↔ bitsAnswer n g op) := by
  cases op with
  | clear r => exact ⟨_, false, rfl, stands_put H r (stands_clear n), by simp [bitsAnswer]⟩
  | fill r => exact absurd rfl (hf r)
  | copy r s =>
    have e : bitsCopy n (f s) = some (f s) := by
      unfold bitsCopy
      rw [if_neg (by rw [(H s).length]; omega), List.take_of_length_le (by rw [(H s).length]; exact Nat.le_refl _)]
    exact ⟨_, false, by simp only [bstep, e, Option.map_some], stands_put H r (H s), by simp [bitsAnswer]⟩
  | or r s =>
    obtain ⟨l, c, h1, h2, h3⟩ := bitsOr_spec n _ _ _ _ (H r) (H s)
    exact ⟨_, c, by simp only [bstep, h1, Option.map_some], stands_put H r h2, h3⟩
  | up r num =>
    obtain ⟨l, c, h1, h2, h3⟩ := bitsUp_spec n _ _ (H r) num (hb r num (by simp))
    exact ⟨_, c, by simp only [bstep, h1, Option.map_some], stands_put H r h2, h3⟩
  | down r num =>
    obtain ⟨l, c, h1, h2, h3⟩ := bitsDown_spec n _ _ (H r) num (hb r num (by simp))
    exact ⟨_, c, by simp only [bstep, h1, Option.map_some], stands_put H r h2, h3⟩
  | test r num =>
    obtain ⟨c, h1, h3⟩ := bitsTest_spec n _ _ (H r) num (hb r num (by simp))
    exact ⟨_, c, by simp only [bstep, h1, Option.map_some], H, h3⟩

theorem brun_spec (n : Nat) (ops : List BOp) (f : Nat → List Word) (g : Nat → Nat → Prop) (H : ∀ r, StandsFor64 n (f r) (g r))
    (hf : ∀ r, BOp.fill r ∉ ops) (hb : BelowBound n ops) : brun n f ops = some (bitsAnswers n g ops) := by
  induction ops generalizing f g with
  | nil => rfl
  | cons op ops ih =>
    obtain ⟨f', b, h1, h2, h3⟩ := bstep_spec n f g H op (fun r e => hf r (by rw [e]; exact List.mem_cons_self)) (by
      intro r num h
      refine hb r num ?_
      simp only [List.mem_singleton] at h
      rcases h with h | h | h <;> simp [h])
    have hb' : BelowBound n ops := by
      intro r num h
      refine hb r num ?_
      rcases h with h | h | h <;> simp [h]
    unfold brun
    rw [h1]
    simp only [ih f' _ h2 (fun r hr => hf r (List.mem_cons_of_mem _ hr)) hb', bitsAnswers]
    simp only [Option.map_some, Option.some.injEq, List.cons.injEq, and_true]
    cases b with
    | true => exact (@decide_eq_true _ (Classical.propDecidable _) (h3.1 rfl)).symm
    | false => exact (@decide_eq_false _ (Classical.propDecidable _) fun h => by have := h3.2 h; cases this).symm

/-- **C93.** Sets of terminals, for any number of terminals, any number of sets and any sequence of uses: they answer
like sets.  (All but `terminal_bitset_fill`, which is never called.) -/
theorem C93_terminals (n : Nat) (ops : List BOp) (hf : ∀ r, BOp.fill r ∉ ops) (hb : BelowBound n ops) :
    brun n (fun _ => bitsClear n) ops = some (bitsAnswers n (fun _ _ => False) ops) :=
  brun_spec n ops _ _ (fun _ => stands_clear n) hf hb

/-- Also with `terminal_bitset_fill`. -/
def FillIsSet : Prop :=
  ∀ n ops, BelowBound n ops → brun n (fun _ => bitsClear n) ops = some (bitsAnswers n (fun _ _ => False) ops)

/-- It sets bits behind the last terminal: a set is said to be changed that is not. -/
theorem C93_fill_false : ¬ FillIsSet := by
  intro h
  have := h 1 [.up 0 0, .fill 1, .or 0 1] (by
    intro r num hh
    simp at hh
    omega)
  have e : brun 1 (fun _ => bitsClear 1) [.up 0 0, .fill 1, .or 0 1] = some [true, false, true] := by decide +kernel
  rw [e] at this
  simp [bitsAnswers, bitsAnswer, bitsAfter, putSet] at this

/-! ## Items with lengths -/

/-- The generation of a pair. -/
def genOf (t : ItemSet) (p : Nat × Nat) : Nat := ((t.vec[p.1]?.getD [])[p.2]?).getD 0

theorem growTo_get {β : Type} (d : β) (i : Nat) (l : List β) (j : Nat) : (growTo d i l)[j]?.getD d = l[j]?.getD d := by
  unfold growTo
  split
  · by_cases hj : j < l.length
    · rw [List.getElem?_append_left hj]
    · rw [List.getElem?_append_right (by omega), List.getElem?_replicate, List.getElem?_eq_none (by omega : l.length ≤ j)]
      split <;> rfl
  · rfl

theorem growTo_length {β : Type} (d : β) (i : Nat) (l : List β) : i < (growTo d i l).length := by
  unfold growTo
  split
  · rw [List.length_append, List.length_replicate]; omega
  · omega

theorem getD_set {β : Type} (l : List β) (i j : Nat) (v d : β) (h : i < l.length) :
    (l.set i v)[j]?.getD d = if i = j then v else l[j]?.getD d := by
  rw [List.getElem?_set]
  by_cases e : i = j
  · subst e; simp [h]
  · simp [e]

theorem testAndSet_spec (t : ItemSet) (id dist : Nat) :
    ((itemsTestAndSet t id dist).2 = true ↔ genOf t (id, dist) = t.generation) ∧
    (itemsTestAndSet t id dist).1.generation = t.generation ∧
    ∀ p, genOf (itemsTestAndSet t id dist).1 p = if p = (id, dist) then t.generation else genOf t p := by
  have hv := growTo_length ([] : List Nat) id t.vec
  have hl := growTo_length 0 dist ((growTo [] id t.vec)[id]?.getD [])
  have hlens : (growTo 0 dist ((growTo [] id t.vec)[id]?.getD []))[dist]?.getD 0 = genOf t (id, dist) := by
    rw [growTo_get, growTo_get]
    rfl
  have other : ∀ p : Nat × Nat, ((growTo [] id t.vec)[p.1]?.getD [])[p.2]?.getD 0 = genOf t p := by
    intro p
    rw [growTo_get]
    rfl
  unfold itemsTestAndSet
  dsimp only
  by_cases hc : (growTo 0 dist ((growTo [] id t.vec)[id]?.getD []))[dist]?.getD 0 = t.generation
  · rw [if_pos hc]
    rw [hlens] at hc
    refine ⟨by simp [hc], rfl, fun p => ?_⟩
    unfold genOf
    dsimp only
    rw [getD_set _ _ _ _ _ hv]
    by_cases e1 : id = p.1
    · rw [if_pos e1, growTo_get, show ((growTo [] id t.vec)[id]?.getD [])[p.2]?.getD 0 = genOf t p by rw [← other p, ← e1]]
      by_cases e : p = (id, dist)
      · rw [if_pos e, e]; exact hc
      · rw [if_neg e]; rfl
    · rw [if_neg e1, if_neg (fun e => e1 (by rw [e])), other]
      rfl
  · rw [if_neg hc]
    rw [hlens] at hc
    refine ⟨by simp [hc], rfl, fun p => ?_⟩
    unfold genOf
    dsimp only
    rw [List.set_set, getD_set _ _ _ _ _ hv]
    by_cases e1 : id = p.1
    · rw [if_pos e1, getD_set _ _ _ _ _ hl]
      by_cases e2 : dist = p.2
      · rw [if_pos e2, if_pos (by rw [e1, e2])]
      · rw [if_neg e2, if_neg (fun e => e2 (by rw [e])), growTo_get,
          show ((growTo [] id t.vec)[id]?.getD [])[p.2]?.getD 0 = genOf t p by rw [← other p, ← e1]]
        rfl
    · rw [if_neg e1, if_neg (fun e => e1 (by rw [e])), other]
      rfl

theorem itemsRun_spec (ops : List (Option (Nat × Nat))) (t : ItemSet) (s : List (Nat × Nat)) (hpos : 0 < t.generation)
    (hle : ∀ p, genOf t p ≤ t.generation) (hs : ∀ p, genOf t p = t.generation ↔ p ∈ s) :
    itemsRun t ops = itemsAnswers s ops := by
  induction ops generalizing t s with
  | nil => rfl
  | cons op ops ih =>
    cases op with
    | none =>
      unfold itemsRun itemsAnswers
      refine ih (itemsClear t) [] (by show 0 < t.generation + 1; omega) (fun p => ?_) (fun p => ?_)
      · have := hle p
        show genOf t p ≤ t.generation + 1
        omega
      · have := hle p
        simp only [List.not_mem_nil, iff_false]
        show ¬ genOf t p = t.generation + 1
        omega
    | some p =>
      obtain ⟨h1, h2, h3⟩ := testAndSet_spec t p.1 p.2
      unfold itemsRun itemsAnswers
      rw [ih (itemsTestAndSet t p.1 p.2).1 (p :: s) (by rw [h2]; exact hpos) (fun q => ?_) (fun q => ?_)]
      · congr 1
        rw [hs] at h1
        by_cases hp : p ∈ s
        · rw [h1.2 hp]; simp [hp]
        · have : (itemsTestAndSet t p.1 p.2).2 = false := by
            cases hb : (itemsTestAndSet t p.1 p.2).2 with
            | false => rfl
            | true => exact absurd (h1.1 hb) hp
          rw [this]; simp [hp]
      · rw [h3, h2]
        split
        · exact Nat.le_refl _
        · exact hle q
      · rw [h3, h2]
        by_cases e : q = (p.1, p.2)
        · simp [e]
        · rw [if_neg e, hs]
          have : q ≠ p := fun h => e (by rw [h])
          simp [this]

/-- **C93.** Cleared at least once, as it is before each use, the set of items answers for every sequence of
insertions whether the pair is in it. -/
theorem C93_items (ops : List (Option (Nat × Nat))) :
    itemsRun itemsInit (none :: ops) = itemsAnswers [] ops := by
  unfold itemsRun
  refine itemsRun_spec ops (itemsClear itemsInit) [] (by decide) (fun p => ?_) (fun p => ?_)
  · have : genOf (itemsClear itemsInit) p = 0 := by simp [genOf, itemsClear, itemsInit]
    omega
  · have : genOf (itemsClear itemsInit) p = 0 := by simp [genOf, itemsClear, itemsInit]
    rw [this]
    simp [itemsClear, itemsInit]

/-- The new set is empty. -/
def NewItemsEmpty : Prop := ∀ ops, itemsRun itemsInit ops = itemsAnswers [] ops

/-- It has every pair: cells are made with the generation 0, which is the first. -/
theorem C93_new_false : ¬ NewItemsEmpty := by
  intro h
  exact absurd (h [some (0, 0)]) (by decide +kernel)

theorem C93_new (id dist : Nat) : itemsRun itemsInit [some (id, dist)] = [true] := by
  have := (testAndSet_spec itemsInit id dist).1.2 (by simp [genOf, itemsInit])
  unfold itemsRun
  rw [this]
  rfl

example : itemsRun itemsInit [none, some (2, 1), some (0, 3), some (2, 1), none, some (2, 1), some (0, 0), some (0, 0)] =
    [false, false, true, false, false, true] := by decide +kernel
example : brun 70 (fun _ => bitsClear 70) [.up 0 3, .up 0 65, .test 0 65, .test 0 1, .or 1 0, .or 1 0, .down 1 65, .test 1 65, .test 1 3] =
    some [true, true, true, false, true, false, true, false, true] := by decide +kernel
example : BelowBound 70 [.up 0 3, .up 0 65, .test 0 65] := by
  intro r num h
  simp at h
  omega

end Xmq.Props
