import Verif.Lemmas.EarleyNext
import Verif.Lemmas.Cfg
import Verif.Lemmas.YaepFlags
/-!
# All sets of the Earley parser
-/
namespace Xmq.Yaep
open Xmq.Ixml (Sym)
open Xmq.Spec Xmq.Cfg

/-- The grammar has been read, and has the rules of an axiom. -/
structure Proper (g : Gram) (start : List Byte) : Prop where
  empty : ∀ x, g.empty x = true ↔ Nullable (Prods g.rules) x
  look : ∀ lhs xs c, c ∈ lookahead g.flags g.ff lhs xs ↔
    Begins (Prods g.rules) xs (.t c) ∨ (Yields (Prods g.rules) xs [] ∧ Follows (Prods g.rules) (.n lhs) (.t c))
  loops : ∀ x, ¬ Loops (Prods g.rules) x
  zero : g.rules[0]? = some ⟨axiomName, [.n start, .t (-1)]⟩
  ax : ∀ r ρ, g.rules[r]? = some ρ → ρ.lhs = axiomName → r = 0 ∨ ρ.rhs = [.t (-2), .t (-1)]
  own : ∀ ρ ∈ g.rules, ρ.lhs ≠ axiomName → ∀ c, .t c ∈ ρ.rhs → 0 ≤ c
  noax : ∀ ρ ∈ g.rules, .n axiomName ∉ ρ.rhs

/-! ## Parts of the text -/

/-- The symbols derive the tokens from `i` to `j`. -/
inductive Span (g : Gram) (w : List Int) : List Sym → Nat → Nat → Prop
  | nil (i : Nat) : Span g w [] i i
  | term (c : Int) (α : List Sym) (i j : Nat) : w[i]? = some c → Span g w α (i + 1) j → Span g w (.t c :: α) i j
  | node (r : Nat) (α : List Sym) (i j k : Nat) : r < g.rules.length → Span g w (g.rhs r) i j → Span g w α j k → Span g w (.n (g.lhs r) :: α) i k

/-- The rule `r` is expected at `i`. -/
inductive Asked (g : Gram) (w : List Int) : Nat → Nat → Prop
  | start (r : Nat) : r < g.rules.length → g.lhs r = axiomName → Asked g w r 0
  | step (r : Nat) (i : Nat) (α β : List Sym) (r' j : Nat) : Asked g w r i → g.rhs r = α ++ .n (g.lhs r') :: β → r' < g.rules.length → Span g w α i j → Asked g w r' j

variable {g : Gram} {w : List Int} {start : List Byte}

theorem Span.le {α : List Sym} {i j : Nat} (h : Span g w α i j) : i ≤ j := by
  induction h with
  | nil i => exact Nat.le_refl i
  | term c α i j _ _ ih => omega
  | node r α i j k _ _ _ ih1 ih2 => omega

theorem Span.append {α β : List Sym} {i j k : Nat} (h1 : Span g w α i j) (h2 : Span g w β j k) : Span g w (α ++ β) i k := by
  induction h1 with
  | nil i => exact h2
  | term c α i j hc _ ih => exact .term c _ i k hc (ih h2)
  | node r α i j k' hr h _ _ ih2 => exact .node r _ i j k hr h (ih2 h2)

theorem Span.split {β : List Sym} : ∀ {α : List Sym} {i k : Nat}, Span g w (α ++ β) i k → ∃ j, Span g w α i j ∧ Span g w β j k
  | [], i, k, h => ⟨i, .nil i, h⟩
  | x :: α, i, k, h => by
    rw [List.cons_append] at h
    cases h with
    | term c _ _ _ hc h =>
      obtain ⟨j, h1, h2⟩ := Span.split h
      exact ⟨j, .term c α i j hc h1, h2⟩
    | node r _ _ j' _ hr h h' =>
      obtain ⟨j, h1, h2⟩ := Span.split h'
      exact ⟨j, .node r α i j' j hr h h1, h2⟩

theorem Span.single_t {c : Int} {i j : Nat} (h : Span g w [.t c] i j) : w[i]? = some c ∧ j = i + 1 := by
  cases h with
  | term _ _ _ _ hc h =>
    cases h
    exact ⟨hc, rfl⟩

theorem Span.single_n {a : List Byte} {i j : Nat} (h : Span g w [.n a] i j) : ∃ r, r < g.rules.length ∧ g.lhs r = a ∧ Span g w (g.rhs r) i j := by
  cases h with
  | node r _ _ j' _ hr h h' =>
    cases h'
    exact ⟨r, hr, rfl, h⟩

/-- The tokens from `i` to `j` as symbols. -/
def part (w : List Int) (i j : Nat) : List Sym := ((w.drop i).take (j - i)).map Sym.t

theorem part_self (i : Nat) : part w i i = [] := by simp [part]

theorem part_cons {i j : Nat} {c : Int} (h : w[i]? = some c) (hij : i < j) : part w i j = .t c :: part w (i + 1) j := by
  unfold part
  obtain ⟨h1, h2⟩ := List.getElem?_eq_some_iff.1 h
  rw [List.drop_eq_getElem_cons h1, h2, show j - i = (j - (i + 1)) + 1 by omega, List.take_succ_cons]
  rfl

theorem part_append {i j k : Nat} (h1 : i ≤ j) (h2 : j ≤ k) : part w i j ++ part w j k = part w i k := by
  unfold part
  rw [← List.map_append, show k - i = (j - i) + (k - j) by omega, List.take_add, List.drop_drop, show i + (j - i) = j by omega]

theorem prods_rule {r : Nat} (h : r < g.rules.length) : Prods g.rules (.n (g.lhs r)) (g.rhs r) := by
  refine ⟨g.rules[r], List.getElem_mem h, ?_, rhs_of_lt h⟩
  unfold Gram.lhs
  rw [List.getElem?_eq_getElem h]
  rfl

theorem prods_exists {x : Sym} {rhs : List Sym} (h : Prods g.rules x rhs) : ∃ r, r < g.rules.length ∧ x = .n (g.lhs r) ∧ rhs = g.rhs r := by
  obtain ⟨ρ, hρ, rfl, rfl⟩ := h
  obtain ⟨r, hr, rfl⟩ := List.getElem_of_mem hρ
  refine ⟨r, hr, ?_, (rhs_of_lt hr).symm⟩
  unfold Gram.lhs
  rw [List.getElem?_eq_getElem hr]
  rfl

theorem Span.gen {α : List Sym} {i j : Nat} (h : Span g w α i j) : Gen (Prods g.rules) α (part w i j) := by
  induction h with
  | nil i => rw [part_self]; exact .refl []
  | term c α i j hc h ih =>
    rw [part_cons hc (by have := h.le; omega)]
    exact Gen.append (Gen.refl [.t c]) ih
  | node r α i j k hr h1 h2 ih1 ih2 =>
    rw [← part_append h1.le h2.le]
    exact Gen.append (α := [_]) (Gen.head (u := []) (v := []) (prods_rule hr) (by simpa using ih1)) ih2

theorem Span.yields {α : List Sym} {i j : Nat} (h : Span g w α i j) : Yields (Prods g.rules) α (part w i j) := h.gen.yields

theorem Span.nulls {α : List Sym} {i : Nat} (h : Span g w α i i) : ∀ x ∈ α, Nullable (Prods g.rules) x := by
  have := h.yields
  rw [part_self] at this
  exact yields_nil this

theorem part_length {i j : Nat} (hj : j ≤ w.length) : (part w i j).length = j - i := by
  simp [part]
  omega

theorem part_split {i k : Nat} (hik : i ≤ k) (hk : k ≤ w.length) {β γ : List Sym} (h : part w i k = β ++ γ) : ∃ j, i ≤ j ∧ j ≤ k ∧ β = part w i j ∧ γ = part w j k := by
  have hl : β.length + γ.length = k - i := by
    rw [← part_length (w := w) (i := i) hk, h, List.length_append]
  refine ⟨i + β.length, by omega, by omega, ?_⟩
  have h2 := part_append (w := w) (i := i) (j := i + β.length) (k := k) (by omega) (by omega)
  rw [h] at h2
  have h3 := List.append_inj h2 (by rw [part_length (by omega)]; omega)
  exact ⟨h3.1.symm, h3.2.symm⟩

theorem gen_span {α δ : List Sym} (h : Gen (Prods g.rules) α δ) : ∀ i j, i ≤ j → j ≤ w.length → δ = part w i j → Span g w α i j := by
  induction h with
  | nil =>
    intro i j hij hj e
    have := congrArg List.length e
    rw [part_length hj] at this
    simp at this
    obtain rfl : i = j := by omega
    exact .nil i
  | keep x α β h ih =>
    intro i j hij hj e
    have hl := congrArg List.length e
    rw [part_length hj, List.length_cons] at hl
    have hi : i < w.length := by omega
    have hc := part_cons (w := w) (List.getElem?_eq_getElem hi) (show i < j by omega)
    rw [hc] at e
    injection e with e1 e2
    subst e1
    exact .term _ α i j (List.getElem?_eq_getElem hi) (ih (i + 1) j (by omega) hj e2)
  | expand x rhs α β γ hp _ _ ih1 ih2 =>
    intro i j hij hj e
    obtain ⟨k, h1, h2, rfl, rfl⟩ := part_split hij hj e.symm
    obtain ⟨r, hr, rfl, rfl⟩ := prods_exists hp
    exact .node r α i k j hr (ih1 i k h1 (by omega) rfl) (ih2 k j h2 hj rfl)

theorem span_iff {α : List Sym} {i j : Nat} (hij : i ≤ j) (hj : j ≤ w.length) : Span g w α i j ↔ Yields (Prods g.rules) α (part w i j) :=
  ⟨Span.yields, fun h => gen_span (yields_gen h) i j hij hj rfl⟩

theorem span_nulls {α : List Sym} (h : ∀ x ∈ α, Nullable (Prods g.rules) x) {i : Nat} (hi : i ≤ w.length) : Span g w α i i := by
  refine (span_iff (Nat.le_refl i) hi).2 ?_
  rw [part_self]
  exact yields_nulls h

/-! ## The chart -/

/-- The started dotted rules. -/
def SSet.begun (s : SSet) : List Item := s.core.started.zip s.lens

theorem SetOk.begun_eq {l : List Item} {s : SSet} (h : SetOk g l s) : s.begun = l := by
  unfold SSet.begun
  rw [h.started, h.lens, zip_map_fst_snd]

/-- The item is in the set `k`. -/
def In (sets : List SSet) (k : Nat) (p : Item) : Prop := ∃ s, sets[k]? = some s ∧ p ∈ s.items
/-- It is there as a started one. -/
def Begun (sets : List SSet) (k : Nat) (p : Item) : Prop := ∃ s, sets[k]? = some s ∧ p ∈ s.begun
/-- It is there as an initial one. -/
def Initial (sets : List SSet) (k : Nat) (d : Dotted) : Prop := ∃ s, sets[k]? = some s ∧ d ∈ s.core.initial

/-- What all sets have in common. -/
structure Chart (g : Gram) (w : List Int) (sets : List SSet) : Prop where
  ne : sets ≠ []
  short : sets.length ≤ w.length + 1
  ok : ∀ (k : Nat) (s : SSet), sets[k]? = some s → SetOk g s.begun s
  nodup : ∀ (k : Nat) (s : SSet), sets[k]? = some s → s.begun.Nodup
  first : ∀ s, sets[0]? = some s → s.begun = (g.ruleIds axiomName).map fun r => (⟨r, 0⟩, 0)
  scan : ∀ k p c, k + 1 < sets.length → In sets k p → w[k]? = some c → g.next p.1 = some (.t c) → admits g w[k + 1]? p.1.succ = true → Begun sets (k + 1) (p.over 1)
  comp : ∀ k q p, Begun sets (k + 1) q → g.emptyTail q.1 = true → q.2 ≠ 0 ∧ q.2 ≤ k + 1 ∧
    (In sets (k + 1 - q.2) p → g.next p.1 = some (.n (g.lhs q.1.rule)) → admits g w[k + 1]? p.1.succ = true → Begun sets (k + 1) (p.over q.2))
  induct : ∀ k (Q : Item → Prop), (∀ p c, In sets k p → w[k]? = some c → g.next p.1 = some (.t c) → admits g w[k + 1]? p.1.succ = true → Q (p.over 1)) →
    (∀ q p, Begun sets (k + 1) q → Q q → g.emptyTail q.1 = true → q.2 ≠ 0 → q.2 ≤ k + 1 → In sets (k + 1 - q.2) p → g.next p.1 = some (.n (g.lhs q.1.rule)) →
      admits g w[k + 1]? p.1.succ = true → Q (p.over q.2)) → ∀ p, Begun sets (k + 1) p → Q p

theorem in_append {sets : List SSet} {s : SSet} {k : Nat} {p : Item} (h : k < sets.length) : In (sets ++ [s]) k p ↔ In sets k p := by
  unfold In
  rw [List.getElem?_append_left h]

theorem begun_append {sets : List SSet} {s : SSet} {k : Nat} {p : Item} (h : k < sets.length) : Begun (sets ++ [s]) k p ↔ Begun sets k p := by
  unfold Begun
  rw [List.getElem?_append_left h]

theorem begun_last {sets : List SSet} {s : SSet} {p : Item} : Begun (sets ++ [s]) sets.length p ↔ p ∈ s.begun := by
  unfold Begun
  simp

theorem in_lt {sets : List SSet} {k : Nat} {p : Item} (h : In sets k p) : k < sets.length := by
  obtain ⟨s, hs, _⟩ := h
  exact (List.getElem?_eq_some_iff.1 hs).1

theorem begun_lt {sets : List SSet} {k : Nat} {p : Item} (h : Begun sets k p) : k < sets.length := by
  obtain ⟨s, hs, _⟩ := h
  exact (List.getElem?_eq_some_iff.1 hs).1

/-- The chart of the first set. -/
theorem chart_start : ∃ s, startSet g = .ok s ∧ Chart g w [s] := by
  obtain ⟨s, h1, h2⟩ := makeSet_ok g ((g.ruleIds axiomName).map fun r => (⟨r, 0⟩, 0))
  have hb := h2.begun_eq
  refine ⟨s, h1, ⟨by simp, by simp, ?_, ?_, ?_, ?_, ?_, ?_⟩⟩
  · intro k s' h
    cases k with
    | zero =>
      obtain rfl : s = s' := by simpa using h
      rw [hb]
      exact h2
    | succ k => simp at h
  · intro k s' h
    cases k with
    | zero =>
      obtain rfl : s = s' := by simpa using h
      rw [hb]
      have h3 : (g.ruleIds axiomName).Nodup := 
        List.pairwise_reverse.2 (List.Pairwise.imp (fun h => Ne.symm h) (List.nodup_range.filter _))
      refine List.pairwise_map.2 (List.Pairwise.imp ?_ h3)
      intro a b hab e
      cases e
      exact hab rfl
    | succ k => simp at h
  · intro s' h
    obtain rfl : s = s' := by simpa using h
    exact hb
  · intro k p c h
    simp at h
  · intro k q p h
    have := begun_lt h
    simp at this
  · intro k Q _ _ p h
    have := begun_lt h
    simp at this

/-- The chart with a further set. -/
theorem chart_next {sets : List SSet} (hc : Chart g w sets) {set : SSet} (hl : sets.getLast? = some set) {c : Int} (hw : w[sets.length - 1]? = some c)
    {Q0 : Item → Prop} (hS : Safe g w[sets.length]? sets Q0)
    (h0 : ∀ p, In sets (sets.length - 1) p → g.next p.1 = some (.t c) → admits g w[sets.length]? p.1.succ = true → Q0 (p.over 1)) :
    ∃ s, nextSet g w[sets.length]? sets set c = .ok s ∧ Chart g w (sets ++ [s]) := by
  have hpos : 0 < sets.length := List.length_pos_iff.2 hc.ne
  have hlast : sets[sets.length - 1]? = some set := by rw [← List.getLast?_eq_getElem?]; exact hl
  have hin : ∀ p, p ∈ predictions g set (.t c) ↔ In sets (sets.length - 1) p ∧ g.next p.1 = some (.t c) := by
    intro p
    rw [mem_predictions]
    refine and_congr ⟨fun h => ⟨set, hlast, h⟩, ?_⟩ Iff.rfl
    rintro ⟨s, hs, h⟩
    rw [hlast] at hs
    cases hs
    exact h
  obtain ⟨l', h1, h2, h3, h4, h5⟩ := completeLoop_ok hS (g.size * (sets.length + 1) + 1) 0 ((predictions g set (.t c)).foldl (shift g w[sets.length]? 1) [])
    (Nat.zero_le _) (Nat.le_refl _) (foldShift_nodup (by simp))
    (by
      intro q hq
      rcases mem_foldShift.1 hq with hq | ⟨p, hp, ha, rfl⟩
      · cases hq
      · exact h0 p ((hin p).1 hp).1 ((hin p).1 hp).2 ha)
    (by intro j q hj; omega)
  obtain ⟨s, hs1, hs2⟩ := makeSet_ok g l'
  have hb := hs2.begun_eq
  refine ⟨s, ?_, ⟨by simp, ?_, ?_, ?_, ?_, ?_, ?_, ?_⟩⟩
  · unfold nextSet
    rw [h1]
    exact hs1
  · have := (List.getElem?_eq_some_iff.1 hw).1
    simp
    omega
  · intro k s' h
    rcases Nat.lt_or_ge k sets.length with hk | hk
    · rw [List.getElem?_append_left hk] at h
      exact hc.ok k s' h
    · rw [List.getElem?_append_right hk] at h
      obtain ⟨h6, rfl⟩ := List.getElem?_eq_some_iff.1 h
      simp only [List.getElem_singleton]
      rw [hb]
      exact hs2
  · intro k s' h
    rcases Nat.lt_or_ge k sets.length with hk | hk
    · rw [List.getElem?_append_left hk] at h
      exact hc.nodup k s' h
    · rw [List.getElem?_append_right hk] at h
      obtain ⟨h6, rfl⟩ := List.getElem?_eq_some_iff.1 h
      simp only [List.getElem_singleton]
      rw [hb]
      exact h3
  · intro s' h
    rw [List.getElem?_append_left hpos] at h
    exact hc.first s' h
  · intro k p c' hk hp hw' hn ha
    rw [List.length_append, List.length_singleton] at hk
    have hp' : In sets k p := (in_append (by omega)).1 hp
    rcases Nat.lt_or_ge (k + 1) sets.length with hk' | hk'
    · exact (begun_append hk').2 (hc.scan k p c' hk' hp' hw' hn ha)
    · obtain rfl : k = sets.length - 1 := by omega
      rw [hw] at hw'
      cases hw'
      have e : sets.length - 1 + 1 = sets.length := by omega
      rw [e] at ha ⊢
      rw [begun_last, hb]
      exact h2 _ (mem_foldShift.2 (.inr ⟨p, (hin p).2 ⟨hp', hn⟩, ha, rfl⟩))
  · intro k q p hq he
    rcases Nat.lt_or_ge (k + 1) sets.length with hk | hk
    · obtain ⟨a, b, c⟩ := hc.comp k q p ((begun_append hk).1 hq) he
      exact ⟨a, b, fun hp hn ha => (begun_append hk).2 (c ((in_append (by omega)).1 hp) hn ha)⟩
    · have e : k + 1 = sets.length := by
        have := begun_lt hq
        simp at this
        omega
      rw [e] at hq ⊢
      rw [begun_last, hb] at hq
      obtain ⟨prev, a, b, c, d⟩ := h4 q hq he
      refine ⟨b, c, fun hp hn ha => ?_⟩
      rw [begun_last, hb]
      obtain ⟨s', hs', hp'⟩ := (in_append (by omega)).1 hp
      rw [a] at hs'
      cases hs'
      exact d p (mem_predictions.2 ⟨hp', hn⟩) ha
  · intro k Q q1 q2 p hp
    rcases Nat.lt_or_ge (k + 1) sets.length with hk | hk
    · refine hc.induct k Q ?_ ?_ p ((begun_append hk).1 hp)
      · exact fun p c hp => q1 p c ((in_append (by omega)).2 hp)
      · exact fun q p hq hQ he h0 h1 hp => q2 q p ((begun_append hk).2 hq) hQ he h0 h1 ((in_append (by omega)).2 hp)
    · have e : k + 1 = sets.length := by
        have := begun_lt hp
        simp at this
        omega
      have e' : k = sets.length - 1 := by omega
      rw [e] at hp q1 q2
      rw [e'] at q1
      rw [begun_last, hb] at hp
      refine h5 Q ?_ ?_ p hp
      · intro q hq
        rcases mem_foldShift.1 hq with hq | ⟨p, hp, ha, rfl⟩
        · cases hq
        · obtain ⟨h6, h7⟩ := (hin p).1 hp
          exact q1 p c ((in_append (by omega)).2 h6) hw h7 ha
      · intro q hq hQ he hm0 hml prev hprev p hp ha
        obtain ⟨h6, h7⟩ := mem_predictions.1 hp
        exact q2 q p (by rw [begun_last, hb]; exact hq) hQ he hm0 hml ((in_append (by omega)).2 ⟨prev, hprev, h6⟩) h7 ha

end Xmq.Yaep
