import Verif.Lemmas.EarleySet
/-!
# The next set of the Earley parser
-/
namespace Xmq.Yaep
open Xmq.Ixml (Sym)

variable {g : Gram} {la : Option Int}

/-- The dot is moved over a symbol that matched `m` tokens. -/
def Item.over (p : Item) (m : Nat) : Item := (p.1.succ, p.2 + m)

theorem shift_eq {m : Nat} {l : List Item} {p : Item} :
    shift g la m l p = if admits g la p.1.succ = true then if p.over m ∈ l then l else l ++ [p.over m] else l := rfl

theorem mem_shift {m : Nat} {l : List Item} {p q : Item} : q ∈ shift g la m l p ↔ q ∈ l ∨ (admits g la p.1.succ = true ∧ q = p.over m) := by
  rw [shift_eq]
  split
  · next h =>
    split
    · next h' => exact ⟨.inl, fun h1 => h1.elim id fun h2 => h2.2 ▸ h'⟩
    · simp [h]
  · next h => simp [h]

theorem shift_prefix {m : Nat} {l : List Item} {p : Item} : ∃ l', shift g la m l p = l ++ l' := by
  rw [shift_eq]
  split
  · split
    · exact ⟨[], by simp⟩
    · exact ⟨_, rfl⟩
  · exact ⟨[], by simp⟩

theorem shift_nodup {m : Nat} {l : List Item} {p : Item} (h : l.Nodup) : (shift g la m l p).Nodup := by
  rw [shift_eq]
  split
  · split
    · exact h
    · next h' =>
      rw [List.nodup_append]
      refine ⟨h, by simp, ?_⟩
      intro a ha b hb
      rw [List.mem_singleton] at hb
      subst hb
      rintro rfl
      exact h' ha
  · exact h

theorem mem_foldShift {m : Nat} {q : Item} : ∀ {ps : List Item} {l : List Item},
    q ∈ ps.foldl (shift g la m) l ↔ q ∈ l ∨ ∃ p ∈ ps, admits g la p.1.succ = true ∧ q = p.over m
  | [], l => by simp
  | p :: ps, l => by
    rw [List.foldl_cons, mem_foldShift, mem_shift]
    simp only [List.mem_cons]
    constructor
    · rintro ((h | h) | ⟨p', h1, h2⟩)
      · exact .inl h
      · exact .inr ⟨p, .inl rfl, h⟩
      · exact .inr ⟨p', .inr h1, h2⟩
    · rintro (h | ⟨p', rfl | h1, h2⟩)
      · exact .inl (.inl h)
      · exact .inl (.inr h2)
      · exact .inr ⟨p', h1, h2⟩

theorem foldShift_prefix {m : Nat} : ∀ {ps : List Item} {l : List Item}, ∃ l', ps.foldl (shift g la m) l = l ++ l'
  | [], l => ⟨[], by simp⟩
  | p :: ps, l => by
    rw [List.foldl_cons]
    obtain ⟨a, ha⟩ := shift_prefix (g := g) (la := la) (m := m) (l := l) (p := p)
    obtain ⟨b, hb⟩ := foldShift_prefix (m := m) (ps := ps) (l := shift g la m l p)
    exact ⟨a ++ b, by rw [hb, ha, List.append_assoc]⟩

theorem foldShift_nodup {m : Nat} : ∀ {ps : List Item} {l : List Item}, l.Nodup → (ps.foldl (shift g la m) l).Nodup
  | [], l, h => h
  | p :: ps, l, h => by
    rw [List.foldl_cons]
    exact foldShift_nodup (shift_nodup h)

theorem mem_predictions {s : SSet} {x : Sym} {p : Item} : p ∈ predictions g s x ↔ p ∈ s.items ∧ g.next p.1 = some x := by
  simp [predictions]

/-- The completed item has been visited. -/
def Done (g : Gram) (la : Option Int) (sets : List SSet) (l : List Item) (q : Item) : Prop :=
  g.emptyTail q.1 = true → ∃ prev, sets[sets.length - q.2]? = some prev ∧ q.2 ≠ 0 ∧ q.2 ≤ sets.length ∧
    ∀ p ∈ predictions g prev (.n (g.lhs q.1.rule)), admits g la p.1.succ = true → p.over q.2 ∈ l

theorem Done.mono {sets : List SSet} {l l' : List Item} {q : Item} (h : Done g la sets l q) (hl : ∀ p ∈ l, p ∈ l') : Done g la sets l' q := by
  intro he
  obtain ⟨prev, h1, h2, h3, h4⟩ := h he
  exact ⟨prev, h1, h2, h3, fun p hp ha => hl _ (h4 p hp ha)⟩

/-- What the loop needs to know about items so that it cannot fail. -/
structure Safe (g : Gram) (la : Option Int) (sets : List SSet) (Q : Item → Prop) : Prop where
  valid : ∀ q, Q q → g.Valid q.1 ∧ q.2 ≤ sets.length
  done : ∀ q, Q q → g.emptyTail q.1 = true → q.2 ≠ 0 ∧ ∃ prev, sets[sets.length - q.2]? = some prev ∧
    (predictions g prev (.n (g.lhs q.1.rule)) = [] → completions g prev (g.lhs q.1.rule) = [] ∧ g.lhs q.1.rule = axiomName)
  step : ∀ q, Q q → g.emptyTail q.1 = true → ∀ prev, sets[sets.length - q.2]? = some prev →
    ∀ p ∈ predictions g prev (.n (g.lhs q.1.rule)), admits g la p.1.succ = true → Q (p.over q.2)

/-- The loop ends without a failed assertion; it visits everything, and what it adds has every property that is handed on. -/
theorem completeLoop_ok {sets : List SSet} {Q0 : Item → Prop} (hS : Safe g la sets Q0) : ∀ (n i : Nat) (l : List Item), i ≤ l.length →
    g.size * (sets.length + 1) + 1 ≤ n + i → l.Nodup → (∀ q ∈ l, Q0 q) → (∀ j q, j < i → l[j]? = some q → Done g la sets l q) →
    ∃ l', completeLoop g la sets n i l = .ok l' ∧ (∀ q ∈ l, q ∈ l') ∧ l'.Nodup ∧ (∀ q ∈ l', Done g la sets l' q) ∧
      ∀ Q : Item → Prop, (∀ q ∈ l, Q q) → (∀ q ∈ l', Q q → g.emptyTail q.1 = true → q.2 ≠ 0 → q.2 ≤ sets.length → ∀ prev, sets[sets.length - q.2]? = some prev →
        ∀ p ∈ predictions g prev (.n (g.lhs q.1.rule)), admits g la p.1.succ = true → Q (p.over q.2)) → ∀ q ∈ l', Q q
  | 0, i, l, hi, hn, hnd, hq, hb => by
    exfalso
    have : l.length ≤ g.size * (sets.length + 1) := by
      rw [← dotted_length]
      have : (g.dotted.flatMap fun d => (List.range (sets.length + 1)).map fun m => (d, m)).length = g.dotted.length * (sets.length + 1) := by
        generalize g.dotted = ds
        induction ds with
        | nil => simp
        | cons d ds ih => simp [ih, Nat.add_mul]; omega
      rw [← this]
      refine nodup_length_le hnd fun q h => ?_
      obtain ⟨h1, h2⟩ := hS.valid q (hq q h)
      exact List.mem_flatMap.2 ⟨q.1, mem_dotted.2 h1, List.mem_map.2 ⟨q.2, List.mem_range.2 (by omega), rfl⟩⟩
    omega
  | n + 1, i, l, hi, hn, hnd, hq, hb => by
    unfold completeLoop
    cases hd : l[i]? with
    | none =>
      refine ⟨l, rfl, fun _ h => h, hnd, ?_, fun Q h1 _ => h1⟩
      intro q h
      obtain ⟨j, hj, e⟩ := List.getElem_of_mem h
      have h1 := List.getElem?_eq_none_iff.1 hd
      exact hb j q (by omega) (List.getElem?_eq_some_iff.2 ⟨hj, e⟩)
    | some q =>
      obtain ⟨d, m⟩ := q
      dsimp only
      have hlt := (List.getElem?_eq_some_iff.1 hd).1
      have hmem := List.mem_of_getElem? hd
      have hQ := hq _ hmem
      have next : ∀ l1 : List Item, (∃ l2, l1 = l ++ l2) → l1.Nodup → (∀ q ∈ l1, Q0 q) → Done g la sets l1 (d, m) →
          ∀ j q, j < i + 1 → l1[j]? = some q → Done g la sets l1 q := by
        rintro l1 ⟨l2, rfl⟩ _ _ hdn j q hj h
        rw [List.getElem?_append_left (by omega)] at h
        rcases Nat.lt_succ_iff_lt_or_eq.1 hj with hj | rfl
        · exact (hb j q hj h).mono fun p hp => List.mem_append_left _ hp
        · rw [hd] at h
          cases h
          exact hdn
      by_cases he : g.emptyTail d = true
      · rw [if_pos he]
        obtain ⟨hm0, prev, hprev, hcond⟩ := hS.done _ hQ he
        have hml := (hS.valid _ hQ).2
        rw [if_neg (by simp only at hm0 hml; omega)]
        simp only at hprev
        rw [hprev]
        dsimp only
        split
        · next hp =>
          rw [if_pos (hcond hp)]
          have hdn : Done g la sets l (d, m) := fun _ => ⟨prev, hprev, hm0, hml, by simp only; rw [hp]; simp⟩
          obtain ⟨l', h1, h2, h3, h4, h5⟩ := completeLoop_ok hS n (i + 1) l (by omega) (by omega) hnd hq (next l ⟨[], by simp⟩ hnd hq hdn)
          exact ⟨l', h1, h2, h3, h4, h5⟩
        · have hQ' : ∀ q ∈ (predictions g prev (.n (g.lhs d.rule))).foldl (shift g la m) l, Q0 q := by
            intro q h
            rcases mem_foldShift.1 h with h | ⟨p, hp, ha, rfl⟩
            · exact hq q h
            · exact hS.step _ hQ he prev hprev p hp ha
          have hdn : Done g la sets ((predictions g prev (.n (g.lhs d.rule))).foldl (shift g la m) l) (d, m) :=
            fun _ => ⟨prev, hprev, hm0, hml, fun p hp ha => mem_foldShift.2 (.inr ⟨p, hp, ha, rfl⟩)⟩
          obtain ⟨l2, hl2⟩ := foldShift_prefix (g := g) (la := la) (m := m) (ps := predictions g prev (.n (g.lhs d.rule))) (l := l)
          have hnd' := foldShift_nodup (g := g) (la := la) (m := m) (ps := predictions g prev (.n (g.lhs d.rule))) hnd
          obtain ⟨l', h1, h2, h3, h4, h5⟩ := completeLoop_ok hS n (i + 1) _ (by rw [hl2, List.length_append]; omega) (by omega) hnd' hQ'
            (next _ ⟨l2, hl2⟩ hnd' hQ' hdn)
          have h2' : ∀ q ∈ l, q ∈ l' := fun q h => h2 q (mem_foldShift.2 (.inl h))
          refine ⟨l', h1, h2', h3, h4, ?_⟩
          intro Q q1 q2
          refine h5 Q ?_ q2
          intro q h
          rcases mem_foldShift.1 h with h | ⟨p, hp, ha, rfl⟩
          · exact q1 q h
          · exact q2 (d, m) (h2' _ hmem) (q1 _ hmem) he hm0 hml prev hprev p hp ha
      · rw [if_neg he]
        obtain ⟨l', h1, h2, h3, h4, h5⟩ := completeLoop_ok hS n (i + 1) l (by omega) (by omega) hnd hq
          (next l ⟨[], by simp⟩ hnd hq (fun h => absurd h he))
        exact ⟨l', h1, h2, h3, h4, h5⟩

end Xmq.Yaep
