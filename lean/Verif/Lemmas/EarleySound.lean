import Verif.Lemmas.EarleyChart
/-!
# What is in a set of the Earley parser is right
-/
namespace Xmq.Yaep
open Xmq.Ixml (Sym)
open Xmq.Spec Xmq.Cfg

variable {g : Gram} {w : List Int} {start : List Byte} {sets : List SSet}

/-- The item of the set `k` says something true. -/
structure Snd (g : Gram) (w : List Int) (sets : List SSet) (k : Nat) (p : Item) : Prop where
  valid : g.Valid p.1
  le : p.2 ≤ k
  span : Span g w ((g.rhs p.1.rule).take p.1.dot) (k - p.2) k
  asked : Asked g w p.1.rule (k - p.2)
  why : (k - p.2 = 0 ∧ g.lhs p.1.rule = axiomName) ∨ ∃ q, In sets (k - p.2) q ∧ g.next q.1 = some (.n (g.lhs p.1.rule))

theorem take_succ_next {d : Dotted} {x : Sym} (h : g.next d = some x) : (g.rhs d.rule).take (d.dot + 1) = (g.rhs d.rule).take d.dot ++ [x] := by
  unfold Gram.next at h
  rw [List.take_add_one, h]
  rfl

theorem rhs_split {d : Dotted} {x : Sym} (h : g.next d = some x) : g.rhs d.rule = (g.rhs d.rule).take d.dot ++ x :: g.tail d.succ := by
  rw [← next_tail h]
  exact (List.take_append_drop _ _).symm

theorem take_skipped {d e : Dotted} (h : Skipped g d e) : (g.rhs e.rule).take e.dot = (g.rhs d.rule).take d.dot ++ (g.tail d).take (e.dot - d.dot) := by
  obtain ⟨h1, h2, _, _⟩ := h
  unfold Gram.tail
  rw [h1, ← List.take_add]
  congr 1
  omega

theorem emptyTail_iff (hg : Proper g start) {d : Dotted} : g.emptyTail d = true ↔ ∀ x ∈ g.tail d, Nullable (Prods g.rules) x := by
  unfold Gram.emptyTail
  rw [List.all_eq_true]
  exact forall_congr' fun x => imp_congr Iff.rfl (hg.empty x)

theorem Snd.moved {k j : Nat} {p : Item} {x : Sym} (h : Snd g w sets j p) (hx : g.next p.1 = some x) (hs : Span g w [x] j k) : Snd g w sets k (p.over (k - j)) := by
  have hle := hs.le
  have hp := h.le
  have e : k - (p.over (k - j)).2 = j - p.2 := by
    unfold Item.over
    simp only
    omega
  refine ⟨next_valid hx, ?_, ?_, ?_, ?_⟩
  · unfold Item.over
    simp only
    omega
  · rw [e]
    show Span g w ((g.rhs p.1.rule).take (p.1.dot + 1)) _ _
    rw [take_succ_next hx]
    exact h.span.append hs
  · rw [e]
    exact h.asked
  · rw [e]
    exact h.why

theorem Snd.skipped (hg : Proper g start) {k : Nat} {d e : Dotted} {m : Nat} (h : Snd g w sets k (d, m)) (hs : Skipped g d e) (hk : k ≤ w.length) : Snd g w sets k (e, m) := by
  have hr := hs.1
  refine ⟨hs.2.2.1, h.le, ?_, ?_, ?_⟩
  · simp only
    rw [take_skipped hs]
    exact h.span.append (span_nulls (fun x hx => (hg.empty x).1 (hs.2.2.2 x hx)) hk)
  · simp only
    rw [hr]
    exact h.asked
  · simp only
    rw [hr]
    exact h.why

theorem set_sound (hg : Proper g start) (hc : Chart g w sets) {k : Nat} (hb : ∀ p, Begun sets k p → Snd g w sets k p) : ∀ p, In sets k p → Snd g w sets k p := by
  rintro ⟨d, m⟩ hp
  have hk : k ≤ w.length := by
    have := in_lt hp
    have := hc.short
    omega
  obtain ⟨s, hs, hp⟩ := hp
  have hso := hc.ok k s hs
  have hrules : ∀ p, In sets k p → Snd g w sets k p → ∀ a, g.next p.1 = some (.n a) → ∀ r ∈ g.ruleIds a, Snd g w sets k (⟨r, 0⟩, 0) := by
    intro p hin hsn a ha r hr
    obtain ⟨hr1, hr2⟩ := mem_ruleIds.1 hr
    refine ⟨⟨hr1, Nat.zero_le _⟩, Nat.zero_le _, .nil _, ?_, .inr ⟨p, hin, ?_⟩⟩
    · refine .step p.1.rule (k - p.2) _ _ r k hsn.asked (rhs_split (x := .n (g.lhs r)) (by rw [ha, hr2])) hr1 hsn.span
    · simp only
      rw [ha, hr2]
  have hinit : ∀ d ∈ s.core.initial, Snd g w sets k (d, 0) := by
    refine hso.induct (fun d => Snd g w sets k (d, 0)) ?_ ?_ ?_ ?_
    · intro p hp
      exact hrules p ⟨s, hs, hso.mem_started hp⟩ (hb p ⟨s, hs, hp⟩)
    · rintro ⟨d, m⟩ hp e he
      exact hrules (e, m) ⟨s, hs, hso.mem_items.2 (.inr (.inl ⟨d, hp, he⟩))⟩ ((hb _ ⟨s, hs, hp⟩).skipped hg he hk)
    · intro d a hd hq
      exact hrules (d, 0) ⟨s, hs, hso.mem_items.2 (.inr (.inr ⟨rfl, hd⟩))⟩ hq a
    · intro d x hd hq hx he
      have := Snd.moved (k := k) hq hx (span_nulls (by simpa using (hg.empty x).1 he) hk)
      simpa [Item.over] using this
  rcases hso.mem_items.1 hp with h | ⟨d0, h1, h2⟩ | ⟨rfl, h⟩
  · exact hb _ ⟨s, hs, h⟩
  · exact (hb _ ⟨s, hs, h1⟩).skipped hg h2 hk
  · exact hinit d h

theorem Snd.complete (hg : Proper g start) {k : Nat} {q : Item} (h : Snd g w sets k q) (he : g.emptyTail q.1 = true) (hk : k ≤ w.length) :
    Span g w [.n (g.lhs q.1.rule)] (k - q.2) k := by
  refine .node q.1.rule [] _ k k h.valid.1 ?_ (.nil k)
  have := h.span.append (span_nulls ((emptyTail_iff hg).1 he) hk)
  unfold Gram.tail at this
  rwa [List.take_append_drop] at this

theorem sound (hg : Proper g start) (hc : Chart g w sets) : ∀ k p, In sets k p → Snd g w sets k p := by
  intro k
  induction k using Nat.strongRecOn with
  | _ k ih =>
    refine set_sound hg hc ?_
    intro p hp
    cases k with
    | zero =>
      obtain ⟨s, hs, hp⟩ := hp
      rw [hc.first s hs] at hp
      obtain ⟨r, hr, rfl⟩ := List.mem_map.1 hp
      obtain ⟨h1, h2⟩ := mem_ruleIds.1 hr
      exact ⟨⟨h1, Nat.zero_le _⟩, Nat.le_refl _, .nil _, .start r h1 h2, .inl ⟨rfl, h2⟩⟩
    | succ k =>
      have hk : k + 1 ≤ w.length := by
        have := begun_lt hp
        have := hc.short
        omega
      refine hc.induct k (Snd g w sets (k + 1)) ?_ ?_ p hp
      · intro p c hp hw hn _
        have := Snd.moved (k := k + 1) (ih k (by omega) p hp) hn (.term c [] k _ hw (.nil _))
        rwa [show k + 1 - k = 1 by omega] at this
      · intro q p hq hQ he hm0 hml hp hn _
        have := Snd.moved (k := k + 1) (ih (k + 1 - q.2) (by omega) p hp) hn (hQ.complete hg he hk)
        rwa [show k + 1 - (k + 1 - q.2) = q.2 by omega] at this

/-- Started dotted rules have a length. -/
theorem begun_length (hc : Chart g w sets) (hg : Proper g start) {k : Nat} {p : Item} (h : Begun sets (k + 1) p) : 0 < p.2 ∧ 0 < p.1.dot := by
  refine hc.induct k (fun p => 0 < p.2 ∧ 0 < p.1.dot) ?_ ?_ p h
  · intro p c _ _ _ _
    exact ⟨Nat.succ_pos _, Nat.succ_pos _⟩
  · intro q p _ _ _ hm0 _ _ _ _
    refine ⟨?_, Nat.succ_pos _⟩
    show 0 < p.2 + q.2
    omega

/-! ## The parser does not fail -/

theorem lhs_of_lt {r : Nat} (h : r < g.rules.length) : g.lhs r = (g.rules[r]).lhs := by
  unfold Gram.lhs
  rw [List.getElem?_eq_getElem h]
  rfl

/-- The rules of the axiom end with the end marker. -/
theorem axiom_rhs (hg : Proper g start) {r : Nat} (hr : r < g.rules.length) (ha : g.lhs r = axiomName) :
    (r = 0 ∧ g.rhs r = [.n start, .t (-1)]) ∨ g.rhs r = [.t (-2), .t (-1)] := by
  rw [lhs_of_lt hr] at ha
  rcases hg.ax r _ (List.getElem?_eq_getElem hr) ha with rfl | h
  · left
    refine ⟨rfl, ?_⟩
    unfold Gram.rhs
    rw [hg.zero]
    rfl
  · right
    rw [rhs_of_lt hr, h]

theorem axiom_not_empty (hg : Proper g start) {r : Nat} (hr : r < g.rules.length) (ha : g.lhs r = axiomName) : ¬ ∀ x ∈ g.rhs r, Nullable (Prods g.rules) x := by
  intro h
  have : Sym.t (-1) ∈ g.rhs r := by
    rcases axiom_rhs hg hr ha with ⟨_, e⟩ | e <;> rw [e] <;> simp
  exact term_not_nullable (h _ this)

theorem safe (hg : Proper g start) (hc : Chart g w sets) (hlt : sets.length ≤ w.length) :
    Safe g w[sets.length]? sets fun p => Snd g w sets sets.length p ∧ 0 < p.2 := by
  refine ⟨?_, ?_, ?_⟩
  · exact fun q hq => ⟨hq.1.valid, hq.1.le⟩
  · rintro q ⟨hq, hpos⟩ he
    refine ⟨by omega, ?_⟩
    have hl := hq.le
    have hlen : 0 < sets.length := List.length_pos_iff.2 hc.ne
    have hprev : sets[sets.length - q.2]? = some (sets[sets.length - q.2]'(by omega)) := List.getElem?_eq_getElem _
    refine ⟨_, hprev, fun hp => ?_⟩
    rcases hq.why with ⟨h0, ha⟩ | ⟨p, hin, hn⟩
    · refine ⟨?_, ha⟩
      rw [List.eq_nil_iff_forall_not_mem]
      intro p hp'
      simp only [completions, List.mem_filter, Bool.and_eq_true, decide_eq_true_eq] at hp'
      obtain ⟨h1, h2, h3⟩ := hp'
      have hsn := sound hg hc 0 p ⟨_, h0 ▸ hprev, h1⟩
      have hs := hsn.span
      rw [h2, List.take_length] at hs
      obtain h4 : p.2 = 0 := by have := hsn.le; omega
      rw [h4] at hs
      exact axiom_not_empty hg hsn.valid.1 (by rw [h3, ha]) hs.nulls
    · exfalso
      obtain ⟨s, hs, hp'⟩ := hin
      rw [hprev] at hs
      cases hs
      have : p ∈ predictions g (sets[sets.length - q.2]'(by omega)) (.n (g.lhs q.1.rule)) := mem_predictions.2 ⟨hp', hn⟩
      rw [hp] at this
      cases this
  · rintro q ⟨hq, hpos⟩ he prev hprev p hp ha
    obtain ⟨h1, h2⟩ := mem_predictions.1 hp
    have hl := hq.le
    have := Snd.moved (k := sets.length) (sound hg hc (sets.length - q.2) p ⟨prev, hprev, h1⟩) h2 (hq.complete hg he hlt)
    rw [show sets.length - (sets.length - q.2) = q.2 by omega] at this
    refine ⟨this, ?_⟩
    show 0 < p.2 + q.2
    omega

theorem head_drop {l : List Int} {k : Nat} {c : Int} {cs : List Int} (h : l.drop k = c :: cs) : l[k]? = some c ∧ l.drop (k + 1) = cs ∧ cs.head? = l[k + 1]? := by
  have h1 : l[k]? = some c := by
    have := List.getElem?_drop (xs := l) (i := k) (j := 0)
    rw [h] at this
    simpa using this.symm
  have h2 : l.drop (k + 1) = cs := by
    rw [← List.drop_drop, h]
    rfl
  refine ⟨h1, h2, ?_⟩
  rw [← h2, List.head?_drop]

/-- Every token that was consumed was expected. -/
def Taken (g : Gram) (w : List Int) (sets : List SSet) : Prop := ∀ k, k + 1 < sets.length → ∃ p c, In sets k p ∧ w[k]? = some c ∧ g.next p.1 = some (.t c)

theorem parseLoop_ok (hg : Proper g start) : ∀ (cs : List Int) (sets : List SSet) (set : SSet), Chart g w sets → Taken g w sets → sets.getLast? = some set → w.drop (sets.length - 1) = cs →
    ∃ sets' b, parseLoop g sets set cs = .ok (sets', b) ∧ Chart g w sets' ∧ Taken g w sets' ∧ (b = true → sets'.length = w.length + 1) ∧
      (b = false → ∃ set' c, sets'.getLast? = some set' ∧ w[sets'.length - 1]? = some c ∧ predictions g set' (.t c) = [])
  | [], sets, set, hc, ht, hl, hd => by
    refine ⟨sets, true, rfl, hc, ht, fun _ => ?_, fun h => by cases h⟩
    have h1 := List.drop_eq_nil_iff.1 hd
    have h2 := hc.short
    have h3 : 0 < sets.length := List.length_pos_iff.2 hc.ne
    omega
  | c :: cs, sets, set, hc, ht, hl, hd => by
    obtain ⟨h1, h2, h3⟩ := head_drop hd
    have hpos : 0 < sets.length := List.length_pos_iff.2 hc.ne
    rw [show sets.length - 1 + 1 = sets.length by omega] at h2 h3
    have hlt : sets.length ≤ w.length := by
      have := (List.getElem?_eq_some_iff.1 h1).1
      omega
    unfold parseLoop
    split
    · next hp => exact ⟨sets, false, rfl, hc, ht, fun h => (by cases h), fun _ => ⟨set, c, hl, h1, hp⟩⟩
    · next hp =>
      obtain ⟨s, h4, h5⟩ := chart_next hc hl h1 (safe hg hc hlt) (by
        intro p hp hn _
        have := Snd.moved (k := sets.length) (sound hg hc (sets.length - 1) p hp) hn
          (.term c [] _ _ h1 (by rw [show sets.length - 1 + 1 = sets.length by omega]; exact .nil _))
        rw [show sets.length - (sets.length - 1) = 1 by omega] at this
        exact ⟨this, Nat.succ_pos _⟩)
      rw [h3, h4]
      dsimp only
      refine parseLoop_ok hg cs (sets ++ [s]) s h5 ?_ (by simp) (by simpa using h2)
      intro k hk
      rw [List.length_append, List.length_singleton] at hk
      rcases Nat.lt_or_ge (k + 1) sets.length with hk' | hk'
      · obtain ⟨p, c', h6, h7⟩ := ht k hk'
        exact ⟨p, c', (in_append (by omega)).2 h6, h7⟩
      · obtain rfl : k = sets.length - 1 := by omega
        obtain ⟨p, hp'⟩ := List.exists_mem_of_ne_nil _ hp
        obtain ⟨h6, h7⟩ := mem_predictions.1 hp'
        refine ⟨p, c, (in_append (by omega)).2 ⟨set, ?_, h6⟩, h1, h7⟩
        rw [← List.getLast?_eq_getElem?]
        exact hl

/-- The parser makes its sets until the tokens are consumed or the next token is not expected. -/
theorem performParse_ok (hg : Proper g start) (w : List Int) : ∃ sets b, performParse g w = .ok (sets, b) ∧ Chart g w sets ∧ Taken g w sets ∧ (b = true → sets.length = w.length + 1) ∧
      (b = false → ∃ set c, sets.getLast? = some set ∧ w[sets.length - 1]? = some c ∧ predictions g set (.t c) = []) := by
  obtain ⟨s, h1, h2⟩ := chart_start (g := g) (w := w)
  unfold performParse
  rw [h1]
  refine parseLoop_ok hg w [s] s h2 ?_ rfl rfl
  intro k hk
  simp at hk

end Xmq.Yaep
