import Verif.Lemmas.EarleyComplete
import Verif.Spec.Trees
/-!
# The tree which the Earley parser builds
-/
namespace Xmq.Yaep
open Xmq.Ixml (Sym)
open Xmq.Spec Xmq.Cfg

variable {g : Gram} {w : List Int} {start : List Byte} {sets : List SSet}

/-- The trees derive the tokens from `i` to `j`. -/
inductive TSpan (g : Gram) (w : List Int) : List Sym → List PT → Nat → Nat → Prop
  | nil (i : Nat) : TSpan g w [] [] i i
  | term (c : Int) (α : List Sym) (ts : List PT) (i j : Nat) : w[i]? = some c → TSpan g w α ts (i + 1) j → TSpan g w (.t c :: α) (.leaf c :: ts) i j
  | node (r : Nat) (kids : List PT) (α : List Sym) (ts : List PT) (i j k : Nat) : r < g.rules.length → TSpan g w (g.rhs r) kids i j → TSpan g w α ts j k →
      TSpan g w (.n (g.lhs r) :: α) (.node r kids :: ts) i k

theorem TSpan.span {α : List Sym} {ts : List PT} {i j : Nat} (h : TSpan g w α ts i j) : Span g w α i j := by
  induction h with
  | nil i => exact .nil i
  | term c α ts i j hc _ ih => exact .term c α i j hc ih
  | node r kids α ts i j k hr _ _ ih1 ih2 => exact .node r α i j k hr ih1 ih2

theorem Span.tree {α : List Sym} {i j : Nat} (h : Span g w α i j) : ∃ ts, TSpan g w α ts i j := by
  induction h with
  | nil i => exact ⟨[], .nil i⟩
  | term c α i j hc _ ih =>
    obtain ⟨ts, h⟩ := ih
    exact ⟨_, .term c α ts i j hc h⟩
  | node r α i j k hr _ _ ih1 ih2 =>
    obtain ⟨kids, h1⟩ := ih1
    obtain ⟨ts, h2⟩ := ih2
    exact ⟨_, .node r kids α ts i j k hr h1 h2⟩

theorem TSpan.append {α β : List Sym} {ts us : List PT} {i j k : Nat} (h1 : TSpan g w α ts i j) (h2 : TSpan g w β us j k) : TSpan g w (α ++ β) (ts ++ us) i k := by
  induction h1 with
  | nil i => exact h2
  | term c α ts i j hc _ ih => exact .term c _ _ i k hc (ih h2)
  | node r kids α ts i j k' hr h _ _ ih2 => exact .node r kids _ _ i j k hr h (ih2 h2)

theorem TSpan.split {β : List Sym} : ∀ {α : List Sym} {ts : List PT} {i k : Nat}, TSpan g w (α ++ β) ts i k →
    ∃ ta tb j, ts = ta ++ tb ∧ TSpan g w α ta i j ∧ TSpan g w β tb j k
  | [], ts, i, k, h => ⟨[], ts, i, rfl, .nil i, h⟩
  | x :: α, ts, i, k, h => by
    rw [List.cons_append] at h
    cases h with
    | term c _ ts' _ _ hc h =>
      obtain ⟨ta, tb, j, rfl, h1, h2⟩ := TSpan.split h
      exact ⟨_, tb, j, rfl, .term c α ta i j hc h1, h2⟩
    | node r kids _ ts' _ j' _ hr h h' =>
      obtain ⟨ta, tb, j, rfl, h1, h2⟩ := TSpan.split h'
      exact ⟨_, tb, j, rfl, .node r kids α ta i j' j hr h h1, h2⟩

theorem TSpan.single_t {c : Int} {ts : List PT} {i j : Nat} (h : TSpan g w [.t c] ts i j) : w[i]? = some c ∧ j = i + 1 ∧ ts = [.leaf c] := by
  cases h with
  | term _ _ _ _ _ hc h =>
    cases h
    exact ⟨hc, rfl, rfl⟩

theorem TSpan.single_n {a : List Byte} {ts : List PT} {i j : Nat} (h : TSpan g w [.n a] ts i j) :
    ∃ r kids, r < g.rules.length ∧ g.lhs r = a ∧ TSpan g w (g.rhs r) kids i j ∧ ts = [.node r kids] := by
  cases h with
  | node r kids _ _ _ j' _ hr h h' =>
    cases h'
    exact ⟨r, kids, hr, rfl, h, rfl⟩

theorem TSpan.length {α : List Sym} {ts : List PT} {i j : Nat} (h : TSpan g w α ts i j) : ts.length = α.length := by
  induction h with
  | nil i => rfl
  | term c α ts i j hc _ ih => simp [ih]
  | node r kids α ts i j k hr _ _ _ ih2 => simp [ih2]

/-! ## Where an item comes from -/

/-- A started dotted rule was moved over a token or over a nonterminal. -/
def Origin (g : Gram) (w : List Int) (sets : List SSet) (k : Nat) (p : Item) : Prop :=
  (∃ q c, p = q.over 1 ∧ In sets k q ∧ w[k]? = some c ∧ g.next q.1 = some (.t c)) ∨
  ∃ q0 q, p = q.over q0.2 ∧ Begun sets (k + 1) q0 ∧ g.emptyTail q0.1 = true ∧ q0.2 ≠ 0 ∧ q0.2 ≤ k + 1 ∧ In sets (k + 1 - q0.2) q ∧ g.next q.1 = some (.n (g.lhs q0.1.rule))

theorem begun_origin (hc : Chart g w sets) {k : Nat} {p : Item} (h : Begun sets (k + 1) p) : Origin g w sets k p := by
  refine hc.induct k (Origin g w sets k) ?_ ?_ p h
  · exact fun p c h1 h2 h3 _ => .inl ⟨p, c, rfl, h1, h2, h3⟩
  · exact fun q p h1 _ h2 h3 h4 h5 h6 _ => .inr ⟨q, p, rfl, h1, h2, h3, h4, h5, h6⟩

theorem begun_zero (hc : Chart g w sets) {p : Item} (h : Begun sets 0 p) : ∃ r, p = (⟨r, 0⟩, 0) ∧ r < g.rules.length ∧ g.lhs r = axiomName := by
  obtain ⟨s, hs, hp⟩ := h
  rw [hc.first s hs] at hp
  obtain ⟨r, hr, rfl⟩ := List.mem_map.1 hp
  exact ⟨r, rfl, mem_ruleIds.1 hr⟩

theorem skipped_last {d0 : Dotted} {r pos : Nat} (h : Skipped g d0 ⟨r, pos + 1⟩) :
    ∃ x, g.next ⟨r, pos⟩ = some x ∧ g.empty x = true ∧ (d0 = ⟨r, pos⟩ ∨ Skipped g d0 ⟨r, pos⟩) := by
  obtain ⟨h1, h2, ⟨h3, h4⟩, h5⟩ := h
  simp only at h1 h2 h3 h4 h5
  have hlt : pos < (g.rhs r).length := h4
  refine ⟨(g.rhs r)[pos], List.getElem?_eq_getElem hlt, h5 _ ?_, ?_⟩
  · refine List.mem_of_getElem? (i := pos - d0.dot) ?_
    rw [List.getElem?_take]
    rw [if_pos (by omega)]
    unfold Gram.tail
    rw [List.getElem?_drop, ← h1, show d0.dot + (pos - d0.dot) = pos by omega]
    exact List.getElem?_eq_getElem hlt
  · rcases Nat.lt_or_ge d0.dot pos with h | h
    · right
      refine ⟨h1, h, ⟨h3, Nat.le_of_lt hlt⟩, fun x hx => h5 x ?_⟩
      simp only at hx
      have : (g.tail d0).take (pos - d0.dot) = ((g.tail d0).take (pos + 1 - d0.dot)).take (pos - d0.dot) := by
        rw [List.take_take]
        congr 1
        omega
      rw [this] at hx
      exact List.mem_of_mem_take hx
    · left
      cases d0
      simp only at h1 h2 h
      subst h1
      congr 1
      omega

theorem initial_origin {l : List Item} {s : SSet} (h : SetOk g l s) {d : Dotted} (hd : d ∈ s.core.initial) :
    d.dot = 0 ∨ ∃ d' x, d' ∈ s.core.initial ∧ d = d'.succ ∧ g.next d' = some x ∧ g.empty x = true := by
  refine h.induct (fun d => d.dot = 0 ∨ ∃ d' x, d' ∈ s.core.initial ∧ d = d'.succ ∧ g.next d' = some x ∧ g.empty x = true) ?_ ?_ ?_ ?_ d hd
  · exact fun _ _ _ _ _ _ => .inl rfl
  · exact fun _ _ _ _ _ _ _ _ => .inl rfl
  · exact fun _ _ _ _ _ _ _ => .inl rfl
  · exact fun d x h1 _ h2 h3 => .inr ⟨d, x, h1, rfl, h2, h3⟩

/-- The dotted rule with a dot that is not at the beginning: the last symbol was a token, a nonterminal with tokens, or an empty symbol. -/
theorem in_origin (hc : Chart g w sets) {k r pos m : Nat} (h : In sets k (⟨r, pos + 1⟩, m)) :
    (∃ k' c, k = k' + 1 ∧ 0 < m ∧ w[k']? = some c ∧ g.next ⟨r, pos⟩ = some (.t c) ∧ In sets k' (⟨r, pos⟩, m - 1)) ∨
    (∃ k' q, k = k' + 1 ∧ Begun sets k q ∧ g.emptyTail q.1 = true ∧ q.2 ≠ 0 ∧ q.2 ≤ k ∧ q.2 ≤ m ∧ In sets (k - q.2) (⟨r, pos⟩, m - q.2) ∧ g.next ⟨r, pos⟩ = some (.n (g.lhs q.1.rule))) ∨
    ∃ x, g.next ⟨r, pos⟩ = some x ∧ g.empty x = true ∧ In sets k (⟨r, pos⟩, m) := by
  obtain ⟨s, hs, hp⟩ := h
  have hso := hc.ok k s hs
  rcases hso.mem_items.1 hp with h | ⟨d0, h1, h2⟩ | ⟨rfl, h⟩
  · cases k with
    | zero =>
      obtain ⟨r', e, _⟩ := begun_zero hc ⟨s, hs, h⟩
      cases e
    | succ k =>
      rcases begun_origin hc ⟨s, hs, h⟩ with ⟨⟨⟨r', pos'⟩, m'⟩, c, e, h1, h2, h3⟩ | ⟨q0, ⟨⟨r', pos'⟩, m'⟩, e, h1, h2, h3, h4, h5, h6⟩
      · cases e
        exact .inl ⟨k, c, rfl, Nat.succ_pos _, h2, h3, h1⟩
      · cases e
        refine .inr (.inl ⟨k, q0, rfl, h1, h2, h3, h4, Nat.le_add_left _ _, ?_, h6⟩)
        rw [Nat.add_sub_cancel]
        exact h5
  · obtain ⟨x, h3, h4, h5⟩ := skipped_last h2
    refine .inr (.inr ⟨x, h3, h4, s, hs, ?_⟩)
    rcases h5 with rfl | h5
    · exact hso.mem_started h1
    · exact hso.mem_items.2 (.inr (.inl ⟨d0, h1, h5⟩))
  · rcases initial_origin hso h with h | ⟨⟨r', pos'⟩, x, h1, h2, h3, h4⟩
    · cases h
    · cases h2
      exact .inr (.inr ⟨x, h3, h4, s, hs, hso.mem_items.2 (.inr (.inr ⟨rfl, h1⟩))⟩)

theorem in_terminal (hg : Proper g start) (hc : Chart g w sets) {k r pos m : Nat} (h : In sets k (⟨r, pos + 1⟩, m)) {c : Int} (hn : g.next ⟨r, pos⟩ = some (.t c)) :
    0 < k ∧ 0 < m ∧ w[k - 1]? = some c ∧ In sets (k - 1) (⟨r, pos⟩, m - 1) := by
  rcases in_origin hc h with ⟨k', c', rfl, h1, h2, h3, h4⟩ | ⟨k', q, rfl, _, _, _, _, _, _, h1⟩ | ⟨x, h1, h2, _⟩
  · rw [hn] at h3
    cases h3
    exact ⟨Nat.succ_pos _, h1, h2, h4⟩
  · rw [hn] at h1
    cases h1
  · rw [hn] at h1
    cases h1
    exact absurd ((hg.empty _).1 h2) term_not_nullable

/-- The completed rule is there with the whole length. -/
theorem in_complete (hg : Proper g start) (hc : Chart g w sets) {k : Nat} {q : Item} (h : Begun sets k q) (he : g.emptyTail q.1 = true) :
    In sets k (⟨q.1.rule, (g.rhs q.1.rule).length⟩, q.2) := by
  have hv := (sound hg hc k q (begun_in hc h)).valid
  obtain ⟨s, hs, hp⟩ := h
  have hso := hc.ok k s hs
  rcases Nat.lt_or_ge q.1.dot (g.rhs q.1.rule).length with hlt | hge
  · refine ⟨s, hs, hso.mem_items.2 (.inr (.inl ⟨q.1, hp, rfl, hlt, ⟨hv.1, Nat.le_refl _⟩, ?_⟩))⟩
    intro x hx
    exact List.all_eq_true.1 he x (List.mem_of_mem_take hx)
  · refine ⟨s, hs, hso.mem_started ?_⟩
    have : (g.rhs q.1.rule).length = q.1.dot := Nat.le_antisymm hge hv.2
    rw [this]
    exact hp

/-- The dot moves over empty symbols up to the end. -/
theorem in_nulls (hg : Proper g start) (hc : Chart g w sets) (hL : Lossless g w) {k r m : Nat} : ∀ (n dot : Nat), dot + n = (g.rhs r).length → In sets k (⟨r, dot⟩, m) →
    (∀ x ∈ (g.rhs r).drop dot, Nullable (Prods g.rules) x) → In sets k (⟨r, (g.rhs r).length⟩, m)
  | 0, dot, e, h, _ => by
    rw [← e]
    exact h
  | n + 1, dot, e, h, hx => by
    have hlt : dot < (g.rhs r).length := by omega
    have hn : g.next ⟨r, dot⟩ = some ((g.rhs r)[dot]) := List.getElem?_eq_getElem hlt
    rw [List.drop_eq_getElem_cons hlt] at hx
    refine in_nulls hg hc hL n (dot + 1) (by omega) (in_skip hg hc hL h hn ((hg.empty _).2 (hx _ List.mem_cons_self))) ?_
    exact fun x h => hx x (List.mem_cons_of_mem _ h)

/-! ## Candidates -/

theorem mem_candidates (hg : Proper g start) (hc : Chart g w sets) {r pos i k : Nat} {a : List Byte} {r' j : Nat} :
    (r', j) ∈ candidates g sets r pos i k a ↔ j ≤ k ∧ i ≤ j ∧ In sets k (⟨r', (g.rhs r').length⟩, k - j) ∧ g.lhs r' = a ∧ In sets j (⟨r, pos⟩, j - i) ∧ g.next ⟨r, pos⟩ = some (.n a) := by
  unfold candidates
  constructor
  · intro h
    cases hs : sets[k]? with
    | none => rw [hs] at h; cases h
    | some s =>
      rw [hs] at h
      simp only [List.mem_filter, List.mem_map, completions, Bool.and_eq_true, decide_eq_true_eq] at h
      obtain ⟨⟨⟨⟨r1, d1⟩, m1⟩, ⟨h1, h2, h3⟩, e⟩, h4⟩ := h
      simp only [Prod.mk.injEq] at e h2 h3 h4
      obtain ⟨rfl, rfl⟩ := e
      have hin : In sets k (⟨r1, d1⟩, m1) := ⟨s, hs, h1⟩
      have hle := (sound hg hc k _ hin).le
      simp only at hle
      unfold continues at h4
      cases hj : sets[k - m1]? with
      | none => rw [hj] at h4; cases h4
      | some s' =>
        rw [hj] at h4
        obtain ⟨⟨d2, m2⟩, h5, h6⟩ := List.any_eq_true.1 h4
        simp only [Bool.and_eq_true, decide_eq_true_eq] at h6
        obtain ⟨rfl, h6⟩ := h6
        obtain ⟨h7, h8⟩ := mem_predictions.1 h5
        refine ⟨Nat.sub_le _ _, by omega, ?_, h3, ⟨s', hj, ?_⟩, h8⟩
        · rw [show k - (k - m1) = m1 by omega, ← h2]
          exact hin
        · rw [← h6, Nat.add_sub_cancel]
          exact h7
  · rintro ⟨h1, h2, ⟨s, hs, h3⟩, h4, ⟨s', hs', h5⟩, h6⟩
    rw [hs]
    simp only [List.mem_filter, List.mem_map, completions, Bool.and_eq_true, decide_eq_true_eq]
    refine ⟨⟨_, ⟨h3, rfl, h4⟩, ?_⟩, ?_⟩
    · simp only [Prod.mk.injEq, true_and]
      omega
    · unfold continues
      rw [hs']
      refine List.any_eq_true.2 ⟨_, mem_predictions.2 ⟨h5, h6⟩, ?_⟩
      simp only [Bool.and_eq_true, decide_eq_true_eq, true_and]
      omega

/-- What is built is a derivation. -/
theorem build_sound (hg : Proper g start) (hc : Chart g w sets) : ∀ (n r pos i k : Nat) (acc out : List PT) (amb : Bool), In sets k (⟨r, pos⟩, k - i) → i ≤ k →
    build g sets n r pos i k acc = .ok (out, amb) → ∃ ts, out = ts ++ acc ∧ TSpan g w ((g.rhs r).take pos) ts i k
  | 0, r, pos, i, k, acc, out, amb, hin, hi, h => by
    simp [build] at h
  | n + 1, r, 0, i, k, acc, out, amb, hin, hi, h => by
    simp only [build, Except.ok.injEq, Prod.mk.injEq] at h
    obtain ⟨rfl, rfl⟩ := h
    have hs := (sound hg hc k _ hin).span
    refine ⟨[], rfl, ?_⟩
    simp only [List.take_zero] at hs ⊢
    generalize hj : k - (k - i) = j at hs
    cases hs
    obtain rfl : i = k := by omega
    exact .nil i
  | n + 1, r, pos + 1, i, k, acc, out, amb, hin, hi, h => by
    unfold build at h
    cases hx : (g.rhs r)[pos]? with
    | none => rw [hx] at h; cases h
    | some x =>
      rw [hx] at h
      have hn : g.next ⟨r, pos⟩ = some x := hx
      have htake : (g.rhs r).take (pos + 1) = (g.rhs r).take pos ++ [x] := take_succ_next hn
      cases x with
      | t c =>
        dsimp only at h
        obtain ⟨h1, h2, h3, h4⟩ := in_terminal hg hc hin hn
        obtain ⟨ts, e, ht⟩ := build_sound hg hc n r pos i (k - 1) _ _ _ (by rw [show k - 1 - i = k - i - 1 by omega]; exact h4) (by omega) h
        refine ⟨ts ++ [.leaf c], by simp [e], ?_⟩
        rw [htake]
        refine ht.append (.term c [] [] _ _ h3 ?_)
        rw [show k - 1 + 1 = k by omega]
        exact .nil k
      | n a =>
        dsimp only at h
        cases hcand : candidates g sets r pos i k a with
        | nil => rw [hcand] at h; cases h
        | cons q others =>
          obtain ⟨r', j⟩ := q
          rw [hcand] at h
          dsimp only at h
          obtain ⟨h1, h2, h3, h4, h5, _⟩ := (mem_candidates hg hc).1 (hcand ▸ List.mem_cons_self : (r', j) ∈ candidates g sets r pos i k a)
          cases hb : build g sets n r' (g.rhs r').length j k [] with
          | error e => rw [hb] at h; cases h
          | ok res =>
            obtain ⟨kids, amb1⟩ := res
            rw [hb] at h
            dsimp only at h
            cases hb2 : build g sets n r pos i j (.node r' kids :: acc) with
            | error e => rw [hb2] at h; cases h
            | ok res2 =>
              obtain ⟨out2, amb2⟩ := res2
              rw [hb2] at h
              simp only [Except.ok.injEq, Prod.mk.injEq] at h
              obtain ⟨rfl, _⟩ := h
              obtain ⟨ks, e1, ht1⟩ := build_sound hg hc n r' _ j k [] _ _ h3 h1 hb
              obtain ⟨ts, e2, ht2⟩ := build_sound hg hc n r pos i j _ _ _ h5 h2 hb2
              rw [List.append_nil] at e1
              subst e1
              refine ⟨ts ++ [.node r' kids], by simp [e2], ?_⟩
              rw [htake]
              refine ht2.append ?_
              rw [← h4]
              rw [List.take_length] at ht1
              exact .node r' kids [] [] j k k (sound hg hc k _ h3).valid.1 ht1 (.nil k)

end Xmq.Yaep
