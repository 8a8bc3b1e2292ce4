import Verif.Lemmas.EarleyBuild
/-!
# If the parser says that the input is ambiguous, there are two trees
-/
namespace Xmq.Yaep
open Xmq.Ixml (Sym)
open Xmq.Spec Xmq.Cfg

variable {g : Gram} {w : List Int} {start : List Byte} {sets : List SSet}

mutual
/-- The number of leaves. -/
def leaves : PT → Nat
  | .leaf _ => 1
  | .node _ kids => leavesAll kids
def leavesAll : List PT → Nat
  | [] => 0
  | t :: ts => leaves t + leavesAll ts
end

theorem leavesAll_append : ∀ a b : List PT, leavesAll (a ++ b) = leavesAll a + leavesAll b
  | [], b => by simp [leavesAll]
  | t :: a, b => by simp [leavesAll, leavesAll_append a b, Nat.add_assoc]

theorem TSpan.leaves {α : List Sym} {ts : List PT} {i j : Nat} (h : TSpan g w α ts i j) : j = i + leavesAll ts := by
  induction h with
  | nil i => simp [leavesAll]
  | term c α ts i j hc _ ih => simp [leavesAll, Yaep.leaves]; omega
  | node r kids α ts i j k hr _ _ ih1 ih2 => simp [leavesAll, Yaep.leaves]; omega

/-! ## The same item twice -/

/-- A started dotted rule: its last symbol has tokens. -/
theorem begun_tree (hg : Proper g start) (hc : Chart g w sets) {k : Nat} {p : Item} (h : Begun sets (k + 1) p) :
    ∃ ta t j, j < k + 1 ∧ (g.rhs p.1.rule).take p.1.dot = (g.rhs p.1.rule).take (p.1.dot - 1) ++ [t] ∧ TSpan g w ((g.rhs p.1.rule).take (p.1.dot - 1)) ta (k + 1 - p.2) j ∧
      Span g w [t] j (k + 1) := by
  have hk : k + 1 ≤ w.length := by
    have := begun_lt h
    have := hc.short
    omega
  rcases begun_origin hc h with ⟨q, c, rfl, h1, h2, h3⟩ | ⟨q0, q, rfl, h1, h2, h3, h4, h5, h6⟩
  · have hs := sound hg hc k q h1
    obtain ⟨ta, hta⟩ := hs.span.tree
    refine ⟨ta, .t c, k, by omega, take_succ_next h3, ?_, .term c [] k _ h2 (.nil _)⟩
    have hle := hs.le
    have e : k + 1 - (q.over 1).2 = k - q.2 := by unfold Item.over; simp only; omega
    rw [e]
    exact hta
  · have hs := sound hg hc _ q h5
    obtain ⟨ta, hta⟩ := hs.span.tree
    refine ⟨ta, .n (g.lhs q0.1.rule), k + 1 - q0.2, by omega, take_succ_next h6, ?_, (sound hg hc _ _ (begun_in hc h1)).complete hg h2 hk⟩
    have hle := hs.le
    have e : k + 1 - (q.over q0.2).2 = k + 1 - q0.2 - q.2 := by unfold Item.over; simp only; omega
    rw [e]
    exact hta

theorem ends (hg : Proper g start) {d : Dotted} {r : Nat} (hk : k ≤ w.length) (h : d = ⟨r, (g.rhs r).length⟩ ∨ Skipped g d ⟨r, (g.rhs r).length⟩) :
    d.rule = r ∧ Span g w ((g.rhs r).drop d.dot) k k := by
  rcases h with rfl | ⟨h1, h2, h3, h4⟩
  · exact ⟨rfl, by simp only [List.drop_length]; exact .nil k⟩
  · simp only at h1 h2 h3 h4
    refine ⟨h1.symm, span_nulls (fun x hx => (hg.empty x).1 (h4 x ?_)) hk⟩
    rw [List.take_of_length_le]
    · unfold Gram.tail
      rw [← h1]
      exact hx
    · unfold Gram.tail
      rw [List.length_drop, ← h1]
      omega

theorem two_trees_lt (hg : Proper g start) (hc : Chart g w sets) {k r m d1 d2 : Nat} (h1 : Begun sets (k + 1) (⟨r, d1⟩, m)) (h2 : Begun sets (k + 1) (⟨r, d2⟩, m))
    (e1 : Span g w ((g.rhs r).drop d1) (k + 1) (k + 1)) (e2 : Span g w ((g.rhs r).drop d2) (k + 1) (k + 1)) (hlt : d1 < d2) :
    ∃ ks1 ks2, ks1 ≠ ks2 ∧ TSpan g w (g.rhs r) ks1 (k + 1 - m) (k + 1) ∧ TSpan g w (g.rhs r) ks2 (k + 1 - m) (k + 1) := by
  have hs1 := sound hg hc _ _ (begun_in hc h1)
  have hle1 := hs1.valid.2
  simp only at hle1
  obtain ⟨a, ha⟩ := hs1.span.tree
  obtain ⟨a', ha'⟩ := e1.tree
  obtain ⟨b, t, j, hj, htake, hb, ht⟩ := begun_tree hg hc h2
  simp only at htake hb
  obtain ⟨bt, hbt⟩ := ht.tree
  obtain ⟨b', hb'⟩ := e2.tree
  have f1 : TSpan g w (g.rhs r) (a ++ a') (k + 1 - m) (k + 1) := by
    have := ha.append ha'
    rwa [List.take_append_drop] at this
  have f2 : TSpan g w (g.rhs r) (b ++ (bt ++ b')) (k + 1 - m) (k + 1) := by
    have h := hb.append (hbt.append hb')
    rw [← List.append_assoc] at h
    rw [← htake, List.take_append_drop] at h
    exact h
  refine ⟨_, _, ?_, f1, f2⟩
  intro e
  have la := ha.leaves
  have lb := hb.leaves
  have na := ha.length
  have nb := hb.length
  have hle2 := (sound hg hc _ _ (begun_in hc h2)).valid.2
  simp only [List.length_take] at na nb hle2 hb
  have hml := hs1.le
  simp only at hml
  have hpre : ∃ c, b = a ++ c := by
    refine ⟨b.drop a.length, ?_⟩
    have : a = b.take a.length := by
      have h := congrArg (List.take a.length) e
      rw [List.take_left, List.take_append_of_le_length (by omega)] at h
      exact h
    exact ((List.take_append_drop a.length b).symm).trans (congrArg (· ++ b.drop a.length) this.symm)
  obtain ⟨c, rfl⟩ := hpre
  rw [leavesAll_append] at lb
  omega

theorem two_trees (hg : Proper g start) (hc : Chart g w sets) {k r m d1 d2 : Nat} (h1 : Begun sets (k + 1) (⟨r, d1⟩, m)) (h2 : Begun sets (k + 1) (⟨r, d2⟩, m))
    (e1 : Span g w ((g.rhs r).drop d1) (k + 1) (k + 1)) (e2 : Span g w ((g.rhs r).drop d2) (k + 1) (k + 1)) (hne : d1 ≠ d2) :
    ∃ ks1 ks2, ks1 ≠ ks2 ∧ TSpan g w (g.rhs r) ks1 (k + 1 - m) (k + 1) ∧ TSpan g w (g.rhs r) ks2 (k + 1 - m) (k + 1) := by
  rcases Nat.lt_or_gt_of_ne hne with h | h
  · exact two_trees_lt hg hc h1 h2 e1 e2 h
  · exact two_trees_lt hg hc h2 h1 e2 e1 h

theorem two_le_count {α : Type} [BEq α] [LawfulBEq α] {l : List α} {x : α} (h : 2 ≤ l.count x) : ∃ i j : Nat, i < j ∧ l[i]? = some x ∧ l[j]? = some x := by
  classical
  induction l with
  | nil => simp at h
  | cons y l ih =>
    rw [List.count_cons] at h
    by_cases hy : y = x
    · subst hy
      have : 0 < l.count y := by rw [if_pos (beq_self_eq_true y)] at h; omega
      obtain ⟨j, hj, e⟩ := List.getElem_of_mem (List.count_pos_iff.1 this)
      exact ⟨0, j + 1, Nat.succ_pos j, rfl, by simp; exact List.getElem?_eq_some_iff.2 ⟨hj, e⟩⟩
    · have : (y == x) = false := by simpa using hy
      rw [this] at h
      obtain ⟨i, j, h1, h2, h3⟩ := ih (by simpa using h)
      exact ⟨i + 1, j + 1, by omega, by simpa using h2, by simpa using h3⟩

theorem nodup_getElem {α : Type} {l : List α} (h : l.Nodup) {i j : Nat} {x : α} (h1 : l[i]? = some x) (h2 : l[j]? = some x) : i = j := by
  obtain ⟨a, b⟩ := List.getElem?_eq_some_iff.1 h1
  obtain ⟨c, d⟩ := List.getElem?_eq_some_iff.1 h2
  rcases Nat.lt_trichotomy i j with hij | hij | hij
  · exact absurd (b.trans d.symm) (List.pairwise_iff_getElem.1 h i j a c hij)
  · exact hij
  · exact absurd (d.trans b.symm) (List.pairwise_iff_getElem.1 h j i c a hij)

/-- If a completed rule is there twice it has two derivations. -/
theorem twice (hg : Proper g start) (hc : Chart g w sets) {k r m : Nat} {s : SSet} (hs : sets[k]? = some s) (ha : g.lhs r ≠ axiomName)
    (h : 2 ≤ s.items.count (⟨r, (g.rhs r).length⟩, m)) :
    ∃ ks1 ks2, ks1 ≠ ks2 ∧ TSpan g w (g.rhs r) ks1 (k - m) k ∧ TSpan g w (g.rhs r) ks2 (k - m) k := by
  have hso := hc.ok k s hs
  have hnd := hc.nodup k s hs
  have hk : k ≤ w.length := by
    have := (List.getElem?_eq_some_iff.1 hs).1
    have := hc.short
    omega
  rw [hso.items_eq, List.count_append, List.count_append] at h
  have hb1 : s.begun.count (⟨r, (g.rhs r).length⟩, m) ≤ 1 := List.nodup_iff_count.1 hnd _
  have hi1 : (s.core.initial.map fun d => (d, 0)).count ((⟨r, (g.rhs r).length⟩, m) : Item) ≤ 1 := by
    refine List.nodup_iff_count.1 ?_ _
    refine List.pairwise_map.2 (List.Pairwise.imp ?_ hso.nodup)
    intro a b hab e
    cases e
    exact hab rfl
  have hbegun : ∀ d m', (d, m') ∈ s.begun → d.rule = r → 0 < m' ∧ ∃ k', k = k' + 1 := by
    intro d m' hd hr
    cases k with
    | zero =>
      obtain ⟨r', e, _, ha'⟩ := begun_zero hc ⟨s, hs, hd⟩
      cases e
      simp only at hr
      subst hr
      exact absurd ha' ha
    | succ k => exact ⟨(begun_length hc hg ⟨s, hs, hd⟩).1, k, rfl⟩
  have hnys : ∀ p ∈ s.core.nys, (p.1, (s.lens[p.2]?).getD 0) = ((⟨r, (g.rhs r).length⟩, m) : Item) → ∃ d, s.begun[p.2]? = some (d, m) ∧ Skipped g d ⟨r, (g.rhs r).length⟩ := by
    rintro ⟨e, i⟩ hp he
    obtain ⟨q, h1, h2⟩ := (hso.nys e i).1 hp
    simp only [Prod.mk.injEq] at he
    obtain ⟨rfl, he⟩ := he
    rw [hso.lens, List.getElem?_map, h1] at he
    simp only [Option.map_some, Option.getD_some] at he
    subst he
    exact ⟨q.1, h1, h2⟩
  by_cases hm : m = 0
  · exfalso
    subst hm
    have h1 : s.begun.count (⟨r, (g.rhs r).length⟩, 0) = 0 := by
      rw [List.count_eq_zero]
      intro hd
      exact absurd (hbegun _ _ hd rfl).1 (by omega)
    have h2 : (s.core.nys.map fun p => (p.1, (s.lens[p.2]?).getD 0)).count ((⟨r, (g.rhs r).length⟩, 0) : Item) = 0 := by
      rw [List.count_eq_zero]
      intro hd
      obtain ⟨p, hp, e⟩ := List.mem_map.1 hd
      obtain ⟨d, h3, h4⟩ := hnys p hp e
      exact absurd (hbegun _ _ (List.mem_of_getElem? h3) h4.1.symm).1 (by omega)
    omega
  · have hi0 : (s.core.initial.map fun d => (d, 0)).count ((⟨r, (g.rhs r).length⟩, m) : Item) = 0 := by
      rw [List.count_eq_zero]
      intro hd
      obtain ⟨d, _, e⟩ := List.mem_map.1 hd
      cases e
      exact hm rfl
    have fin : ∀ d1 d2, (d1, m) ∈ s.begun → (d2, m) ∈ s.begun → d1 ≠ d2 → (d1 = ⟨r, (g.rhs r).length⟩ ∨ Skipped g d1 ⟨r, (g.rhs r).length⟩) →
        (d2 = ⟨r, (g.rhs r).length⟩ ∨ Skipped g d2 ⟨r, (g.rhs r).length⟩) → ∃ ks1 ks2, ks1 ≠ ks2 ∧ TSpan g w (g.rhs r) ks1 (k - m) k ∧ TSpan g w (g.rhs r) ks2 (k - m) k := by
      rintro ⟨r1, p1⟩ ⟨r2, p2⟩ h1 h2 hne e1 e2
      obtain ⟨a1, b1⟩ := ends hg hk e1
      obtain ⟨a2, b2⟩ := ends hg hk e2
      simp only at a1 a2 b1 b2
      subst a1 a2
      obtain ⟨_, k', rfl⟩ := hbegun _ _ h1 rfl
      exact two_trees hg hc ⟨s, hs, h1⟩ ⟨s, hs, h2⟩ b1 b2 (fun e => hne (by rw [e]))
    by_cases hb : (⟨r, (g.rhs r).length⟩, m) ∈ s.begun
    · have : 0 < (s.core.nys.map fun p => (p.1, (s.lens[p.2]?).getD 0)).count ((⟨r, (g.rhs r).length⟩, m) : Item) := by omega
      obtain ⟨p, hp, e⟩ := List.mem_map.1 (List.count_pos_iff.1 this)
      obtain ⟨d, h3, h4⟩ := hnys p hp e
      refine fin d ⟨r, (g.rhs r).length⟩ (List.mem_of_getElem? h3) hb ?_ (.inr h4) (.inl rfl)
      rintro rfl
      exact Nat.lt_irrefl _ h4.2.1
    · have hb0 := List.count_eq_zero.2 hb
      obtain ⟨i, j, hij, hi, hj⟩ := two_le_count (show 2 ≤ (s.core.nys.map fun p => (p.1, (s.lens[p.2]?).getD 0)).count ((⟨r, (g.rhs r).length⟩, m) : Item) by omega)
      rw [List.getElem?_map, Option.map_eq_some_iff] at hi hj
      obtain ⟨p, hp, e1⟩ := hi
      obtain ⟨q, hq, e2⟩ := hj
      obtain ⟨d1, h1, h2⟩ := hnys p (List.mem_of_getElem? hp) e1
      obtain ⟨d2, h3, h4⟩ := hnys q (List.mem_of_getElem? hq) e2
      refine fin d1 d2 (List.mem_of_getElem? h1) (List.mem_of_getElem? h3) ?_ (.inr h2) (.inr h4)
      rintro rfl
      have hpq : p.2 = q.2 := nodup_getElem hnd h1 h3
      have : p = q := Prod.ext ((Prod.mk.inj e1).1.trans (Prod.mk.inj e2).1.symm) hpq
      subst this
      exact absurd (nodup_getElem hso.nysNodup hp hq) (by omega)

theorem countP_filter_le {α : Type} (p q : α → Bool) (l : List α) : (l.filter q).countP p ≤ l.countP p := List.filter_sublist.countP_le

theorem count_candidates (hg : Proper g start) (hc : Chart g w sets) {r pos i k : Nat} {a : List Byte} {r' j : Nat} {s : SSet} (hs : sets[k]? = some s) (hjk : j ≤ k) :
    (candidates g sets r pos i k a).count (r', j) ≤ s.items.count (⟨r', (g.rhs r').length⟩, k - j) := by
  unfold candidates
  rw [hs]
  dsimp only
  rw [List.count, List.count]
  refine Nat.le_trans (countP_filter_le _ _ _) ?_
  rw [List.countP_map, completions, List.countP_filter]
  refine List.countP_mono_left ?_
  rintro ⟨⟨r1, d1⟩, m1⟩ hp h
  simp only [Function.comp, Bool.and_eq_true, beq_iff_eq, Prod.mk.injEq, decide_eq_true_eq] at h ⊢
  obtain ⟨⟨rfl, h1⟩, h2, _⟩ := h
  have := (sound hg hc k _ ⟨s, hs, hp⟩).le
  simp only at this
  refine ⟨?_, by omega⟩
  rw [h2]

/-- What is called ambiguous is. -/
theorem build_ambiguous (hg : Proper g start) (hc : Chart g w sets) : ∀ (n r pos i k : Nat) (acc out : List PT), In sets k (⟨r, pos⟩, k - i) → i ≤ k →
    build g sets n r pos i k acc = .ok (out, true) → ∃ ts, TSpan g w ((g.rhs r).take pos) ts i k ∧ ts ++ acc ≠ out
  | 0, r, pos, i, k, acc, out, hin, hi, h => by
    simp [build] at h
  | n + 1, r, 0, i, k, acc, out, hin, hi, h => by
    simp [build] at h
  | n + 1, r, pos + 1, i, k, acc, out, hin, hi, h => by
    unfold build at h
    cases hx : (g.rhs r)[pos]? with
    | none => rw [hx] at h; cases h
    | some x =>
      rw [hx] at h
      have hn : g.next ⟨r, pos⟩ = some x := hx
      have htake : (g.rhs r).take (pos + 1) = (g.rhs r).take pos ++ [x] := take_succ_next hn
      cases x with
      | t c =>
        dsimp only at h
        obtain ⟨h1, h2, h3, h4⟩ := in_terminal hg hc hin hn
        obtain ⟨ts, ht, hne⟩ := build_ambiguous hg hc n r pos i (k - 1) _ _ (by rw [show k - 1 - i = k - i - 1 by omega]; exact h4) (by omega) h
        refine ⟨ts ++ [.leaf c], ?_, by simpa using hne⟩
        rw [htake]
        refine ht.append (.term c [] [] _ _ h3 ?_)
        rw [show k - 1 + 1 = k by omega]
        exact .nil k
      | n a =>
        dsimp only at h
        cases hcand : candidates g sets r pos i k a with
        | nil => rw [hcand] at h; cases h
        | cons q others =>
          obtain ⟨r', j⟩ := q
          rw [hcand] at h
          dsimp only at h
          obtain ⟨h1, h2, h3, h4, h5, _⟩ := (mem_candidates hg hc).1 (hcand ▸ List.mem_cons_self : (r', j) ∈ candidates g sets r pos i k a)
          have hr' := (sound hg hc k _ h3).valid.1
          simp only at hr'
          cases hb : build g sets n r' (g.rhs r').length j k [] with
          | error e => rw [hb] at h; cases h
          | ok res =>
            obtain ⟨kids, amb1⟩ := res
            rw [hb] at h
            dsimp only at h
            cases hb2 : build g sets n r pos i j (.node r' kids :: acc) with
            | error e => rw [hb2] at h; cases h
            | ok res2 =>
              obtain ⟨out2, amb2⟩ := res2
              rw [hb2] at h
              simp only [Except.ok.injEq, Prod.mk.injEq] at h
              obtain ⟨rfl, hamb⟩ := h
              obtain ⟨ks, e1, ht1⟩ := build_sound hg hc n r' _ j k [] _ _ h3 h1 hb
              obtain ⟨ts, e2, ht2⟩ := build_sound hg hc n r pos i j _ _ _ h5 h2 hb2
              rw [List.append_nil] at e1
              subst e1
              rw [List.take_length] at ht1
              have node : ∀ r'' ks j', r'' < g.rules.length → g.lhs r'' = a → TSpan g w (g.rhs r'') ks j' k → TSpan g w [.n a] [.node r'' ks] j' k := by
                intro r'' ks j' hr ha hk
                rw [← ha]
                exact .node r'' ks [] [] j' k k hr hk (.nil k)
              have other : ∀ ks, ks ≠ kids → TSpan g w (g.rhs r') ks j k → ∃ ts, TSpan g w ((g.rhs r).take (pos + 1)) ts i k ∧ ts ++ acc ≠ out2 := by
                intro ks hne hk
                refine ⟨ts ++ [.node r' ks], ?_, ?_⟩
                · rw [htake]
                  exact ht2.append (node r' ks j hr' h4 hk)
                · rw [e2]
                  simpa using hne
              rw [Bool.or_eq_true, Bool.or_eq_true] at hamb
              rcases hamb with (rfl | rfl) | hoth
              · obtain ⟨ks', hk', hne⟩ := build_ambiguous hg hc n r' _ j k [] _ h3 h1 hb
                rw [List.take_length] at hk'
                exact other ks' (by simpa using hne) hk'
              · obtain ⟨ts', ht', hne⟩ := build_ambiguous hg hc n r pos i j _ _ h5 h2 hb2
                refine ⟨ts' ++ [.node r' kids], ?_, by simpa using hne⟩
                rw [htake]
                exact ht'.append (node r' kids j hr' h4 ht1)
              · cases others with
                | nil => simp at hoth
                | cons q others =>
                  obtain ⟨r'', j''⟩ := q
                  by_cases he : (r'', j'') = (r', j)
                  · obtain ⟨s, hs, _⟩ := h3
                    have hcount := count_candidates hg hc (r := r) (pos := pos) (i := i) (a := a) (r' := r') (j := j) hs h1
                    rw [hcand, he] at hcount
                    simp only [List.count_cons_self] at hcount
                    have hax : g.lhs r' ≠ axiomName := by
                      rw [h4]
                      rintro rfl
                      have hrv := in_valid hg hc hin
                      simp only at hrv
                      refine hg.noax (g.rules[r]) (List.getElem_mem _) ?_
                      rw [← rhs_of_lt hrv]
                      exact List.mem_of_getElem? hx
                    obtain ⟨k1, k2, hne, f1, f2⟩ := twice hg hc hs hax (m := k - j) (by omega)
                    rw [show k - (k - j) = j by omega] at f1 f2
                    by_cases hk : k1 = kids
                    · exact other k2 (fun e => hne (hk.trans e.symm)) f2
                    · exact other k1 hk f1
                  · obtain ⟨g1, g2, g3, g4, g5, _⟩ := (mem_candidates hg hc).1
                      (hcand ▸ List.mem_cons_of_mem _ List.mem_cons_self : (r'', j'') ∈ candidates g sets r pos i k a)
                    have hs3 := (sound hg hc k _ g3).span
                    simp only [List.take_length] at hs3
                    rw [show k - (k - j'') = j'' by omega] at hs3
                    have hs5 := (sound hg hc j'' _ g5).span
                    simp only at hs5
                    rw [show j'' - (j'' - i) = i by omega] at hs5
                    obtain ⟨ks, hks⟩ := hs3.tree
                    obtain ⟨us, hus⟩ := hs5.tree
                    refine ⟨us ++ [.node r'' ks], ?_, ?_⟩
                    · rw [htake]
                      exact hus.append (node r'' ks j'' (sound hg hc k _ g3).valid.1 g4 hks)
                    · rw [e2]
                      intro e
                      have e' : us ++ [PT.node r'' ks] = ts ++ [PT.node r' kids] := by
                        refine List.append_cancel_right (bs := acc) ?_
                        simpa using e
                      have e3 := (List.append_inj' e' rfl).2
                      simp only [List.cons.injEq, PT.node.injEq, and_true] at e3
                      obtain ⟨rfl, rfl⟩ := e3
                      have l1 := hks.leaves
                      have l2 := ht1.leaves
                      obtain rfl : j'' = j := by omega
                      exact he rfl

end Xmq.Yaep
