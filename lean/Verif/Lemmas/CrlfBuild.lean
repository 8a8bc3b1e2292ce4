import Verif.Lemmas.CrlfParse
import Verif.Model.Builder
import Verif.Props.Trim
/-!
# Building the document from tokens that differ in their line endings only
-/
namespace Xmq
open Spec

theorem Crlf.snoc {c : Byte} (h10 : c ≠ 10) (h13 : c ≠ 13) : ∀ {m t : List Byte}, Crlf (m ++ [c]) t → ∃ m', t = m' ++ [c] ∧ Crlf m m'
  | [], t, h => by
    obtain ⟨t', e, h'⟩ := h.left h13
    cases h'
    exact ⟨[], e, .nil⟩
  | d :: m, t, h => by
    generalize e : d :: m ++ [c] = u at h
    cases h with
    | nil => cases e
    | @crlf s t h =>
      cases e' : m with
      | nil => subst e'; cases e; exact absurd rfl h10
      | cons x m =>
        subst e'
        cases e
        obtain ⟨m', e2, h2⟩ := Crlf.snoc h10 h13 h
        exact ⟨10 :: m', by rw [e2]; rfl, .crlf h2⟩
    | @char x s t hx h =>
      cases e
      obtain ⟨m', e2, h2⟩ := Crlf.snoc h10 h13 h
      exact ⟨d :: m', by rw [e2]; rfl, .char hx h2⟩
termination_by m => m.length

theorem Crlf.snoc_right {c : Byte} (h10 : c ≠ 10) (h13 : c ≠ 13) : ∀ {m s : List Byte}, Crlf s (m ++ [c]) → ∃ m', s = m' ++ [c] ∧ Crlf m' m
  | [], s, h => by
    obtain ⟨t', e, h'⟩ := Crlf.right h h10
    cases h'
    exact ⟨[], e, .nil⟩
  | d :: m, s, h => by
    generalize e : d :: m ++ [c] = u at h
    cases h with
    | nil => cases e
    | @crlf s t h =>
      cases e
      obtain ⟨m', e2, h2⟩ := Crlf.snoc_right h10 h13 h
      exact ⟨13 :: 10 :: m', by rw [e2]; rfl, .crlf h2⟩
    | @char x s t hx h =>
      cases e
      obtain ⟨m', e2, h2⟩ := Crlf.snoc_right h10 h13 h
      exact ⟨d :: m', by rw [e2]; rfl, .char hx h2⟩

/-- The last characters agree unless they are part of a line ending. -/
theorem Crlf.last {s t : List Byte} (h : Crlf s t) {c : Byte} (h10 : c ≠ 10) (h13 : c ≠ 13) : s.getLast? = some c ↔ t.getLast? = some c := by
  constructor
  · intro hs
    obtain ⟨m, rfl⟩ := List.getLast?_eq_some_iff.1 hs
    obtain ⟨m', rfl, -⟩ := h.snoc h10 h13
    simp
  · intro ht
    obtain ⟨m, rfl⟩ := List.getLast?_eq_some_iff.1 ht
    obtain ⟨m', rfl, -⟩ := h.snoc_right h10 h13
    simp

/-- The test of the loop. -/
def Both (q : Byte) (s : List Byte) (j : Nat) : Prop := s[j]? = some q ∧ s[s.length - j - 1]? = some q ∧ j < s.length - j

theorem stripCount_eq (q : Byte) (s : List Byte) (j : Nat) (h : ∀ i < j, Both q s i) (hn : ¬ Both q s j) :
    ∀ k j0, j0 ≤ j → j ≤ k + j0 → stripCount q s k j0 = j
  | 0, j0, h1, h2 => by rw [stripCount]; omega
  | k + 1, j0, h1, h2 => by
    rw [stripCount]
    by_cases he : j0 = j
    · subst he; exact if_neg hn
    · have := h j0 (by omega)
      refine (if_pos this).trans ?_
      exact stripCount_eq q s j h hn k (j0 + 1) (by omega) (by omega)

/-- The middle is looked at, one delimiter on each side less. -/
theorem both_peel (q : Byte) (m : List Byte) (j : Nat) : Both q (q :: (m ++ [q])) (j + 1) ↔ Both q m j := by
  unfold Both
  rw [List.getElem?_cons_succ, List.length_cons, List.length_append, List.length_singleton]
  constructor
  · rintro ⟨h1, h2, h3⟩
    have : j < m.length := by omega
    rw [List.getElem?_append_left this] at h1
    refine ⟨h1, ?_, by omega⟩
    rw [show m.length + 1 + 1 - (j + 1) - 1 = (m.length - j - 1) + 1 by omega, List.getElem?_cons_succ,
      List.getElem?_append_left (by omega)] at h2
    exact h2
  · rintro ⟨h1, h2, h3⟩
    refine ⟨by rw [List.getElem?_append_left (by omega)]; exact h1, ?_, by omega⟩
    rw [show m.length + 1 + 1 - (j + 1) - 1 = (m.length - j - 1) + 1 by omega, List.getElem?_cons_succ,
      List.getElem?_append_left (by omega)]
    exact h2

theorem both_zero (q : Byte) (s : List Byte) : Both q s 0 ↔ s.head? = some q ∧ s.getLast? = some q := by
  unfold Both
  constructor
  · rintro ⟨h1, h2, -⟩
    cases s with
    | nil => cases h1
    | cons c s =>
      refine ⟨h1, ?_⟩
      rw [List.getLast?_eq_getElem?]
      exact h2
  · rintro ⟨h1, h2⟩
    cases s with
    | nil => cases h1
    | cons c s =>
      rw [List.getLast?_eq_getElem?] at h2
      exact ⟨h1, h2, by simp⟩

/-- What stripping does, one layer of delimiters at a time. -/
theorem stripDelims_rec (q : Byte) (s : List Byte) :
    (¬ (s.head? = some q ∧ s.getLast? = some q) → stripDelims q s = (0, s)) ∧
    (s = [q] → stripDelims q s = (1, [])) ∧
    (∀ m, s = q :: (m ++ [q]) → stripDelims q s = ((stripDelims q m).1 + 1, (stripDelims q m).2)) := by
  have hex : ∀ m : List Byte, ∃ j, (∀ i < j, Both q m i) ∧ ¬ Both q m j := by
    intro m
    refine Classical.byContradiction fun hall => ?_
    have : ∀ j, ∀ i < j, Both q m i := by
      intro j
      induction j with
      | zero => intro i hi; omega
      | succ j ih =>
        intro i hi
        by_cases hij : i = j
        · subst hij
          refine Classical.byContradiction fun hn => hall ⟨i, ih, hn⟩
        · exact ih i (by omega)
    have := this (m.length + 1) m.length (by omega)
    have := this.2.2
    omega
  refine ⟨?_, ?_, ?_⟩
  · intro h
    have := stripCount_eq q s 0 (fun i hi => by omega) (by rw [both_zero]; exact h) s.length 0 (by omega) (by omega)
    rw [stripDelims, this]; simp
  · intro h
    subst h
    have : stripCount q [q] [q].length 0 = 1 := by
      refine stripCount_eq q [q] 1 ?_ ?_ _ _ (by omega) (by simp)
      · intro i hi
        obtain rfl : i = 0 := by omega
        rw [both_zero]; simp
      · intro hb; have := hb.2.2; simp at this
    rw [stripDelims, this]; simp
  · intro m h
    subst h
    obtain ⟨j, h1, h2⟩ := hex m
    have hj : j ≤ m.length := by
      by_cases hj0 : j = 0
      · omega
      · have := (h1 (j - 1) (by omega)).2.2
        omega
    have e1 := stripCount_eq q m j h1 h2 m.length 0 (by omega) (by omega)
    have e2 : stripCount q (q :: (m ++ [q])) (q :: (m ++ [q])).length 0 = j + 1 := by
      refine stripCount_eq q _ (j + 1) ?_ (by rw [both_peel]; exact h2) _ _ (by omega) (by simp; omega)
      intro i hi
      cases i with
      | zero => rw [both_zero]; exact ⟨rfl, by rw [← List.cons_append, List.getLast?_concat]⟩
      | succ i => rw [both_peel]; exact h1 i (by omega)
    rw [stripDelims, stripDelims, e1, e2]
    simp only [List.drop_succ_cons, List.length_cons, List.length_append, List.length_nil]
    congr 1
    rw [List.drop_append, List.take_append]
    have hz : m.length + (0 + 1) + 1 - (j + 1) - (j + 1) = m.length - j - j := by omega
    rw [hz]
    have : (([q] : List Byte).drop (j - m.length)).take (m.length - j - j - (m.drop j).length) = [] := by
      rw [show m.length - j - j - (m.drop j).length = 0 by rw [List.length_drop]; omega]; rfl
    rw [this, List.append_nil]

theorem head_crlf {s t : List Byte} (h : Crlf s t) {c : Byte} (h10 : c ≠ 10) (h13 : c ≠ 13) : s.head? = some c ↔ t.head? = some c := by
  cases h with
  | nil => rfl
  | crlf _ => simp [h10.symm, h13.symm]
  | char _ _ => rfl

theorem stripDelims_crlf (q : Byte) (h10 : q ≠ 10) (h13 : q ≠ 13) : ∀ {s t : List Byte}, Crlf s t →
    (stripDelims q s).1 = (stripDelims q t).1 ∧ Crlf (stripDelims q s).2 (stripDelims q t).2
  | s, t, h => by
    by_cases hb : s.head? = some q ∧ s.getLast? = some q
    · obtain ⟨b1, b2⟩ := hb
      match s, h, b1, b2 with
      | [c], h, b1, b2 =>
        have : c = q := by simpa using b1
        subst this
        obtain ⟨t', rfl, h'⟩ := h.left h13
        cases h'
        exact ⟨rfl, by rw [(stripDelims_rec c [c]).2.1 rfl]; exact .nil⟩
      | c :: d :: r, h, b1, b2 =>
        have : c = q := by simpa using b1
        subst this
        have b2 : (d :: r).getLast? = some c := by simpa using b2
        obtain ⟨m, hm⟩ := List.getLast?_eq_some_iff.1 b2
        have hlen : m.length < (c :: d :: r).length := by rw [hm]; simp; omega
        rw [hm] at h ⊢
        obtain ⟨t', rfl, h'⟩ := h.left h13
        obtain ⟨m', rfl, h''⟩ := h'.snoc h10 h13
        obtain ⟨i1, i2⟩ := stripDelims_crlf c h10 h13 h''
        rw [(stripDelims_rec c _).2.2 m rfl, (stripDelims_rec c _).2.2 m' rfl]
        exact ⟨by rw [i1], i2⟩
    · have hb' : ¬ (t.head? = some q ∧ t.getLast? = some q) := by
        rw [← head_crlf h h10 h13, ← h.last h10 h13]; exact hb
      rw [(stripDelims_rec q s).1 hb, (stripDelims_rec q t).1 hb']
      exact ⟨rfl, h⟩
termination_by s => s.length

/-- Texts inside quotes and comments mean the same. -/
theorem trimQuote_crlf_eq {indent : Nat} {space next : Byte} {s t : List Byte} (h : Crlf s t) :
    trimQuote indent space next s = trimQuote indent space next t := by
  obtain ⟨out, ho⟩ := Props.C15_memory_safe_partial indent space next t (Props.noLoneCr_of_noCr h.noCr)
  rw [ho]; exact trimQuote_crlf h ho

theorem quoteVal_crlf {col : Nat} {s t : List Byte} (h : Crlf s t) : quoteVal col s = quoteVal col t := by
  rw [quoteVal, quoteVal, unQuote, unQuote]
  obtain ⟨h1, h2⟩ := stripDelims_crlf 39 (by decide) (by decide) h
  simp only [if_true]
  rw [h1, trimQuote_crlf_eq h2]

theorem Crlf.isEmpty {s t : List Byte} (h : Crlf s t) : s.isEmpty = t.isEmpty := by
  cases h <;> rfl

/-- Spaces at the end are removed alike. -/
theorem rdrop_space_crlf {s t : List Byte} (h : Crlf s t) : Crlf (rdrop (· == 32) s) (rdrop (· == 32) t) ∧
    ((rdrop (· == 32) s).length = s.length ↔ (rdrop (· == 32) t).length = t.length) := by
  have hall : ∀ {s t : List Byte}, Crlf s t → s.all (· == 32) = t.all (· == 32) := by
    intro s t h
    induction h with
    | nil => rfl
    | crlf _ _ => rfl
    | char hc _ ih => rw [List.all_cons, List.all_cons, ih]
  induction h with
  | nil => exact ⟨.nil, Iff.rfl⟩
  | @crlf s t h ih =>
    have e1 : rdrop (· == 32) (13 :: 10 :: s) = 13 :: 10 :: rdrop (· == 32) s := by
      rw [rdrop_cons, rdrop_cons]
      by_cases hs : s.all (· == 32) = true
      · rw [if_pos hs]
        have : (10 :: s).all (· == (32 : Byte)) = false := rfl
        rw [this, rdrop_eq_nil.2 (by simpa using hs)]
        rfl
      · rw [if_neg hs]
        have : (10 :: s).all (· == (32 : Byte)) = false := rfl
        rw [this]; rfl
    have e2 : rdrop (· == 32) (10 :: t) = 10 :: rdrop (· == 32) t := by
      rw [rdrop_cons]
      by_cases hs : t.all (· == 32) = true
      · rw [if_pos hs, rdrop_eq_nil.2 (by simpa using hs)]
        rfl
      · rw [if_neg hs]
    rw [e1, e2]
    refine ⟨.crlf ih.1, ?_⟩
    have := ih.2
    simp only [List.length_cons]
    omega
  | @char c s t hc h ih =>
    rw [rdrop_cons, rdrop_cons, hall h]
    split
    · have h1 := h.length_le
      have := hall h
      split
      · refine ⟨.nil, ?_⟩
        simp
      · refine ⟨.char hc .nil, ?_⟩
        have := h.nil_iff
        rw [← List.length_eq_zero_iff, ← List.length_eq_zero_iff] at this
        simp only [List.length_cons, List.length_nil]
        omega
    · refine ⟨.char hc ih.1, ?_⟩
      have := ih.2
      simp only [List.length_cons]
      omega

theorem drop_head_crlf {s t : List Byte} (h : Crlf s t) {c : Byte} (hp : (peek s == c) = true) (h13 : c ≠ 13) : Crlf (s.drop 1) (t.drop 1) := by
  cases h with
  | nil => exact .nil
  | crlf _ => exact absurd (by simpa using hp : (13 : Byte) = c).symm h13
  | char _ h => exact h

theorem take_last_crlf {s t : List Byte} (h : Crlf s t) {c : Byte} (hl : s.getLast? = some c) (h10 : c ≠ 10) (h13 : c ≠ 13) :
    Crlf (s.take (s.length - 1)) (t.take (t.length - 1)) := by
  obtain ⟨m, rfl⟩ := List.getLast?_eq_some_iff.1 hl
  obtain ⟨m', rfl, h'⟩ := h.snoc h10 h13
  simpa using h'

theorem unComment_crlf {indent : Nat} {space next : Byte} {s t : List Byte} (h : Crlf s t) :
    unComment indent space next s = unComment indent space next t := by
  rw [unComment, unComment]
  dsimp only
  have hi := h.dropWhile (· == b#'/') (by decide)
  rw [h.isEmpty, hi.isEmpty, hi.peek_bne b#'*']
  by_cases h1 : t.isEmpty = true
  · rw [if_pos h1, if_pos h1]
  · rw [if_neg h1, if_neg h1]
    by_cases h2 : (t.dropWhile (· == b#'/')).isEmpty = true
    · rw [if_pos h2, if_pos h2]
      have h2' : t.dropWhile (· == b#'/') = [] := by simpa using h2
      have h3' : s.dropWhile (· == b#'/') = [] := hi.nil_iff.2 h2'
      have hall : s = t := by
        have e1 := List.takeWhile_append_dropWhile (p := (· == b#'/')) (l := s)
        have e2 := List.takeWhile_append_dropWhile (p := (· == b#'/')) (l := t)
        rw [h3', List.append_nil] at e1
        rw [h2', List.append_nil] at e2
        rw [← e1, ← e2, h.takeWhile_eq _ (by decide) (by decide)]
      rw [hall]
    · rw [if_neg h2, if_neg h2]
      by_cases h3 : (peek (t.dropWhile (· == b#'/')) != b#'*') = true
      · rw [if_pos h3, if_pos h3, hi.peek_beq b#' ']
        have hi2 : Crlf (if peek (t.dropWhile (· == b#'/')) == b#' ' then (s.dropWhile (· == b#'/')).drop 1 else s.dropWhile (· == b#'/'))
            (if peek (t.dropWhile (· == b#'/')) == b#' ' then (t.dropWhile (· == b#'/')).drop 1 else t.dropWhile (· == b#'/')) := by
          split
          · rename_i hp
            exact drop_head_crlf hi (by rw [hi.peek_beq b#' ']; exact hp) (by decide)
          · exact hi
        generalize (if peek (t.dropWhile (· == b#'/')) == b#' ' then (s.dropWhile (· == b#'/')).drop 1 else s.dropWhile (· == b#'/')) = x at hi2 ⊢
        generalize (if peek (t.dropWhile (· == b#'/')) == b#' ' then (t.dropWhile (· == b#'/')).drop 1 else t.dropWhile (· == b#'/')) = y at hi2 ⊢
        obtain ⟨r1, r2⟩ := rdrop_space_crlf hi2
        have r1' : Crlf (x.reverse.dropWhile (· == b#' ')).reverse (y.reverse.dropWhile (· == b#' ')).reverse := r1
        rw [trimQuote_crlf_eq r1']
        by_cases hb : (y.reverse.dropWhile (· == b#' ')).reverse.length = y.length
        · have hb' : (x.reverse.dropWhile (· == b#' ')).reverse.length = x.length := r2.2 hb
          rw [if_pos hb, if_pos hb']
        · have hb' : ¬ (x.reverse.dropWhile (· == b#' ')).reverse.length = x.length := fun e => hb (r2.1 e)
          rw [if_neg hb, if_neg hb']
      · rw [if_neg h3, if_neg h3]
        obtain ⟨s1, s2⟩ := stripDelims_crlf 47 (by decide) (by decide) h
        rw [s1]
        generalize (stripDelims b#'/' s).2 = x at s2 ⊢
        generalize (stripDelims b#'/' t).2 = y at s2 ⊢
        have hl : (x.getLast? != some b#'*') = (y.getLast? != some b#'*') := by
          have := s2.last (c := b#'*') (by decide) (by decide)
          by_cases hy : y.getLast? = some b#'*'
          · rw [hy, this.2 hy]
          · rw [bne_iff_ne.2 hy, bne_iff_ne.2 (fun e => hy (this.1 e))]
        rw [s2.peek_bne b#'*', hl]
        by_cases h4 : (peek y != b#'*' || y.getLast? != some b#'*') = true
        · rw [if_pos h4, if_pos h4]
        · rw [if_neg h4, if_neg h4]
          have h4 : peek y = b#'*' ∧ y.getLast? = some b#'*' := by simpa using h4
          have hpx : (peek x == b#'*') = true := by rw [s2.peek_beq b#'*']; simpa using h4.1
          have hlx := (s2.last (c := b#'*') (by decide) (by decide)).2 h4.2
          have hlen : x.length < 2 ↔ y.length < 2 := by
            have hlt := take_last_crlf s2 hlx (by decide) (by decide)
            have := hlt.nil_iff
            rw [← List.length_eq_zero_iff, ← List.length_eq_zero_iff, List.length_take, List.length_take] at this
            omega
          by_cases h5 : y.length < 2
          · rw [if_pos h5, if_pos (hlen.2 h5)]
          · rw [if_neg h5, if_neg (fun e => h5 (hlen.1 e))]
            have mid : Crlf ((x.drop 1).take (x.length - 2)) ((y.drop 1).take (y.length - 2)) := by
              have hd := drop_head_crlf s2 hpx (by decide)
              have hl1 : (x.drop 1).getLast? = some b#'*' := by
                rw [List.getLast?_drop, if_neg (by omega)]; exact hlx
              have := take_last_crlf hd hl1 (by decide) (by decide)
              simpa [Nat.sub_sub] using this
            generalize (x.drop 1).take (x.length - 2) = u at mid ⊢
            generalize (y.drop 1).take (y.length - 2) = v at mid ⊢
            rw [mid.peek_beq b#' ']
            have mid2 : Crlf (if (peek v == b#' ') = true then u.drop 1 else u) (if (peek v == b#' ') = true then v.drop 1 else v) := by
              split
              · rename_i hp
                exact drop_head_crlf mid (by rw [mid.peek_beq b#' ']; exact hp) (by decide)
              · exact mid
            generalize (if (peek v == b#' ') = true then u.drop 1 else u) = u2 at mid2 ⊢
            generalize (if (peek v == b#' ') = true then v.drop 1 else v) = v2 at mid2 ⊢
            have hl2 : (u2.getLast? == some b#' ') = (v2.getLast? == some b#' ') := by
              have := mid2.last (c := b#' ') (by decide) (by decide)
              by_cases hy : v2.getLast? = some b#' '
              · rw [hy, this.2 hy]
              · rw [beq_eq_false_iff_ne.2 hy, beq_eq_false_iff_ne.2 (fun e => hy (this.1 e))]
            rw [hl2]
            by_cases h6 : (v2.getLast? == some b#' ') = true
            · rw [if_pos h6, if_pos h6, if_pos h6]
              have : u2.getLast? = some b#' ' := by rw [← hl2] at h6; simpa using h6
              exact trimQuote_crlf_eq (take_last_crlf mid2 this (by decide) (by decide))
            · rw [if_neg h6, if_neg h6, if_neg h6]
              exact trimQuote_crlf_eq mid2

theorem Crlf.eq_of_noNl {s t : List Byte} (h : Crlf s t) (hs : (10 : Byte) ∉ s) : s = t := by
  induction h with
  | nil => rfl
  | crlf _ _ => simp at hs
  | char _ _ ih => rw [ih (fun e => hs (by simp [e]))]

end Xmq
