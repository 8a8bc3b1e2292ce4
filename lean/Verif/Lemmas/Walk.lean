import Verif.Model.Parser
import Verif.Spec.Tokens
/-!
# Movement of the parser state: consumed bytes, position and delivered tokens
-/
namespace Xmq
open Spec

/-- Position after walking over some bytes. -/
def walk (p : Nat × Nat) (s : List Byte) : Nat × Nat := s.foldl (fun p c => incPos c p.1 p.2) p

@[simp] theorem walk_nil (p) : walk p [] = p := rfl
@[simp] theorem walk_cons (p c s) : walk p (c :: s) = walk (incPos c p.1 p.2) s := rfl
theorem walk_append (p s t) : walk p (s ++ t) = walk (walk p s) t := by simp [walk]

theorem isCont_iff' (c : Byte) : isCont c = false ↔ (c.toNat < 0x80 ∨ 0xC0 ≤ c.toNat) := by
  revert c; apply forall_byte; decide +kernel

theorem walk_eq (s : List Byte) : walk (1, 1) s = (lineAfter s, colAfter s) := by
  suffices ∀ r : List Byte, walk (1, 1) r.reverse = (lineAfter r.reverse, colAfter r.reverse) by
    simpa using this s.reverse
  intro r
  induction r with
  | nil => rfl
  | cons c r ih =>
    rw [List.reverse_cons, walk_append, ih]
    have hc := isCont_iff' c
    simp only [walk_cons, walk_nil, incPos, lineAfter, colAfter, List.count_append, List.reverse_append,
      List.reverse_reverse, List.reverse_cons, List.reverse_nil, List.nil_append, List.singleton_append]
    by_cases h10 : c = 10
    · subst h10
      have : isCont 10 = false := by decide
      simp [this]; omega
    · cases h : isCont c
      · have := hc.1 h
        simp [h10, this]; omega
      · have : ¬ (c.toNat < 128 ∨ 192 ≤ c.toNat) := fun hh => by
          rw [hc.2 hh] at h; cases h
        simp [h10, this]

/-- `st'` is `st` after consuming exactly the next `n` bytes, without delivering tokens. -/
def St.moved (st : St) (n : Nat) : St :=
  { before := (st.rest.take n).reverse ++ st.before
    rest := st.rest.drop n
    line := (walk (st.line, st.col) (st.rest.take n)).1
    col := (walk (st.line, st.col) (st.rest.take n)).2
    out := st.out }

@[simp] theorem moved_rest (st : St) (n) : (st.moved n).rest = st.rest.drop n := rfl
@[simp] theorem moved_out (st : St) (n) : (st.moved n).out = st.out := rfl

theorem advance_eq (st : St) (n : Nat) (h : n ≤ st.rest.length) : st.advance n = st.moved n := by
  induction n generalizing st with
  | zero => simp [St.advance, St.moved]
  | succ n ih =>
    rcases st with ⟨b, r, l, c, o⟩
    cases r with
    | nil => simp at h
    | cons x r =>
      simp only [St.advance]
      rw [ih]
      · simp [St.moved, St.increment, incPos]
      · simp [St.increment] at h ⊢; omega

theorem moved_moved (st : St) (n m : Nat) : (st.moved n).moved m = st.moved (n + m) := by
  simp only [St.moved, List.drop_drop, List.take_add, walk_append]
  simp

@[simp] theorem moved_zero (st : St) : st.moved 0 = st := by simp [St.moved]

theorem countWhitespace_cases (s : List Byte) :
    countWhitespace s = 0 ∨
    (∃ c t, s = c :: t ∧ isXmlWhitespace c = true ∧ countWhitespace s = 1) ∨
    (∃ t, s = 0xc2 :: 0xa0 :: t ∧ countWhitespace s = 2) ∨
    (∃ x t, s = 0xe2 :: 0x80 :: x :: t ∧ (x = 0x80 ∨ x = 0x81 ∨ x = 0x82 ∨ x = 0x83) ∧ countWhitespace s = 3) := by
  generalize h : countWhitespace s = n
  unfold countWhitespace at h
  cases s with
  | nil => simp [peek] at h; simp [h]
  | cons c s =>
    dsimp only [peek] at h
    by_cases hc : (c == 32 || c == 10 || c == 9 || c == 13) = true
    · rw [if_pos hc] at h
      refine Or.inr (Or.inl ⟨c, s, rfl, ?_, h.symm⟩)
      simpa [isXmlWhitespace] using hc
    · rw [if_neg hc] at h
      cases s with
      | nil => simp at h; simp [h]
      | cons cc t =>
        simp only at h
        split at h
        · simp [h]
        · split at h
          · rename_i hc; simp at hc
            exact Or.inr (Or.inr (Or.inl ⟨t, by simp [hc], h.symm⟩))
          · split at h
            · rename_i hc; simp at hc
              cases t with
              | nil => simp at h; simp [h]
              | cons ccc t =>
                simp only at h
                split at h
                · rename_i hx; simp at hx
                  exact Or.inr (Or.inr (Or.inr ⟨ccc, t, by simp [hc], by simp [hx], h.symm⟩))
                split at h
                · rename_i hx; simp at hx
                  exact Or.inr (Or.inr (Or.inr ⟨ccc, t, by simp [hc], by simp [hx], h.symm⟩))
                split at h
                · rename_i hx; simp at hx
                  exact Or.inr (Or.inr (Or.inr ⟨ccc, t, by simp [hc], by simp [hx], h.symm⟩))
                split at h
                · rename_i hx; simp at hx
                  exact Or.inr (Or.inr (Or.inr ⟨ccc, t, by simp [hc], by simp [hx], h.symm⟩))
                · simp [h]
            · simp [h]

theorem countWhitespace_spec (s : List Byte) :
    countWhitespace s ≤ s.length ∧ ∀ b ∈ (s.take (countWhitespace s)).tail, isCont b = true := by
  have h0 : isCont 0xa0 = true := by decide
  have h1 : isCont 0x80 = true := by decide
  have h2 : isCont 0x81 = true := by decide
  have h3 : isCont 0x82 = true := by decide
  have h4 : isCont 0x83 = true := by decide
  rcases countWhitespace_cases s with h | ⟨c, t, rfl, _, h⟩ | ⟨t, rfl, h⟩ | ⟨x, t, rfl, hx, h⟩
  · simp [h]
  · simp [h]
  · simp [h, h0]
  · rcases hx with rfl | rfl | rfl | rfl <;> simp [h, h1, h2, h3, h4]

theorem walk_cont (p : Nat × Nat) (s : List Byte) (h : ∀ b ∈ s, isCont b = true) : walk p s = p := by
  induction s generalizing p with
  | nil => rfl
  | cons c s ih =>
    have hc := h c (by simp)
    simp only [walk_cons, incPos, hc, if_true]
    exact ih _ (fun b hb => h b (by simp [hb]))

theorem increment_eq (st : St) (h : countWhitespace st.rest ≠ 0) :
    st.increment (peek st.rest) (countWhitespace st.rest) = st.moved (countWhitespace st.rest) := by
  have hs := countWhitespace_spec st.rest
  obtain ⟨k, hk⟩ : ∃ k, countWhitespace st.rest = k + 1 := ⟨_, (Nat.succ_pred_eq_of_ne_zero h).symm⟩
  rw [hk] at hs ⊢
  rcases st with ⟨b, r, l, c, o⟩
  cases r with
  | nil => simp at hs
  | cons x r =>
    simp only [List.take_succ_cons, List.tail_cons] at hs
    simp [St.increment, St.moved, walk_cont _ _ hs.2]

theorem whitespaceText_append {a b : List Byte} (ha : WhitespaceText a) (hb : WhitespaceText b) :
    WhitespaceText (a ++ b) := by
  induction ha with
  | nil => exact hb
  | one x s hx _ ih => exact .one x _ hx ih
  | two s _ ih => exact .two _ ih
  | three x s hx _ ih => exact .three x _ hx ih

theorem isXmlWhitespace_iff (c : Byte) : isXmlWhitespace c = true ↔ c = 32 ∨ c = 10 ∨ c = 9 ∨ c = 13 := by
  simp [isXmlWhitespace, or_assoc]

theorem countWhitespace_text (s : List Byte) (h : ¬ (countWhitespace s = 1 ∧ peek s = 9)) :
    WhitespaceText (s.take (countWhitespace s)) := by
  rcases countWhitespace_cases s with h' | ⟨c, t, rfl, hc, h'⟩ | ⟨t, rfl, h'⟩ | ⟨x, t, rfl, hx, h'⟩
  · simp [h']; exact .nil
  · rw [h']; simp only [h', peek_cons, true_and] at h
    rw [isXmlWhitespace_iff] at hc
    exact .one c [] (by grind) .nil
  · rw [h']; exact .two [] .nil
  · rw [h']; exact .three x [] hx .nil

/-- Number of bytes that the token whitespace loop eats. -/
theorem tokenWhitespaceLoop_spec (k : Nat) (st : St) :
    ∃ n, n ≤ st.rest.length ∧ tokenWhitespaceLoop k st = st.moved n ∧ WhitespaceText (st.rest.take n) := by
  induction k generalizing st with
  | zero => exact ⟨0, by simp, by simp [tokenWhitespaceLoop], .nil⟩
  | succ k ih =>
    simp only [tokenWhitespaceLoop]
    split
    · exact ⟨0, by simp, by simp, .nil⟩
    · split
      · exact ⟨0, by simp, by simp, .nil⟩
      · split
        · exact ⟨0, by simp, by simp, .nil⟩
        · rename_i h0 h1
          simp only [beq_iff_eq] at h0
          have hb := (countWhitespace_spec st.rest).1
          rw [increment_eq st h0]
          obtain ⟨n, hn, he, hw⟩ := ih (st.moved (countWhitespace st.rest))
          refine ⟨countWhitespace st.rest + n, ?_, ?_, ?_⟩
          · simp at hn; omega
          · rw [he, moved_moved]
          · rw [List.take_add]
            exact whitespaceText_append (countWhitespace_text _ (by simpa using h1)) hw

theorem tokenWhitespace_pos (st : St) (c : Byte) (t : List Byte) (hr : st.rest = c :: t)
    (hc : isXmlWhitespace c = true) (ht : c ≠ 9) :
    ∃ n, 0 < n ∧ n ≤ st.rest.length ∧ eatXmqTokenWhitespace st = st.moved n ∧ WhitespaceText (st.rest.take n) := by
  have hw : countWhitespace st.rest = 1 := by
    rw [hr]; simp [isXmlWhitespace] at hc; simp [countWhitespace, hc]
  simp only [eatXmqTokenWhitespace]
  rw [show st.rest.length = t.length + 1 by simp [hr]]
  simp only [tokenWhitespaceLoop]
  rw [if_neg (by simp [hr]), if_neg (by simp [hw]), if_neg (by simp [hr, ht]), increment_eq st (by simp [hw]), hw]
  obtain ⟨n, hn, he, hwt⟩ := tokenWhitespaceLoop_spec t.length (st.moved 1)
  refine ⟨1 + n, by omega, ?_, ?_, ?_⟩
  · simp [hr] at hn ⊢; omega
  · rw [he, moved_moved]
  · rw [List.take_add]
    refine whitespaceText_append ?_ hwt
    have := countWhitespace_text st.rest (by simp [hr, ht])
    rwa [hw] at this

theorem tokenWhitespace_spec (st : St) :
    ∃ n, n ≤ st.rest.length ∧ eatXmqTokenWhitespace st = st.moved n ∧ WhitespaceText (st.rest.take n) :=
  tokenWhitespaceLoop_spec _ _

theorem countWhitespace_of_text {a b : List Byte} (h : WhitespaceText a) (hne : a ≠ []) :
    countWhitespace (a ++ b) ≠ 0 ∧ peek (a ++ b) ≠ 9 := by
  cases h with
  | nil => exact absurd rfl hne
  | one c s hc _ => rcases hc with rfl | rfl | rfl <;> simp [countWhitespace]
  | two s _ => simp [countWhitespace]
  | three c s hc _ => rcases hc with rfl | rfl | rfl | rfl <;> simp [countWhitespace]

theorem tokenWhitespaceLoop_end (k : Nat) (st : St) (hk : st.rest.length ≤ k) :
    ∀ a b, (tokenWhitespaceLoop k st).rest = a ++ b → WhitespaceText a → a = [] := by
  induction k generalizing st with
  | zero =>
    intro a b h _
    have h0 : st.rest = [] := List.eq_nil_of_length_eq_zero (by omega)
    rw [tokenWhitespaceLoop, h0] at h
    exact (List.append_eq_nil_iff.1 h.symm).1
  | succ k ih =>
    intro a b h ha
    simp only [tokenWhitespaceLoop] at h
    split at h
    · rename_i h0
      rw [List.isEmpty_iff.1 h0] at h
      exact (List.append_eq_nil_iff.1 h.symm).1
    · split at h
      · rename_i h0
        rw [h] at h0
        apply Classical.byContradiction; intro hne
        exact (countWhitespace_of_text (b := b) ha hne).1 (by simpa using h0)
      · split at h
        · rename_i h0
          rw [h] at h0
          apply Classical.byContradiction; intro hne
          simp only [Bool.and_eq_true, beq_iff_eq] at h0
          exact (countWhitespace_of_text (b := b) ha hne).2 h0.2
        · rename_i h0 h1
          simp only [beq_iff_eq] at h0
          rw [increment_eq st h0] at h
          refine ih (st.moved (countWhitespace st.rest)) ?_ a b h ha
          have hb := (countWhitespace_spec st.rest).1
          simp; omega

theorem tokenWhitespace_end (st : St) (n : Nat) (he : eatXmqTokenWhitespace st = st.moved n) :
    EndsAt .whitespace (st.rest.take n) (st.rest.drop n) := by
  intro a b h ha
  refine tokenWhitespaceLoop_end st.rest.length st (Nat.le_refl _) a b ?_ ha
  have : (eatXmqTokenWhitespace st).rest = st.rest.drop n := by rw [he]; simp
  rw [← h, ← this]; rfl

/-- Tokens are placed one after the other, starting at position `p`. -/
def Placed : Nat × Nat → List Tok → Prop
  | _, [] => True
  | p, t :: ts => (t.line, t.col) = p ∧ Placed (walk p t.text) ts

theorem placed_append (p) (s t : List Tok) : Placed p (s ++ t) ↔ Placed p s ∧ Placed (walk p (textOf s)) t := by
  induction s generalizing p with
  | nil => simp [Placed, textOf]
  | cons a s ih => simp [Placed, ih, textOf, walk_append, and_assoc]

/-- Tokens in front of `r`, each of them as long as possible. -/
def Ends : List Tok → List Byte → Prop
  | [], _ => True
  | t :: ts, r => EndsAt t.kind t.text (textOf ts ++ r) ∧ Ends ts r

theorem ends_append (s t : List Tok) (r : List Byte) : Ends (s ++ t) r ↔ Ends s (textOf t ++ r) ∧ Ends t r := by
  induction s with
  | nil => simp [Ends]
  | cons a s ih => simp [Ends, ih, textOf, and_assoc]

/-- The parser went from `st` to `st'`, delivering `toks`. -/
structure StepBy (toks : List Tok) (st st' : St) : Prop where
  out : st'.out = toks.reverse ++ st.out
  rest : st.rest = textOf toks ++ st'.rest
  before : st'.before = (textOf toks).reverse ++ st.before
  pos : (st'.line, st'.col) = walk (st.line, st.col) (textOf toks)
  placed : Placed (st.line, st.col) toks
  shape : ∀ t ∈ toks, TokenText t.kind t.text
  ends : Ends toks st'.rest

/-- The parser went from `st` to `st'` delivering some tokens. -/
def Step (st st' : St) : Prop := ∃ toks, StepBy toks st st'

theorem textOf_append (a b : List Tok) : textOf (a ++ b) = textOf a ++ textOf b := by simp [textOf]
@[simp] theorem textOf_nil : textOf [] = [] := rfl
@[simp] theorem textOf_cons (a) (b : List Tok) : textOf (a :: b) = a.text ++ textOf b := rfl

theorem StepBy.refl (st : St) : StepBy [] st st := ⟨by simp, by simp, by simp, by simp, trivial, by simp, trivial⟩

theorem StepBy.trans {a b : List Tok} {s t u : St} (h : StepBy a s t) (k : StepBy b t u) : StepBy (a ++ b) s u where
  out := by rw [k.out, h.out]; simp
  rest := by rw [h.rest, k.rest, textOf_append]; simp
  before := by rw [k.before, h.before, textOf_append]; simp
  pos := by rw [k.pos, h.pos, textOf_append, walk_append]
  placed := by rw [placed_append, ← h.pos]; exact ⟨h.placed, k.placed⟩
  shape := fun t ht => (List.mem_append.1 ht).elim (h.shape t) (k.shape t)
  ends := by rw [ends_append, ← k.rest]; exact ⟨h.ends, k.ends⟩

theorem Step.refl (st : St) : Step st st := ⟨[], StepBy.refl st⟩
theorem Step.trans {s t u : St} (h : Step s t) (k : Step t u) : Step s u := by
  obtain ⟨a, ha⟩ := h; obtain ⟨b, hb⟩ := k; exact ⟨a ++ b, ha.trans hb⟩

/-- One token covering exactly the consumed bytes. -/
theorem stepBy_one (st : St) (n : Nat) (kind : Kind) (hs : TokenText kind (st.rest.take n))
    (he : EndsAt kind (st.rest.take n) (st.rest.drop n)) :
    StepBy [⟨kind, st.line, st.col, st.rest.take n⟩] st ((st.moved n).emitSpan st kind n) where
  out := by simp [St.emitSpan, St.emit]
  rest := by simp [St.emitSpan, St.emit]
  before := by simp [St.emitSpan, St.emit, St.moved]
  pos := by simp [St.emitSpan, St.emit, St.moved]
  placed := by simp [Placed]
  shape := by simpa using hs
  ends := by simpa [Ends, St.emitSpan, St.emit] using he

theorem StepBy.len {a s t} (h : StepBy a s t) : t.rest.length ≤ s.rest.length := by
  rw [h.rest]; simp

theorem Step.len {s t} (h : Step s t) : t.rest.length ≤ s.rest.length := by
  obtain ⟨a, ha⟩ := h; exact ha.len

end Xmq
