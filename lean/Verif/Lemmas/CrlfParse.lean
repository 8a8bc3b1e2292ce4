import Verif.Lemmas.Crlf
import Verif.Lemmas.Walk
/-!
# The parser on texts that differ in their line endings only
-/
namespace Xmq
open Spec

theorem Crlf.append {a b c d : List Byte} (h : Crlf a b) (h' : Crlf c d) : Crlf (a ++ c) (b ++ d) := by
  induction h with
  | nil => exact h'
  | crlf _ ih => exact .crlf ih
  | char hc _ ih => exact .char hc ih

theorem Crlf.refl {s : List Byte} (h : (13 : Byte) ∉ s) : Crlf s s := by
  induction s with
  | nil => exact .nil
  | cons c s ih =>
    simp only [List.mem_cons, not_or] at h
    exact .char (fun e => h.1 e.symm) (ih h.2)

theorem Crlf.left {c : Byte} {s t : List Byte} (h : Crlf (c :: s) t) (hc : c ≠ 13) : ∃ t', t = c :: t' ∧ Crlf s t' := by
  cases h with
  | crlf _ => exact absurd rfl hc
  | char _ h => exact ⟨_, rfl, h⟩

theorem Crlf.right {c : Byte} {s t : List Byte} (h : Crlf s (c :: t)) (hc : c ≠ 10) : ∃ s', s = c :: s' ∧ Crlf s' t := by
  cases h with
  | crlf _ => exact absurd rfl hc
  | char _ h => exact ⟨_, rfl, h⟩

theorem Crlf.peek {s t : List Byte} (h : Crlf s t) (p : Byte → Bool) (hp : p 13 = p 10) : p (peek s) = p (peek t) := by
  cases h with
  | nil => rfl
  | crlf _ => exact hp
  | char _ _ => rfl

theorem Crlf.peek_beq {s t : List Byte} (h : Crlf s t) (c : Byte) (h1 : (13 == c) = (10 == c) := by decide) :
    (Xmq.peek s == c) = (Xmq.peek t == c) := h.peek (· == c) h1

theorem Crlf.peek_bne {s t : List Byte} (h : Crlf s t) (c : Byte) (h1 : (13 == c) = (10 == c) := by decide) :
    (Xmq.peek s != c) = (Xmq.peek t != c) := by rw [bne, bne, h.peek_beq c h1]

/-- Corresponding positions in two texts. -/
structure Cut (s t : List Byte) (n m : Nat) : Prop where
  le : n ≤ s.length
  le' : m ≤ t.length
  take : Crlf (s.take n) (t.take m)
  drop : Crlf (s.drop n) (t.drop m)

theorem Cut.zero {s t : List Byte} (h : Crlf s t) : Cut s t 0 0 := ⟨by simp, by simp, .nil, h⟩

theorem Cut.char {s t : List Byte} {n m : Nat} {c : Byte} (hc : c ≠ 13) (h : Cut s t n m) : Cut (c :: s) (c :: t) (n + 1) (m + 1) :=
  ⟨by simp [h.le], by simp [h.le'], .char hc h.take, h.drop⟩

theorem Cut.crlf {s t : List Byte} {n m : Nat} (h : Cut s t n m) : Cut (13 :: 10 :: s) (10 :: t) (n + 2) (m + 1) :=
  ⟨by simp [h.le], by simp [h.le'], .crlf h.take, h.drop⟩

theorem Cut.add {s t : List Byte} {n m n' m' : Nat} (h : Cut s t n m) (h' : Cut (s.drop n) (t.drop m) n' m') :
    Cut s t (n + n') (m + m') := by
  have h1 := h.le
  have h2 := h.le'
  have h3 := h'.le
  have h4 := h'.le'
  simp only [List.length_drop] at h3 h4
  refine ⟨by omega, by omega, ?_, ?_⟩
  · rw [List.take_add, List.take_add]; exact h.take.append h'.take
  · have := h'.drop; rwa [List.drop_drop, List.drop_drop] at this

/-- Characters of a kind that treats both line ending characters alike. -/
theorem Cut.takeWhile {s t : List Byte} (h : Crlf s t) (p : Byte → Bool) (hp : p 13 = p 10) :
    Cut s t (s.takeWhile p).length (t.takeWhile p).length := by
  induction h with
  | nil => exact .zero .nil
  | @crlf s t h ih =>
    cases h10 : p 10 with
    | true =>
      rw [h10] at hp
      simp only [List.takeWhile_cons, h10, hp, if_true, List.length_cons]
      exact ih.crlf
    | false =>
      rw [h10] at hp
      simp only [List.takeWhile_cons, h10, hp, Bool.false_eq_true, if_false, List.length_nil]
      exact .zero (.crlf h)
  | @char c s t hc h ih =>
    cases h10 : p c with
    | true =>
      simp only [List.takeWhile_cons, h10, if_true, List.length_cons]
      exact ih.char hc
    | false =>
      simp only [List.takeWhile_cons, h10, Bool.false_eq_true, if_false, List.length_nil]
      exact .zero (.char hc h)

theorem drop_takeWhile_len {α} (p : α → Bool) (s : List α) : s.drop (s.takeWhile p).length = s.dropWhile p := by
  induction s with
  | nil => rfl
  | cons c s ih =>
    rw [List.takeWhile_cons, List.dropWhile_cons]
    split
    · simpa using ih
    · rfl

theorem Crlf.dropWhile {s t : List Byte} (h : Crlf s t) (p : Byte → Bool) (hp : p 13 = p 10) :
    Crlf (s.dropWhile p) (t.dropWhile p) := by
  have := (Cut.takeWhile h p hp).drop
  rwa [drop_takeWhile_len, drop_takeWhile_len] at this

/-- Characters that are no line ending characters are the same in both. -/
theorem Crlf.takeWhile_eq {s t : List Byte} (h : Crlf s t) (p : Byte → Bool) (h13 : p 13 = false) (h10 : p 10 = false) :
    s.takeWhile p = t.takeWhile p := by
  induction h with
  | nil => rfl
  | crlf h ih => simp [h13, h10]
  | char hc h ih => rw [List.takeWhile_cons, List.takeWhile_cons, ih]

theorem countQuotes_crlf {s t : List Byte} (h : Crlf s t) : countXmqQuotes s = countXmqQuotes t := by
  rw [countXmqQuotes, countXmqQuotes, h.takeWhile_eq _ (by decide) (by decide)]

theorem countSlashes_crlf {s t : List Byte} (h : Crlf s t) : countXmqSlashes s = countXmqSlashes t := by
  rw [countXmqSlashes, countXmqSlashes, h.takeWhile_eq _ (by decide) (by decide),
    (h.dropWhile (· == b#'/') (by decide)).peek_beq b#'*']

/-- Corresponding results of a search. -/
def ScanSim (s t : List Byte) : Scan → Scan → Prop
  | .closed n, .closed m => Cut s t n m
  | .notClosed, .notClosed => True
  | .tooMany, .tooMany => True
  | _, _ => False

theorem ScanSim.char {s t : List Byte} {a b : Scan} {c : Byte} (hc : c ≠ 13) (h : ScanSim s t a b) : ScanSim (c :: s) (c :: t) a.succ b.succ := by
  cases a <;> cases b <;> first | exact h | exact Cut.char hc h

theorem ScanSim.crlf {s t : List Byte} {a b : Scan} (h : ScanSim s t a b) : ScanSim (13 :: 10 :: s) (10 :: t) a.succ.succ b.succ := by
  cases a <;> cases b <;> first | exact h | exact Cut.crlf h

theorem quoteScan_crlf (depth : Nat) {s t : List Byte} (h : Crlf s t) : ∀ skip, skip ≤ countXmqQuotes s →
    ScanSim s t (quoteScan depth skip s) (quoteScan depth skip t) := by
  induction h with
  | nil => intro skip _; cases skip <;> exact trivial
  | @crlf s t h ih =>
    intro skip hs
    have h0 : countXmqQuotes (13 :: 10 :: s) = 0 := by simp [countXmqQuotes]
    rw [h0] at hs
    obtain rfl : skip = 0 := by omega
    rw [quoteScan, if_pos (by decide), quoteScan, if_pos (by decide), quoteScan, if_pos (by decide)]
    exact (ih 0 (by omega)).crlf
  | @char c s t hc h ih =>
    intro skip hs
    cases skip with
    | succ skip =>
      have hq : c = b#'\'' := by
        refine Decidable.byContradiction fun hq => ?_
        simp [countXmqQuotes, hq] at hs
      rw [quoteScan, quoteScan]
      refine (ih skip ?_).char hc
      subst hq
      simp [countXmqQuotes] at hs ⊢
      exact hs
    | zero =>
      rw [quoteScan, quoteScan]
      dsimp only
      rw [countQuotes_crlf (.char hc h)]
      by_cases hq : (c != b#'\'') = true
      · rw [if_pos hq, if_pos hq]; exact (ih 0 (by omega)).char hc
      · rw [if_neg hq, if_neg hq]
        have hq : c = b#'\'' := by simpa using hq
        subst hq
        split
        · exact trivial
        · split
          · refine (ih _ ?_).char hc
            rw [countQuotes_crlf h]
            simp [countXmqQuotes]
          · exact .zero (.char hc h)

theorem commentScan_crlf (n : Nat) {s t : List Byte} (h : Crlf s t) : ∀ cc, ScanSim s t (commentScan n cc s) (commentScan n cc t) := by
  induction h with
  | nil => intro cc; exact trivial
  | @crlf s t h ih =>
    intro cc
    have e : ∀ cc' x u, (cc' != b#'*' || (x : Byte) != b#'/') = true → commentScan n cc' (x :: u) = (commentScan n x u).succ := by
      intro cc' x u hx; rw [commentScan, if_pos hx]
    rw [e _ _ _ (by simp), e _ _ _ (by simp), e _ _ _ (by simp)]
    exact (ih 10).crlf
  | @char c s t hc h ih =>
    intro cc
    rw [commentScan, commentScan]
    dsimp only
    rw [countSlashes_crlf (.char hc h)]
    split
    · exact (ih c).char hc
    · split
      · exact (ih c).char hc
      · split
        · exact trivial
        · exact .zero (.char hc h)

/-! ## Parser states -/

/-- Corresponding tokens: the text of white space is not looked at. -/
def TokSim (a b : Tok) : Prop :=
  a.kind = b.kind ∧ (a.kind = .whitespace ∨ (a.line = b.line ∧ a.col = b.col ∧ Crlf a.text b.text))

inductive ToksSim : List Tok → List Tok → Prop
  | nil : ToksSim [] []
  | cons {a b s t} : TokSim a b → ToksSim s t → ToksSim (a :: s) (b :: t)

structure Sim (s t : St) : Prop where
  rest : Crlf s.rest t.rest
  line : s.line = t.line
  col : s.col = t.col
  out : ToksSim s.out t.out

theorem walk_crlf {s t : List Byte} (h : Crlf s t) : ∀ p, walk p s = walk p t := by
  induction h with
  | nil => intro p; rfl
  | crlf h ih =>
    intro p
    rw [walk_cons, walk_cons, walk_cons, ih]
    congr 1
  | char hc h ih => intro p; rw [walk_cons, walk_cons, ih]

theorem Sim.moved {s t : St} (h : Sim s t) {n m : Nat} (hc : Cut s.rest t.rest n m) : Sim (s.moved n) (t.moved m) := by
  have := walk_crlf hc.take (s.line, s.col)
  refine ⟨hc.drop, ?_, ?_, h.out⟩
  · show (walk (s.line, s.col) (s.rest.take n)).1 = (walk (t.line, t.col) (t.rest.take m)).1
    rw [this, h.line, h.col]
  · show (walk (s.line, s.col) (s.rest.take n)).2 = (walk (t.line, t.col) (t.rest.take m)).2
    rw [this, h.line, h.col]

theorem Sim.advance {s t : St} (h : Sim s t) {n m : Nat} (hc : Cut s.rest t.rest n m) : Sim (s.advance n) (t.advance m) := by
  rw [advance_eq _ _ hc.le, advance_eq _ _ hc.le']; exact h.moved hc

theorem Sim.emit {s t : St} (h : Sim s t) {k : Kind} {l l' c c' : Nat} {x y : List Byte} (hl : l = l') (hc : c = c') (hx : Crlf x y) :
    Sim (s.emit k l c x) (t.emit k l' c' y) :=
  ⟨h.rest, h.line, h.col, .cons ⟨rfl, .inr ⟨hl, hc, hx⟩⟩ h.out⟩

theorem Sim.emitSpan {s t s' t' : St} (h : Sim s t) (h' : Sim s' t') {k : Kind} {n m : Nat} (hc : Cut s.rest t.rest n m) :
    Sim (s'.emitSpan s k n) (t'.emitSpan t k m) := h'.emit h.line h.col hc.take

/-- Corresponding outcomes: both succeed or none does. -/
def RSim (r r' : Res) : Prop :=
  (∃ s t, r = .ok s ∧ r' = .ok t ∧ Sim s t) ∨ ((∀ s, r ≠ .ok s) ∧ (∀ t, r' ≠ .ok t))

theorem RSim.ok {s t : St} (h : Sim s t) : RSim (.ok s) (.ok t) := .inl ⟨s, t, rfl, rfl, h⟩
theorem RSim.err {e e' : Err} {s t : St} : RSim (.err e s) (.err e' t) := .inr ⟨fun _ h => (by cases h), fun _ h => (by cases h)⟩
theorem RSim.fuel : RSim .outOfFuel .outOfFuel := .inr ⟨fun _ h => (by cases h), fun _ h => (by cases h)⟩

theorem RSim.bind {r r' : Res} {f g : St → Res} (h : RSim r r') (hf : ∀ s t, Sim s t → RSim (f s) (g t)) : RSim (r.bind f) (r'.bind g) := by
  rcases h with ⟨s, t, rfl, rfl, h⟩ | ⟨h1, h2⟩
  · exact hf s t h
  · refine .inr ⟨?_, ?_⟩
    · intro s e
      cases r with
      | ok x => exact h1 x rfl
      | _ => cases e
    · intro s e
      cases r' with
      | ok x => exact h2 x rfl
      | _ => cases e

/-! ## White space -/

theorem countWhitespace_crlf {c : Byte} {s t : List Byte} (hc : c ≠ 13) (h : Crlf s t) :
    countWhitespace (c :: s) = countWhitespace (c :: t) ∧ Cut (c :: s) (c :: t) (countWhitespace (c :: s)) (countWhitespace (c :: t)) := by
  have hct := Crlf.char hc h
  rcases countWhitespace_cases (c :: s) with h0 | ⟨d, u, e, hd, h1⟩ | ⟨u, e, h2⟩ | ⟨x, u, e, hx, h3⟩
  · rcases countWhitespace_cases (c :: t) with h0' | ⟨d, u, e, hd, h1⟩ | ⟨u, e, h2⟩ | ⟨x, u, e, hx, h3⟩
    · rw [h0, h0']; exact ⟨rfl, .zero hct⟩
    · exfalso
      cases e
      have : countWhitespace (c :: s) = 1 := by
        unfold countWhitespace; dsimp only
        rw [if_pos (by simpa [isXmlWhitespace] using hd)]
      omega
    · exfalso
      cases e
      obtain ⟨s', rfl, h'⟩ := h.right (by decide)
      revert h0; simp [countWhitespace]
    · exfalso
      cases e
      obtain ⟨s', rfl, h'⟩ := h.right (by decide)
      obtain ⟨s'', rfl, h''⟩ := h'.right (by rcases hx with rfl | rfl | rfl | rfl <;> decide)
      rcases hx with rfl | rfl | rfl | rfl <;> revert h0 <;> simp [countWhitespace]
  · cases e
    have : countWhitespace (c :: t) = 1 := by
      unfold countWhitespace; dsimp only
      rw [if_pos (by simpa [isXmlWhitespace] using hd)]
    rw [h1, this]
    exact ⟨rfl, (Cut.zero h).char hc⟩
  · cases e
    obtain ⟨t', rfl, h'⟩ := h.left (by decide)
    have : countWhitespace (0xc2 :: 0xa0 :: t') = 2 := by simp [countWhitespace]
    rw [h2, this]
    exact ⟨rfl, ((Cut.zero h').char (by decide)).char (by decide)⟩
  · cases e
    obtain ⟨t', rfl, h'⟩ := h.left (by decide)
    have hx13 : x ≠ 13 := by rcases hx with rfl | rfl | rfl | rfl <;> decide
    obtain ⟨t'', rfl, h''⟩ := h'.left hx13
    have : countWhitespace (0xe2 :: 0x80 :: x :: t'') = 3 := by
      rcases hx with rfl | rfl | rfl | rfl <;> simp [countWhitespace]
    rw [h3, this]
    exact ⟨rfl, (((Cut.zero h'').char hx13).char (by decide)).char (by decide)⟩

theorem tokenWhitespaceLoop_nil {k : Nat} {st : St} (h : st.rest = []) : tokenWhitespaceLoop k st = st := by
  cases k with
  | zero => rfl
  | succ k => rw [tokenWhitespaceLoop, if_pos (by rw [h]; rfl)]

theorem tokenWhitespaceLoop_crlf : ∀ (k k' : Nat) {s t : St}, Sim s t → s.rest.length ≤ k → t.rest.length ≤ k' →
    Sim (tokenWhitespaceLoop k s) (tokenWhitespaceLoop k' t)
  | k, k', s, t, h, hk, hk' => by
    have hr := h.rest
    generalize hs : s.rest = sr at hr
    generalize ht : t.rest = tr at hr
    cases hr with
    | nil => rw [tokenWhitespaceLoop_nil hs, tokenWhitespaceLoop_nil ht]; exact h
    | @crlf a b hab =>
        rw [hs] at hk
        rw [ht] at hk'
        obtain ⟨k, rfl⟩ : ∃ j, k = j + 2 := ⟨k - 2, by simp at hk; omega⟩
        obtain ⟨k', rfl⟩ : ∃ j, k' = j + 1 := ⟨k' - 1, by simp at hk'; omega⟩
        have one : ∀ (st : St) (c : Byte) (u : List Byte) (k : Nat), st.rest = c :: u → (c = 13 ∨ c = 10) →
            tokenWhitespaceLoop (k + 1) st = tokenWhitespaceLoop k (st.moved 1) := by
          intro st c u k e hc
          have hw : countWhitespace st.rest = 1 := by
            rw [e]; unfold countWhitespace; dsimp only
            rcases hc with rfl | rfl <;> rfl
          have hi := increment_eq st (by rw [hw]; decide)
          rw [hw] at hi
          rw [tokenWhitespaceLoop]
          dsimp only
          rw [hw, if_neg (by rw [e]; simp), if_neg (by decide), if_neg (by rw [e]; rcases hc with rfl | rfl <;> simp), hi]
        rw [one s 13 (10 :: a) (k + 1) hs (.inl rfl), one (s.moved 1) 10 a k (by rw [moved_rest, hs]; rfl) (.inr rfl), moved_moved,
          one t 10 b k' ht (.inr rfl)]
        refine tokenWhitespaceLoop_crlf k k' (h.moved (by rw [hs, ht]; exact (Cut.zero hab).crlf)) ?_ ?_
        · rw [moved_rest, hs]; simp at hk ⊢; omega
        · rw [moved_rest, ht]; simp at hk' ⊢; omega
    | @char c a b hc hab =>
        rw [hs] at hk
        rw [ht] at hk'
        obtain ⟨k, rfl⟩ : ∃ j, k = j + 1 := ⟨k - 1, by simp at hk; omega⟩
        obtain ⟨k', rfl⟩ : ∃ j, k' = j + 1 := ⟨k' - 1, by simp at hk'; omega⟩
        obtain ⟨e1, e2⟩ := countWhitespace_crlf hc hab
        unfold tokenWhitespaceLoop
        dsimp only
        have hp : peek s.rest = c := by rw [hs]; rfl
        have hp' : peek t.rest = c := by rw [ht]; rfl
        rw [if_neg (c := s.rest.isEmpty = true) (by rw [hs]; simp), if_neg (c := t.rest.isEmpty = true) (by rw [ht]; simp)]
        by_cases h0 : countWhitespace s.rest = 0
        · have h0' : countWhitespace t.rest = 0 := by rw [ht, ← e1, ← hs, h0]
          rw [if_pos (by rw [h0]; rfl), if_pos (by rw [h0']; rfl)]
          exact h
        · have h0' : countWhitespace t.rest ≠ 0 := by rw [ht, ← e1, ← hs]; exact h0
          rw [if_neg (c := (countWhitespace s.rest == 0) = true) (by simpa using h0),
            if_neg (c := (countWhitespace t.rest == 0) = true) (by simpa using h0')]
          have hcond : (countWhitespace s.rest == 1 && peek s.rest == b#'\t') = (countWhitespace t.rest == 1 && peek t.rest == b#'\t') := by
            rw [hp, hp', hs, ht, e1]
          rw [hcond]
          split
          · exact h
          · rw [increment_eq s h0, increment_eq t h0']
            have hcut : Cut s.rest t.rest (countWhitespace s.rest) (countWhitespace t.rest) := by rw [hs, ht]; exact e2
            refine tokenWhitespaceLoop_crlf k k' (h.moved hcut) ?_ ?_
            · have := hcut.le
              rw [moved_rest, List.length_drop, hs] at *; simp at hk this ⊢; omega
            · have := hcut.le'
              rw [moved_rest, List.length_drop, ht] at *; simp at hk' this ⊢; omega
termination_by k => k

theorem parseXmqWhitespace_crlf {s t : St} (h : Sim s t) : Sim (parseXmqWhitespace s) (parseXmqWhitespace t) := by
  have := tokenWhitespaceLoop_crlf _ _ h (Nat.le_refl _) (Nat.le_refl _)
  exact ⟨this.rest, this.line, this.col, .cons ⟨rfl, .inl rfl⟩ this.out⟩

theorem skipWs_crlf {s t : St} (h : Sim s t) : Sim (skipWs s) (skipWs t) := by
  rw [skipWs, skipWs, h.rest.peek isXmlWhitespace (by decide)]
  split
  · exact parseXmqWhitespace_crlf h
  · exact h

/-! ## Tokens -/

theorem RSim.ub : RSim .ub .ub := .inr ⟨fun _ h => (by cases h), fun _ h => (by cases h)⟩

/-- Same first character. -/
structure Head (s t : St) (c : Byte) (a b : List Byte) : Prop where
  left : s.rest = c :: a
  right : t.rest = c :: b
  ne : c ≠ 13
  rest : Crlf a b

theorem Head.cut {s t : St} {c : Byte} {a b : List Byte} (h : Head s t c a b) {n m : Nat} (hc : Cut a b n m) :
    Cut s.rest t.rest (n + 1) (m + 1) := by rw [h.left, h.right]; exact hc.char h.ne

theorem Sim.head {s t : St} (h : Sim s t) {c : Byte} {a : List Byte} (e : s.rest = c :: a) (hc : c ≠ 13) : ∃ b, Head s t c a b := by
  have := h.rest
  rw [e] at this
  obtain ⟨b, e', hb⟩ := this.left hc
  exact ⟨b, e, e', hc, hb⟩

theorem Sim.head_peek {s t : St} (h : Sim s t) {c : Byte} (e : (peek s.rest == c) = true) (h0 : c ≠ 0) (hc : c ≠ 13) : ∃ a b, Head s t c a b := by
  cases hs : s.rest with
  | nil => rw [hs] at e; simp at e; exact absurd e.symm h0
  | cons d a =>
    rw [hs] at e
    have : d = c := by simpa using e
    subst this
    obtain ⟨b, hb⟩ := h.head hs hc
    exact ⟨a, b, hb⟩

theorem parseOne_crlf {s t : St} (h : Sim s t) {c : Byte} {a b : List Byte} (hh : Head s t c a b) (k : Kind) : Sim (parseOne s k) (parseOne t k) := by
  have hc := hh.cut (Cut.zero hh.rest)
  exact h.emitSpan (h.advance hc) hc

theorem Cut.replicate {s t : List Byte} (h : Crlf s t) (p : Byte → Bool) (h13 : p 13 = false) (h10 : p 10 = false) :
    Cut s t (s.takeWhile p).length (s.takeWhile p).length := by
  have := Cut.takeWhile h p (by rw [h13, h10])
  rwa [← h.takeWhile_eq p h13 h10] at this

theorem quotes_cut {s t : List Byte} (h : Crlf s t) : Cut s t (countXmqQuotes s) (countXmqQuotes s) :=
  Cut.replicate h _ (by decide) (by decide)

theorem quoteScan_closed (depth : Nat) : ∀ (s : List Byte) (skip n : Nat), skip ≤ countXmqQuotes s → quoteScan depth skip s = .closed n →
    n ≤ s.length ∧ countXmqQuotes (s.drop n) = depth
  | [], skip, n, _, h => by cases skip <;> cases h
  | c :: s, skip + 1, n, hs, h => by
    rw [quoteScan] at h
    have hq : c = b#'\'' := by
      refine Decidable.byContradiction fun hq => ?_
      simp [countXmqQuotes, hq] at hs
    cases h' : quoteScan depth skip s with
    | closed m =>
      rw [h'] at h
      cases h
      have := quoteScan_closed depth s skip m (by subst hq; simp [countXmqQuotes] at hs ⊢; exact hs) h'
      exact ⟨by simp [this.1], this.2⟩
    | notClosed => rw [h'] at h; cases h
    | tooMany => rw [h'] at h; cases h
  | c :: s, 0, n, hs, h => by
    rw [quoteScan] at h
    dsimp only at h
    by_cases hq : (c != b#'\'') = true
    · rw [if_pos hq] at h
      cases h' : quoteScan depth 0 s with
      | closed m =>
        rw [h'] at h
        cases h
        have := quoteScan_closed depth s 0 m (by omega) h'
        exact ⟨by simp [this.1], this.2⟩
      | notClosed => rw [h'] at h; cases h
      | tooMany => rw [h'] at h; cases h
    · rw [if_neg hq] at h
      have hq : c = b#'\'' := by simpa using hq
      subst hq
      by_cases h1 : countXmqQuotes (b#'\'' :: s) > depth
      · rw [if_pos h1] at h; cases h
      · rw [if_neg h1] at h
        by_cases h2 : countXmqQuotes (b#'\'' :: s) < depth
        · rw [if_pos h2] at h
          cases h' : quoteScan depth (countXmqQuotes (b#'\'' :: s) - 1) s with
          | closed m =>
            rw [h'] at h
            cases h
            have := quoteScan_closed depth s _ m (by simp [countXmqQuotes]) h'
            exact ⟨by simp [this.1], this.2⟩
          | notClosed => rw [h'] at h; cases h
          | tooMany => rw [h'] at h; cases h
        · rw [if_neg h2] at h
          cases h
          exact ⟨by simp, by simp only [List.drop_zero]; omega⟩

theorem parseXmqQuote_crlf {s t : St} (h : Sim s t) (level : Level) : RSim (parseXmqQuote s level) (parseXmqQuote t level) := by
  rw [parseXmqQuote, parseXmqQuote, eatXmqQuote, eatXmqQuote]
  rw [← countQuotes_crlf h.rest]
  have hcut := quotes_cut h.rest
  by_cases h2 : countXmqQuotes s.rest = 2
  · rw [if_pos h2, if_pos h2]
    rw [h2] at hcut
    exact .ok (h.emitSpan (h.advance hcut) hcut)
  · rw [if_neg h2, if_neg h2]
    have hscan := quoteScan_crlf (countXmqQuotes s.rest) hcut.drop 0 (by omega)
    cases hs : quoteScan (countXmqQuotes s.rest) 0 (s.rest.drop (countXmqQuotes s.rest)) with
    | closed n =>
      cases ht : quoteScan (countXmqQuotes s.rest) 0 (t.rest.drop (countXmqQuotes s.rest)) with
      | closed m =>
        rw [hs, ht] at hscan
        have hend := quotes_cut hscan.drop
        rw [(quoteScan_closed _ _ 0 n (by omega) hs).2] at hend
        have hall := hcut.add hscan
        rw [List.drop_drop, List.drop_drop] at hend
        have hall := hall.add hend
        exact .ok (h.emitSpan (h.advance hall) hall)
      | notClosed => rw [hs, ht] at hscan; cases hscan
      | tooMany => rw [hs, ht] at hscan; cases hscan
    | notClosed =>
      cases ht : quoteScan (countXmqQuotes s.rest) 0 (t.rest.drop (countXmqQuotes s.rest)) with
      | closed m => rw [hs, ht] at hscan; cases hscan
      | notClosed => exact .err
      | tooMany => exact .err
    | tooMany =>
      cases ht : quoteScan (countXmqQuotes s.rest) 0 (t.rest.drop (countXmqQuotes s.rest)) with
      | closed m => rw [hs, ht] at hscan; cases hscan
      | notClosed => exact .err
      | tooMany => exact .err

theorem parseXmqEntity_crlf {s t : St} (h : Sim s t) {c : Byte} {a b : List Byte} (hh : Head s t c a b) (level : Level) :
    RSim (parseXmqEntity s level) (parseXmqEntity t level) := by
  rw [parseXmqEntity, parseXmqEntity, eatXmqEntity, eatXmqEntity]
  have d1 : s.rest.drop 1 = a := by rw [hh.left]; rfl
  have d2 : t.rest.drop 1 = b := by rw [hh.right]; rfl
  rw [d1, d2, ← hh.rest.takeWhile_eq isXmqTextName (by decide) (by decide)]
  have hw := Cut.replicate hh.rest isXmqTextName (by decide) (by decide)
  have hdw := hh.rest.dropWhile isXmqTextName (by decide)
  rw [← hdw.peek_beq b#';']
  have hcut := hh.cut hw
  rw [Nat.add_comm] at hcut
  by_cases hp : (peek (a.dropWhile isXmqTextName) == b#';') = true
  · rw [if_pos hp, if_pos hp]
    have hfin : Cut s.rest t.rest (1 + (a.takeWhile isXmqTextName).length + 1) (1 + (a.takeWhile isXmqTextName).length + 1) := by
      refine hcut.add ?_
      have e : ∀ (l : List Byte), l.drop 1 = a → s.rest = c :: a → True := fun _ _ _ => trivial
      have hd := hcut.drop
      cases hx : s.rest.drop (1 + (a.takeWhile isXmqTextName).length) with
      | nil =>
        exfalso
        rw [hh.left, Nat.add_comm, List.drop_succ_cons, drop_takeWhile_len] at hx
        rw [hx] at hp; simp at hp
      | cons x l =>
        have hx' := hx
        rw [hh.left, Nat.add_comm, List.drop_succ_cons, drop_takeWhile_len] at hx'
        rw [hx'] at hp
        have hxe : x = 59 := by simpa using hp
        subst hxe
        rw [hx] at hd
        obtain ⟨l', e', hl'⟩ := hd.left (by decide)
        rw [e']
        exact (Cut.zero hl').char (by decide)
    exact .ok (h.emitSpan (h.advance hfin) hfin)
  · rw [if_neg hp, if_neg hp]
    by_cases he : ((a.takeWhile isXmqTextName).any fun c => !isLowercaseHex c) = true
    · rw [if_pos he, if_pos he]; exact .err
    · rw [if_neg he, if_neg he]
      exact .ok (h.emitSpan (h.advance hcut) hcut)

theorem eol_cut {s t : List Byte} (h : Crlf s t) :
    Cut s t ((s.takeWhile (· != b#'\n')).length + (if peek (s.dropWhile (· != b#'\n')) == b#'\n' then 1 else 0))
      ((t.takeWhile (· != b#'\n')).length + (if peek (t.dropWhile (· != b#'\n')) == b#'\n' then 1 else 0)) := by
  induction h with
  | nil => exact .zero .nil
  | @crlf s t h ih => exact (Cut.zero h).crlf
  | @char c s t hc h ih =>
    by_cases hn : (c != b#'\n') = true
    · rw [List.takeWhile_cons_of_pos (by simpa using hn), List.takeWhile_cons_of_pos (by simpa using hn),
        List.dropWhile_cons_of_pos (by simpa using hn), List.dropWhile_cons_of_pos (by simpa using hn), List.length_cons, List.length_cons,
        Nat.add_right_comm, Nat.add_right_comm (t.takeWhile _).length]
      exact ih.char hc
    · have : c = 10 := by simpa using hn
      subst this
      exact (Cut.zero h).char hc

theorem commentScan_closed (k : Nat) : ∀ (s : List Byte) (cc : Byte) (n : Nat), commentScan k cc s = .closed n →
    (countXmqSlashes (s.drop n)).1 = k
  | [], cc, n, h => by cases h
  | c :: s, cc, n, h => by
    rw [commentScan] at h
    dsimp only at h
    have step : (commentScan k c s).succ = .closed n → (countXmqSlashes ((c :: s).drop n)).1 = k := by
      intro h
      cases h' : commentScan k c s with
      | closed m =>
        rw [h'] at h; cases h
        exact commentScan_closed k s c m h'
      | notClosed => rw [h'] at h; cases h
      | tooMany => rw [h'] at h; cases h
    by_cases h1 : (cc != b#'*' || c != b#'/') = true
    · rw [if_pos h1] at h; exact step h
    · rw [if_neg h1] at h
      by_cases h2 : (countXmqSlashes (c :: s)).1 < k
      · rw [if_pos h2] at h; exact step h
      · rw [if_neg h2] at h
        by_cases h3 : (countXmqSlashes (c :: s)).1 > k
        · rw [if_pos h3] at h; cases h
        · rw [if_neg h3] at h
          cases h
          simp only [List.drop_zero]; omega

/-- The result of reading a comment to its end. -/
theorem eatXmqCommentToClose_crlf {s t : St} (h : Sim s t) (k : Nat)
    (hcut : Cut s.rest t.rest ((if peek s.rest == b#'/' then k else 0) + 1) ((if peek s.rest == b#'/' then k else 0) + 1)) :
    (∃ e e', eatXmqCommentToClose s k = .error e ∧ eatXmqCommentToClose t k = .error e') ∨
    ∃ n m f, eatXmqCommentToClose s k = .ok (s.advance n, n, f) ∧ eatXmqCommentToClose t k = .ok (t.advance m, m, f) ∧
      Cut s.rest t.rest n m ∧ (f = true → peek (s.rest.drop n) = b#'*') := by
  rw [eatXmqCommentToClose, eatXmqCommentToClose]
  dsimp only
  rw [← h.rest.peek_beq b#'/']
  generalize (if peek s.rest == b#'/' then k else 0) + 1 = hd at hcut ⊢
  have hscan := commentScan_crlf k hcut.drop 0
  cases hs : commentScan k 0 (s.rest.drop hd) with
  | closed n =>
    cases ht : commentScan k 0 (t.rest.drop hd) with
    | closed m =>
      rw [hs, ht] at hscan
      have hk := commentScan_closed k _ 0 n hs
      have hend := Cut.replicate hscan.drop (· == b#'/') (by decide) (by decide)
      have hk' : (((s.rest.drop hd).drop n).takeWhile (· == b#'/')).length = k := hk
      rw [hk', List.drop_drop, List.drop_drop] at hend
      refine .inr ⟨hd + n + k, hd + m + k, _, rfl, ?_, (hcut.add hscan).add hend, ?_⟩
      · rw [countSlashes_crlf hscan.drop]
      · intro hf
        have hf : (peek (((s.rest.drop hd).drop n).dropWhile (· == b#'/')) == b#'*') = true := hf
        rw [← drop_takeWhile_len, hk', List.drop_drop, List.drop_drop] at hf
        simpa [Nat.add_assoc] using hf
    | notClosed => rw [hs, ht] at hscan; cases hscan
    | tooMany => rw [hs, ht] at hscan; cases hscan
  | notClosed =>
    cases ht : commentScan k 0 (t.rest.drop hd) with
    | closed m => rw [hs, ht] at hscan; cases hscan
    | notClosed => exact .inl ⟨_, _, rfl, rfl⟩
    | tooMany => exact .inl ⟨_, _, rfl, rfl⟩
  | tooMany =>
    cases ht : commentScan k 0 (t.rest.drop hd) with
    | closed m => rw [hs, ht] at hscan; cases hscan
    | notClosed => exact .inl ⟨_, _, rfl, rfl⟩
    | tooMany => exact .inl ⟨_, _, rfl, rfl⟩

theorem commentContinuations_crlf (k : Nat) : ∀ (fuel : Nat) {s t : St} (f : Bool), Sim s t → (f = true → peek s.rest = b#'*') →
    RSim (commentContinuations k fuel s f) (commentContinuations k fuel t f)
  | fuel, s, t, false, h, _ => by cases fuel <;> exact .ok h
  | 0, s, t, true, h, _ => .fuel
  | fuel + 1, s, t, true, h, hf => by
    rw [commentContinuations, commentContinuations]
    have hp := hf rfl
    obtain ⟨a, b, hh⟩ := h.head_peek (c := b#'*') (by simpa using hp) (by decide) (by decide)
    have hcut : Cut s.rest t.rest ((if peek s.rest == b#'/' then k else 0) + 1) ((if peek s.rest == b#'/' then k else 0) + 1) := by
      rw [hp, if_neg (by decide)]
      exact hh.cut (Cut.zero hh.rest)
    rcases eatXmqCommentToClose_crlf h k hcut with ⟨e, e', h1, h2⟩ | ⟨n, m, f, h1, h2, hc, hfp⟩
    · rw [h1, h2]; exact .err
    · rw [h1, h2]
      refine commentContinuations_crlf k fuel f (h.emitSpan (h.advance hc) hc) ?_
      intro hft
      have := hfp hft
      rw [advance_eq _ _ hc.le]
      exact this

theorem parseXmqComment_crlf (fuel : Nat) {s t : St} (h : Sim s t) {a b : List Byte} (hh : Head s t b#'/' a b)
    (ha : peek a = b#'/' ∨ peek a = b#'*') : RSim (parseXmqComment fuel s) (parseXmqComment fuel t) := by
  rw [parseXmqComment, parseXmqComment]
  dsimp only
  rw [← countSlashes_crlf h.rest]
  by_cases hf : (countXmqSlashes s.rest).2 = true
  · rw [hf]
    simp only [Bool.not_true, Bool.false_eq_true, if_false]
    have hw := Cut.replicate h.rest (· == b#'/') (by decide) (by decide)
    have hstar : peek (s.rest.drop (countXmqSlashes s.rest).1) = b#'*' := by
      have hf : (peek (s.rest.dropWhile (· == b#'/')) == b#'*') = true := hf
      rw [← drop_takeWhile_len] at hf
      exact eq_of_beq hf
    have hcut : Cut s.rest t.rest ((if peek s.rest == b#'/' then (countXmqSlashes s.rest).1 else 0) + 1)
        ((if peek s.rest == b#'/' then (countXmqSlashes s.rest).1 else 0) + 1) := by
      rw [if_pos (by rw [hh.left]; rfl)]
      refine Cut.add hw ?_
      have hd := hw.drop
      cases hx : s.rest.drop (countXmqSlashes s.rest).1 with
      | nil => rw [hx] at hstar; cases hstar
      | cons x l =>
        have hx1 : s.rest.drop (s.rest.takeWhile (· == b#'/')).length = x :: l := hx
        show Cut (x :: l) (t.rest.drop (s.rest.takeWhile (· == b#'/')).length) 1 1
        rw [hx1] at hd
        rw [hx] at hstar
        have : x = 42 := hstar
        subst this
        obtain ⟨l', e', hl'⟩ := hd.left (by decide)
        rw [e']
        exact (Cut.zero hl').char (by decide)
    rcases eatXmqCommentToClose_crlf h _ hcut with ⟨e, e', h1, h2⟩ | ⟨n, m, f, h1, h2, hc, hfp⟩
    · rw [h1, h2]; exact .err
    · rw [h1, h2]
      refine commentContinuations_crlf _ fuel f (h.emitSpan (h.advance hc) hc) ?_
      intro hft
      have := hfp hft
      rw [advance_eq _ _ hc.le]
      exact this
  · have hf : (countXmqSlashes s.rest).2 = false := by simpa using hf
    rw [hf]
    simp only [Bool.not_false, if_true]
    have hslash : peek a = b#'/' := by
      rcases ha with ha | ha
      · exact ha
      · exfalso
        cases a with
        | nil => cases ha
        | cons x l =>
          have : x = 42 := ha
          subst this
          rw [hh.left] at hf
          simp [countXmqSlashes] at hf
    cases a with
    | nil => cases hslash
    | cons x l =>
      have : x = 47 := hslash
      subst this
      obtain ⟨l', e', hl'⟩ := hh.rest.left (by decide)
      subst e'
      have hc := hh.cut ((eol_cut hl').char (by decide))
      have e1 : s.rest.drop 2 = l := by rw [hh.left]; rfl
      have e2 : t.rest.drop 2 = l' := by rw [hh.right]; rfl
      rw [eatXmqCommentToEol, eatXmqCommentToEol]
      dsimp only
      rw [e1, e2]
      rw [show ∀ x y : Nat, x + y + 1 + 1 = 2 + x + y from fun x y => by omega, show ∀ x y : Nat, x + y + 1 + 1 = 2 + x + y from fun x y => by omega] at hc
      exact .ok (h.emitSpan (h.advance hc) hc)

theorem isSafeValueChar_crlf {c : Byte} {s t : List Byte} (hc : c ≠ 13) (h : Crlf s t) : isSafeValueChar (c :: s) = isSafeValueChar (c :: t) := by
  rw [isSafeValueChar, isSafeValueChar, (countWhitespace_crlf hc h).1]; rfl

theorem safeValueLen_crlf {s t : List Byte} (h : Crlf s t) : Cut s t (safeValueLen s) (safeValueLen t) := by
  induction h with
  | nil => exact .zero .nil
  | @crlf s t h ih =>
    have e1 : safeValueLen (13 :: 10 :: s) = 0 := by rw [safeValueLen, if_neg (by simp [isSafeValueChar])]
    have e2 : safeValueLen (10 :: t) = 0 := by rw [safeValueLen, if_neg (by simp [isSafeValueChar])]
    rw [e1, e2]; exact .zero (.crlf h)
  | @char c s t hc h ih =>
    rw [safeValueLen, safeValueLen, isSafeValueChar_crlf hc h]
    split
    · exact ih.char hc
    · exact .zero (.char hc h)

theorem parseXmqTextValue_crlf {s t : St} (h : Sim s t) (level : Level) : RSim (parseXmqTextValue s level) (parseXmqTextValue t level) := by
  have hc := safeValueLen_crlf h.rest
  exact .ok (h.emitSpan (h.advance hc) hc)

/-! ## Values, attributes, elements -/

theorem parseXmqCompoundChildren_crlf : ∀ (fuel : Nat) {s t : St} (level : Level), Sim s t →
    RSim (parseXmqCompoundChildren fuel s level) (parseXmqCompoundChildren fuel t level)
  | 0, _, _, _, _ => .fuel
  | fuel + 1, s, t, level, h => by
    have ih := fun {s t : St} (h : Sim s t) => parseXmqCompoundChildren_crlf fuel level h
    rw [parseXmqCompoundChildren, parseXmqCompoundChildren]
    have hr := h.rest
    generalize hs : s.rest = sr at hr
    generalize ht : t.rest = tr at hr
    cases hr with
    | nil => exact .ok h
    | @crlf a b hab =>
      dsimp only
      rw [if_pos (by decide), if_pos (by decide)]
      exact ih (parseXmqWhitespace_crlf h)
    | @char c a b hc hab =>
      have hh : Head s t c a b := ⟨hs, ht, hc, hab⟩
      dsimp only
      split
      · exact ih (parseXmqWhitespace_crlf h)
      · split
        · exact .ok h
        · split
          · exact (parseXmqQuote_crlf h level).bind fun s t h => ih h
          · split
            · exact (parseXmqEntity_crlf h hh level).bind fun s t h => ih h
            · exact .err

theorem close_crlf {s t : St} (h : Sim s t) (c : Byte) (e : Err) (k : Kind) (h0 : c ≠ 0) (h13 : c ≠ 13) (h10 : c ≠ 10) :
    RSim (if peek (skipWs s).rest != c then .err e (skipWs s) else .ok (parseOne (skipWs s) k))
      (if peek (skipWs t).rest != c then .err e (skipWs t) else .ok (parseOne (skipWs t) k)) := by
  have h' := skipWs_crlf h
  have e1 : ((13 : Byte) == c) = false := by simpa using fun e => h13 e.symm
  have e2 : ((10 : Byte) == c) = false := by simpa using fun e => h10 e.symm
  rw [h'.rest.peek_bne c (by rw [e1, e2])]
  split
  · exact .err
  · rename_i hp
    obtain ⟨a, b, hh⟩ := h'.head_peek (c := c) (by rw [h'.rest.peek_beq c (by rw [e1, e2])]; simpa using hp) h0 h13
    exact .ok (parseOne_crlf h' hh k)

theorem parseXmqCompound_crlf (fuel : Nat) {s t : St} (h : Sim s t) {c : Byte} {a b : List Byte} (hh : Head s t c a b) (level : Level) :
    RSim (parseXmqCompound fuel s level) (parseXmqCompound fuel t level) := by
  rw [parseXmqCompound, parseXmqCompound]
  exact (parseXmqCompoundChildren_crlf fuel _ (parseOne_crlf h hh _)).bind fun s t h =>
    close_crlf h b#')' _ _ (by decide) (by decide) (by decide)

theorem parseXmqValue_crlf (fuel : Nat) {s t : St} (h : Sim s t) (level : Level) : RSim (parseXmqValue fuel s level) (parseXmqValue fuel t level) := by
  rw [parseXmqValue, parseXmqValue]
  have h := skipWs_crlf h
  generalize skipWs s = s at h ⊢
  generalize skipWs t = t at h ⊢
  rw [← h.rest.peek_beq b#'\'', ← h.rest.peek_beq b#'&', ← h.rest.peek_beq b#'(']
  by_cases h1 : (peek s.rest == b#'\'') = true
  · rw [if_pos h1, if_pos h1]; exact parseXmqQuote_crlf h level
  · rw [if_neg h1, if_neg h1]
    by_cases h2 : (peek s.rest == b#'&') = true
    · rw [if_pos h2, if_pos h2]
      obtain ⟨a, b, hh⟩ := h.head_peek h2 (by decide) (by decide)
      exact parseXmqEntity_crlf h hh level
    · rw [if_neg h2, if_neg h2]
      by_cases h3 : (peek s.rest == b#'(') = true
      · rw [if_pos h3, if_pos h3]
        obtain ⟨a, b, hh⟩ := h.head_peek h3 (by decide) (by decide)
        exact parseXmqCompound_crlf fuel h hh level
      · rw [if_neg h3, if_neg h3]
        have hr := h.rest
        generalize hs : s.rest = sr at hr
        generalize ht : t.rest = tr at hr
        cases hr with
        | nil => exact .ub
        | crlf hab => exact parseXmqTextValue_crlf h level
        | @char c a b hc hab =>
          dsimp only
          have e : unsafeValueStart (peek (c :: a)) (peek a) = unsafeValueStart (peek (c :: b)) (peek b) := by
            simp only [peek_cons, unsafeValueStart, hab.peek_beq b#'/', hab.peek_beq b#'*']
          rw [e]
          split
          · exact .err
          · exact parseXmqTextValue_crlf h level

theorem emitName_crlf {s t s' t' : St} (h : Sim s t) (h' : Sim s' t') (ns : Option (List Byte)) (name : List Byte) (k k' : Kind)
    (hns : ∀ x, ns = some x → (13 : Byte) ∉ x) (hn : (13 : Byte) ∉ name) : Sim (emitName s s' ns name k k') (emitName t t' ns name k k') := by
  cases ns with
  | none => exact h'.emit h.line h.col (.refl hn)
  | some x =>
    exact ((h'.emit h.line h.col (.refl (hns x rfl))).emit h.line (by rw [h.col]) (.refl (by decide))).emit h.line (by rw [h.col]) (.refl hn)

/-- Names are read alike. -/
theorem eatXmqTextName_crlf {s t : St} (h : Sim s t) : Sim (eatXmqTextName s).1 (eatXmqTextName t).1 ∧ (eatXmqTextName s).2 = (eatXmqTextName t).2 ∧
    (∀ x, (eatXmqTextName s).2.1 = some x → (13 : Byte) ∉ x) ∧ (13 : Byte) ∉ (eatXmqTextName s).2.2 := by
  have e := h.rest.takeWhile_eq isXmqTextName (by decide) (by decide)
  have hc := Cut.replicate h.rest isXmqTextName (by decide) (by decide)
  have hno : (13 : Byte) ∉ s.rest.takeWhile isXmqTextName := by
    intro hm
    have := List.all_takeWhile (p := isXmqTextName) (l := s.rest)
    rw [List.all_eq_true] at this
    exact absurd (this 13 hm) (by decide)
  rw [eatXmqTextName, eatXmqTextName]
  dsimp only
  rw [← e]
  split
  · refine ⟨h.advance hc, rfl, ?_, ?_⟩
    · intro x hx
      cases hx
      exact fun hm => hno (List.mem_of_mem_take hm)
    · intro hm
      rw [List.mem_reverse] at hm
      have := (List.takeWhile_sublist _).mem hm
      rw [List.mem_reverse] at this
      exact hno this
  · exact ⟨h.advance hc, rfl, fun x hx => (by cases hx), hno⟩

theorem parseXmqAttribute_crlf (fuel : Nat) {s t : St} (h : Sim s t) : RSim (parseXmqAttribute fuel s) (parseXmqAttribute fuel t) := by
  obtain ⟨h1, h2, h3, h4⟩ := eatXmqTextName_crlf h
  rw [parseXmqAttribute, parseXmqAttribute]
  generalize eatXmqTextName s = x at h1 h2 h3 h4 ⊢
  generalize eatXmqTextName t = y at h1 h2 ⊢
  obtain ⟨s', ns, name⟩ := x
  obtain ⟨t', ns', name'⟩ := y
  cases h2
  dsimp only at h1 h3 h4 ⊢
  have fin : ∀ {p q : St}, Sim p q → RSim
      (if peek (skipWs p).rest == b#'=' then parseXmqValue fuel (parseOne (skipWs p) .equals) .attrValue else .ok (skipWs p))
      (if peek (skipWs q).rest == b#'=' then parseXmqValue fuel (parseOne (skipWs q) .equals) .attrValue else .ok (skipWs q)) := by
    intro p q hpq
    have hpq := skipWs_crlf hpq
    rw [← hpq.rest.peek_beq b#'=']
    split
    · rename_i hp
      obtain ⟨a, b, hh⟩ := hpq.head_peek hp (by decide) (by decide)
      exact parseXmqValue_crlf fuel (parseOne_crlf hpq hh _) _
    · exact .ok hpq
  apply fin
  cases ns with
  | none =>
    dsimp only
    split
    · exact emitName_crlf h h1 _ _ _ _ h3 h4
    · exact emitName_crlf h h1 _ _ _ _ h3 h4
  | some x =>
    dsimp only
    split
    · exact emitName_crlf h h1 _ _ _ _ h3 h4
    · exact emitName_crlf h h1 _ _ _ _ h3 h4

theorem parseXmqAttributes_crlf : ∀ (fuel : Nat) {s t : St}, Sim s t → RSim (parseXmqAttributes fuel s) (parseXmqAttributes fuel t)
  | 0, _, _, _ => .fuel
  | fuel + 1, s, t, h => by
    have ih := fun {s t : St} (h : Sim s t) => parseXmqAttributes_crlf fuel h
    rw [parseXmqAttributes, parseXmqAttributes]
    have hr := h.rest
    generalize hs : s.rest = sr at hr
    generalize ht : t.rest = tr at hr
    cases hr with
    | nil => exact .ok h
    | @crlf a b hab =>
      dsimp only
      rw [if_pos (by decide), if_pos (by decide)]
      exact ih (parseXmqWhitespace_crlf h)
    | @char c a b hc hab =>
      dsimp only
      split
      · exact ih (parseXmqWhitespace_crlf h)
      · split
        · exact .ok h
        · split
          · exact (parseXmqAttribute_crlf fuel h).bind fun s t h => ih h
          · exact .ok h

theorem parseElementAttributes_crlf (fuel : Nat) {s t : St} (h : Sim s t) : RSim (parseElementAttributes fuel s) (parseElementAttributes fuel t) := by
  rw [parseElementAttributes, parseElementAttributes]
  dsimp only
  have h := skipWs_crlf h
  rw [← h.rest.peek_beq b#'(']
  split
  · rename_i hp
    obtain ⟨a, b, hh⟩ := h.head_peek hp (by decide) (by decide)
    exact (parseXmqAttributes_crlf fuel (parseOne_crlf h hh _)).bind fun s t h => close_crlf h b#')' _ _ (by decide) (by decide) (by decide)
  · exact .ok h

theorem parseElementBody_crlf (fuel : Nat) {f g : St → Res} (hfg : ∀ {s t}, Sim s t → RSim (f s) (g t)) {s t : St} (h : Sim s t) :
    RSim (parseElementBody fuel f s) (parseElementBody fuel g t) := by
  rw [parseElementBody, parseElementBody]
  dsimp only
  have h := skipWs_crlf h
  rw [← h.rest.peek_beq b#'=', ← h.rest.peek_beq b#'{']
  split
  · rename_i hp
    obtain ⟨a, b, hh⟩ := h.head_peek hp (by decide) (by decide)
    exact parseXmqValue_crlf fuel (parseOne_crlf h hh _) _
  · split
    · rename_i hp
      obtain ⟨a, b, hh⟩ := h.head_peek hp (by decide) (by decide)
      exact (hfg (parseOne_crlf h hh _)).bind fun s t h => close_crlf h b#'}' _ _ (by decide) (by decide) (by decide)
    · exact .ok h

theorem nextIsEqual_crlf {s t : List Byte} (h : Crlf s t) : peekXmqNextIsEqual s = peekXmqNextIsEqual t := by
  rw [peekXmqNextIsEqual, peekXmqNextIsEqual, (h.dropWhile isXmlWhitespace (by decide)).peek_beq b#'=']

theorem doctypeOrPi_crlf {s t : St} (h : Sim s t) {c : Byte} {a b : List Byte} (hh : Head s t c a b) :
    Sim (emitName s (eatXmqDoctypeOrPi s).1 none (eatXmqDoctypeOrPi s).2 .element_ns
        (if peekXmqNextIsEqual (eatXmqDoctypeOrPi s).1.rest then .element_key else .element_name))
      (emitName t (eatXmqDoctypeOrPi t).1 none (eatXmqDoctypeOrPi t).2 .element_ns
        (if peekXmqNextIsEqual (eatXmqDoctypeOrPi t).1.rest then .element_key else .element_name)) := by
  have e := hh.rest.takeWhile_eq isXmqTextName (by decide) (by decide)
  have hc := hh.cut (Cut.replicate hh.rest isXmqTextName (by decide) (by decide))
  have hno : (13 : Byte) ∉ a.takeWhile isXmqTextName := by
    intro hm
    have := List.all_takeWhile (p := isXmqTextName) (l := a)
    rw [List.all_eq_true] at this
    exact absurd (this 13 hm) (by decide)
  have e1 : eatXmqDoctypeOrPi s = (s.advance ((a.takeWhile isXmqTextName).length + 1), c :: a.takeWhile isXmqTextName) := by
    rw [eatXmqDoctypeOrPi, hh.left]; rfl
  have e2 : eatXmqDoctypeOrPi t = (t.advance ((a.takeWhile isXmqTextName).length + 1), c :: a.takeWhile isXmqTextName) := by
    rw [eatXmqDoctypeOrPi, hh.right, e]; rfl
  rw [e1, e2]
  dsimp only
  have h' := h.advance hc
  rw [nextIsEqual_crlf h'.rest]
  exact emitName_crlf h h' none _ _ _ (fun x hx => by cases hx)
    (by simp only [List.mem_cons, not_or]; exact ⟨fun e => hh.ne e.symm, hno⟩)

theorem parseElementName_crlf {s t : St} (h : Sim s t) {c : Byte} {a b : List Byte} (hh : Head s t c a b) (k : ElemKind) :
    Sim (parseElementName s k) (parseElementName t k) := by
  unfold parseElementName
  cases k with
  | element =>
    obtain ⟨h1, h2, h3, h4⟩ := eatXmqTextName_crlf h
    dsimp only
    generalize eatXmqTextName s = x at h1 h2 h3 h4 ⊢
    generalize eatXmqTextName t = y at h1 h2 ⊢
    obtain ⟨s', ns, name⟩ := x
    obtain ⟨t', ns', name'⟩ := y
    cases h2
    dsimp only at h1 h3 h4 ⊢
    rw [nextIsEqual_crlf h1.rest]
    exact emitName_crlf h h1 _ _ _ _ h3 h4
  | doctype => exact doctypeOrPi_crlf h hh
  | pi => exact doctypeOrPi_crlf h hh

theorem parseXmqElementInternal_crlf (fuel : Nat) {f g : St → Res} (hfg : ∀ {s t}, Sim s t → RSim (f s) (g t)) {s t : St} (h : Sim s t)
    {c : Byte} {a b : List Byte} (hh : Head s t c a b) (k : ElemKind) :
    RSim (parseXmqElementInternal fuel f s k) (parseXmqElementInternal fuel g t k) := by
  rw [parseXmqElementInternal, parseXmqElementInternal]
  exact (parseElementAttributes_crlf fuel (parseElementName_crlf h hh k)).bind fun s t h => parseElementBody_crlf fuel hfg h

theorem take_crlf : ∀ (q : List Byte) {s t : List Byte}, Crlf s t → (∀ c ∈ q, c ≠ 10 ∧ c ≠ 13) →
    (s.take q.length = q ↔ t.take q.length = q) ∧ (s.take q.length = q → Crlf (s.drop q.length) (t.drop q.length))
  | [], s, t, h, _ => by simpa using h
  | c :: q, s, t, h, hq => by
    obtain ⟨q1, q2⟩ := hq c (by simp)
    have hq' : ∀ c ∈ q, c ≠ 10 ∧ c ≠ 13 := fun d hd => hq d (by simp [hd])
    cases h with
    | nil => simp
    | crlf h => simp [q1.symm, q2.symm]
    | @char d s t hd h =>
      obtain ⟨i1, i2⟩ := take_crlf q h hq'
      simp only [List.length_cons, List.take_succ_cons, List.cons.injEq, List.drop_succ_cons]
      exact ⟨⟨fun e => ⟨e.1, i1.1 e.2⟩, fun e => ⟨e.1, i1.2 e.2⟩⟩, fun e => i2 e.2⟩

theorem isXmqDoctypeStart_crlf {s t : List Byte} (h : Crlf s t) : isXmqDoctypeStart s = isXmqDoctypeStart t := by
  obtain ⟨h1, h2⟩ := take_crlf b#"!DOCTYPE" h (by decide)
  rw [isXmqDoctypeStart, isXmqDoctypeStart]
  by_cases hs : s.take 8 = b#"!DOCTYPE"
  · have ht : t.take 8 = b#"!DOCTYPE" := h1.1 hs
    rw [hs, ht]
    simp only [beq_self_eq_true, if_true]
    have : Crlf (s.drop 8) (t.drop 8) := h2 hs
    generalize s.drop 8 = x at this ⊢
    generalize t.drop 8 = y at this ⊢
    cases this <;> rfl
  · have ht : ¬ t.take 8 = b#"!DOCTYPE" := fun e => hs (h1.2 e)
    rw [if_neg (by simpa using hs), if_neg (by simpa using ht)]

theorem notOk_lost (st : St) (c : Byte) : ∀ s, (match possiblyLostContentAfterEquals st with
    | none => Res.ub
    | some true => .err .expectedContentAfterEquals st
    | some false => if c == b#'\t' then .err .unexpectedTab st else .err .invalidChar st) ≠ .ok s := by
  intro s e
  split at e
  · cases e
  · cases e
  · split at e <;> cases e

theorem parseXmq_crlf : ∀ (fuel : Nat) {s t : St}, Sim s t → RSim (parseXmq fuel s) (parseXmq fuel t)
  | 0, _, _, _ => .fuel
  | fuel + 1, s, t, h => by
    have ih : ∀ {s t : St}, Sim s t → RSim (parseXmq fuel s) (parseXmq fuel t) := fun h => parseXmq_crlf fuel h
    rw [parseXmq, parseXmq]
    have hr := h.rest
    generalize hs : s.rest = sr at hr
    generalize ht : t.rest = tr at hr
    cases hr with
    | nil => exact .ok h
    | @crlf a b hab =>
      dsimp only
      rw [if_pos (by decide), if_pos (by decide)]
      exact ih (parseXmqWhitespace_crlf h)
    | @char c a b hc hab =>
      have hh : Head s t c a b := ⟨hs, ht, hc, hab⟩
      have ecc : ∀ c cc cc', (cc == b#'/') = (cc' == b#'/') → (cc == b#'*') = (cc' == b#'*') → isXmqCommentStart c cc = isXmqCommentStart c cc' := by
        intro c cc cc' e1 e2; rw [isXmqCommentStart, isXmqCommentStart, e1, e2]
      have hcs : isXmqCommentStart c (if c == b#'/' || c == b#'(' then peek a else 0) = isXmqCommentStart c (if c == b#'/' || c == b#'(' then peek b else 0) := by
        split
        · exact ecc _ _ _ (hab.peek_beq b#'/') (hab.peek_beq b#'*')
        · rfl
      have hpi : isXmqPiStart (c :: a) = isXmqPiStart (c :: b) := by
        have := hab.nil_iff
        rw [isXmqPiStart, isXmqPiStart]
        cases a <;> cases b <;> simp_all
      dsimp only
      rw [← hcs, ← hpi, ← isXmqDoctypeStart_crlf (.char hc hab)]
      generalize hcom : isXmqCommentStart c (if c == b#'/' || c == b#'(' then peek a else 0) = cs
      split
      · exact ih (parseXmqWhitespace_crlf h)
      · split
        · exact (parseXmqQuote_crlf h _).bind fun s t h => ih h
        · split
          · exact (parseXmqEntity_crlf h hh _).bind fun s t h => ih h
          · split
            · rename_i hcst
              rw [hcst, isXmqCommentStart, Bool.and_eq_true, Bool.or_eq_true] at hcom
              obtain ⟨e, hcc⟩ := hcom
              have : c = b#'/' := by simpa using e
              subst this
              rw [if_pos (by decide)] at hcc
              exact (parseXmqComment_crlf fuel h hh (by simpa using hcc)).bind fun s t h => ih h
            · split
              · exact (parseXmqElementInternal_crlf fuel ih h hh _).bind fun s t h => ih h
              · split
                · exact (parseXmqElementInternal_crlf fuel ih h hh _).bind fun s t h => ih h
                · split
                  · exact (parseXmqElementInternal_crlf fuel ih h hh _).bind fun s t h => ih h
                  · split
                    · exact .ok h
                    · exact .inr ⟨notOk_lost s c, notOk_lost t c⟩

theorem parseBuffer_crlf (fuel : Nat) {s t : List Byte} (h : Crlf s t) : RSim (parseBuffer fuel s) (parseBuffer fuel t) := by
  rw [parseBuffer, parseBuffer]
  refine (parseXmq_crlf fuel (s := initSt s) (t := initSt t) ⟨h, rfl, rfl, .nil⟩).bind fun s t h => ?_
  have : s.rest.isEmpty = t.rest.isEmpty := by
    have := h.rest.nil_iff
    cases hs : s.rest <;> cases ht : t.rest <;> simp_all
  rw [this]
  split
  · exact .ok h
  · exact .err

end Xmq
