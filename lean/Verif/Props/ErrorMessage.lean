import Verif.Model.ErrorMessage
import Verif.Spec.ErrorMessage
import Verif.Spec.Utf8
import Verif.Lemmas.ErrorPlace
import Verif.Props.Parser
import Verif.Props.Listing
import Verif.Props.Utf8
/-!
# C86: the message of an error tells where it is
-/
namespace Xmq.Props
open Xmq Xmq.Spec Xmq.ErrorMessage

/-! ## The line and the mark -/

theorem indentLoop_line {s : List Byte} {pos a b : Nat} (h : LineAt s pos a b) :
    ∀ p n, a ≤ p → p ≤ pos → n + (p - a) ≤ 1024 → indentLoop s p n = n + (p - a) := by
  intro p
  induction p with
  | zero => intro n h1 _ _; simp [indentLoop]
  | succ p ih =>
    intro n h1 h2 h3
    unfold indentLoop
    by_cases hp : a = p + 1
    · have hb : s[p]? = some 10 := by
        rcases h.before with h0 | h0
        · omega
        · rw [hp] at h0; simpa using h0
      rw [if_neg (by simp [hb])]; omega
    · have hb : s[p]? ≠ some 10 := h.one p (by omega) (by have := h.ends; omega)
      rw [if_pos (by simp [hb]; omega), ih (n + 1) (by omega) (by omega) (by omega)]
      omega

theorem lineLoop_line (b : Nat) : ∀ (r : List Byte) (n k : Nat), (k = r.length ∨ r[k]? = some 10) → k ≤ r.length →
    (∀ i, i < k → r[i]? ≠ some 10 ∧ r[i]? ≠ some 0) → n + k ≤ 1024 → lineLoop r n = n + k := by
  intro r
  induction r with
  | nil => intro n k _ h2 _ _; simp at h2; simp [lineLoop, h2]
  | cons c r ih =>
    intro n k h1 h2 h3 h4
    unfold lineLoop
    cases k with
    | zero =>
      rcases h1 with h1 | h1
      · simp at h1
      · simp at h1; rw [if_neg (by simp [h1])]; omega
    | succ k =>
      have h0 := h3 0 (by omega)
      simp at h0
      rw [if_pos (by simp [h0.1, h0.2]; omega), ih (n + 1) k (by simpa using h1) (by simpa using h2)
        (fun i hi => by simpa using h3 (i + 1) (by omega)) (by omega)]
      omega

/-- **C86.**  The message quotes the line with the error and puts the mark below the place, if the place is not the first of
    its line and the line is not too long. -/
theorem C86_picture_partial (s : List Byte) (pos a b : Nat) (h : LineAt s pos a b) (hp : pos < s.length) (hfirst : a < pos)
    (hnul : ∀ i, a ≤ i → i < b → s[i]? ≠ some 0) (hlong : (b - a) + (pos - a) + 3 < 1024) :
    lineError s pos = picture s pos a b := by
  have hb := h.begins
  have he := h.ends
  have hi := h.inside
  have h1 : indentLoop s pos 0 = pos - a := by rw [indentLoop_line h pos 0 hb (Nat.le_refl _) (by omega)]; omega
  have h2 : lineLoop (s.drop pos) (pos - a) = b - a := by
    rw [lineLoop_line b (s.drop pos) (pos - a) (b - pos)
      (by rcases h.after with h | h
          · left; simp [h]
          · right; rw [List.getElem?_drop, ← h]; congr 1; omega)
      (by simp; omega)
      (fun i hi => by
        rw [List.getElem?_drop]
        exact ⟨h.one _ (by omega) (by omega), hnul _ (by omega) (by omega)⟩) (by omega)]
    omega
  have h3 : ((s.drop a).take (b - a)).takeWhile (· != 0) = (s.drop a).take (b - a) := by
    have hall : ∀ c ∈ (s.drop a).take (b - a), (c != 0) = true := by
      intro c hc
      obtain ⟨i, hi1, hi2⟩ := List.getElem_of_mem hc
      simp at hi1
      have := hnul (a + i) (by omega) (by omega)
      rw [← List.getElem?_drop] at this
      simp at hi2
      rw [List.getElem?_eq_getElem (by simp; omega)] at this
      simp at this
      simpa [← hi2] using this
    generalize (s.drop a).take (b - a) = l at hall
    induction l with
    | nil => rfl
    | cons x l ih => rw [List.takeWhile_cons, if_pos (hall x (by simp)), ih (fun c hc => hall c (by simp [hc]))]
  unfold lineError
  simp only [h1, h2]
  rw [if_pos hp, show pos - (pos - a) = a by omega, h3]
  obtain ⟨k, hk⟩ : ∃ k, pos - a = k + 1 := ⟨pos - a - 1, by omega⟩
  have hpic : b#"\n" ++ (s.drop a).take (b - a) ++ b#"\n " ++ List.replicate (pos - a - 1) b#' ' ++ b#"^" = picture s pos a b := by
    unfold picture
    rw [hk, Nat.add_sub_cancel, List.replicate_succ]
    simp
  rw [hpic]
  refine List.take_of_length_le ?_
  simp [picture]; omega

/-- The mark is in the column that the message names, if the line has only ASCII before it. -/
theorem C86_column (s : List Byte) (pos a b : Nat) (h : LineAt s pos a b)
    (hascii : ∀ i c, a ≤ i → i < pos → s[i]? = some c → c.toNat < 128) : colAfter (s.take pos) = pos - a + 1 := by
  have hb := h.begins
  have he := h.ends
  have hi := h.inside
  have hsplit : s.take pos = s.take a ++ (s.drop a).take (pos - a) := by
    rw [show pos = a + (pos - a) by omega, List.take_add]; simp
  have hin : ∀ c ∈ (s.drop a).take (pos - a), c ≠ 10 ∧ c.toNat < 128 := by
    intro c hc
    obtain ⟨i, hi1, hi2⟩ := List.getElem_of_mem hc
    simp at hi1 hi2
    have h1 := h.one (a + i) (by omega) (by omega)
    have h2 := hascii (a + i) c (by omega) (by omega)
    rw [List.getElem?_eq_getElem (by omega), hi2] at h1 h2
    exact ⟨by simpa using h1, h2 rfl⟩
  have hlen : ((s.drop a).take (pos - a)).length = pos - a := by simp; omega
  have hend : (s.take a).reverse.takeWhile (fun b => decide (b ≠ 10)) = [] := by
    rcases h.before with rfl | h0
    · simp
    · by_cases ha : a = 0
      · simp [ha]
      · obtain ⟨k, rfl⟩ : ∃ k, a = k + 1 := ⟨a - 1, by omega⟩
        have hk : k < s.length := by omega
        rw [Nat.add_sub_cancel, List.getElem?_eq_getElem hk] at h0
        simp at h0
        rw [List.take_add_one, List.getElem?_eq_getElem hk, h0]
        simp
  unfold colAfter
  rw [hsplit]
  generalize (s.drop a).take (pos - a) = l at hin hlen
  rw [List.reverse_append, List.takeWhile_append_of_pos (by intro c hc; simpa using (hin c (by simpa using hc)).1), hend,
    List.append_nil, List.countP_eq_length.2 (by intro c hc; simpa using Or.inl (hin c (by simpa using hc)).2)]
  simp [hlen]; omega

/-- The mark is always below the place. -/
def C86_mark : Prop := ∀ s pos a b, LineAt s pos a b → pos < s.length → (∀ i, a ≤ i → i < b → s[i]? ≠ some 0) →
  (b - a) + (pos - a) + 4 < 1024 → lineError s pos = picture s pos a b

/-- For the first byte of a line it is one too far to the right. -/
theorem C86_false_mark : ¬ C86_mark := fun h => by
  have := h b#",a" 0 0 2 ⟨by decide, by decide, by decide, Or.inl rfl, Or.inl rfl, fun i _ hi => by
    rcases (by omega : i = 0 ∨ i = 1) with rfl | rfl <;> decide⟩ (by decide) (fun i _ hi => by
    rcases (by omega : i = 0 ∨ i = 1) with rfl | rfl <;> decide) (by decide)
  exact absurd this (by decide +kernel)

/-- Lines of any length are shown with the mark. -/
def C86_any_length : Prop := ∀ s pos a b, LineAt s pos a b → pos < s.length → a < pos → (∀ i, a ≤ i → i < b → s[i]? ≠ some 0) →
  94 ∈ lineError s pos

theorem lineError_length (s : List Byte) (pos : Nat) : (lineError s pos).length ≤ 1023 := by
  unfold lineError
  simp only
  split
  · simp [snprintf]; omega
  · simp

/-! ## The place -/

theorem tokensLen_eq (l : List Tok) : tokensLen l = (textOf l.reverse).length := by
  induction l with
  | nil => rfl
  | cons t l ih =>
    rw [List.reverse_cons, textOf_append, List.length_append, ← ih]
    simp [tokensLen]; omega

/-- The state of an error, seen from the beginning. -/
theorem step_buffer (fuel : Nat) (s : List Byte) (e : Err) (st : St) (h : parseBuffer fuel s = .err e st) :
    StepBy st.out.reverse (initSt s) st := by
  have hg := good_xmq fuel (initSt s)
  have key : Step (initSt s) st → StepBy st.out.reverse (initSt s) st := by
    rintro ⟨toks, hs⟩
    have : st.out.reverse = toks := by rw [hs.out]; simp [initSt]
    rw [this]; exact hs
  unfold parseBuffer at h
  cases hr : parseXmq fuel (initSt s) with
  | ok s' =>
    rw [hr] at h hg
    simp only [Res.bind_ok] at h
    split at h
    · cases h
    · cases h; exact key (Moves.step hg)
  | err e' s' => rw [hr] at h hg; cases h; exact key hg
  | ub => rw [hr] at h; cases h
  | outOfFuel => rw [hr] at h; cases h

/-- The place `w` is a place of `s`, with its line and column. -/
def TruePlace (s : List Byte) (w : Place) : Prop :=
  w.pos ≤ s.length ∧ w.line = lineAfter (s.take w.pos) ∧ w.col = colAfter (s.take w.pos)

theorem truePlace_tok {s : List Byte} {st : St} (h : StepBy st.out.reverse (initSt s) st) {post pre : List Tok} {t : Tok}
    (ho : st.out = post ++ t :: pre) : TruePlace s ⟨tokensLen pre, t.line, t.col⟩ ∧
      s.drop (tokensLen pre) = t.text ++ textOf post.reverse ++ st.rest := by
  have hs : s = textOf st.out.reverse ++ st.rest := h.rest
  have ho' : st.out.reverse = pre.reverse ++ t :: post.reverse := by rw [ho]; simp
  have hp := h.placed
  rw [ho', placed_append] at hp
  have h1 := hp.2.1
  rw [show ((initSt s).line, (initSt s).col) = (1, 1) from rfl, walk_eq] at h1
  have hs' : s = textOf pre.reverse ++ (t.text ++ textOf post.reverse ++ st.rest) := by
    conv => lhs; rw [hs, ho', textOf_append, textOf_cons]
    simp
  have ht : s.take (tokensLen pre) = textOf pre.reverse := by
    rw [tokensLen_eq]
    conv => lhs; rw [hs']
    exact List.take_left' rfl
  refine ⟨⟨?_, ?_, ?_⟩, ?_⟩
  · simp only; rw [tokensLen_eq, hs']; simp
  · simp only; rw [ht]; exact congrArg Prod.fst h1
  · simp only; rw [ht]; exact congrArg Prod.snd h1
  · rw [tokensLen_eq]
    conv => lhs; rw [hs']
    exact List.drop_left' rfl

theorem truePlace_stopped {s : List Byte} {st : St} (h : StepBy st.out.reverse (initSt s) st) :
    TruePlace s (stopped st) ∧ s.drop (stopped st).pos = st.rest := by
  have hs : s = textOf st.out.reverse ++ st.rest := h.rest
  have hb := h.before
  have hl : st.before.length = (textOf st.out.reverse).length := by rw [hb]; simp [initSt]
  have hp := h.pos
  rw [show ((initSt s).line, (initSt s).col) = (1, 1) from rfl, walk_eq] at hp
  have ht : s.take st.before.length = textOf st.out.reverse := by
    rw [hl]
    conv => lhs; rw [hs]
    exact List.take_left' rfl
  refine ⟨⟨?_, ?_, ?_⟩, ?_⟩
  · simp only [stopped]; rw [hl, hs]; simp
  · simp only [stopped]; rw [ht]; exact congrArg Prod.fst hp
  · simp only [stopped]; rw [ht]; exact congrArg Prod.snd hp
  · simp only [stopped]; rw [hl]
    conv => lhs; rw [hs]
    exact List.drop_left' rfl

theorem lastTok_some (k : Kind) : ∀ (out : List Tok) (w : Place), lastTok k out = some w →
    ∃ post t pre, out = post ++ t :: pre ∧ t.kind = k ∧ (∀ u ∈ post, u.kind ≠ k) ∧ w = ⟨tokensLen pre, t.line, t.col⟩ := by
  intro out
  induction out with
  | nil => intro w h; cases h
  | cons t out ih =>
    intro w h
    unfold lastTok at h
    split at h
    · rename_i hk; cases h; exact ⟨[], t, out, rfl, hk, by simp, rfl⟩
    · rename_i hk
      obtain ⟨post, u, pre, h1, h2, h3, h4⟩ := ih w h
      exact ⟨t :: post, u, pre, by rw [h1]; rfl, h2, by
        intro v hv
        rcases List.mem_cons.1 hv with rfl | hv
        · exact hk
        · exact h3 v hv, h4⟩

theorem lastTok_none (k : Kind) : ∀ (out : List Tok), lastTok k out = none → ∀ t ∈ out, t.kind ≠ k := by
  intro out
  induction out with
  | nil => simp
  | cons t out ih =>
    intro h u hu
    unfold lastTok at h
    split at h
    · cases h
    · rename_i hk
      rcases List.mem_cons.1 hu with rfl | hu
      · exact hk
      · exact ih h u hu

theorem lastEquals_some : ∀ (out : List Tok) (f : Bool) (w : Place), lastEquals f out = some w →
    ∃ post t pre, out = post ++ t :: pre ∧ t.kind = .equals ∧ w = ⟨tokensLen pre, t.line, t.col⟩ := by
  intro out
  induction out with
  | nil => intro f w h; cases f <;> cases h
  | cons t out ih =>
    intro f w h
    cases f with
    | true =>
      simp only [lastEquals] at h
      obtain ⟨post, u, pre, h1, h2, h3⟩ := ih _ w h
      exact ⟨t :: post, u, pre, by rw [h1]; rfl, h2, h3⟩
    | false =>
      simp only [lastEquals] at h
      split at h
      · rename_i hk; cases h; exact ⟨[], t, out, rfl, hk, rfl⟩
      · obtain ⟨post, u, pre, h1, h2, h3⟩ := ih _ w h
        exact ⟨t :: post, u, pre, by rw [h1]; rfl, h2, h3⟩

theorem one_text {toks : List Tok} {st st' : St} (h : StepBy toks st st') {t : Tok} (ht : t ∈ toks) {c : Byte}
    (hk : ∀ x, TokenText t.kind x → x = [c]) : t.text = [c] := hk _ (h.shape t ht)

/-- The place that is reported is a place of the text, with its line and its column, and what is said to be wrong is there. -/
theorem placeOf_true (fuel : Nat) (s : List Byte) (e : Err) (st : St) (w : Place) (h : parseBuffer fuel s = .err e st)
    (hw : placeOf e st = some w) : TruePlace s w ∧ Fits e (s.drop w.pos) := by
  have hs := step_buffer fuel s e st h
  have ht := tells_buffer fuel s e st h
  have hstop := truePlace_stopped hs
  have tok : ∀ {post pre : List Tok} {t : Tok}, st.out = post ++ t :: pre → ∀ c, (∀ x, TokenText t.kind x → x = [c]) →
      TruePlace s ⟨tokensLen pre, t.line, t.col⟩ ∧ (s.drop (tokensLen pre)).head? = some c := by
    intro post pre t ho c hk
    obtain ⟨h1, h2⟩ := truePlace_tok hs ho
    have : t.text = [c] := one_text hs (by rw [ho]; simp) hk
    exact ⟨h1, by rw [h2, this]; simp⟩
  cases e with
  | bodyNotClosed =>
    obtain ⟨post, t, pre, h1, h2, _, rfl⟩ := lastTok_some _ _ _ hw
    exact tok h1 123 (fun x hx => by rw [h2] at hx; exact hx)
  | attributesNotClosed =>
    obtain ⟨post, t, pre, h1, h2, _, rfl⟩ := lastTok_some _ _ _ hw
    exact tok h1 40 (fun x hx => by rw [h2] at hx; exact hx)
  | expectedContentAfterEquals =>
    obtain ⟨post, t, pre, h1, h2, rfl⟩ := lastEquals_some _ _ _ hw
    exact tok h1 61 (fun x hx => by rw [h2] at hx; exact hx)
  | _ => cases hw; exact ⟨hstop.1, by rw [hstop.2]; exact ht⟩

/-- **C86.**  The message of an error is the source, the line, the column, the text of the error, for an unexpected character
    that character, and the line; line and column are those of a place of the input, and what the error is about is there. -/
theorem C86_message (fuel : Nat) (source s m : List Byte) (e : Err) (st : St) (h : parseBuffer fuel s = .err e st)
    (hm : errorMessage source s e st = some m) :
    ∃ pos line col char, pos ≤ s.length ∧ IsDecimal line (lineAfter (s.take pos)) ∧ IsDecimal col (colAfter (s.take pos)) ∧
      Fits e (s.drop pos) ∧ (e ≠ .invalidChar → char = []) ∧ (e = .invalidChar → charError s pos = some char) ∧
      m = (source ++ b#":" ++ line ++ b#":" ++ col ++ b#": error: " ++ errorText e ++ char ++ lineError s pos).take 2047 := by
  unfold errorMessage at hm
  cases hw : placeOf e st with
  | none => rw [hw] at hm; simp at hm
  | some w =>
    obtain ⟨⟨h1, h2, h3⟩, h4⟩ := placeOf_true fuel s e st w h hw
    rw [hw] at hm
    simp only [Option.bind_eq_bind, Option.bind_some] at hm
    by_cases hi : e = .invalidChar
    · rw [if_pos hi] at hm
      cases hc : charError s w.pos with
      | none => rw [hc] at hm; simp at hm
      | some char =>
        rw [hc] at hm
        refine ⟨w.pos, _, _, char, h1, h2 ▸ isDecimal_digits w.line, h3 ▸ isDecimal_digits w.col, h4, fun h => absurd hi h, fun _ => hc, ?_⟩
        simp only [Option.bind_some, Option.pure_def, Option.some.injEq] at hm
        rw [← hm]
        simp [format, snprintf, decimal, h2, h3]
    · rw [if_neg hi] at hm
      refine ⟨w.pos, _, _, [], h1, h2 ▸ isDecimal_digits w.line, h3 ▸ isDecimal_digits w.col, h4, fun _ => rfl, fun h => absurd h hi, ?_⟩
      simp only [Option.bind_some, Option.pure_def, Option.some.injEq] at hm
      rw [← hm]
      simp [format, snprintf, decimal, h2, h3]

/-- **C86.**  There is a message for every error but two. -/
theorem C86_has_message (fuel : Nat) (source s : List Byte) (e : Err) (st : St) (h : parseBuffer fuel s = .err e st)
    (h1 : e ≠ .expectedContentAfterEquals) (h2 : e ≠ .invalidChar) : errorMessage source s e st ≠ none := by
  have ht := tells_buffer fuel s e st h
  have hw : placeOf e st ≠ none := by
    cases e with
    | bodyNotClosed =>
      obtain ⟨post, t, pre, h3, h4, _⟩ := ht
      exact fun hn => lastTok_none _ _ hn t (by rw [h3]; simp) h4
    | attributesNotClosed =>
      obtain ⟨post, t, pre, h3, h4, _⟩ := ht
      exact fun hn => lastTok_none _ _ hn t (by rw [h3]; simp) h4
    | expectedContentAfterEquals => exact absurd rfl h1
    | _ => exact fun hn => by cases hn
  unfold errorMessage
  cases hp : placeOf e st with
  | none => exact absurd hp hw
  | some w => simp [h2]

/-- For every error there is a message. -/
def C86_always : Prop := ∀ fuel source s e st, parseBuffer fuel s = .err e st → errorMessage source s e st ≠ none

/-- Not if the equals sign that the parser found was in a comment: a pointer that was never set is used. -/
theorem C86_false_equals : ¬ C86_always := fun h =>
  h 100 b#"f" b#"//=\n=" .expectedContentAfterEquals ⟨b#"\n=//", b#"=", 2, 1, [⟨.comment, 1, 1, b#"//=\n"⟩]⟩
    (by decide +kernel) (by decide +kernel)

/-- Nor for a character of the last plane: its number does not fit into the buffer. -/
theorem C86_false_plane : ¬ C86_always := fun h =>
  h 100 b#"f" [0xf4, 0x8f, 0xbf, 0xbf] .invalidChar ⟨[], [0xf4, 0x8f, 0xbf, 0xbf], 1, 1, []⟩ (by decide +kernel) (by decide +kernel)

/-- Nor for a byte that begins no character: bytes are printed that were never set. -/
theorem C86_false_byte : ¬ C86_always := fun h =>
  h 100 b#"f" [0xff, 97, 97, 97] .invalidChar ⟨[], [0xff, 97, 97, 97], 1, 1, []⟩ (by decide +kernel) (by decide +kernel)

/-! ## What is not closed -/

theorem count_nested (l : List Kind) (hl : WellNested l) : l.count .brace_left = l.count .brace_right := by
  induction hl with
  | nil => rfl
  | plain k hk => cases k <;> simp_all [IsBracket] <;> decide
  | braces l _ ih => simp [List.count_append, List.count_cons, ih]
  | attributes l _ ih => simp [List.count_append, List.count_cons, ih]
  | compound l _ ih => simp [List.count_append, List.count_cons, ih]
  | append l m _ _ ih1 ih2 => simp [List.count_append, ih1, ih2]

theorem split_last {k : Kind} {post post' pre pre' : List Tok} {t t' : Tok} (h : post ++ t :: pre = post' ++ t' :: pre')
    (h2 : t.kind = k) (h2' : t'.kind = k) (h3 : ∀ u ∈ post, u.kind ≠ k) (h3' : ∀ u ∈ post', u.kind ≠ k) :
    post = post' ∧ t :: pre = t' :: pre' := by
  rcases List.append_eq_append_iff.1 h with ⟨l, hl, hl'⟩ | ⟨l, hl, hl'⟩
  · cases l with
    | nil => simp at hl hl'; exact ⟨hl.symm, by rw [hl'.1, hl'.2]⟩
    | cons x l =>
      simp at hl'
      exact absurd h2 (hl'.1 ▸ h3' x (by rw [hl]; simp))
  · cases l with
    | nil => simp at hl hl'; exact ⟨hl, by rw [hl'.1, hl'.2]⟩
    | cons x l =>
      simp at hl'
      exact absurd h2' (hl'.1 ▸ h3 x (by rw [hl]; simp))

/-- **C86.**  Attributes that are not closed: the place is that of the parenthesis that is not closed. -/
theorem C86_attributes (fuel : Nat) (s : List Byte) (st : St) (w : Place) (h : parseBuffer fuel s = .err .attributesNotClosed st)
    (hw : placeOf .attributesNotClosed st = some w) : ∃ pre t post, st.out.reverse = pre ++ t :: post ∧ t.kind = .apar_left ∧
      WellNested (kinds post) ∧ w.pos = (textOf pre).length := by
  obtain ⟨post, t, pre, h1, h2, h3, h4⟩ := tells_buffer fuel s _ st h
  obtain ⟨post', t', pre', h1', h2', h3', rfl⟩ := lastTok_some _ _ _ hw
  rw [h1] at h1'
  obtain ⟨rfl, h5⟩ := split_last h1' h2 h2' h3 h3'
  cases h5
  exact ⟨pre.reverse, t, post.reverse, by rw [h1]; simp, h2, h4, tokensLen_eq _⟩

/-- The same for a body that is not closed. -/
def C86_body : Prop := ∀ fuel s st w, parseBuffer fuel s = .err .bodyNotClosed st → placeOf .bodyNotClosed st = some w →
  ∃ pre t post, st.out.reverse = pre ++ t :: post ∧ t.kind = .brace_left ∧ WellNested (kinds post) ∧ w.pos = (textOf pre).length

/-- The parser remembers the last brace that was opened, also if it was closed. -/
theorem C86_false_body : ¬ C86_body := fun h => by
  obtain ⟨pre, t, post, h1, h2, h3, h4⟩ := h 100 b#"a{b{}" ⟨b#"}{b{a", [], 1, 6, [⟨.brace_right, 1, 5, b#"}"⟩, ⟨.brace_left, 1, 4, b#"{"⟩,
    ⟨.element_name, 1, 3, b#"b"⟩, ⟨.brace_left, 1, 2, b#"{"⟩, ⟨.element_name, 1, 1, b#"a"⟩]⟩ ⟨3, 1, 4⟩ (by decide +kernel) (by decide +kernel)
  have hp : pre = [⟨.element_name, 1, 1, b#"a"⟩, ⟨.brace_left, 1, 2, b#"{"⟩, ⟨.element_name, 1, 3, b#"b"⟩] := by
    simp only [List.reverse_cons, List.reverse_nil, List.nil_append, List.cons_append] at h1
    rcases pre with _ | ⟨a, _ | ⟨b, _ | ⟨c, _ | ⟨d, l⟩⟩⟩⟩ <;> simp at h1
    · simp at h4
    · obtain ⟨rfl, _⟩ := h1; simp at h4
    · obtain ⟨rfl, rfl, _⟩ := h1; simp at h4
    · obtain ⟨rfl, rfl, rfl, _⟩ := h1; rfl
    · obtain ⟨rfl, rfl, rfl, rfl, _⟩ := h1; simp at h4
  subst hp
  simp at h1
  obtain ⟨_, rfl⟩ := h1
  exact absurd (count_nested _ h3) (by decide)

/-- **C86.**  If no body was closed, the brace of the message is the innermost one that is open. -/
theorem C86_body_partial (fuel : Nat) (s : List Byte) (st : St) (w : Place) (h : parseBuffer fuel s = .err .bodyNotClosed st)
    (hw : placeOf .bodyNotClosed st = some w) (hc : ∀ t ∈ st.out, t.kind ≠ .brace_right) :
    ∃ pre t post, st.out.reverse = pre ++ t :: post ∧ t.kind = .brace_left ∧ WellNested (kinds post) ∧ w.pos = (textOf pre).length := by
  obtain ⟨post, t, pre, h1, h2, h4⟩ := tells_buffer fuel s _ st h
  have h3 : ∀ u ∈ post, u.kind ≠ .brace_left := by
    have hz : (kinds post.reverse).count .brace_right = 0 := by
      rw [List.count_eq_zero]
      intro hm
      simp only [kinds, List.mem_map, List.mem_reverse] at hm
      obtain ⟨u, hu, hk⟩ := hm
      exact hc u (by rw [h1]; simp [hu]) hk
    rw [← count_nested _ h4, List.count_eq_zero] at hz
    intro u hu hk
    exact hz (by simp only [kinds, List.mem_map, List.mem_reverse]; exact ⟨u, hu, hk⟩)
  obtain ⟨post', t', pre', h1', h2', h3', rfl⟩ := lastTok_some _ _ _ hw
  rw [h1] at h1'
  obtain ⟨rfl, h5⟩ := split_last h1' h2 h2' h3 h3'
  cases h5
  exact ⟨pre.reverse, t, post.reverse, by rw [h1]; simp, h2, h4, tokensLen_eq _⟩

/-! ## What is printed -/

/-- **C86.**  The tool prints an error as it is if it contains no percent sign. -/
theorem C86_printed_partial (m : List Byte) (arg : Option (List Byte)) (h : b#'%' ∉ m) : fprintfError m arg = some m := by
  induction m with
  | nil => rfl
  | cons c m ih =>
    have hc : c ≠ b#'%' := fun hc => h (by simp [hc])
    have hm := ih (fun hm => h (by simp [hm]))
    cases m with
    | nil => simp [fprintfError, hc]
    | cons d t => rw [fprintfError, if_neg (by simpa using hc), hm]; rfl

theorem printed_before (a m : List Byte) (arg : Option (List Byte)) (h : b#'%' ∉ a) :
    fprintfError (a ++ m) arg = (fprintfError m arg).map (a ++ ·) := by
  induction a with
  | nil => simp
  | cons c a ih =>
    have hc : c ≠ b#'%' := fun hc => h (by simp [hc])
    have ih := ih (fun hm => h (by simp [hm]))
    rw [List.cons_append]
    cases hm : a ++ m with
    | nil => simp at hm; simp [fprintfError, hc, hm]
    | cons d t => rw [fprintfError, if_neg (by simpa using hc), ← hm, ih, Option.map_map]; rfl

/-- **C86.**  A first `%s` in the line of an error is printed as the name of the input, and without a name nothing is defined. -/
theorem C86_printed_name (a b : List Byte) (arg : Option (List Byte)) (ha : b#'%' ∉ a) (hb : b#'%' ∉ b) :
    fprintfError (a ++ b#"%s" ++ b) arg = arg.map fun name => a ++ name ++ b := by
  rw [List.append_assoc, printed_before a _ arg ha]
  have : fprintfError (b#"%s" ++ b) arg = arg.bind fun x => (fprintfError b none).map (x ++ ·) := by
    show fprintfError (b#'%' :: b#'s' :: b) arg = _
    rw [fprintfError]; rfl
  rw [this, C86_printed_partial b none hb]
  cases arg <;> simp

/-- **C86.**  Any other conversion in the line of an error has no argument: what is printed is not defined. -/
theorem C86_printed_none (a b : List Byte) (c : Byte) (arg : Option (List Byte)) (ha : b#'%' ∉ a) (hc : c ≠ b#'%') (hs : c ≠ b#'s') :
    fprintfError (a ++ b#'%' :: c :: b) arg = none := by
  rw [printed_before a _ arg ha, fprintfError]
  simp [hc, hs]

example : fprintfError b#"f:1:3: a='%s" (some b#"f.xmq") = some b#"f:1:3: a='f.xmq" := by decide +kernel

/-- The tool prints every error. -/
def C86_printed : Prop := ∀ fuel source s e st m arg, parseBuffer fuel s = .err e st → docError source s e st = some m →
  fprintfError m arg = some m

/-- An input with a percent sign in the line of the error is used as a format. -/
theorem C86_false_printed : ¬ C86_printed := fun h => by
  have := h 100 b#"f" b#"a='%n" .quoteNotClosed ⟨b#"=a", b#"'%n", 1, 3, [⟨.equals, 1, 2, b#"="⟩, ⟨.element_key, 1, 1, b#"a"⟩]⟩
    b#"f:1:3: error: quote is not closed\na='%n\n  ^\n" (some b#"f") (by decide +kernel) (by decide +kernel)
  exact absurd this (by decide +kernel)

/-! ## The character -/

theorem hexUpper_isHex : ∀ k n, 0 < k → n < 16 ^ k → (hexUpper k n).length ≤ k ∧ IsHex (hexUpper k n) n ∧ (n ≠ 0 → (hexUpper k n).head? ≠ some 48) := by
  intro k
  induction k with
  | zero => intro n h; omega
  | succ k ih =>
    intro n _ hn
    have hd : ∀ m, m < 16 → ((48 ≤ (toHex m).toNat ∧ (toHex m).toNat ≤ 57) ∨ (65 ≤ (toHex m).toNat ∧ (toHex m).toNat ≤ 70)) ∧
        (if (toHex m).toNat < 58 then (toHex m).toNat - 48 else (toHex m).toNat - 55) = m ∧ (m ≠ 0 → toHex m ≠ 48) := by decide
    unfold hexUpper
    split
    · rename_i h
      obtain ⟨h1, h2, h3⟩ := hd n h
      refine ⟨by simp, ⟨by simp, by simpa using h1, by simpa [upperHex] using h2, by simp⟩, by simpa using h3⟩
    · rename_i h
      have hk : 0 < k := by
        rcases Nat.eq_zero_or_pos k with rfl | hk
        · simp at hn; omega
        · exact hk
      have hq : n / 16 < 16 ^ k := by
        rw [Nat.div_lt_iff_lt_mul (by decide), ← Nat.pow_succ]; exact hn
      obtain ⟨a, ⟨b1, b2, b3, b4⟩, c⟩ := ih (n / 16) hk hq
      obtain ⟨h1, h2, h3⟩ := hd (n % 16) (Nat.mod_lt _ (by decide))
      have hne := c (by omega)
      have hhead : (hexUpper k (n / 16) ++ [toHex (n % 16)]).head? = (hexUpper k (n / 16)).head? := by
        cases hh : hexUpper k (n / 16) with
        | nil => exact absurd hh b1
        | cons x l => rfl
      refine ⟨by simp; omega, ⟨by simp, ?_, ?_, ?_⟩, fun _ => by rw [hhead]; exact hne⟩
      · intro d hd'
        rcases List.mem_append.1 hd' with hd' | hd'
        · exact b2 d hd'
        · simp at hd'; rw [hd']; exact h1
      · simp only [upperHex, List.foldl_append, List.foldl_cons, List.foldl_nil] at b3 ⊢
        rw [b3, h2]; omega
      · rw [hhead]; exact fun h => absurd h hne

theorem hexUpper_mono : ∀ k k' n, 0 < k → 0 < k' → n < 16 ^ k → n < 16 ^ k' → hexUpper k n = hexUpper k' n := by
  intro k
  induction k with
  | zero => intro k' n h; omega
  | succ k ih =>
    intro k' n _ hk' h1 h2
    obtain ⟨j, rfl⟩ : ∃ j, k' = j + 1 := ⟨k' - 1, by omega⟩
    unfold hexUpper
    split
    · rfl
    · rename_i h
      have hk : 0 < k := by
        rcases Nat.eq_zero_or_pos k with rfl | hk
        · simp at h1; omega
        · exact hk
      have hj : 0 < j := by
        rcases Nat.eq_zero_or_pos j with rfl | hk
        · simp at h2; omega
        · exact hk
      rw [ih j (n / 16) hk hj (by rw [Nat.div_lt_iff_lt_mul (by decide), ← Nat.pow_succ]; exact h1)
        (by rw [Nat.div_lt_iff_lt_mul (by decide), ← Nat.pow_succ]; exact h2)]

theorem lt_16_pow (n : Nat) : n < 16 ^ (n + 1) := Nat.lt_of_lt_of_le (Nat.lt_pow_self (by decide)) (Nat.pow_le_pow_right (by decide) (by omega))

theorem encode_first (cp : Nat) (bs : List Byte) (h0 : cp ≠ 0) (h : encodeUtf8 cp = some bs) :
    (∀ c ∈ bs, c ≠ 0) ∧ ((∃ a, bs = [a] ∧ numUtf8Bytes a = 1) ∨ (∃ a b, bs = [a, b] ∧ numUtf8Bytes a = 2) ∨
      (∃ a b c, bs = [a, b, c] ∧ numUtf8Bytes a = 3) ∨ (∃ a b c d, bs = [a, b, c, d] ∧ numUtf8Bytes a = 4)) := by
  have c1 : ∀ k, k < 128 → k ≠ 0 → UInt8.ofNat k ≠ 0 ∧ numUtf8Bytes (UInt8.ofNat k) = 1 := by decide +kernel
  have c2 : ∀ k, k < 32 → UInt8.ofNat (0xc0 ||| k) ≠ 0 ∧ numUtf8Bytes (UInt8.ofNat (0xc0 ||| k)) = 2 := by decide +kernel
  have c3 : ∀ k, k < 16 → UInt8.ofNat (0xe0 ||| k) ≠ 0 ∧ numUtf8Bytes (UInt8.ofNat (0xe0 ||| k)) = 3 := by decide +kernel
  have c4 : ∀ k, k < 8 → UInt8.ofNat (0xf0 ||| k) ≠ 0 ∧ numUtf8Bytes (UInt8.ofNat (0xf0 ||| k)) = 4 := by decide +kernel
  have cc : ∀ k, k < 64 → UInt8.ofNat (0x80 ||| k) ≠ 0 := by decide +kernel
  have l5 : ∀ n, n &&& 0x1f < 32 := fun n => Nat.lt_of_le_of_lt Nat.and_le_right (by decide)
  have l4 : ∀ n, n &&& 0x0f < 16 := fun n => Nat.lt_of_le_of_lt Nat.and_le_right (by decide)
  have l3 : ∀ n, n &&& 0x07 < 8 := fun n => Nat.lt_of_le_of_lt Nat.and_le_right (by decide)
  have l6 : ∀ n, n &&& 0x3f < 64 := fun n => Nat.lt_of_le_of_lt Nat.and_le_right (by decide)
  unfold encodeUtf8 at h
  split at h
  · rename_i hle
    have hle' : cp < 128 := by omega
    cases h
    have he : UInt8.ofInt (cp : Int) = UInt8.ofNat cp := by simp [UInt8.ofInt]; congr 1; omega
    rw [he]
    have := c1 cp hle' h0
    exact ⟨by simpa using this.1, Or.inl ⟨_, rfl, this.2⟩⟩
  · simp only [Int.toNat_natCast] at h
    split at h
    · cases h
      exact ⟨by simp only [List.mem_cons, List.not_mem_nil, or_false]; rintro c (rfl | rfl); exact (c2 _ (l5 _)).1; exact cc _ (l6 _),
        Or.inr (Or.inl ⟨_, _, rfl, (c2 _ (l5 _)).2⟩)⟩
    split at h
    · cases h
      exact ⟨by simp only [List.mem_cons, List.not_mem_nil, or_false]; rintro c (rfl | rfl | rfl); exact (c3 _ (l4 _)).1; exact cc _ (l6 _); exact cc _ (l6 _),
        Or.inr (Or.inr (Or.inl ⟨_, _, _, rfl, (c3 _ (l4 _)).2⟩))⟩
    split at h
    · cases h
      exact ⟨by simp only [List.mem_cons, List.not_mem_nil, or_false]; rintro c (rfl | rfl | rfl | rfl); exact (c4 _ (l3 _)).1; exact cc _ (l6 _); exact cc _ (l6 _); exact cc _ (l6 _),
        Or.inr (Or.inr (Or.inr ⟨_, _, _, _, rfl, (c4 _ (l3 _)).2⟩))⟩
    · cases h

theorem byteAt_drop {s : List Byte} {p i : Nat} {bs rest : List Byte} (h : s.drop p = bs ++ rest) {c : Byte} (hc : bs[i]? = some c) :
    byteAt s (p + i) = some c := by
  have h1 : s[p + i]? = some c := by
    rw [← List.getElem?_drop, h, List.getElem?_append_left]
    · exact hc
    · rw [List.getElem?_eq_some_iff] at hc; exact hc.1
  unfold byteAt
  rw [if_pos (by rw [List.getElem?_eq_some_iff] at h1; exact h1.1)]
  exact h1

/-- **C86.**  An unexpected character is shown with its number. -/
theorem C86_character (s : List Byte) (p cp : Nat) (bs rest : List Byte) (h0 : cp ≠ 0) (hcp : cp < 0x100000)
    (he : encodeUtf8 cp = some bs) (hs : s.drop p = bs ++ rest) :
    ∃ ds, IsHex ds cp ∧ charError s p = some (b#" \"" ++ bs ++ b#"\" U+" ++ ds) := by
  obtain ⟨hnz, hcases⟩ := encode_first cp bs h0 he
  have hdec : ∀ r, (decodeUtf8 (bs ++ r)).ok = true ∧ (decodeUtf8 (bs ++ r)).char = cp := by
    intro r
    have := C01_decode_encode cp (by omega) r bs he
    rw [this]; exact ⟨rfl, rfl⟩
  have hlen : (hexUpper (cp + 1) cp).length ≤ 5 := by
    rw [hexUpper_mono (cp + 1) 5 cp (by omega) (by decide) (lt_16_pow cp) (by omega)]
    exact (hexUpper_isHex 5 cp (by decide) (by omega)).1
  have hpk : ∃ r, peekUtf8Char s p = some (bs ++ r) ∧ (bs ++ r).takeWhile (· != 0) = bs := by
    have tw : ∀ k, (bs ++ List.replicate k 0).takeWhile (· != 0) = bs := by
      intro k
      rw [List.takeWhile_append_of_pos (by intro c hc; simpa using hnz c hc)]
      cases k <;> simp [List.replicate_succ]
    rcases hcases with ⟨a, rfl, hn⟩ | ⟨a, b, rfl, hn⟩ | ⟨a, b, c, rfl, hn⟩ | ⟨a, b, c, d, rfl, hn⟩
    · have h1 := byteAt_drop (i := 0) hs (c := a) rfl
      refine ⟨List.replicate 3 0, ?_, tw 3⟩
      simp only [Nat.add_zero] at h1
      simp [peekUtf8Char, h1, hn]
    · have h1 := byteAt_drop (i := 0) hs (c := a) rfl
      have h2 := byteAt_drop (i := 1) hs (c := b) rfl
      refine ⟨List.replicate 2 0, ?_, tw 2⟩
      simp only [Nat.add_zero] at h1
      simp [peekUtf8Char, h1, h2, hn]
    · have h1 := byteAt_drop (i := 0) hs (c := a) rfl
      have h2 := byteAt_drop (i := 1) hs (c := b) rfl
      have h3 := byteAt_drop (i := 2) hs (c := c) rfl
      refine ⟨List.replicate 1 0, ?_, tw 1⟩
      simp only [Nat.add_zero] at h1
      simp [peekUtf8Char, h1, h2, h3, hn]
    · have h1 := byteAt_drop (i := 0) hs (c := a) rfl
      have h2 := byteAt_drop (i := 1) hs (c := b) rfl
      have h3 := byteAt_drop (i := 2) hs (c := c) rfl
      have h4 := byteAt_drop (i := 3) hs (c := d) rfl
      refine ⟨List.replicate 0 0, ?_, tw 0⟩
      simp only [Nat.add_zero] at h1
      simp [peekUtf8Char, h1, h2, h3, h4, hn]
  obtain ⟨r, h1, h2⟩ := hpk
  have hcode : codepointString (bs ++ r) = b#"U+" ++ hexUpper (cp + 1) cp := by
    unfold codepointString
    simp only
    rw [if_pos (hdec r).1, (hdec r).2]
  have hbs : bs.length ≤ 4 := by
    rcases hcases with ⟨a, rfl, _⟩ | ⟨a, b, rfl, _⟩ | ⟨a, b, c, rfl, _⟩ | ⟨a, b, c, d, rfl, _⟩ <;> simp
  refine ⟨hexUpper (cp + 1) cp, (hexUpper_isHex (cp + 1) cp (by omega) (lt_16_pow cp)).2.1, ?_⟩
  unfold charError
  simp only [h1, Option.bind_eq_bind, Option.bind_some, hcode, h2]
  rw [if_pos (by simp; omega)]
  simp only [Option.pure_def, Option.some.injEq]
  rw [snprintf, List.take_of_length_le (by simp; omega)]
  simp

/-- The mark is shown below every line. -/
theorem C86_false_length : ¬ C86_any_length := fun h => by
  have hlen : (List.replicate 1100 (97 : Byte)).length = 1100 := List.length_replicate
  have hget : ∀ i, i < 1100 → ∀ c : Byte, c ≠ 97 → (List.replicate 1100 (97 : Byte))[i]? ≠ some c := by
    intro i hi c hc h'
    rw [List.getElem?_replicate_of_lt hi] at h'
    exact hc (Option.some.inj h').symm
  have := h (List.replicate 1100 97) 1 0 1100
    ⟨by decide, by decide, Nat.le_of_eq hlen.symm, Or.inl rfl, Or.inl hlen.symm, fun i _ hi => hget i hi 10 (by decide)⟩
    (by rw [hlen]; decide) (by decide) (fun i _ hi => hget i hi 0 (by decide))
  exact absurd this (by decide +kernel)

example : LineAt b#"a\nbc,\n" 4 2 5 :=
  ⟨by decide, by decide, by decide, Or.inr (by decide), Or.inr (by decide), fun i h1 h2 => by
    rcases (by omega : i = 2 ∨ i = 3 ∨ i = 4) with rfl | rfl | rfl <;> decide⟩
example : lineError b#"a\nbc,\n" 4 = b#"\nbc,\n  ^" := by decide +kernel
example : encodeUtf8 0x20ac = some [0xe2, 0x82, 0xac] ∧ charError (b#"a " ++ [0xe2, 0x82, 0xac]) 2 =
    some (b#" \"" ++ [0xe2, 0x82, 0xac] ++ b#"\" U+20AC") := by decide +kernel

/-- The example in the comments of the parser, parts/xmq_parser.c 1012-1019. -/
example : (match parseBuffer 100 b#"greeting = 'There's a man, a wolf'" with
    | .err e st => docError b#"f" b#"greeting = 'There's a man, a wolf'" e st | _ => none) =
    some b#"f:1:18: warning: perhaps you need more quotes to quote this quote\ngreeting = 'There's a man, a wolf'\n                 ^\nf:1:26: error: unexpected character \",\" U+2C\ngreeting = 'There's a man, a wolf'\n                         ^\n" := by
  decide +kernel
example : (match parseBuffer 100 b#"a {\n b(x=1 { } \n" with
    | .err e st => placeOf e st | _ => none) = some ⟨6, 2, 3⟩ := by decide +kernel

/-! ## The warning -/

theorem after_quote (l : List Byte) : lineAfter (l ++ [39]) = lineAfter l ∧ colAfter (l ++ [39]) = colAfter l + 1 := by
  constructor
  · simp [lineAfter, List.count_append]
  · simp [colAfter, List.countP_cons]; omega

theorem lastSuspicious_some (s : List Byte) : ∀ (out : List Tok) (w : Place), lastSuspicious s out = some w →
    ∃ post t pre, out = post ++ t :: pre ∧ isQuoteKind t.kind = true ∧ t.text ≠ b#"''" ∧
      possiblyNeedMoreQuotes s (tokensLen (t :: pre)) = true ∧
      w = ⟨tokensLen (t :: pre) - 1, (walk (t.line, t.col) t.text).1, (walk (t.line, t.col) t.text).2 - 1⟩ := by
  intro out
  induction out with
  | nil => intro w h; cases h
  | cons t out ih =>
    intro w h
    unfold lastSuspicious at h
    split at h
    · rename_i hc
      simp only [Bool.and_eq_true, bne_iff_ne] at hc
      cases h
      exact ⟨[], t, out, rfl, hc.1.1, hc.1.2, hc.2, rfl⟩
    · obtain ⟨post, u, pre, h1, h2⟩ := ih w h
      exact ⟨t :: post, u, pre, by rw [h1]; rfl, h2⟩

/-- **C86.**  The warning about quotes points to the last quote character of a quote of the input, that has another character
    than a quote or a space before it and another character than a quote behind it. -/
theorem C86_warning (fuel : Nat) (s : List Byte) (e : Err) (st : St) (w : Place) (h : parseBuffer fuel s = .err e st)
    (hw : lastSuspicious s st.out = some w) :
    w.line = lineAfter (s.take w.pos) ∧ w.col = colAfter (s.take w.pos) ∧ s[w.pos]? = some 39 ∧
    (∃ c, s[w.pos - 1]? = some c ∧ c ≠ 39 ∧ c ≠ 32) ∧ (∃ c, s[w.pos + 1]? = some c ∧ c ≠ 39) ∧
    ∃ begin quote rest, s = begin ++ quote ++ rest ∧ QuoteText quote ∧ (begin ++ quote).length = w.pos + 1 := by
  obtain ⟨post, t, pre, ho, hk, hne, hp, rfl⟩ := lastSuspicious_some s _ _ hw
  have hs := step_buffer fuel s e st h
  obtain ⟨⟨h1, h2, h3⟩, h4⟩ := truePlace_tok hs ho
  simp only at h1 h2 h3
  have hsum : tokensLen (t :: pre) = tokensLen pre + t.text.length := by simp [tokensLen]; omega
  unfold possiblyNeedMoreQuotes at hp
  split at hp
  · cases hp
  rename_i hlen
  simp only [Bool.or_eq_true, decide_eq_true_eq, not_or, Nat.not_lt, ge_iff_le, Nat.not_le] at hlen
  simp only [Bool.and_eq_true, bne_iff_ne, beq_iff_eq] at hp
  obtain ⟨⟨⟨p1, p2⟩, p3⟩, p4⟩ := hp
  have hq : QuoteText t.text := by
    have := hs.shape t (by rw [ho]; simp)
    simp only [isQuoteKind, Bool.or_eq_true, beq_iff_eq] at hk
    rcases hk with (((hk | hk) | hk) | hk) | hk <;> rw [hk] at this <;> exact this
  have htake : s.take (tokensLen (t :: pre)) = s.take (tokensLen pre) ++ t.text := by
    rw [hsum, List.take_add, h4, List.append_assoc, List.take_left' rfl]
  have hlast : s.take (tokensLen (t :: pre)) = s.take (tokensLen (t :: pre) - 1) ++ [39] := by
    have : tokensLen (t :: pre) = (tokensLen (t :: pre) - 1) + 1 := by omega
    conv => lhs; rw [this, List.take_add_one, p3]
    rfl
  have hwalk : walk (t.line, t.col) t.text = (lineAfter (s.take (tokensLen (t :: pre))), colAfter (s.take (tokensLen (t :: pre)))) := by
    rw [← walk_eq, htake, walk_append, walk_eq, ← h2, ← h3]
  rw [hwalk, hlast]
  obtain ⟨a1, a2⟩ := after_quote (s.take (tokensLen (t :: pre) - 1))
  refine ⟨a1, by simp only [a2]; omega, p3, ?_, ?_, s.take (tokensLen pre), t.text, textOf post.reverse ++ st.rest, ?_, hq, ?_⟩
  · have : tokensLen (t :: pre) - 1 - 1 < s.length := by omega
    refine ⟨s[tokensLen (t :: pre) - 1 - 1], List.getElem?_eq_getElem this, ?_, ?_⟩
    · intro hc
      exact p1 (by rw [show tokensLen (t :: pre) - 2 = tokensLen (t :: pre) - 1 - 1 from rfl, List.getElem?_eq_getElem this, hc])
    · intro hc
      exact p2 (by rw [show tokensLen (t :: pre) - 2 = tokensLen (t :: pre) - 1 - 1 from rfl, List.getElem?_eq_getElem this, hc])
  · have : tokensLen (t :: pre) - 1 + 1 < s.length := by omega
    refine ⟨s[tokensLen (t :: pre) - 1 + 1], List.getElem?_eq_getElem this, ?_⟩
    intro hc
    exact p4 (by rw [show tokensLen (t :: pre) = tokensLen (t :: pre) - 1 + 1 by omega, List.getElem?_eq_getElem this, hc])
  · conv => lhs; rw [← List.take_append_drop (tokensLen pre) s, h4]
    simp
  · simp only; rw [List.length_append, List.length_take]; omega

/-- **C86.**  What the library gives to the user is the warning, if there is one, the message, and a line feed; only the line
    feed can be missing, and only if both are as long as they can be. -/
theorem C86_whole (source s m : List Byte) (e : Err) (st : St) (h : errorMessage source s e st = some m) :
    ∃ warning, ((warning = [] ∧ (e = .invalidChar → lastSuspicious s st.out = none)) ∨ ∃ w, e = .invalidChar ∧ lastSuspicious s st.out = some w ∧
        warning = warningMessage source s w ++ [10]) ∧
      (docError source s e st = some (warning ++ m ++ [10]) ∨
        (warning.length = 2048 ∧ m.length = 2047 ∧ docError source s e st = some (warning ++ m))) := by
  have hm : m.length ≤ 2047 := by
    unfold errorMessage at h
    cases hw : placeOf e st with
    | none => rw [hw] at h; simp at h
    | some w =>
      rw [hw] at h
      simp only [Option.bind_eq_bind, Option.bind_some] at h
      split at h
      · cases hc : charError s w.pos with
        | none => rw [hc] at h; simp at h
        | some c =>
          rw [hc] at h; simp only [Option.bind_some, Option.pure_def, Option.some.injEq] at h
          rw [← h]; simp [format, snprintf]; omega
      · simp only [Option.bind_some, Option.pure_def, Option.some.injEq] at h
        rw [← h]; simp [format, snprintf]; omega
  unfold docError stateError
  rw [h]
  simp only [Option.bind_eq_bind, Option.bind_some]
  split
  · rename_i hn
    refine ⟨[], Or.inl ⟨rfl, fun he => by rwa [if_pos he] at hn⟩, Or.inl ?_⟩
    simp only [Option.pure_def, Option.map_some, snprintf, List.nil_append]
    rw [List.take_of_length_le (by simp; omega)]
  · rename_i w hw
    have he : e = .invalidChar ∧ lastSuspicious s st.out = some w := by
      split at hw
      · exact ⟨by assumption, hw⟩
      · cases hw
    have hl : (warningMessage source s w).length ≤ 2047 := by simp [warningMessage, format, snprintf]; omega
    refine ⟨warningMessage source s w ++ [10], Or.inr ⟨w, he.1, he.2, rfl⟩, ?_⟩
    simp only [Option.pure_def, Option.map_some, snprintf, Option.some.injEq]
    by_cases hf : (warningMessage source s w).length = 2047 ∧ m.length = 2047
    · right
      refine ⟨by simp; omega, hf.2, ?_⟩
      rw [List.take_left' (by simp; omega)]
    · left
      rw [List.take_of_length_le (by simp; omega)]

/-- **C86.**  The quote of the warning is the last such one that was read, and there is a warning if there is one. -/
theorem C86_latest (fuel : Nat) (s : List Byte) (e : Err) (st : St) (h : parseBuffer fuel s = .err e st)
    (toks : List Tok) (t : Tok) (later : List Tok) (ho : st.out.reverse = toks ++ t :: later)
    (hk : t.kind = .quote ∨ t.kind = .element_value_quote ∨ t.kind = .element_value_compound_quote ∨ t.kind = .attr_value_quote ∨
      t.kind = .attr_value_compound_quote)
    (a c : Byte) (ha : a ≠ 39 ∧ a ≠ 32) (hc : c ≠ 39) (ht : t.text ≠ [39, 39])
    (hn : ∃ x y, s = x ++ a :: 39 :: c :: y ∧ textOf (toks ++ [t]) = x ++ [a, 39]) :
    ∃ w, lastSuspicious s st.out = some w ∧ (textOf (toks ++ [t])).length ≤ w.pos + 1 := by
  obtain ⟨x, y, hs, hx⟩ := hn
  have hlen : tokensLen (t :: toks.reverse) = x.length + 2 := by
    rw [tokensLen_eq]
    have : (t :: toks.reverse).reverse = toks ++ [t] := by simp
    rw [this, hx]; simp
  have hsus : possiblyNeedMoreQuotes s (tokensLen (t :: toks.reverse)) = true := by
    unfold possiblyNeedMoreQuotes
    rw [hlen, hs]
    rw [if_neg (by simp)]
    have e1 : (x ++ a :: 39 :: c :: y)[x.length + 2 - 2]? = some a := by simp
    have e2 : (x ++ a :: 39 :: c :: y)[x.length + 2 - 1]? = some 39 := by
      rw [List.getElem?_append_right (by omega), show x.length + 2 - 1 - x.length = 1 by omega]; rfl
    have e3 : (x ++ a :: 39 :: c :: y)[x.length + 2]? = some c := by
      rw [List.getElem?_append_right (by omega), show x.length + 2 - x.length = 2 by omega]; rfl
    rw [e1, e2, e3]
    simp [ha.1, ha.2, hc]
  have ho' : st.out = later.reverse ++ t :: toks.reverse := by
    have := congrArg List.reverse ho
    simpa using this
  have hq : isQuoteKind t.kind = true := by
    rcases hk with hk | hk | hk | hk | hk <;> rw [hk] <;> rfl
  have key : ∀ l : List Tok, ∃ w, lastSuspicious s (l ++ t :: toks.reverse) = some w ∧ tokensLen (t :: toks.reverse) ≤ w.pos + 1 := by
    intro l
    induction l with
    | nil =>
      refine ⟨_, by rw [List.nil_append, lastSuspicious, if_pos (by simp [hq, hsus, ht])], ?_⟩
      simp only; omega
    | cons u l ih =>
      rw [List.cons_append, lastSuspicious]
      split
      · rename_i hu
        refine ⟨_, rfl, ?_⟩
        have : tokensLen (t :: toks.reverse) ≤ tokensLen (u :: (l ++ t :: toks.reverse)) := by
          simp [tokensLen]; omega
        simp only; omega
      · exact ih
  obtain ⟨w, h1, h2⟩ := key later.reverse
  refine ⟨w, by rw [ho']; exact h1, ?_⟩
  rw [hx]; rw [hlen] at h2; simpa using h2

/-- **C86.**  The text tells which error it is. -/
theorem C86_texts (e e' : Err) (h : errorText e = errorText e') : e = e' := by
  cases e <;> cases e' <;> first | rfl | exact absurd h (by decide)

/-- The equals sign which is said to have no content is the last one that was read. -/
def C86_content : Prop := ∀ fuel s st w, parseBuffer fuel s = .err .expectedContentAfterEquals st →
  placeOf .expectedContentAfterEquals st = some w → ∀ i, w.pos < i → i < st.before.length → s[i]? ≠ some 61

/-- An equals sign at the end of a comment is taken for one without content; the message then points to another one. -/
theorem C86_false_content : ¬ C86_content := fun h => by
  have hp : ∃ st, parseBuffer 100 b#"a=1//=\n{" = .err .expectedContentAfterEquals st ∧
      placeOf .expectedContentAfterEquals st = some ⟨1, 1, 2⟩ ∧ st.before.length = 7 := by
    refine ⟨_, rfl, ?_⟩
    decide +kernel
  obtain ⟨st, h1, h2, h3⟩ := hp
  exact absurd (h 100 _ st _ h1 h2 5 (by decide) (by rw [h3]; decide)) (by decide)

end Xmq.Props
