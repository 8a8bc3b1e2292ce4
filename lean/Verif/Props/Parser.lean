import Verif.Lemmas.Hang
/-!
# C08 - C12: the xmq parser on arbitrary input

`parseBuffer fuel input` is the parser, where `fuel` bounds the number of iterations of each loop
and the depth of the recursion.  The C parser finishes on `input` if some fuel gives an outcome
other than `outOfFuel`.
-/
namespace Xmq.Props
open Xmq Xmq.Spec

/-- The parser finishes. -/
def Terminates (input : List Byte) : Prop := ∃ fuel, parseBuffer fuel input ≠ .outOfFuel

/-! ## C08 termination -/

/-- The full claim. -/
def C08_AlwaysTerminates : Prop := ∀ input, Terminates input

/-- The answer at fuel `length + 1` decides about termination. -/
theorem C08_decided (input : List Byte) :
    Terminates input ↔ parseBuffer (input.length + 1) input ≠ .outOfFuel := by
  constructor
  · rintro ⟨fuel, hf⟩ h
    by_cases hlt : input.length < fuel
    · exact hf (by rw [stable_buffer fuel _ hlt]; exact h)
    · rcases le_buffer_of_le (show fuel ≤ input.length + 1 by omega) input with h1 | h1
      · exact hf h1
      · exact hf (by rw [h1]; exact h)
  · exact fun h => ⟨_, h⟩

/-- **C08, bound.**  If the parser finishes at all, it finishes with every loop running at most
    `length of the input + 1` times and the recursion at most that deep, and the answer does not depend
    on the fuel. -/
theorem C08_bound (input : List Byte) (h : Terminates input) :
    parseBuffer (input.length + 1) input ≠ .outOfFuel ∧
    ∀ fuel, parseBuffer fuel input ≠ .outOfFuel → parseBuffer fuel input = parseBuffer (input.length + 1) input := by
  refine ⟨(C08_decided input).1 h, fun fuel hf => ?_⟩
  by_cases hlt : input.length < fuel
  · exact stable_buffer fuel input hlt
  · rcases le_buffer_of_le (show fuel ≤ input.length + 1 by omega) input with h1 | h1
    · exact absurd h1 hf
    · exact h1

example : Terminates b#"a(b='1,2!' c){d=x /* c */}" := ⟨100, by decide +kernel⟩

/-- **C08 is false**: the parser loops forever on the four bytes `a(!)`. -/
theorem C08_terminates_false : ¬ C08_AlwaysTerminates := by
  intro h
  exact (C08_decided _).1 (h b#"a(!)") (by decide +kernel)

/-- Tabs in attribute lists and in compound values make it loop forever, too: `a(` tab `b)` and
    `a=(` tab `'x')`; and so does a no-break space in an attribute list. -/
theorem C08_tab_hangs :
    ¬ Terminates b#"a(\tb)" ∧ ¬ Terminates b#"a=(\t'x')" ∧ ¬ Terminates (b#"a(b=1" ++ [0xc2, 0xa0] ++ b#")") := by
  refine ⟨fun h => ?_, fun h => ?_, fun h => ?_⟩ <;> exact (C08_decided _).1 h (by decide +kernel)

/-- **C08, partial.**  The parser finishes unless the input has a prefix made of complete tokens that
    leave a parenthesis open, followed by a tab or a byte that can neither be part of a name nor is
    whitespace nor one of `'"(){}/=&`.
    Missing for the full claim: such inputs (some of them do loop forever, see above). -/
theorem C08_terminates_partial (input : List Byte)
    (h : ∀ (toks : List Tok) (c : Byte) (t : List Byte), input = textOf toks ++ c :: t →
      (∀ tok ∈ toks, TokenText tok.kind tok.text) → ParenOpen (toks.map Tok.kind) → ¬ StuckByte c) :
    Terminates input := by
  refine ⟨input.length + 1, fun ho => ?_⟩
  unfold parseBuffer at ho
  rcases Res.bind_fuel_iff.1 ho with h1 | ⟨s, _, h2⟩
  · obtain ⟨toks, s, c, t, hs, hp, hr, hc⟩ := hang_xmq _ _ (Nat.lt_succ_self _) h1
    exact h toks c t (by rw [← hr]; exact hs.rest) hs.shape hp hc
  · split at h2 <;> cases h2

/-- In particular: if no tab and no such byte follows the first `(`, the parser finishes. -/
theorem C08_terminates_paren_partial (input : List Byte)
    (h : ∀ c ∈ (input.dropWhile (· ≠ 40)).tail, ¬ StuckByte c) : Terminates input := by
  refine C08_terminates_partial input (fun toks c t he hs hp => ?_)
  obtain ⟨x, k, y, hk, hk', hy⟩ := hp
  obtain ⟨l1, l2, rfl, hl1, hl2⟩ := List.map_eq_append_iff.1 hk
  obtain ⟨tok, l3, rfl, htk, hl3⟩ := List.map_eq_cons_iff.1 hl2
  have htext : tok.text = [40] := by
    have := hs tok (by simp)
    rw [htk] at this
    rcases hk' with rfl | rfl <;> exact this
  apply h
  rw [he, textOf_append, textOf_cons, htext]
  generalize textOf l1 = a
  generalize textOf l3 = b
  induction a with
  | nil => simp
  | cons z a ih =>
    by_cases hz : z = 40
    · subst hz; simp
    · simpa [hz] using ih

example : ∀ c ∈ (b#"x=1,2;3 a(b='1'){c}".dropWhile (· ≠ 40)).tail, ¬ StuckByte c := by decide +kernel

/-- The tokens delivered for an accepted input. -/
def tokensOf (input : List Byte) : Option (List Tok) :=
  match parseBuffer (input.length + 1) input with
  | .ok st => some st.out.reverse
  | _ => none

theorem tokenizes_iff (input : List Byte) (toks : List Tok) : Tokenizes input toks ↔ tokensOf input = some toks := by
  unfold tokensOf
  constructor
  · rintro ⟨fuel, st, h, rfl⟩
    have hne : parseBuffer fuel input ≠ .outOfFuel := by rw [h]; simp
    rw [← (C08_bound input ⟨fuel, hne⟩).2 fuel hne, h]
  · intro h
    split at h
    · rename_i st hs
      exact ⟨_, st, hs, by simpa using h⟩
    · cases h

/-! ## C09 tokens cover the input -/

theorem stepBy_of_tokenizes {input : List Byte} {toks : List Tok} (h : Tokenizes input toks) :
    ∃ st, StepBy toks (initSt input) st ∧ WellNested (toks.map Tok.kind) ∧ st.rest = [] := by
  obtain ⟨fuel, st, hp, rfl⟩ := h
  have hg := good_xmq fuel (initSt input)
  unfold parseBuffer at hp
  cases hr : parseXmq fuel (initSt input) with
  | ok s =>
    rw [hr] at hp hg
    simp only [Res.bind_ok] at hp
    split at hp
    · rename_i he
      cases hp
      obtain ⟨toks, hs, hn⟩ := hg
      have : st.out.reverse = toks := by rw [hs.out]; simp [initSt]
      rw [this]
      exact ⟨st, hs, hn, by simpa using he⟩
    · cases hp
  | err e s => rw [hr] at hp; cases hp
  | ub => rw [hr] at hp; cases hp
  | outOfFuel => rw [hr] at hp; cases hp

/-- **C09.**  When tokenizing succeeds, the texts of the tokens, concatenated, are the input. -/
theorem C09_tokens_cover_input (input : List Byte) (toks : List Tok) (h : Tokenizes input toks) :
    (toks.map Tok.text).flatten = input := by
  obtain ⟨st, hs, _, hr⟩ := stepBy_of_tokenizes h
  have := hs.rest
  rw [hr, List.append_nil] at this
  exact this.symm

/-- **C09**, for failing input: the tokens delivered before an error cover a prefix of the input, up to
    the place where the parser stopped. -/
theorem C09_tokens_cover_prefix (fuel : Nat) (input : List Byte) (e : Err) (st : St)
    (h : parseBuffer fuel input = .err e st) :
    (st.out.reverse.map Tok.text).flatten ++ st.rest = input := by
  have hg := good_xmq fuel (initSt input)
  have key : Step (initSt input) st → (st.out.reverse.map Tok.text).flatten ++ st.rest = input := by
    rintro ⟨toks, hs⟩
    have : st.out.reverse = toks := by rw [hs.out]; simp [initSt]
    rw [this]; exact hs.rest.symm
  unfold parseBuffer at h
  cases hr : parseXmq fuel (initSt input) with
  | ok s =>
    rw [hr] at h hg
    simp only [Res.bind_ok] at h
    split at h
    · cases h
    · cases h; exact key (Moves.step hg)
  | err e' s => rw [hr] at h hg; cases h; exact key hg
  | ub => rw [hr] at h; cases h
  | outOfFuel => rw [hr] at h; cases h

example : (tokensOf b#"a=1 b { c(x='y' z) }").map List.length = some 18 := by decide +kernel

example : (match parseBuffer 100 b#"a=1 b {" with
    | .err e st => decide (e = .bodyNotClosed ∧ st.out.length = 7) | _ => false) = true := by decide +kernel

/-! ## C10 token positions -/

/-- **C10.**  Every token carries the line and the column of its first byte. -/
theorem C10_token_positions (input : List Byte) (toks : List Tok) (h : Tokenizes input toks)
    (pre : List Tok) (t : Tok) (post : List Tok) (he : toks = pre ++ t :: post) :
    t.line = lineAfter (textOf pre) ∧ t.col = colAfter (textOf pre) := by
  obtain ⟨st, hs, _, _⟩ := stepBy_of_tokenizes h
  have hp := hs.placed
  rw [he, placed_append] at hp
  have h1 := hp.2.1
  rw [show ((initSt input).line, (initSt input).col) = (1, 1) from rfl, walk_eq] at h1
  exact ⟨congrArg Prod.fst h1, congrArg Prod.snd h1⟩

/-- The same in terms of byte offsets: a token's position is determined by the input bytes before it. -/
theorem C10_token_positions_offset (input : List Byte) (toks : List Tok) (h : Tokenizes input toks)
    (pre : List Tok) (t : Tok) (post : List Tok) (he : toks = pre ++ t :: post) :
    ∃ before after, input = before ++ t.text ++ after ∧ t.line = lineAfter before ∧ t.col = colAfter before := by
  refine ⟨textOf pre, textOf post, ?_, C10_token_positions input toks h pre t post he⟩
  rw [← C09_tokens_cover_input input toks h, he]
  simp [textOf]

example : (tokensOf (b#"a\n  b='" ++ [0xc3, 0xa5] ++ b#"' c")).map (fun toks => toks.map fun t => (t.line, t.col)) =
    some [(1,1), (1,2), (2,3), (2,4), (2,5), (2,8), (2,9)] := by decide +kernel

/-! ## C11 nesting -/

/-- **C11.**  The tokens of an accepted input are well nested. -/
theorem C11_accepted_balanced (input : List Byte) (toks : List Tok) (h : Tokenizes input toks) :
    WellNested (toks.map Tok.kind) := by
  obtain ⟨_, _, hn, _⟩ := stepBy_of_tokenizes h
  exact hn

/-- Consequence: as many opening as closing braces and parentheses, and never more closing than
    opening ones in a prefix. -/
theorem C11_counts (input : List Byte) (toks : List Tok) (h : Tokenizes input toks) (n : Nat) :
    let ks := toks.map Tok.kind
    (ks.count .brace_left = ks.count .brace_right ∧ (ks.take n).count .brace_right ≤ (ks.take n).count .brace_left) ∧
    (ks.count .apar_left = ks.count .apar_right ∧ (ks.take n).count .apar_right ≤ (ks.take n).count .apar_left) ∧
    (ks.count .cpar_left = ks.count .cpar_right ∧ (ks.take n).count .cpar_right ≤ (ks.take n).count .cpar_left) := by
  have hn := C11_accepted_balanced input toks h
  intro ks
  generalize hks : toks.map Tok.kind = l at hn
  have : ks = l := hks
  rw [this]
  clear hks this ks h
  have wrap : ∀ (lk rk k1 k2 : Kind) (m : List Kind), lk ≠ rk → 
      ((k1 = lk ∧ k2 = rk) ∨ (k1 ≠ lk ∧ k1 ≠ rk ∧ k2 ≠ lk ∧ k2 ≠ rk)) →
      (∀ n, m.count k1 = m.count k2 ∧ (m.take n).count k2 ≤ (m.take n).count k1) → ∀ n,
      (lk :: (m ++ [rk])).count k1 = (lk :: (m ++ [rk])).count k2 ∧
      ((lk :: (m ++ [rk])).take n).count k2 ≤ ((lk :: (m ++ [rk])).take n).count k1 := by
    intro lk rk k1 k2 m hne hk ih n
    rcases hk with ⟨rfl, rfl⟩ | ⟨h1, h2, h3, h4⟩
    · refine ⟨?_, ?_⟩
      · simp [List.count_append, hne, hne.symm, (ih 0).1]
      · cases n with
        | zero => simp
        | succ n =>
          rw [List.take_succ_cons, List.count_cons_self, List.count_cons_of_ne hne, List.take_append]
          by_cases hnm : n ≤ m.length
          · rw [show n - m.length = 0 by omega]; simp; have := (ih n).2; omega
          · rw [List.take_of_length_le (by omega)]
            obtain ⟨j, hj⟩ : ∃ j, n - m.length = j + 1 := ⟨n - m.length - 1, by omega⟩
            rw [hj]; simp [List.count_append, (ih 0).1, hne.symm]
    · have e1 : ∀ l : List Kind, (lk :: l).count k1 = l.count k1 := fun l => List.count_cons_of_ne (Ne.symm h1)
      have e2 : ∀ l : List Kind, (lk :: l).count k2 = l.count k2 := fun l => List.count_cons_of_ne (Ne.symm h3)
      refine ⟨?_, ?_⟩
      · simp [e1, e2, List.count_append, (ih 0).1, Ne.symm h2, Ne.symm h4]
      · cases n with
        | zero => simp
        | succ n =>
          rw [List.take_succ_cons, e1, e2, List.take_append, List.count_append, List.count_append]
          have t1 : ([rk].take (n - m.length)).count k1 = 0 := by
            rw [List.count_eq_zero]; intro hm
            have := List.mem_of_mem_take hm; simp at this; exact h2 this
          have t2 : ([rk].take (n - m.length)).count k2 = 0 := by
            rw [List.count_eq_zero]; intro hm
            have := List.mem_of_mem_take hm; simp at this; exact h4 this
          have := (ih n).2; omega
  have app : ∀ (k1 k2 : Kind) (a b : List Kind),
      (∀ n, a.count k1 = a.count k2 ∧ (a.take n).count k2 ≤ (a.take n).count k1) →
      (∀ n, b.count k1 = b.count k2 ∧ (b.take n).count k2 ≤ (b.take n).count k1) → ∀ n,
      (a ++ b).count k1 = (a ++ b).count k2 ∧ ((a ++ b).take n).count k2 ≤ ((a ++ b).take n).count k1 := by
    intro k1 k2 a b ha hb n
    refine ⟨by simp [List.count_append, (ha 0).1, (hb 0).1], ?_⟩
    rw [List.take_append, List.count_append, List.count_append]
    have := (ha n).2; have := (hb (n - a.length)).2; omega
  have all : ∀ k1 k2, (k1, k2) = (Kind.brace_left, Kind.brace_right) ∨ (k1, k2) = (Kind.apar_left, Kind.apar_right) ∨
      (k1, k2) = (Kind.cpar_left, Kind.cpar_right) →
      ∀ n, l.count k1 = l.count k2 ∧ (l.take n).count k2 ≤ (l.take n).count k1 := by
    intro k1 k2 hk
    induction hn with
    | nil => simp
    | plain k hkb =>
      intro n
      have : k ≠ k1 ∧ k ≠ k2 := by
        constructor <;> rintro rfl <;> apply hkb <;> (simp at hk; rcases hk with ⟨h1, h2⟩ | ⟨h1, h2⟩ | ⟨h1, h2⟩) <;>
          (first | (rw [h1]; trivial) | (rw [h2]; trivial))
      have t : ∀ x, k ≠ x → ([k].take n).count x = 0 := by
        intro x hx; rw [List.count_eq_zero]; intro hm
        have := List.mem_of_mem_take hm; simp at this; exact hx this.symm
      rw [t _ this.1, t _ this.2]
      simp [this.1, this.2]
    | braces m _ ih =>
      refine wrap _ _ k1 k2 m (by decide) ?_ ih
      simp at hk; rcases hk with ⟨rfl, rfl⟩ | ⟨rfl, rfl⟩ | ⟨rfl, rfl⟩ <;> decide
    | attributes m _ ih =>
      refine wrap _ _ k1 k2 m (by decide) ?_ ih
      simp at hk; rcases hk with ⟨rfl, rfl⟩ | ⟨rfl, rfl⟩ | ⟨rfl, rfl⟩ <;> decide
    | compound m _ ih =>
      refine wrap _ _ k1 k2 m (by decide) ?_ ih
      simp at hk; rcases hk with ⟨rfl, rfl⟩ | ⟨rfl, rfl⟩ | ⟨rfl, rfl⟩ <;> decide
    | append a b _ _ iha ihb => exact app k1 k2 a b iha ihb
  exact ⟨all _ _ (Or.inl rfl) n, all _ _ (Or.inr (Or.inl rfl)) n, all _ _ (Or.inr (Or.inr rfl)) n⟩

example : (tokensOf b#"a{b(c=('x'&#10;)){}}").map List.length = some 14 := by decide +kernel

/-! ## C12 nothing unclosed is accepted -/

/-- **C12.**  Every token of an accepted input is complete: quotes and block comments have their closing
    delimiter, and the bytes `'` `(` `)` `{` `}` occur only in quotes, comments or as brackets of their
    own (which are balanced, C11). -/
theorem C12_tokens_complete (input : List Byte) (toks : List Tok) (h : Tokenizes input toks) :
    ∀ t ∈ toks, TokenText t.kind t.text := by
  obtain ⟨_, hs, _, _⟩ := stepBy_of_tokenizes h
  exact hs.shape

example : (tokensOf b#"a='''b'c'''//x\n/*y*/").map List.length = some 5 := by decide +kernel

end Xmq.Props
