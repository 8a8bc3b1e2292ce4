import Verif.Props.Parser
import Verif.Lemmas.PrintText
/-!
# C78, C79: every token is the longest one, and tokens cut the source between characters
-/
namespace Xmq.Props
open Xmq Xmq.Spec

/-! ## C78 longest tokens -/

theorem ends_at {toks : List Tok} {r : List Byte} (h : Ends toks r) {pre post : List Tok} {t : Tok} (e : toks = pre ++ t :: post) :
    EndsAt t.kind t.text (textOf post ++ r) := by
  subst e
  rw [ends_append] at h
  exact h.2.1

/-- **C78.**  A token of an accepted source goes on as long as it can: nothing of its kind is left for the next token. -/
theorem C78_longest (input : List Byte) (toks : List Tok) (h : Tokenizes input toks) (pre post : List Tok) (t : Tok)
    (e : toks = pre ++ t :: post) : EndsAt t.kind t.text (textOf post) := by
  obtain ⟨st, hs, _, hr⟩ := stepBy_of_tokenizes h
  have := ends_at hs.ends e
  rwa [hr, List.append_nil] at this

/-- The same up to the place of an error. -/
theorem C78_longest_prefix (fuel : Nat) (input : List Byte) (e : Err) (st : St) (h : parseBuffer fuel input = .err e st)
    (pre post : List Tok) (t : Tok) (he : st.out.reverse = pre ++ t :: post) : EndsAt t.kind t.text (textOf post ++ st.rest) := by
  have key : Step (initSt input) st → EndsAt t.kind t.text (textOf post ++ st.rest) := by
    rintro ⟨toks, hs⟩
    have : st.out.reverse = toks := by rw [hs.out]; simp [initSt]
    exact ends_at hs.ends (this ▸ he)
  have hg := good_xmq fuel (initSt input)
  unfold parseBuffer at h
  cases hr : parseXmq fuel (initSt input) with
  | ok s =>
    rw [hr] at h hg
    simp only [Res.bind_ok] at h
    split at h
    · cases h
    · cases h; exact key (Moves.step hg)
  | err e' s => rw [hr] at h hg; cases h; exact key hg
  | ub => rw [hr] at h; cases h
  | outOfFuel => rw [hr] at h; cases h

/-- Two whitespace tokens never touch, unless one of them is empty. -/
theorem C78_whitespace_apart (input : List Byte) (toks : List Tok) (h : Tokenizes input toks) (pre post : List Tok) (t u : Tok)
    (e : toks = pre ++ t :: u :: post) (ht : t.kind = .whitespace) (hu : u.kind = .whitespace) : u.text = [] := by
  have h1 := C78_longest input toks h pre (u :: post) t e
  rw [ht] at h1
  obtain ⟨st, hs, _, _⟩ := stepBy_of_tokenizes h
  have h2 := hs.shape u (by rw [e]; simp)
  rw [hu] at h2
  exact h1 u.text (textOf post) rfl h2

/-- A name is followed by something that is not part of a name, so that a source has only one way to be cut. -/
theorem C78_name_apart (input : List Byte) (toks : List Tok) (h : Tokenizes input toks) (pre post : List Tok) (t : Tok)
    (e : toks = pre ++ t :: post) (ht : t.kind = .element_name ∨ t.kind = .element_key ∨ t.kind = .attr_key) (c : Byte) (r : List Byte)
    (hc : textOf post = c :: r) : ¬ NameByte c := by
  have h1 := C78_longest input toks h pre post t e
  rw [hc] at h1
  rcases ht with ht | ht | ht <;> (rw [ht] at h1; exact h1 c rfl)

/-- A line comment takes the rest of the line: without a line feed it is the last token. -/
theorem C78_comment_last (input : List Byte) (toks : List Tok) (h : Tokenizes input toks) (pre post : List Tok) (t : Tok)
    (e : toks = pre ++ t :: post) (ht : t.kind = .comment) (body : List Byte) (hb : t.text = 47 :: 47 :: body) (h10 : 10 ∉ body)
    (h42 : (body.dropWhile (· == 47)).head? ≠ some 42) : textOf post = [] := by
  have h1 := C78_longest input toks h pre post t e
  rw [ht] at h1
  exact h1 body hb h10 h42

/-! ## C79 characters are not cut -/

theorem _root_.Xmq.Spec.ValidUtf8.append {a b : List Byte} (ha : ValidUtf8 a) (hb : ValidUtf8 b) : ValidUtf8 (a ++ b) := by
  induction ha with
  | nil => exact hb
  | cons cp h rest _ ih => rw [List.append_assoc]; exact .cons cp h _ ih

/-- What follows a valid text in a valid text is valid: no character is the beginning of another one. -/
theorem _root_.Xmq.Spec.ValidUtf8.cancel {a b : List Byte} (ha : ValidUtf8 a) (h : ValidUtf8 (a ++ b)) : ValidUtf8 b := by
  induction ha with
  | nil => exact h
  | cons cp hcp rest _ ih =>
    apply ih
    rw [List.append_assoc] at h
    generalize hz : (rfc3629 cp).map UInt8.ofNat ++ (rest ++ b) = z at h
    cases h with
    | nil => exact absurd (List.append_eq_nil_iff.1 hz).1 (by simp [rfc_ne])
    | cons cp' hcp' rest' hr =>
      have hd := C01_decode_encode cp (by omega) (rest ++ b) _ (rfc_encode cp hcp)
      have hd' := C01_decode_encode cp' (by omega) rest' _ (rfc_encode cp' hcp')
      rw [hz, hd'] at hd
      have hcpe : cp' = cp := by simp at hd; exact hd.1
      subst hcpe
      rw [List.append_cancel_left hz]; exact hr

theorem ascii_valid {s : List Byte} (h : ∀ c ∈ s, c.toNat < 128) : ValidUtf8 s := by
  induction s with
  | nil => exact .nil
  | cons c s ih =>
    have h1 := ValidUtf8.cons c.toNat (by have := h c (by simp); omega) s (ih fun x hx => h x (by simp [hx]))
    have h2 : (rfc3629 c.toNat).map UInt8.ofNat = [c] := by
      unfold rfc3629
      rw [if_pos (h c (by simp))]
      simp
    rw [h2] at h1
    exact h1

theorem cont_false {c : Byte} (h : c.toNat < 128 ∨ 192 ≤ c.toNat) : isCont c = false := by
  cases e : isCont c with
  | false => rfl
  | true => have := (isCont_iff c).1 e; omega

/-- A text that ends in an ASCII character. -/
theorem endsAscii_valid {a r : List Byte} {x : Byte} (hx : x.toNat < 128) (h : ValidUtf8 ((a ++ [x]) ++ r)) : ValidUtf8 (a ++ [x]) := by
  have h' : ValidUtf8 (a ++ x :: r) := by simpa using h
  have h1 := (h'.split (by intro c hc; cases hc; exact cont_false (Or.inl hx))).1
  exact h1.append (ascii_valid (by simpa using hx))

theorem nameByte_ascii {b : Byte} (h : NameByte b) : b.toNat < 128 := by
  unfold NameByte at h
  rcases h with h | h | h | rfl | rfl | rfl | rfl | rfl <;> first | omega | decide

theorem whitespaceText_valid {s : List Byte} (h : WhitespaceText s) : ValidUtf8 s := by
  induction h with
  | nil => exact .nil
  | one b s hb _ ih => exact (ascii_valid (s := [b]) (by rcases hb with rfl | rfl | rfl <;> decide)).append ih
  | two s _ ih => exact .cons 0xa0 (by decide) s ih
  | three b s hb _ ih =>
    rcases hb with rfl | rfl | rfl | rfl
    · exact .cons 0x2000 (by decide) s ih
    · exact .cons 0x2001 (by decide) s ih
    · exact .cons 0x2002 (by decide) s ih
    · exact .cons 0x2003 (by decide) s ih

theorem valueEnds_cont {r : List Byte} (h : EndsAt.ValueEnds r) (c : Byte) (hc : r.head? = some c) : isCont c = false := by
  rcases h with rfl | ⟨b, t, rfl, hb⟩ | ⟨a, b, rfl, hne, ha⟩
  · cases hc
  · cases hc
    apply cont_false
    have hb' : c = 32 ∨ c = 10 ∨ c = 9 ∨ c = 13 ∨ c = 40 ∨ c = 41 ∨ c = 39 ∨ c = 34 ∨ c = 123 ∨ c = 125 := by
      unfold PlainByte at hb
      grind
    rcases hb' with rfl | rfl | rfl | rfl | rfl | rfl | rfl | rfl | rfl | rfl <;> decide
  · cases ha with
    | nil => exact absurd rfl hne
    | one b s hb _ => cases hc; rcases hb with rfl | rfl | rfl <;> decide
    | two s _ => cases hc; decide
    | three b s hb _ => cases hc; decide

theorem quoteText_end {s : List Byte} (h : QuoteText s) : ∃ a, s = a ++ [39] := by
  cases h with
  | empty => exact ⟨[39], rfl⟩
  | full d body hd _ _ _ _ _ =>
    obtain ⟨j, rfl⟩ : ∃ j, d = j + 1 := ⟨d - 1, by omega⟩
    exact ⟨List.replicate (j + 1) 39 ++ (body ++ List.replicate j 39), by rw [List.replicate_succ' (n := j)]; simp⟩

theorem entityText_ascii {s : List Byte} (h : EntityText s) : ∀ c ∈ s, c.toNat < 128 := by
  cases h with
  | closed name hn =>
    intro c hc
    simp only [List.mem_cons, List.mem_append, List.not_mem_nil, or_false] at hc
    rcases hc with rfl | hc | rfl
    · decide
    · exact nameByte_ascii (hn c hc)
    · decide
  | bare name hn =>
    intro c hc
    simp only [List.mem_cons] at hc
    rcases hc with rfl | hc
    · decide
    · have := hn c hc; unfold LowerHexByte at this; omega

theorem slashes_end (p : List Byte) {n : Nat} (hn : 0 < n) : ∃ a, p ++ List.replicate n 47 = a ++ [(47 : Byte)] := by
  obtain ⟨j, rfl⟩ : ∃ j, n = j + 1 := ⟨n - 1, by omega⟩
  exact ⟨p ++ List.replicate j 47, by rw [List.replicate_succ' (n := j)]; simp⟩

/-- A token in front of `r`, by its form and its end. -/
theorem token_valid {k : Kind} {s r : List Byte} (hs : TokenText k s) (he : EndsAt k s r) (h : ValidUtf8 (s ++ r)) : ValidUtf8 s := by
  have byte : ∀ x : Byte, x.toNat < 128 → s = [x] → ValidUtf8 s := fun x hx e => ascii_valid (by rw [e]; simpa using hx)
  have quote : QuoteText s → ValidUtf8 s := fun hq => by
    obtain ⟨a, rfl⟩ := quoteText_end hq
    exact endsAscii_valid (by decide) h
  have name : (∀ b ∈ s, NameByte b) → ValidUtf8 s := fun hn => ascii_valid fun c hc => nameByte_ascii (hn c hc)
  have value : EndsAt.ValueEnds r → ValidUtf8 s := fun hv => (h.split (valueEnds_cont hv)).1
  have elem : ((∀ b ∈ s, NameByte b) ∨ ∃ t, (s = 33 :: t ∨ s = 63 :: t) ∧ ∀ b ∈ t, NameByte b) → ValidUtf8 s := by
    rintro (hn | ⟨t, e, hn⟩)
    · exact name hn
    · refine ascii_valid fun c hc => ?_
      rcases e with rfl | rfl <;>
      · rcases List.mem_cons.1 hc with rfl | hc
        · decide
        · exact nameByte_ascii (hn c hc)
  have ent : EntityText s → ValidUtf8 s := fun e => ascii_valid (entityText_ascii e)
  cases k with
  | whitespace => exact whitespaceText_valid hs
  | comment =>
    cases hs with
    | line body h1 h2 =>
      have := he body rfl h1 h2
      subst this
      simpa using h
    | lineNl body _ _ => exact endsAscii_valid (a := 47 :: 47 :: body) (x := 10) (by decide) (by simpa using h)
    | block n body hn _ =>
      obtain ⟨a, ea⟩ := slashes_end (List.replicate n 47 ++ 42 :: (body ++ [42])) hn
      have e : List.replicate n 47 ++ 42 :: (body ++ 42 :: List.replicate n 47) = a ++ [47] := by rw [← ea]; simp
      rw [e] at h ⊢
      exact endsAscii_valid (by decide) h
  | comment_continuation =>
    cases hs with
    | mk n body hn _ =>
      obtain ⟨a, ea⟩ := slashes_end (42 :: (body ++ [42])) hn
      have e : 42 :: (body ++ 42 :: List.replicate n 47) = a ++ [47] := by rw [← ea]; simp
      rw [e] at h ⊢
      exact endsAscii_valid (by decide) h
  | element_value_text => exact value he
  | attr_value_text => exact value he
  | equals => exact byte _ (by decide) hs
  | brace_left => exact byte _ (by decide) hs
  | brace_right => exact byte _ (by decide) hs
  | apar_left => exact byte _ (by decide) hs
  | apar_right => exact byte _ (by decide) hs
  | cpar_left => exact byte _ (by decide) hs
  | cpar_right => exact byte _ (by decide) hs
  | ns_colon => exact byte _ (by decide) hs
  | quote => exact quote hs
  | element_value_quote => exact quote hs
  | element_value_compound_quote => exact quote hs
  | attr_value_quote => exact quote hs
  | attr_value_compound_quote => exact quote hs
  | entity => exact ent hs
  | element_value_entity => exact ent hs
  | element_value_compound_entity => exact ent hs
  | attr_value_entity => exact ent hs
  | attr_value_compound_entity => exact ent hs
  | element_ns => exact name hs
  | attr_ns => exact name hs
  | attr_key => exact name hs
  | ns_declaration => exact name hs
  | element_name => exact elem hs
  | element_key => exact elem hs

theorem tokens_valid {toks : List Tok} {r : List Byte} (hs : ∀ t ∈ toks, TokenText t.kind t.text) (he : Ends toks r)
    (h : ValidUtf8 (textOf toks ++ r)) : (∀ t ∈ toks, ValidUtf8 t.text) ∧ ValidUtf8 r := by
  induction toks with
  | nil => exact ⟨by simp, h⟩
  | cons t ts ih =>
    rw [textOf_cons, List.append_assoc] at h
    have h1 := token_valid (hs t (by simp)) he.1 h
    obtain ⟨h2, h3⟩ := ih (fun x hx => hs x (by simp [hx])) he.2 (h1.cancel h)
    refine ⟨fun x hx => ?_, h3⟩
    rcases List.mem_cons.1 hx with rfl | hx
    · exact h1
    · exact h2 x hx

/-- **C79.**  The tokens of a source in UTF-8 are in UTF-8: no token ends inside a character. -/
theorem C79_tokens_utf8 (input : List Byte) (toks : List Tok) (h : Tokenizes input toks) (hv : ValidUtf8 input) :
    ∀ t ∈ toks, ValidUtf8 t.text := by
  obtain ⟨st, hs, _, hr⟩ := stepBy_of_tokenizes h
  refine (tokens_valid hs.shape hs.ends ?_).1
  have := hs.rest
  rw [← this]; exact hv

/-- The converse: tokens in UTF-8 come from a source in UTF-8. -/
theorem C79_source_utf8 (input : List Byte) (toks : List Tok) (h : Tokenizes input toks) (hv : ∀ t ∈ toks, ValidUtf8 t.text) :
    ValidUtf8 input := by
  rw [← C09_tokens_cover_input input toks h]
  clear h
  induction toks with
  | nil => exact .nil
  | cons t ts ih => exact (hv t (by simp)).append (ih fun x hx => hv x (by simp [hx]))

/-- Up to an error: what is delivered is in UTF-8, and the error is reported between two characters. -/
theorem C79_error_utf8 (fuel : Nat) (input : List Byte) (e : Err) (st : St) (h : parseBuffer fuel input = .err e st) (hv : ValidUtf8 input) :
    (∀ t ∈ st.out.reverse, ValidUtf8 t.text) ∧ ValidUtf8 st.rest := by
  have key : Step (initSt input) st → (∀ t ∈ st.out.reverse, ValidUtf8 t.text) ∧ ValidUtf8 st.rest := by
    rintro ⟨toks, hs⟩
    have e : st.out.reverse = toks := by rw [hs.out]; simp [initSt]
    rw [e]
    refine tokens_valid hs.shape hs.ends ?_
    rw [← hs.rest]; exact hv
  have hg := good_xmq fuel (initSt input)
  unfold parseBuffer at h
  cases hr : parseXmq fuel (initSt input) with
  | ok s =>
    rw [hr] at h hg
    simp only [Res.bind_ok] at h
    split at h
    · cases h
    · cases h; exact key (Moves.step hg)
  | err e' s => rw [hr] at h hg; cases h; exact key hg
  | ub => rw [hr] at h; cases h
  | outOfFuel => rw [hr] at h; cases h

/-! ## Cases -/

/-- `å=é` and a no-break space: the value ends in front of the space, not inside it. -/
example : (tokensOf (b#"a=" ++ [0xc3, 0xa9, 0xc2, 0xa0, 0xc3, 0xa9] ++ b#" //" ++ [0xc3, 0xa5])).map (fun ts => ts.map (·.text)) =
    none := by decide +kernel

example : (tokensOf (b#"a=" ++ [0xc3, 0xa9] ++ b#" //" ++ [0xc3, 0xa5])).map (fun ts => ts.map (·.text)) =
    some [b#"a", b#"=", [0xc3, 0xa9], b#" ", b#"//" ++ [0xc3, 0xa5]] := by decide +kernel

example : ∃ toks, Tokenizes (b#"a=" ++ [0xc3, 0xa9] ++ b#" //" ++ [0xc3, 0xa5]) toks ∧ toks.length = 5 :=
  ⟨_, (tokenizes_iff _ _).2 (Option.eq_some_of_isSome (by decide +kernel)).symm.symm, by decide +kernel⟩

example : ValidUtf8 (b#"a=" ++ [0xc3, 0xa9] ++ b#" //" ++ [0xc3, 0xa5]) :=
  .cons 97 (by decide) _ (.cons 61 (by decide) _ (.cons 0xe9 (by decide) _ (.cons 32 (by decide) _
    (.cons 47 (by decide) _ (.cons 47 (by decide) _ (.cons 0xe5 (by decide) _ .nil))))))

/-- The error is in front of `å`, which cannot start anything. -/
example : (match parseBuffer 100 (b#"a{" ++ [0xc3, 0xa9] ++ b#"}") with
    | .err _ st => decide (st.rest = [0xc3, 0xa9, 125]) | _ => false) = true := by decide +kernel

end Xmq.Props
