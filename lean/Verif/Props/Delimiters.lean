import Verif.Lemmas.Delimiters
import Verif.Spec.Values
/-!
# C03, C04, C05, C39: delimiters of quotes and comments, bare values
-/
namespace Xmq.Props
open Xmq Spec

/-- The text surrounded by `d` quote characters. -/
def quoted (d : Nat) (s : List Byte) : List Byte := List.replicate d 39 ++ (s ++ List.replicate d 39)

/-- The state behind `text`, which has been delivered as exactly one token. -/
def DeliveredOne (st st' : St) (kind : Kind) (text follow : List Byte) : Prop :=
  st'.rest = follow ∧ st'.out = ⟨kind, st.line, st.col, text⟩ :: st.out

/-- **C03** (read back).  A text that neither starts nor ends with a quote, surrounded by the number of quotes the
    printer chooses, is read by the parser as exactly that token, and stripping the token gives the text. -/
theorem C03_quote_read_back (s follow : List Byte) (hs : s ≠ []) (hh : s.head? ≠ some 39)
    (hl : s.getLast? ≠ some 39) (hq : 0 < countNecessaryQuotes s) (hf : follow.head? ≠ some 39)
    (st : St) (level : Level) (hr : st.rest = quoted (countNecessaryQuotes s) s ++ follow) :
    (∃ st', parseXmqQuote st level = .ok st' ∧
      DeliveredOne st st' (quoteKind level) (quoted (countNecessaryQuotes s) s) follow) ∧
    (stripDelims 39 (quoted (countNecessaryQuotes s) s)).2 = s := by
  obtain ⟨-, h2, hn, -⟩ := countNecessaryQuotes_spec s
  refine ⟨⟨_, parseXmqQuote_full st level _ s follow hq h2 hs hh hl (hn hq) hf hr, ?_, rfl⟩, ?_⟩
  · exact took_rest _ _ _ _ hr
  · unfold quoted; rw [stripDelims_full 39 _ s hs hh]

/-- `It's` needs three quotes. -/
example : countNecessaryQuotes b#"It's" = 3 := by decide +kernel

/-- **C03** (shape).  The chosen number is never two, and it is zero exactly for the texts that may be written bare. -/
theorem C03_never_two (s : List Byte) :
    countNecessaryQuotes s ≠ 2 ∧ (countNecessaryQuotes s = 0 → isXmqTextValue s = true ∧ 39 ∉ s) :=
  ⟨(countNecessaryQuotes_spec s).2.1, (countNecessaryQuotes_spec s).1.1⟩

/-- **C03** (minimality).  With fewer quotes than the printer chooses, the parser does not read the text back as
    one token. -/
theorem C03_minimal (s follow : List Byte) (hs : s ≠ []) (hh : s.head? ≠ some 39) (d : Nat) (hd : 0 < d)
    (hlt : d < countNecessaryQuotes s) (st : St) (level : Level) (hr : st.rest = quoted d s ++ follow) :
    ¬ ∃ st', parseXmqQuote st level = .ok st' ∧ DeliveredOne st st' (quoteKind level) (quoted d s) follow := by
  rintro ⟨st', h, -, hout⟩
  have hc : countXmqQuotes st.rest = d := by
    rw [hr, quoted, List.append_assoc]; apply countXmqQuotes_run
    cases s with
    | nil => exact absurd rfl hs
    | cons a l => simpa using hh
  unfold parseXmqQuote eatXmqQuote at h
  rw [hc] at h
  by_cases h2 : d = 2
  · subst h2
    simp only [if_true] at h
    injection h with h
    rw [← h] at hout
    simp only [St.emitSpan, St.emit, List.cons.injEq, Tok.mk.injEq] at hout
    have := congrArg List.length hout.1.2.2.2
    have hlen : 0 < s.length := List.length_pos_iff.2 hs
    simp [quoted] at this; omega
  · simp only [h2, if_false] at h
    rw [hr, quoted, List.append_assoc, List.drop_left' (by simp)] at h
    split at h
    · cases h
    · rename_i st2 n hs2
      split at hs2
      · cases hs2
      · cases hs2
      · rename_i m hm
        simp only [Except.ok.injEq, Prod.mk.injEq] at hs2
        obtain ⟨rfl, rfl⟩ := hs2
        injection h with h
        rw [← h] at hout
        simp only [St.emitSpan, St.emit, List.cons.injEq, Tok.mk.injEq] at hout
        have e := hout.1.2.2.2
        rw [quoteScan_closed_iff d m hd] at hm
        obtain ⟨body, rest, he, hb, hrr, hno, -⟩ := hm
        have hlen := congrArg List.length e
        have h3 := congrArg List.length he
        simp [hr, quoted] at hlen h3
        have hm : body.length = s.length := by omega
        have : body = s := by
          have := congrArg (List.take s.length) he
          rw [List.append_assoc, List.take_left' rfl, List.take_left' hm] at this
          exact this.symm
        rw [this] at hno
        rcases (countNecessaryQuotes_spec s).2.2.2 d hd hlt with h | h
        · exact h2 h
        · exact hno h

/-- Three quotes are needed and one does not do: the hypotheses of `C03_minimal` can be met. -/
example : (1 : Nat) < countNecessaryQuotes b#"a'b" := by decide +kernel

/-- Source text of a comment of several lines as the compact printer writes it. -/
def commented (n : Nat) (t : List Byte) (ts : List (List Byte)) : List Byte :=
  (List.replicate n 47 ++ 42 :: (t ++ 42 :: List.replicate n 47)) ++
    (ts.map fun t => 42 :: (t ++ 42 :: List.replicate n 47)).flatten

theorem infix_intercalate {sep t : List Byte} {ts : List (List Byte)} (h : t ∈ ts) : t <:+: sep.intercalate ts := by
  induction ts with
  | nil => cases h
  | cons a l ih =>
    cases l with
    | nil =>
      simp at h; subst h; simp [List.intercalate]
    | cons b l =>
      have e : sep.intercalate (a :: b :: l) = a ++ (sep ++ sep.intercalate (b :: l)) := by
        simp [List.intercalate, List.intersperse]
      rw [e]
      rcases List.mem_cons.1 h with rfl | h
      · exact ⟨[], sep ++ sep.intercalate (b :: l), by simp⟩
      · exact (ih h).trans ⟨a ++ sep, [], by simp⟩

/-- **C04** (read back).  A comment with the lines `t :: ts`, written with the number of slashes the printer chooses for
    the whole text, is read as one comment token for the first line and one continuation token for each
    further line, and the parser stops exactly behind it. -/
theorem C04_comment_read_back (t : List Byte) (ts : List (List Byte)) (follow : List Byte)
    (hf : follow.head? ≠ some 47) (hf2 : follow.head? ≠ some 42) (st : St) (fuel : Nat) (hfuel : ts.length ≤ fuel)
    (n : Nat) (hn : n = countNecessarySlashes ([10].intercalate (t :: ts)))
    (hr : st.rest = commented n t ts ++ follow) :
    ∃ st', parseXmqComment fuel st = .ok st' ∧ st'.rest = follow ∧
      (st'.out.map fun k => (k.kind, k.text)) =
        ((ts.map fun t => (Kind.comment_continuation, 42 :: (t ++ 42 :: List.replicate n 47))).reverse ++
          [(Kind.comment, List.replicate n 47 ++ 42 :: (t ++ 42 :: List.replicate n 47))]) ++
        st.out.map fun k => (k.kind, k.text) := by
  subst hn
  obtain ⟨h0, hno, -⟩ := countNecessarySlashes_spec ([10].intercalate (t :: ts))
  have hall : ∀ x ∈ t :: ts, ¬ (42 :: List.replicate (countNecessarySlashes ([10].intercalate (t :: ts))) 47) <:+: x :=
    fun x hx h => hno (h.trans (infix_intercalate hx))
  generalize countNecessarySlashes ([10].intercalate (t :: ts)) = n at *
  have hr' : st.rest = (List.replicate n 47 ++ 42 :: (t ++ 42 :: List.replicate n 47)) ++ (contText n ts ++ follow) := by
    rw [hr, commented, contText, List.append_assoc]
  have key : ∀ (l : List (Kind × List Byte)) (st : St), st.rest = (l.map Prod.snd).flatten ++ follow →
      (st.tookAll l).rest = follow ∧
        ((st.tookAll l).out.map fun k => (k.kind, k.text)) = l.reverse ++ st.out.map fun k => (k.kind, k.text) := by
    intro l
    induction l with
    | nil => intro st h; simp [St.tookAll]; simpa using h
    | cons a l ih =>
      intro st h
      have h' : st.rest = a.2 ++ ((l.map Prod.snd).flatten ++ follow) := by simpa using h
      obtain ⟨h1, h2⟩ := ih (st.took a.1 a.2) (took_rest st a.1 _ _ h')
      refine ⟨h1, ?_⟩
      rw [St.tookAll, h2]
      simp [St.took, St.emit, moved_out]
  refine ⟨_, parseXmqComment_block n h0 t ts follow hall hf hf2 st fuel hfuel hr', ?_⟩
  have := key ((Kind.comment, List.replicate n 47 ++ 42 :: (t ++ 42 :: List.replicate n 47)) ::
        ts.map fun t => (Kind.comment_continuation, 42 :: (t ++ 42 :: List.replicate n 47))) st
    (by rw [hr, commented]; simp [Function.comp_def])
  refine ⟨this.1, ?_⟩
  rw [this.2]; simp

example : countNecessarySlashes b#"a */ b *// c" = 3 := by decide +kernel

/-- **C04** (minimality).  With fewer slashes some closing delimiter occurs within the text, so that no correct
    comment token has this text as its content. -/
theorem C04_minimal (s : List Byte) (d : Nat) (hd : 0 < d) (hlt : d < countNecessarySlashes s) :
    ∃ a b, s = a ++ (42 :: List.replicate d 47) ++ b := by
  obtain ⟨a, b, h⟩ := (countNecessarySlashes_spec s).2.2 d hd hlt
  exact ⟨a, b, h.symm⟩

theorem endsValue_of (follow : List Byte) (h : ValueEnd follow) : EndsValue follow := by
  cases h with
  | eof => exact Or.inl rfl
  | byte b r h =>
    right
    simp only [List.mem_cons, List.not_mem_nil, or_false] at h
    rcases h with rfl | rfl | rfl | rfl | rfl | rfl | rfl | rfl | rfl | rfl <;>
      simp [isSafeValueChar, countWhitespace]
  | nbsp r => right; simp [isSafeValueChar, countWhitespace]
  | quad b r h =>
    right
    simp only [List.mem_cons, List.not_mem_nil, or_false] at h
    rcases h with rfl | rfl | rfl | rfl <;> simp [isSafeValueChar, countWhitespace]

/-- **C05**.  A non-empty value that the printer writes without quotes (`is_xmq_text_value`) is read back, at a value
    position, as exactly that value, whatever delimiter follows. -/
theorem C05_bare_value_read_back (s follow : List Byte) (hs : s ≠ []) (hv : isXmqTextValue s = true)
    (hf : ValueEnd follow) (st : St) (fuel : Nat) (level : Level) (hr : st.rest = s ++ follow) :
    ∃ st', parseXmqValue fuel st level = .ok st' ∧
      DeliveredOne st st' (if level = .attrValue then .attr_value_text else .element_value_text) s follow := by
  refine ⟨_, parseXmqValue_text fuel st level s follow hs hv (endsValue_of _ hf) hr, ?_, rfl⟩
  exact took_rest _ _ _ _ hr

example : isXmqTextValue b#"/root/home?x=1&y" = true ∧ ValueEnd b#" b=2" :=
  ⟨by decide +kernel, .byte _ _ (by decide)⟩

/-- **C05** (converse).  A bare value never contains a byte that needs quoting: no ASCII whitespace, quotes, braces,
    parentheses. -/
theorem C05_bare_value_plain (s : List Byte) (hv : isXmqTextValue s = true) : ∀ b ∈ s, PlainByte b := by
  have h : allSafeValueChars s = true := by
    unfold isXmqTextValue at hv; split at hv
    · cases hv
    · exact hv
  have h2 := (safeValueLen_spec s).2
  rw [(allSafe_iff s).1 h] at h2
  simpa using h2

/-- **C39**.  Stripping a complete quote token removes exactly the delimiters: two quotes give the empty text, and `d`
    quotes, a content, `d` quotes give the content. -/
theorem C39_strip_exact (tok : List Byte) (h : QuoteText tok) :
    (tok = [39, 39] ∧ (stripDelims 39 tok).2 = []) ∨
    ∃ d body, tok = List.replicate d 39 ++ (body ++ List.replicate d 39) ∧ 0 < d ∧ d ≠ 2 ∧ body ≠ [] ∧
      body.head? ≠ some 39 ∧ body.getLast? ≠ some 39 ∧ stripDelims 39 tok = (d, body) := by
  cases h with
  | empty => left; exact ⟨rfl, by rw [stripDelims_empty]⟩
  | full d body h1 h2 h3 h4 h5 h6 =>
    right
    exact ⟨d, body, rfl, h1, h2, h3, h4, h5, stripDelims_full 39 d body h3 h4⟩

example : QuoteText b#"'''It's'''" :=
  .full 3 b#"It's" (by decide) (by decide) (by decide) (by decide) (by decide) (by
    unfold NoRun; rw [replicate_infix_iff]; rintro ⟨j, hj, h⟩
    have h0 := h 0 (by omega); have h1 := h 1 (by omega)
    simp at hj
    match j with
    | 0 => simp at h0
    | 1 => simp at h0
    | j + 2 => omega)

end Xmq.Props
