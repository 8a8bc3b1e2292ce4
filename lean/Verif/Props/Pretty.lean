import Verif.Lemmas.PrettyTree
import Verif.Props.Document
import Verif.Props.Delimiters
/-!
# C14, C31, C36: pretty printing

Findings recorded as theorems here: quotes over several lines lose blanks at the ends of lines and, with quotes at the edges,
common indentation (C14); values behind attributes may be indented wrongly (C31); comments lose newlines and trailing spaces
(C36).
-/
namespace Xmq.Props
open Xmq.Spec

/-! ## Bytes that are not escaped -/

theorem notEscaped {cfg : OutCfg} {s : List Byte} (h : s.all (fun c => !Esc cfg c) = true) : ∀ b ∈ s, ¬ EscapedByte cfg b := by
  intro b hb he
  have := List.all_eq_true.1 h b hb
  rw [esc_iff.2 he] at this; cases this

/-- A text without escaped bytes is one piece. -/
theorem piecesSafe_one {cfg : OutCfg} {s : List Byte} (h : ∀ b ∈ s, ¬ EscapedByte cfg b) (hs : PieceSafe s) : PiecesSafe cfg s := by
  intro a p b e _ ha hb
  have ha0 : a = [] := by
    rcases List.eq_nil_or_concat a with rfl | ⟨u, x, rfl⟩
    · rfl
    · rw [List.concat_eq_append] at ha e
      exact absurd (ha x (by simp)) (h x (by rw [e]; simp))
  have hb0 : b = [] := by
    cases b with
    | nil => rfl
    | cons x b => exact absurd (hb x rfl) (h x (by rw [e]; simp))
  rw [ha0, hb0] at e
  simp at e
  rw [← e]; exact hs

/-- Sufficient for a piece: no quotes and no space or tab at the end of a line. -/
theorem pieceSafe_plain {s : List Byte} (hq : (39 : Byte) ∉ s) (h1 : ¬ [32, 10] <:+: s) (h2 : ¬ [9, 10] <:+: s) : PieceSafe s where
  edge := .inl ⟨fun h => hq (h.subset (by simp)), fun a b e => absurd (by rw [e]; simp) hq⟩
  trail := by
    rintro a b x e (rfl | rfl)
    · exact absurd ⟨a, b, by rw [e]; simp⟩ h1
    · exact absurd ⟨a, b, by rw [e]; simp⟩ h2

/-- Sufficient for a piece: starts and ends with something visible, no space or tab at the end of a line. -/
theorem pieceSafe_solid {s : List Byte} (hh : ∀ c, s.head? = some c → ¬ White c) (hl : ∀ c, s.getLast? = some c → ¬ White c)
    (h1 : ¬ [32, 10] <:+: s) (h2 : ¬ [9, 10] <:+: s) : PieceSafe s where
  edge := .inr ⟨hh, hl⟩
  trail := by
    rintro a b x e (rfl | rfl)
    · exact absurd ⟨a, b, by rw [e]; simp⟩ h1
    · exact absurd ⟨a, b, by rw [e]; simp⟩ h2

/-! ## C31 -/

/-- Pretty printing a document and parsing the result gives the same document, with neighbouring texts joined, for documents
    described by `PrettySafe` and any step of indentation.  What is excluded there is lost, see below; namespaces, doctypes
    and processing instructions are not modelled. -/
theorem C31_pretty_round_trip_partial (cfg : OutCfg) (hc : cfg.compact = false) (hsp : cfg.indentationSpace = [32])
    (doc : List Node) (h : PrettySafe cfg doc) : Reads (printDoc cfg doc) (canon doc) := by
  unfold printDoc
  by_cases hne : doc = []
  · subst hne
    simp only [List.isEmpty_nil, if_true]
    exact (reads_iff _ _).2 (by decide +kernel)
  · simp only [hc, Bool.false_eq_true, if_false]
    rw [if_neg (by simpa using hne)]
    have := (pretty_nodes hc hsp doc h ⟨[], 0, 0, 0⟩ (some 0) 0).reads (K_nlEnd _ _) |>.plain
    rw [mergeNodes_eq] at this
    simpa only [hc, canon] using this

/-- For a document as libxml2 holds it after parsing, the result is exactly the document. -/
theorem C31_pretty_round_trip_exact_partial (cfg : OutCfg) (hc : cfg.compact = false) (hsp : cfg.indentationSpace = [32])
    (doc : List Node) (h : PrettySafe cfg doc) (hn : Canonical doc) : Reads (printDoc cfg doc) doc := by
  have := C31_pretty_round_trip_partial cfg hc hsp doc h
  rwa [canon_id hn] at this

/-- Different documents have different pretty forms. -/
theorem C31_pretty_injective_partial (cfg : OutCfg) (hc : cfg.compact = false) (hsp : cfg.indentationSpace = [32])
    (d1 d2 : List Node) (h1 : PrettySafe cfg d1) (n1 : Canonical d1) (h2 : PrettySafe cfg d2) (n2 : Canonical d2)
    (h : printDoc cfg d1 = printDoc cfg d2) : d1 = d2 := by
  have r1 := C31_pretty_round_trip_exact_partial cfg hc hsp d1 h1 n1
  have r2 := C31_pretty_round_trip_exact_partial cfg hc hsp d2 h2 n2
  rw [h] at r1
  exact C30_reads_unique _ _ _ r1 r2

/-- Pretty and compact forms, with whatever settings, mean the same document. -/
theorem C31_pretty_compact_agree_partial (c1 c2 : OutCfg) (h1 : c1.compact = false) (s1 : c1.indentationSpace = [32]) (h2 : c2.compact = true)
    (s2 : c2.indentationSpace = [32]) (doc : List Node) (p1 : PrettySafe c1 doc) (p2 : CompactSafe c2 doc) :
    ∃ d, Reads (printDoc c1 doc) d ∧ Reads (printDoc c2 doc) d :=
  ⟨_, C31_pretty_round_trip_partial c1 h1 s1 doc p1, C30_compact_round_trip_partial c2 h2 s2 doc p2⟩

/-- A document of the kind the theorems speak of. -/
def prettySample : List Node :=
  [.comment b#"first\n  second */ line", .element b#"doc" [⟨b#"x", [.text b#"it's", .entity b#"lt"]⟩, ⟨b#"y", []⟩]
    [.text b#"line one\n  line two\n", .element b#"value" [⟨b#"key", [.text b#"1"]⟩] [.text b#"if {\n    x '''quoted''' y\n}"],
      .entity b#"nbsp", .element b#"c" [] [], .element b#"dd" [] [.text b#"12"]]]

example : printDoc prettyCfg prettySample = b#"//* first
      second */ line *//
doc(x = ( '''it's'''
          &lt; )
    y)
{
    'line one
       line two

    '
    value(key = 1) = ''''
                     if {
                         x '''quoted''' y
                     }
                     ''''
    &nbsp;
    c
    dd = 12
}
" := by decide +kernel

theorem prettySample_safe : PrettySafe prettyCfg prettySample := by
  have hn : ∀ s : List Byte, s.all (fun b => (97 ≤ b && b ≤ 122) || (48 ≤ b && b ≤ 57) || b == 45) = true → ∀ b ∈ s, LocalNameByte b := by
    intro s hs b hb
    have := List.all_eq_true.1 hs b hb
    simp at this
    unfold LocalNameByte
    rcases this with (h | h) | h
    · exact .inl h
    · exact .inr (.inr (.inl h))
    · exact .inr (.inr (.inr (.inl h)))
  have he : ∀ c t, (c :: t).all (fun b => (97 ≤ b && b ≤ 122) || (48 ≤ b && b ≤ 57) || b == 45) = true →
      (97 ≤ c ∧ c ≤ 122) → ElementName (c :: t) := fun c t h hc => ⟨hn _ h, c, t, rfl, .inl hc⟩
  have ha : ∀ s, s ≠ [] → s.all (fun b => (97 ≤ b && b ≤ 122) || (48 ≤ b && b ≤ 57) || b == 45) = true → s ≠ b#"xmlns" → AttrName s :=
    fun s h1 h2 h3 => ⟨h1, hn _ h2, h3⟩
  have ht : ∀ s : List Byte, NoStray s → (0 : Byte) ∉ s → (s.any (· != 39)) = true → s.all (fun c => !Esc prettyCfg c) = true → PieceSafe s →
      PrettyTextSafe prettyCfg s :=
    fun s h0 h1 h2 h3 h4 => ⟨h0, h1, fun _ => by simpa using h2, (by intro h; cases h), piecesSafe_one (notEscaped h3) h4⟩
  have hw : ∀ o : Option Byte, o.all (fun c => !isXmlWhitespace c) = true → ∀ c, o = some c → ¬ White c := by
    intro o h c hc
    subst hc
    rw [not_white]; simpa using h
  simp only [prettySample, PrettySafe, PrettyNodeSafe, and_true]
  refine ⟨⟨by decide +kernel, by decide +kernel, by decide +kernel, by decide +kernel, ?_⟩, he _ _ (by decide) (by decide), ?_,
    ⟨ht _ (by decide +kernel) (by decide +kernel) (by decide +kernel) (by decide +kernel) (pieceSafe_plain (by decide +kernel) (by decide +kernel) (by decide +kernel)),
      ⟨he _ _ (by decide) (by decide), ?_, ht _ (by decide +kernel) (by decide +kernel) (by decide +kernel) (by decide +kernel)
        (pieceSafe_solid (hw _ (by decide +kernel)) (hw _ (by decide +kernel)) (by decide +kernel) (by decide +kernel)), ?_, ?_⟩,
      ⟨fun b hb => .inl (hn _ (by decide) b hb), by decide⟩, ⟨he _ _ (by decide) (by decide), by simp, by simp, by simp⟩,
      he _ _ (by decide) (by decide), by simp, ht _ (by decide +kernel) (by decide +kernel) (by decide +kernel) (by decide +kernel)
        (pieceSafe_plain (by decide +kernel) (by decide +kernel) (by decide +kernel)), ?_, ?_⟩, by simp, ?_⟩
  · intro _ l hl
    have : l = b#"first" ∨ l = b#"  second */ line" := by
      rcases hl with h | h
      · left; exact (Option.some.inj (h.symm.trans (by decide +kernel)))
      · right; exact (Option.some.inj (h.symm.trans (by decide +kernel)))
    rcases this with rfl | rfl <;> decide +kernel
  · intro a hm
    simp only [List.mem_cons, List.not_mem_nil, or_false] at hm
    rcases hm with rfl | rfl
    · refine ⟨ha _ (by decide) (by decide) (by decide), by simp, ?_, ?_, by simp⟩
      · intro s hs
        simp at hs; subst hs
        exact ht _ (by decide +kernel) (by decide +kernel) (by decide +kernel) (by decide +kernel)
          (pieceSafe_solid (hw _ (by decide +kernel)) (hw _ (by decide +kernel)) (by decide +kernel) (by decide +kernel))
      · intro n h
        simp at h; subst h
        exact ⟨fun b hb => .inl (hn _ (by decide) b hb), by decide⟩
    · exact ⟨ha _ (by decide) (by decide) (by decide), by simp, by simp, by simp, by simp⟩
  · intro a hm
    simp only [List.mem_cons, List.not_mem_nil, or_false] at hm
    subst hm
    refine ⟨ha _ (by decide) (by decide) (by decide), by simp, ?_, by simp, ?_⟩
    · intro s hs
      simp at hs; subst hs
      exact ht _ (by decide +kernel) (by decide +kernel) (by decide +kernel) (by decide +kernel)
        (pieceSafe_plain (by decide +kernel) (by decide +kernel) (by decide +kernel))
    · intro s hs
      simp at hs; subst hs
      exact ⟨by decide +kernel, .inr (by decide +kernel)⟩
  · intro s hs
    simp at hs; subst hs
    exact ⟨by decide +kernel, .inl ⟨32, by decide +kernel, by decide⟩⟩
  · left
    intro a hl
    simp at hl; subst hl
    exact .inr ⟨_, rfl, by decide +kernel, notEscaped (by decide +kernel), .inr ⟨49, by decide, by rw [not_white]; decide⟩, by
      intro c hc; simp at hc; subst hc; exact .inl (by decide)⟩
  · intro s hs
    simp at hs; subst hs
    exact ⟨by decide +kernel, .inr (by decide +kernel)⟩
  · left; intro a hl; simp at hl
  · right; right
    exact ⟨.element b#"c" [] [], by simp, fun v h => by cases v <;> cases h⟩

/-- The claim without restriction: a document with xmq names, without NUL, as libxml2 holds it. -/
def PrettyInjective : Prop := ∀ d1 d2 : List Node, Canonical d1 → Canonical d2 → printDoc prettyCfg d1 = printDoc prettyCfg d2 → d1 = d2

/-- A comment with and without a newline at its end is printed alike (but for the delimiters: two lines of text). -/
theorem C31_false : ¬ PrettyInjective := by
  intro h
  have c : ∀ s, Canonical [.comment s] := by
    intro s
    refine ⟨noTextPair_one _ _, ?_⟩
    simp only [CanonicalNodes, CanonicalNode, and_true]
  exact absurd (h _ _ (c b#"x\ny\n") (c b#"x\ny") (by decide +kernel)) (by decide)

/-- Behind an attribute ending in a character entity the printer is wrong about the column: lines get additional spaces. -/
theorem C31_false_column :
    Reads (printDoc prettyCfg [.element b#"a" [⟨b#"x", [.text b#"y\x0d"]⟩] [.text b#"u\nv"]])
      [.element b#"a" [⟨b#"x", [.text b#"y\x0d"]⟩] [.text b#"u\n     v"]] :=
  (reads_iff _ _).2 (by decide +kernel)

/-- Behind an attribute made of spaces the column is two too small. -/
theorem C31_false_column_spaces :
    Reads (printDoc prettyCfg [.element b#"a" [⟨b#"x", [.text b#"  "]⟩] [.text b#"u\nv"]])
      [.element b#"a" [⟨b#"x", [.text b#"  "]⟩] [.text b#"  u\nv"]] :=
  (reads_iff _ _).2 (by decide +kernel)

/-- A value of two quotes is printed as two entity references outside of `( )`, which is a syntax error in an attribute. -/
theorem C31_false_quotes : ∀ doc, ¬ Reads (printDoc prettyCfg [.element b#"a" [⟨b#"x", [.text b#"''"]⟩] []]) doc := by
  intro doc h
  rw [reads_iff] at h
  have : readOf (printDoc prettyCfg [.element b#"a" [⟨b#"x", [.text b#"''"]⟩] []]) = none := by decide +kernel
  rw [this] at h; cases h

/-- Continuation bytes behind a space or a tab are not written. -/
theorem C31_false_stray : Reads (printDoc prettyCfg [.element b#"k" [] [.text b#"a \x80b\n c\xbf d"], .comment b#"x\t\x80y"])
    [.element b#"k" [] [.text b#"a b\n c\xbf d"], .comment b#"x\ty"] :=
  (reads_iff _ _).2 (by decide +kernel)

/-- A value ending in `=` swallows the entity reference behind the element. -/
theorem C31_false_equals :
    Reads (printDoc prettyCfg [.element b#"a" [] [.text b#"x="], .entity b#"lt"]) [.element b#"a" [] [.text b#"x=&lt;"]] :=
  (reads_iff _ _).2 (by decide +kernel)

/-! ## C14 -/

theorem leadNl_of {s : List Byte} (h : MultiLineSafe s) : LeadNl s ∧ LeadNl s.reverse := by
  refine ⟨fun w r e hw => h.lead w r e (fun b hb => white_iff.2 (hw b hb)), fun w r e hw h10 b hb => ?_⟩
  refine h.tail w.reverse r.reverse ?_ (fun b hb => white_iff.2 (hw b (by simpa using hb))) (by simpa using h10) b (by simpa using hb)
  have := congrArg List.reverse e
  simpa using this

theorem piece_solid {s : List Byte} (h : PieceSafe s) (hq : (s.head? = some 39 ∨ s.getLast? = some 39) ∨ ¬ NoRun 39 3 s) :
    (∀ c, s.head? = some c → ¬ White c) ∧ ∀ c, s.getLast? = some c → ¬ White c := by
  rcases h.edge with ⟨hrun, he⟩ | he
  · exfalso
    rcases hq with (hq | hq) | hq
    · obtain ⟨t, rfl⟩ := head_cons hq
      obtain ⟨⟨x, hx, -⟩, -⟩ := he [] t rfl
      cases hx
    · rcases List.eq_nil_or_concat s with rfl | ⟨u, x, rfl⟩
      · cases hq
      · rw [List.concat_eq_append] at hq he
        simp at hq; subst hq
        obtain ⟨-, ⟨x, hx, -⟩⟩ := he u [] rfl
        cases hx
    · exact hq hrun
  · exact he

/-- A text of several lines, printed as one quote in whatever column the printer is, means the same text when the quote is
    read in that column; and the quote ends where it was meant to end, whatever follows but a quote. -/
theorem C14_multi_line_quote_partial (cfg : OutCfg) (hsp : cfg.indentationSpace = [32]) (ps : PS) (s : List Byte) (h : MultiLineSafe s) :
    ∃ q, (ps.safeLeafQuote cfg s).out = ps.out ++ q ∧ quoteVal (ps.cur + 1) q = some (.text s) ∧
      ∀ (st : St) (level : Level) (follow : List Byte), follow.head? ≠ some 39 → st.rest = q ++ follow →
        ∃ st', parseXmqQuote st level = .ok st' ∧ DeliveredOne st st' (quoteKind level) q follow := by
  obtain ⟨h1, h2⟩ := leadNl_of h
  have htr := piece_noTrail h.piece h1 h2
  have key : ∃ cols : Nat → Prop, cols (ps.cur + 1) ∧ LeafQuote ps (ps.safeLeafQuote cfg s) s cols := by
    by_cases hq : (s.head? = some 39 ∨ s.getLast? = some 39) ∨ ¬ NoRun 39 3 s
    · obtain ⟨e1, e2⟩ := piece_solid h.piece hq
      exact ⟨_, trivial, leaf_nls ps hsp (by rintro rfl; exact absurd h.newline (by simp)) h.noCr htr hq
        (fun c hc => not_white.1 (e1 c hc)) (fun c hc => not_white.1 (e2 c hc)) h.noStray⟩
    · rw [not_or, Classical.not_not, not_or] at hq
      exact ⟨(· = ps.cur + 1), rfl, leaf_multi ps hsp h.newline h.noCr h1 h2 htr hq.1.1 hq.1.2 hq.2 h.noStray⟩
  obtain ⟨cols, hc, d, body, hd0, hd2, ho, -, -, hne, b1, b2, b3, hq⟩ := key
  exact ⟨_, ho, hq _ hc, fun st level follow hf hr =>
    ⟨_, parseXmqQuote_full st level d body follow hd0 hd2 hne b1 b2 b3 hf hr, took_rest _ _ _ _ hr, rfl⟩⟩

/-- The hypothesis can be met by a text with quotes, indentation and empty lines, and the quote is as expected. -/
example : MultiLineSafe b#"one\n\n   it's\n\ttwo" where
  noStray := by decide +kernel
  newline := by decide
  noCr := by decide
  lead := fun w r e hw h10 => by
    cases w with
    | nil => cases h10
    | cons x w =>
      have := hw x (by simp)
      simp at e
      rw [← e.1] at this
      exact absurd (white_iff.1 this) (by decide)
  tail := fun w r e hw h10 => by
    rcases List.eq_nil_or_concat w with rfl | ⟨u, x, rfl⟩
    · cases h10
    · rw [List.concat_eq_append] at e hw
      have := congrArg List.getLast? e
      rw [← List.append_assoc, List.getLast?_append] at this
      simp at this
      exact absurd (white_iff.1 (hw x (by simp))) (by rw [← this]; decide)
  piece := pieceSafe_solid (by intro c hc; simp at hc; rw [← hc, not_white]; decide) (by intro c hc; simp at hc; rw [← hc, not_white]; decide)
    (by decide +kernel) (by decide +kernel)

example : (PS.safeLeafQuote prettyCfg ⟨[], 4, 0, 4⟩ b#"one\n\n   it's\n\ttwo").out =
    b#"'''one\n\n          it's\n       \ttwo'''" := by decide +kernel

/-- An element at depth `n`. -/
def nest : Nat → List Node → List Node
  | 0, ns => ns
  | n + 1, ns => [.element b#"e" [] (.element b#"f" [] [] :: nest n ns)]

theorem nest_safe {cfg : OutCfg} {ns : List Node} (h : PrettySafe cfg ns) : ∀ n, PrettySafe cfg (nest n ns)
  | 0 => h
  | n + 1 => by
    have hn : ∀ c : Byte, (97 ≤ c ∧ c ≤ 122) → ElementName [c] := fun c hc => ⟨by
      intro b hb; simp at hb; subst hb; exact .inl hc, c, [], rfl, .inl hc⟩
    simp only [nest, PrettySafe, PrettyNodeSafe, and_true]
    refine ⟨hn _ (by decide), by simp, ⟨⟨hn _ (by decide), by simp, by simp, by simp⟩, nest_safe h n⟩, by simp, ?_⟩
    right; right
    exact ⟨_, List.mem_cons_self, fun v h => by cases v <;> cases h⟩

theorem noTextPair_first {α} {p : α → Bool} {a : α} {l : List α} (ha : p a = false) (h : NoTextPair p l) : NoTextPair p (a :: l) := by
  cases l with
  | nil => exact noTextPair_one _ _
  | cons b t => exact noTextPair_cons (by simp [ha]) h

theorem nest_canonical {ns : List Node} (h : Canonical ns) (h0 : ns.head?.all (fun n => !isTextNode n) = true) :
    ∀ n, Canonical (nest n ns) ∧ (nest n ns).head?.all (fun n => !isTextNode n) = true
  | 0 => ⟨h, h0⟩
  | n + 1 => by
    obtain ⟨ih, -⟩ := nest_canonical h h0 n
    refine ⟨⟨noTextPair_one _ _, ?_⟩, rfl⟩
    simp only [nest, CanonicalNodes, CanonicalNode, and_true]
    exact ⟨by simp, noTextPair_first (by decide) ih.1, ⟨by simp, noTextPair_nil _⟩, ih.2⟩

/-- At any depth: the value of an element is read back, whatever the indentation is. -/
theorem C14_any_depth_partial (cfg : OutCfg) (hc : cfg.compact = false) (hsp : cfg.indentationSpace = [32]) (n : Nat) (key s : List Byte)
    (hk : ElementName key) (h : PrettyTextSafe cfg s) (h10 : (10 : Byte) ∈ s) :
    Reads (printDoc cfg (nest n [.element key [] [.text s]])) (nest n [.element key [] [.text s]]) := by
  refine C31_pretty_round_trip_exact_partial cfg hc hsp _ (nest_safe ?_ n) (nest_canonical ?_ rfl n).1
  · simp only [PrettySafe, PrettyNodeSafe, and_true]
    refine ⟨hk, by simp, h, ?_, ?_⟩
    · intro s' hs
      simp at hs; subst hs
      refine ⟨fun ht => ?_, .inl ⟨10, h10, by decide⟩⟩
      rcases ht.1 10 h10 with h | h <;> exact absurd h (by decide)
    · left; intro a ha; simp at ha
  · refine ⟨noTextPair_one _ _, ?_⟩
    simp only [CanonicalNodes, CanonicalNode, and_true]
    exact ⟨by simp, noTextPair_one _ _⟩

/-- The claim for every text of several lines without carriage returns. -/
def MultiLineQuotesSurvive : Prop := ∀ (ps : PS) (s : List Byte), (10 : Byte) ∈ s → (13 : Byte) ∉ s →
  ∃ q, (ps.safeLeafQuote prettyCfg s).out = ps.out ++ q ∧ quoteVal (ps.cur + 1) q = some (.text s)

/-- A space before a newline is lost. -/
theorem C14_false : ¬ MultiLineQuotesSurvive := by
  intro h
  obtain ⟨q, h1, h2⟩ := h ⟨[], 0, 0, 0⟩ b#"x \ny" (by decide) (by decide)
  have : q = b#"'x \n y'" := by
    rw [List.nil_append] at h1
    rw [← h1]; decide +kernel
  rw [this] at h2
  revert h2; decide +kernel

/-- The same in a document. -/
theorem C14_false_trailing_space :
    Reads (printDoc prettyCfg [.element b#"a" [] [.text b#"x \ny"]]) [.element b#"a" [] [.text b#"x\ny"]] :=
  (reads_iff _ _).2 (by decide +kernel)

/-- With a quote at an edge, indentation common to all lines is lost. -/
theorem C14_false_indentation :
    Reads (printDoc prettyCfg [.element b#"a" [] [.text b#"  x\n  y'"]]) [.element b#"a" [] [.text b#"x\ny'"]] :=
  (reads_iff _ _).2 (by decide +kernel)

/-- With a quote at an edge, a newline at the other edge is doubled. -/
theorem C14_false_newline :
    Reads (printDoc prettyCfg [.element b#"a" [] [.text b#"'x\n"]]) [.element b#"a" [] [.text b#"'x\n\n"]] :=
  (reads_iff _ _).2 (by decide +kernel)

/-! ## C36 -/

/-- The comment printed by the pretty printer in whatever column it is, read in that column, gives the text.  A comment of
    one line extends to the end of the line, and the parser hands over the newline with it. -/
theorem C36_pretty_comment_partial (cfg : OutCfg) (hc : cfg.compact = false) (hsp : cfg.indentationSpace = [32]) (ps : PS) (s : List Byte)
    (h : PrettyCommentSafe s) :
    ∃ q, (ps.commentNode cfg s).out = (ps.beforeComment cfg).out ++ q ∧
      unComment (ps.beforeComment cfg).cur 32 0 (if (10 : Byte) ∈ s then q else q ++ [10]) = some s := by
  have h' := prettyComment_of h
  unfold PS.commentNode
  dsimp only
  by_cases h10 : (10 : Byte) ∈ s
  · have hn : hasNewlines s = true := by simp only [hasNewlines, List.any_eq_true, beq_iff_eq]; exact ⟨10, h10, rfl⟩
    simp only [hn, Bool.not_true, Bool.false_eq_true, if_false, if_pos h10]
    obtain ⟨m, l, ls, -, hls, -, ho, -⟩ := commentLines_out hc hsp h10 h' (ps.beforeComment cfg)
    exact ⟨_, ho, unComment_lines hls h10 h' _ _ rfl⟩
  · have hn : hasNewlines s = false := by
      simp only [hasNewlines, List.any_eq_false, beq_iff_eq]
      rintro x hx rfl; exact h10 hx
    simp only [hn, Bool.not_false, if_true, hc, Bool.false_eq_true, if_false, if_neg h10]
    refine ⟨b#"// " ++ s, ?_, ?_⟩
    · rw [(printSpan_out _ h.noStray).1]
      show (ps.beforeComment cfg).out ++ [47, 47, 32] ++ s = _
      simp
    · have := unComment_eol h10 h' (ps.beforeComment cfg).cur
      simpa using this

theorem nest_compact {cfg : OutCfg} {ns : List Node} (h : CompactSafe cfg ns) : ∀ n, CompactSafe cfg (nest n ns)
  | 0 => h
  | n + 1 => by
    have hn : ∀ c : Byte, (97 ≤ c ∧ c ≤ 122) → ElementName [c] := fun c hc => ⟨by
      intro b hb; simp at hb; subst hb; exact .inl hc, c, [], rfl, .inl hc⟩
    simp only [nest, CompactSafe, CompactNodeSafe, and_true]
    exact ⟨hn _ (by decide), by simp, ⟨⟨hn _ (by decide), by simp, by simp⟩, nest_compact h n⟩, by simp⟩

theorem comment_canonical (s : List Byte) : Canonical [.comment s, .element b#"f" [] []] := by
  refine ⟨noTextPair_first rfl (noTextPair_one _ _), ?_⟩
  simp only [CanonicalNodes, CanonicalNode, and_true]
  exact ⟨trivial, by simp, noTextPair_nil _⟩

/-- At any depth, between other elements, a comment is read back from pretty output. -/
theorem C36_pretty_any_depth_partial (cfg : OutCfg) (hc : cfg.compact = false) (hsp : cfg.indentationSpace = [32]) (n : Nat) (s : List Byte)
    (h : PrettyCommentSafe s) :
    Reads (printDoc cfg (nest n [.comment s, .element b#"f" [] []])) (nest n [.comment s, .element b#"f" [] []]) := by
  refine C31_pretty_round_trip_exact_partial cfg hc hsp _ (nest_safe ?_ n) (nest_canonical (comment_canonical s) rfl n).1
  simp only [PrettySafe, PrettyNodeSafe, and_true]
  refine ⟨h, ⟨by intro b hb; simp at hb; subst hb; exact .inl (by decide), 102, [], rfl, .inl (by decide)⟩, by simp, trivial, by simp, ?_⟩
  left; intro a ha; simp at ha

/-- The same for compact output. -/
theorem C36_compact_any_depth_partial (cfg : OutCfg) (hc : cfg.compact = true) (hsp : cfg.indentationSpace = [32]) (n : Nat) (s : List Byte)
    (h : CompactCommentSafe s) :
    Reads (printDoc cfg (nest n [.comment s, .element b#"f" [] []])) (nest n [.comment s, .element b#"f" [] []]) := by
  refine C30_compact_round_trip_exact_partial cfg hc hsp _ (nest_compact ?_ n) (nest_canonical (comment_canonical s) rfl n).1
  simp only [CompactSafe, CompactNodeSafe, and_true]
  exact ⟨h, ⟨by intro b hb; simp at hb; subst hb; exact .inl (by decide), 102, [], rfl, .inl (by decide)⟩, by simp, by simp⟩

example : CompactCommentSafe b#"x /* y */\n\n/z//" :=
  ⟨by decide +kernel, by decide +kernel, by decide +kernel, by decide +kernel, by decide +kernel, by decide +kernel⟩

example : PrettyCommentSafe b#"x /* y */\n\n  /z// " := by
  refine ⟨by decide +kernel, by decide +kernel, by decide +kernel, by decide +kernel, ?_⟩
  intro _ l hl
  have : l = b#"x /* y */" ∨ l = b#"  /z// " := by
    rcases hl with h | h
    · left; exact (Option.some.inj (h.symm.trans (by decide +kernel)))
    · right; exact (Option.some.inj (h.symm.trans (by decide +kernel)))
  rcases this with rfl | rfl <;> decide +kernel

/-- The claim for every comment. -/
def CommentsRecovered (cfg : OutCfg) : Prop := ∀ s : List Byte, (0 : Byte) ∉ s → Reads (printDoc cfg [.comment s]) [.comment s]

theorem comment_lost {cfg : OutCfg} {s t : List Byte} (h0 : (0 : Byte) ∉ s) (h : readOf (printDoc cfg [.comment s]) = some [.comment t]) (hne : t ≠ s) :
    ¬ CommentsRecovered cfg := by
  intro hr
  have := hr s h0
  rw [reads_iff, h] at this
  simp at this
  exact hne this

/-- A newline at the end of the comment is lost. -/
theorem C36_false_pretty : ¬ CommentsRecovered prettyCfg := comment_lost (s := b#"x\n") (t := b#"x") (by decide) (by decide +kernel) (by decide)

/-- Spaces around the comment are lost. -/
theorem C36_false_compact : ¬ CommentsRecovered compactCfg := comment_lost (s := b#" x ") (t := b#"x") (by decide) (by decide +kernel) (by decide)

/-- A newline at the beginning of the comment is lost. -/
theorem C36_false_leading_newline : Reads (printDoc prettyCfg [.comment b#"\nx"]) [.comment b#"x"] := (reads_iff _ _).2 (by decide +kernel)

/-- Spaces at the end of the comment are lost. -/
theorem C36_false_trailing_space : Reads (printDoc prettyCfg [.comment b#"x "]) [.comment b#"x"] := (reads_iff _ _).2 (by decide +kernel)

end Xmq.Props
