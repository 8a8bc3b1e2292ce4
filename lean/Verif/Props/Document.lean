import Verif.Lemmas.CompactQuote
import Verif.Props.Parser
/-!
# C06, C07, C19, C30: compact printing

Findings recorded as theorems here: `xmqCompactQuote` loses texts (C06), compact output may span several lines (C07), and
different documents have the same compact form (C30).
-/
namespace Xmq.Props
open Xmq.Spec

/-! ## Reading is a function -/

/-- The document read from an input, computed with enough fuel. -/
def readOf (input : List Byte) : Option (List Node) := (tokensOf input).bind buildTree

theorem reads_iff (input : List Byte) (doc : List Node) : Reads input doc ↔ readOf input = some doc := by
  unfold Reads readOf
  simp only [tokenizes_iff, Option.bind_eq_some_iff]

/-- An input is read as at most one document. -/
theorem C30_reads_unique (input : List Byte) (d1 d2 : List Node) (h1 : Reads input d1) (h2 : Reads input d2) : d1 = d2 := by
  rw [reads_iff] at h1 h2
  rw [h1] at h2
  exact Option.some.inj h2

example : Reads b#"a(x=1){b c='t'}" [.element b#"a" [⟨b#"x", [.text b#"1"]⟩] [.element b#"b" [] [], .element b#"c" [] [.text b#"t"]]] :=
  (reads_iff _ _).2 (by decide +kernel)

/-! ## C06 -/

/-- `xmqCompactQuote` is lossless for the texts described by `CompactQuoteSafe`: behind `key=` the value is read back as the
    same text.  Missing are exactly the texts excluded there; the theorems below show that they are lost. -/
theorem C06_compact_quote_lossless_partial (content key : List Byte) (h : CompactQuoteSafe content) (hk : ElementName key) :
    Reads (key ++ 61 :: compactQuote content) [.element key [] [.text content]] :=
  compactQuote_reads h (elemName_of hk)

example : CompactQuoteSafe b#" it's\ta \"test\"\n\n of {all} \x01 // kinds=\xc3\xa5 \n" where
  noStray := by decide +kernel
  noNul := by decide +kernel
  noTriple := by decide +kernel
  notOnlyQuotes := fun _ => ⟨32, by decide, by decide⟩
  tabs := by decide +kernel
  lead := by
    intro a b h ha hm
    obtain ⟨t, rfl⟩ | ⟨rfl⟩ : (∃ t, a = 32 :: t) ∨ a = [] := by
      cases a with
      | nil => exact .inr rfl
      | cons x t => simp at h; exact .inl ⟨t, by rw [← h.1]⟩
    · cases t with
      | nil => simp at hm
      | cons y t =>
        simp at h
        have := ha y (by simp)
        rw [← h.1] at this
        exact absurd this (by decide)
    · cases hm

/-- The claim without restriction to `CompactQuoteSafe` texts. -/
def CompactQuoteLossless : Prop :=
  ∀ content key, (0 : Byte) ∉ content → ElementName key → Reads (key ++ 61 :: compactQuote content) [.element key [] [.text content]]

/-- A newline, a space and a letter: two quotes are printed without a separator, which is a syntax error. -/
theorem C06_false_leading_space : ∀ doc, ¬ Reads (b#"k=" ++ compactQuote b#"\n x") doc := by
  intro doc h
  rw [reads_iff] at h
  have : readOf (b#"k=" ++ compactQuote b#"\n x") = none := by decide +kernel
  rw [this] at h; cases h

/-- A text of quotes is read back as entity references. -/
theorem C06_false_quotes : Reads (b#"k=" ++ compactQuote b#"''") [.element b#"k" [] [.entity b#"apos", .entity b#"apos"]] :=
  (reads_iff _ _).2 (by decide +kernel)

/-- Three quotes in a row: spaces around the text are lost. -/
theorem C06_false_triple_quote : Reads (b#"k=" ++ compactQuote b#" a'''b ") [.element b#"k" [] [.text b#"a'''b"]] :=
  (reads_iff _ _).2 (by decide +kernel)

/-- Two tabs: the second one becomes the text after the element. -/
theorem C06_false_tabs : Reads (b#"k=" ++ compactQuote b#"\t\t") [.element b#"k" [] [.text b#"\t"], .text b#"\t"] :=
  (reads_iff _ _).2 (by decide +kernel)

/-- A continuation byte behind a space is not written. -/
theorem C06_false_stray : Reads (b#"k=" ++ compactQuote b#"a \x80b") [.element b#"k" [] [.text b#"a b"]] :=
  (reads_iff _ _).2 (by decide +kernel)

theorem C06_false : ¬ CompactQuoteLossless := fun h =>
  C06_false_leading_space _ (h b#"\n x" b#"k" (by decide) ⟨by intro b hb; simp at hb; subst hb; exact .inl ⟨by decide, by decide⟩, 107, [], rfl, .inl ⟨by decide, by decide⟩⟩)

/-- The condition `NoStray` holds for every text in proper UTF-8. -/
theorem C06_utf8_noStray (s : List Byte) (h : ValidUtf8 s) : NoStray s := h.noStray

/-! ## C07 -/

/-- A compact quoted value is a single line when the content has no three quotes in a row. -/
theorem C07_compact_quote_single_line_partial (content : List Byte) (h : ¬ [39, 39, 39] <:+: content) :
    (10 : Byte) ∉ compactQuote content ∧ (13 : Byte) ∉ compactQuote content := by
  obtain ⟨w, ho, h1, h2⟩ := adds_value (cfg := quoteCfg) (by exact .nil) rfl rfl .attrValue [.text content]
    ⟨fun s hs => by simp at hs; subst hs; exact h, by simp⟩ ⟨[], 0, 0, 0⟩
  have e : compactQuote content = w := ho
  rw [e]; exact ⟨h1, h2⟩

example : ¬ ([39, 39, 39] : List Byte) <:+: b#"it's\r\n''quoted''\n" ∧ compactQuote b#"it's\r\n''quoted''\n" ≠ [] := by decide +kernel

/-- With three quotes in a row the compact value contains line feeds. -/
theorem C07_false_triple_quote : (10 : Byte) ∈ compactQuote b#"a'''b" := by decide +kernel

/-- A whole document printed compactly is a single line with a line feed at its end, when names contain no line breaks, no text
    has three quotes in a row and no comment contains a carriage return. -/
theorem C07_compact_document_single_line_partial (cfg : OutCfg) (hc : cfg.compact = true)
    (hsp : OneLine cfg.indentationSpace) (doc : List Node) (h : NodesLine doc) (hne : doc ≠ []) :
    ∃ w, printDoc cfg doc = w ++ [10] ∧ OneLine w := by
  unfold printDoc
  simp only [hc, if_true]
  rw [if_neg (by simpa using hne)]
  obtain ⟨w, ho, hw⟩ := adds_nodes (cfg := { cfg with escapeNewlines := true, compact := true }) hsp rfl rfl doc h ⟨[], 0, 0, 0⟩ (some 0) 0
  refine ⟨w, ?_, hw⟩
  have e : cfg = { cfg with compact := true } := by cases cfg; simp at hc; simp [hc]
  rw [e]
  rw [ho]; rfl

example : NodesLine [.comment b#"x\ny", .element b#"a" [⟨b#"k", [.text b#"1\r\n2", .entity b#"lt"]⟩] [.text b#"it's\n"]] := by
  simp only [NodesLine, NodeLine, and_true]
  refine ⟨by decide +kernel, ⟨by decide, by decide⟩, ?_, by decide +kernel⟩
  intro a ha
  simp at ha; subst ha
  refine ⟨⟨by decide, by decide⟩, ?_, ?_⟩
  · intro s hs; simp at hs; subst hs; decide +kernel
  · intro s hs; simp at hs; subst hs; exact ⟨by decide, by decide⟩

/-- A comment keeps its carriage returns. -/
theorem C07_false_comment_cr : (13 : Byte) ∈ printDoc compactCfg [.comment b#"a\r\nb"] := by decide +kernel

/-! ## C19 -/

/-- What `print_char_entity` writes for a character, and how much of the text it consumes. -/
theorem C19_char_entity_printed (cp : Nat) (hcp : cp < 0x110000) (rest : List Byte) (ps : PS) :
    (ps.charEntity ((rfc3629 cp).map UInt8.ofNat ++ rest)).1.out = ps.out ++ charEntity cp ∧
    (ps.charEntity ((rfc3629 cp).map UInt8.ofNat ++ rest)).2 = (rfc3629 cp).length := by
  have hd := C01_decode_encode cp (by omega) rest _ (rfc_encode cp hcp)
  unfold PS.charEntity
  rw [hd]
  simp only [if_true]
  have : (charEntity cp).getLast? = some 59 := by unfold charEntity; rw [List.getLast?_append]; rfl
  unfold PS.print
  rw [this]
  simp

/-- Every character except NUL that is written as a numeric character entity is read back as the same character. -/
theorem C19_char_entity_read_back (cp : Nat) (h0 : cp ≠ 0) (hcp : cp < 0x110000) (key : List Byte) (hk : ElementName key) :
    Reads (key ++ 61 :: charEntity cp) [.element key [] [.text ((rfc3629 cp).map UInt8.ofNat)]] :=
  charEntity_reads h0 hcp (elemName_of hk)

example : charEntity 0x1f600 = b#"&#128512;" ∧ (rfc3629 0x1f600).map UInt8.ofNat = [0xf0, 0x9f, 0x98, 0x80] := by decide +kernel

/-! ## C30 -/

theorem K_nlEnd (cfg : OutCfg) (c : Byte) : K cfg c [10] :=
  ⟨⟨[10], [], rfl, by intro x hx; simp at hx; exact .inr hx, rfl, by simp⟩, by simp, by simp, fun _ => rfl, fun _ => .inr ⟨10, rfl, by decide⟩⟩

/-- Printing a document compactly and parsing the result gives the same document, with neighbouring texts joined, for
    documents described by `CompactSafe`.  What is excluded there is lost, see below; namespaces, doctypes and processing
    instructions are not modelled. -/
theorem C30_compact_round_trip_partial (cfg : OutCfg) (hc : cfg.compact = true) (hsp : cfg.indentationSpace = [32])
    (doc : List Node) (h : CompactSafe cfg doc) : Reads (printDoc cfg doc) (canon doc) := by
  unfold printDoc
  by_cases hne : doc = []
  · subst hne
    simp only [List.isEmpty_nil, if_true]
    exact (reads_iff _ _).2 (by decide +kernel)
  · simp only [hc, if_true]
    rw [if_neg (by simpa using hne)]
    have hc' : ({ cfg with escapeNewlines := true } : OutCfg).compact = true := hc
    have h' : CompactSafe { cfg with escapeNewlines := true } doc := compactSafe_congr (c1 := cfg) (c2 := { cfg with escapeNewlines := true }) rfl rfl doc h
    obtain ⟨he, hl⟩ := compact_nodes hc' rfl hsp doc h' ⟨[], 0, 0, 0⟩ (by decide) (some 0) 0
    have := (he.reads (K_nlEnd _ _)).plain
    rw [mergeNodes_eq] at this
    simpa only [hc, canon] using this

/-- For a document as libxml2 holds it after parsing, the result is exactly the document. -/
theorem C30_compact_round_trip_exact_partial (cfg : OutCfg) (hc : cfg.compact = true) (hsp : cfg.indentationSpace = [32])
    (doc : List Node) (h : CompactSafe cfg doc) (hn : Canonical doc) : Reads (printDoc cfg doc) doc := by
  have := C30_compact_round_trip_partial cfg hc hsp doc h
  rwa [canon_id hn] at this

/-- Different documents have different compact forms. -/
theorem C30_compact_injective_partial (cfg : OutCfg) (hc : cfg.compact = true) (hsp : cfg.indentationSpace = [32])
    (d1 d2 : List Node) (h1 : CompactSafe cfg d1) (n1 : Canonical d1) (h2 : CompactSafe cfg d2) (n2 : Canonical d2)
    (h : printDoc cfg d1 = printDoc cfg d2) : d1 = d2 := by
  have r1 := C30_compact_round_trip_exact_partial cfg hc hsp d1 h1 n1
  have r2 := C30_compact_round_trip_exact_partial cfg hc hsp d2 h2 n2
  rw [h] at r1
  exact C30_reads_unique _ _ _ r1 r2

/-- A document of the kind the theorems speak of. -/
def sampleDoc : List Node :=
  [.comment b#"first\nsecond", .element b#"a-1" [⟨b#"x", [.text b#"it's", .entity b#"lt"]⟩, ⟨b#"y", []⟩]
    [.text b#"line one\n  line 'two'\n\t", .element b#"b" [] [.text b#"{}"], .entity b#"nbsp", .element b#"c" [] []]]

theorem sampleDoc_safe : CompactSafe compactCfg sampleDoc := by
  have hn : ∀ s : List Byte, s.all (fun b => (97 ≤ b && b ≤ 122) || (48 ≤ b && b ≤ 57) || b == 45) = true → ∀ b ∈ s, LocalNameByte b := by
    intro s hs b hb
    have := List.all_eq_true.1 hs b hb
    simp at this
    unfold LocalNameByte
    rcases this with (h | h) | h
    · exact .inl h
    · exact .inr (.inr (.inl h))
    · exact .inr (.inr (.inr (.inl h)))
  have he : ∀ c t, (c :: t).all (fun b => (97 ≤ b && b ≤ 122) || (48 ≤ b && b ≤ 57) || b == 45) = true →
      (97 ≤ c ∧ c ≤ 122) → ElementName (c :: t) := fun c t h hc => ⟨hn _ h, c, t, rfl, .inl hc⟩
  have ht : ∀ s : List Byte, NoStray s → (0 : Byte) ∉ s → ¬ [39, 39, 39] <:+: s → (s.any (· != 39)) = true → CompactTextSafe compactCfg s :=
    fun s h0 h1 h2 h3 => ⟨h0, h1, h2, fun _ => by simpa using h3, by intro h; cases h⟩
  simp only [sampleDoc, CompactSafe, CompactNodeSafe, and_true]
  refine ⟨⟨by decide +kernel, by decide +kernel, by decide +kernel, by decide +kernel, by decide +kernel, by decide +kernel⟩,
    he _ _ (by decide) (by decide), ?_, ⟨ht _ (by decide +kernel) (by decide +kernel) (by decide +kernel) (by decide +kernel), ⟨he _ _ (by decide) (by decide), by simp,
      ht _ (by decide +kernel) (by decide +kernel) (by decide +kernel) (by decide +kernel), ?_⟩, ⟨fun b hb => .inl (hn _ (by decide) b hb), by decide⟩,
      he _ _ (by decide) (by decide), by simp, by simp⟩, by simp⟩
  · intro a ha
    simp only [List.mem_cons, List.not_mem_nil, or_false] at ha
    rcases ha with rfl | rfl
    · refine ⟨⟨by decide, hn _ (by decide), by decide⟩, by simp, ?_, ?_, by simp⟩
      · intro s hs
        simp at hs; subst hs
        exact ht _ (by decide +kernel) (by decide +kernel) (by decide +kernel) (by decide +kernel)
      · intro n h
        simp at h; subst h
        exact ⟨fun b hb => .inl (hn _ (by decide) b hb), by decide⟩
    · exact ⟨⟨by decide, hn _ (by decide), by decide⟩, by simp, by simp, by simp, by simp⟩
  · intro s hs
    simp at hs; subst hs
    exact ⟨by decide +kernel, .inl ⟨123, by decide, by decide⟩⟩

example : printDoc compactCfg sampleDoc =
    b#"/*first*/*second*/a-1(x=('''it's'''&lt;)y){'line one'&#10;'''  line 'two'''&#39;&#10;&#9;b='{}'&nbsp;c}\n" := by decide +kernel

/-- The claim without restriction: different documents have different compact forms. -/
def CompactInjective : Prop := ∀ d1 d2 : List Node, Canonical d1 → Canonical d2 → printDoc compactCfg d1 = printDoc compactCfg d2 → d1 = d2

/-- A value ending in a slash swallows the next element. -/
theorem C30_false : ¬ CompactInjective := by
  intro h
  have c1 : Canonical [.element b#"a" [] [.text b#"/x/"], .element b#"b" [] [.text b#"1"]] := by
    refine ⟨noTextPair_cons (by decide) (noTextPair_one _ _), ?_⟩
    simp only [CanonicalNodes, CanonicalNode, and_true]
    exact ⟨⟨by simp, noTextPair_one _ _⟩, by simp, noTextPair_one _ _⟩
  have c2 : Canonical [.element b#"a" [] [.text b#"/x/b=1"]] := by
    refine ⟨noTextPair_one _ _, ?_⟩
    simp only [CanonicalNodes, CanonicalNode, and_true]
    exact ⟨by simp, noTextPair_one _ _⟩
  exact absurd (h _ _ c1 c2 (by decide +kernel)) (by decide)

/-- A comment containing the end of a comment: the rest becomes elements. -/
theorem C30_false_comment :
    Reads (printDoc compactCfg [.comment b#"x*/y/*z"]) [.comment b#"x", .element b#"y" [] [], .comment b#"z"] :=
  (reads_iff _ _).2 (by decide +kernel)

/-- Continuation bytes behind a space are not written. -/
theorem C30_false_stray : Reads (printDoc compactCfg [.element b#"k" [] [.text b#"a \x80b"], .comment b#"x \x80y"])
    [.element b#"k" [] [.text b#"a b"], .comment b#"x y"] :=
  (reads_iff _ _).2 (by decide +kernel)

/-- A space at the start and one at the end of a comment are lost. -/
theorem C30_false_comment_spaces : Reads (printDoc compactCfg [.comment b#" x "]) [.comment b#"x"] :=
  (reads_iff _ _).2 (by decide +kernel)

/-- A semicolon at the end of a value swallows the next attribute. -/
theorem C30_false_attribute :
    Reads (printDoc compactCfg [.element b#"a" [⟨b#"x", [.text b#"1;"]⟩, ⟨b#"y", [.text b#"2"]⟩] []])
      [.element b#"a" [⟨b#"x", [.text b#"1;y=2"]⟩] []] :=
  (reads_iff _ _).2 (by decide +kernel)

/-- A newline at the end of a comment is lost. -/
theorem C30_false_comment_newline : Reads (printDoc compactCfg [.comment b#"x\n"]) [.comment b#"x"] :=
  (reads_iff _ _).2 (by decide +kernel)

end Xmq.Props
