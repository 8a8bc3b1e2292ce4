import Verif.Lemmas.NsBound
import Verif.Props.Namespaces
import Verif.Props.Pretty
/-!
# C64: documents with namespaces, processing instructions and a doctype survive printing as xmq
-/
namespace Xmq.Props
open Xmq Xmq.Spec

/-- The claim: what is printed is read as what was printed. -/
def NamesKept (cfg : OutCfg) : Prop := ∀ heap doc, BoundTree heap doc → ∃ out, printNs cfg heap doc = some out ∧ ReadsNames out (seeNodes heap doc)

theorem readsNames_nil : ReadsNames [] [] := by
  rw [readsNames_iff]
  have h : (namesOf []).map List.length = some 0 := by decide +kernel
  rw [Option.map_eq_some_iff] at h
  obtain ⟨x, h1, h2⟩ := h
  rw [h1, List.length_eq_zero_iff.1 h2]

/-- **C64**, compact output.  A document in which every prefix stands for the namespace it is declared to be is read back with
    all its names in the same namespaces, the same declarations, attributes, values, processing instructions and doctype,
    if its texts survive (`NsCompact`) and the reader copes with its declarations (`Tame`, see C62). -/
theorem C64_compact_partial (cfg : OutCfg) (hc : cfg.compact = true) (hsp : cfg.indentationSpace = [32]) (heap : List Ns) (doc : List NNode)
    (h : NsCompact cfg heap doc) (hb : BoundTree heap doc) (ht : Tame (allWritten heap doc)) :
    ∃ out, printNs cfg heap doc = some out ∧ ReadsNames out (seeNodes heap doc) := by
  obtain ⟨h1, h2, h3⟩ := @nsOks_compact ⟨true⟩ rfl cfg hc hsp heap doc h
  unfold printNs
  simp only [hc, if_true, h3, Bool.false_eq_true, if_false]
  by_cases hne : doc = []
  · subst hne
    exact ⟨[], rfl, readsNames_nil⟩
  · rw [if_neg (by simpa using hne)]
    obtain ⟨toks, d, t1, t2, t3, t4⟩ := @ns_written ⟨true⟩ rfl { cfg with escapeNewlines := true } hsp heap doc h1 h2 ht
    refine ⟨_, rfl, ?_⟩
    have := C62_resolved_partial _ d ⟨toks, t1, t2⟩ t4
    rw [t3, bound_resolve h2 hb] at this
    simpa only [hc] using this

/-- **C64**, pretty output. -/
theorem C64_pretty_partial (cfg : OutCfg) (hc : cfg.compact = false) (hsp : cfg.indentationSpace = [32]) (heap : List Ns) (doc : List NNode)
    (h : NsPretty cfg heap doc) (hb : BoundTree heap doc) (ht : Tame (allWritten heap doc)) :
    ∃ out, printNs cfg heap doc = some out ∧ ReadsNames out (seeNodes heap doc) := by
  obtain ⟨h1, h2, h3⟩ := @nsOks_pretty ⟨true⟩ rfl cfg hc hsp heap doc h
  unfold printNs
  simp only [hc, h3, Bool.false_eq_true, if_false]
  by_cases hne : doc = []
  · subst hne
    exact ⟨[], rfl, readsNames_nil⟩
  · rw [if_neg (by simpa using hne)]
    obtain ⟨toks, d, t1, t2, t3, t4⟩ := @ns_written ⟨true⟩ rfl cfg hsp heap doc h1 h2 ht
    refine ⟨_, rfl, ?_⟩
    have := C62_resolved_partial _ d ⟨toks, t1, t2⟩ t4
    rw [t3, bound_resolve h2 hb] at this
    simpa only [hc] using this

/-- Documents that are printed alike are seen alike: same names in the same namespaces, same declarations, same content. -/
theorem C64_injective_partial (cfg : OutCfg) (hc : cfg.compact = true) (hsp : cfg.indentationSpace = [32]) (h1 h2 : List Ns) (d1 d2 : List NNode)
    (g1 : NsCompact cfg h1 d1) (g2 : NsCompact cfg h2 d2) (b1 : BoundTree h1 d1) (b2 : BoundTree h2 d2)
    (t1 : Tame (allWritten h1 d1)) (t2 : Tame (allWritten h2 d2)) (e : printNs cfg h1 d1 = printNs cfg h2 d2) :
    seeNodes h1 d1 = seeNodes h2 d2 := by
  obtain ⟨o1, e1, r1⟩ := C64_compact_partial cfg hc hsp h1 d1 g1 b1 t1
  obtain ⟨o2, e2, r2⟩ := C64_compact_partial cfg hc hsp h2 d2 g2 b2 t2
  rw [e, e2] at e1
  cases e1
  exact C62_unique _ _ _ r1 r2

/-- The two forms of output mean the same. -/
theorem C64_agree_partial (c1 c2 : OutCfg) (h1 : c1.compact = true) (s1 : c1.indentationSpace = [32]) (h2 : c2.compact = false)
    (s2 : c2.indentationSpace = [32]) (heap : List Ns) (doc : List NNode) (g1 : NsCompact c1 heap doc) (g2 : NsPretty c2 heap doc)
    (b : BoundTree heap doc) (t : Tame (allWritten heap doc)) :
    ∃ o1 o2 x, printNs c1 heap doc = some o1 ∧ printNs c2 heap doc = some o2 ∧ ReadsNames o1 x ∧ ReadsNames o2 x := by
  obtain ⟨o1, e1, r1⟩ := C64_compact_partial c1 h1 s1 heap doc g1 b t
  obtain ⟨o2, e2, r2⟩ := C64_pretty_partial c2 h2 s2 heap doc g2 b t
  exact ⟨o1, o2, _, e1, e2, r1, r2⟩

/-! ## A document of the kind the theorems speak of -/

/-- Namespaces. -/
def nsHeap : List Ns := [⟨none, some b#"h"⟩, ⟨some b#"q", some b#"http://z"⟩, ⟨some b#"w", some b#"a b"⟩,
  ⟨some b#"xml", some b#"http://www.w3.org/XML/1998/namespace"⟩]

/-- Doctype, processing instruction, comment, names in namespaces, a prefix used by an attribute before its declaration. -/
def nsDoc : List NNode :=
  [.dtd b#"html", .pi b#"p" b#"q='r'.", .comment b#"c",
   .element b#"html" (some 0) [0, 1] [⟨b#"lang", some 3, [.text b#"en"]⟩, ⟨b#"z", none, []⟩]
    [.element b#"x" (some 1) [2] [⟨b#"v", some 2, [.text b#"1"]⟩] [.text b#"a b"], .pi b#"p" b#"1", .text b#"it",
     .element b#"y" (some 0) [] [] [.entity b#"lt", .text b#"c"]]]

example : printNs compactCfg nsHeap nsDoc =
    some b#"!DOCTYPE=html ?p='''q='r'.'''/*c*/html(xml:lang=en z xmlns=h xmlns:q=http://z){q:x(w:v=1 xmlns:w='a b')='a b'?p=1'it'y=(&lt;'c')}\n" := by
  decide +kernel

example : printNs prettyCfg nsHeap nsDoc = some b#"!DOCTYPE = html
?p = '''q='r'.'''
// c
html(xml:lang = en
     z
     xmlns    = h
     xmlns:q  = http://z)
{
    q:x(w:v     = 1
        xmlns:w = 'a b') = 'a b'
    ?p = 1
    'it'
    y = ( &lt;
          'c' )
}
" := by decide +kernel

theorem nsDoc_bound : BoundTree nsHeap nsDoc := by
  unfold BoundTree
  decide +kernel

theorem nsDoc_tame : Tame (allWritten nsHeap nsDoc) := by
  unfold Tame
  decide +kernel

section
theorem local_of (s : List Byte) (h : s.all (fun b => (97 ≤ b && b ≤ 122) || (48 ≤ b && b ≤ 57) || b == 45) = true) : ∀ b ∈ s, LocalNameByte b := by
  intro b hb
  have := List.all_eq_true.1 h b hb
  simp at this
  unfold LocalNameByte
  rcases this with (h | h) | h
  · exact .inl h
  · exact .inr (.inr (.inl h))
  · exact .inr (.inr (.inr (.inl h)))

theorem line_of {cfg : OutCfg} (s : List Byte) (h0 : s ≠ []) (h1 : (10 : Byte) ∉ s) (h2 : s.all (fun c => !Esc cfg c) = true)
    (h3 : s.any (fun c => !isXmlWhitespace c) = true) (h4 : s.head? ≠ some 39) (h5 : s.getLast? ≠ some 39) (h6 : ¬ [39, 39, 39] <:+: s)
    (h7 : ∀ c, s.getLast? = some c → c ≠ 61 ∧ c ≠ 47 ∧ c ≠ 59) (h8 : NoStray s := by decide +kernel) : LineSafe cfg s where
  noStray := h8
  ne := h0
  line := h1
  plain := notEscaped h2
  notBlank := by
    obtain ⟨b, hb, h⟩ := List.any_eq_true.1 h3
    exact ⟨b, hb, by rw [not_white]; simpa using h⟩
  head := h4
  last := h5
  noTriple := h6
  bare := .inr fun c hc => ⟨(h7 c hc).1, fun _ => (h7 c hc).2⟩

theorem elem_of (pre : Option (List Byte)) (name : List Byte) (hp : ∀ p, pre = some p → ElementName p) (h : ElementName name) : ElementNameNs pre name := by
  cases pre with
  | none => exact h
  | some p =>
    refine ⟨hp p rfl, ?_, h.1⟩
    obtain ⟨-, c, t, rfl, -⟩ := h
    simp

theorem ename_of (c : Byte) (t : List Byte) (h : (c :: t).all (fun b => (97 ≤ b && b ≤ 122) || (48 ≤ b && b ≤ 57) || b == 45) = true)
    (hc : 97 ≤ c ∧ c ≤ 122) : ElementName (c :: t) := ⟨local_of _ h, c, t, rfl, .inl hc⟩

/-- The head of the elements of `nsDoc`, for both kinds of output. -/
theorem nsDoc_heads (cfg : OutCfg) (he : cfg = compactCfg ∨ cfg = prettyCfg) (values : List Val → Prop) (h0 : values []) (h1 : values [.text b#"en"])
    (h2 : values [.text b#"1"]) :
    HeadSafe cfg nsHeap values b#"html" (some 0) [0, 1] [⟨b#"lang", some 3, [.text b#"en"]⟩, ⟨b#"z", none, []⟩] ∧
    HeadSafe cfg nsHeap values b#"x" (some 1) [2] [⟨b#"v", some 2, [.text b#"1"]⟩] ∧ HeadSafe cfg nsHeap values b#"y" (some 0) [] [] := by
  have hl : ∀ s : List Byte, s ∈ [b#"h", b#"http://z", b#"a b"] → LineSafe cfg s := by
    intro s hs
    simp only [List.mem_cons, List.not_mem_nil, or_false] at hs
    rcases hs with rfl | rfl | rfl <;> refine line_of _ (by decide) (by decide) ?_ (by decide) (by decide) (by decide) (by decide) (by decide) <;>
      rcases he with rfl | rfl <;> decide
  refine ⟨⟨ename_of _ _ (by decide) (by decide), ?_, ?_⟩, ⟨⟨ename_of _ _ (by decide) (by decide), by decide, local_of _ (by decide)⟩, ?_, ?_⟩,
    ⟨ename_of _ _ (by decide) (by decide), by simp, by simp⟩⟩
  · intro a ha
    simp only [List.mem_cons, List.not_mem_nil, or_false] at ha
    rcases ha with rfl | rfl
    · exact ⟨⟨⟨by decide, local_of _ (by decide), by decide⟩, by decide, local_of _ (by decide)⟩, by simp, h1⟩
    · exact ⟨⟨by decide, local_of _ (by decide), by decide⟩, by simp, h0⟩
  · intro d hd
    simp only [List.mem_cons, List.not_mem_nil, or_false] at hd
    rcases hd with rfl | rfl
    · exact ⟨_, rfl, by simp, fun u hu => by cases hu; exact hl _ (by simp)⟩
    · exact ⟨_, rfl, fun p hp => by cases hp; exact ⟨by decide, local_of _ (by decide)⟩, fun u hu => by cases hu; exact hl _ (by simp)⟩
  · intro a ha
    simp only [List.mem_cons, List.not_mem_nil, or_false] at ha
    subst ha
    exact ⟨⟨⟨by decide, local_of _ (by decide), by decide⟩, by decide, local_of _ (by decide)⟩, by simp, h2⟩
  · intro d hd
    simp only [List.mem_cons, List.not_mem_nil, or_false] at hd
    subst hd
    exact ⟨_, rfl, fun p hp => by cases hp; exact ⟨by decide, local_of _ (by decide)⟩, fun u hu => by cases hu; exact hl _ (by simp)⟩

theorem nsDoc_compact : NsCompact compactCfg nsHeap nsDoc := by
  have ht : ∀ s : List Byte, NoStray s → (0 : Byte) ∉ s → ¬ [39, 39, 39] <:+: s → (s.any (· != 39)) = true → CompactTextSafe compactCfg s :=
    fun s h0 h1 h2 h3 => ⟨h0, h1, h2, fun _ => by simpa using h3, by intro h; cases h⟩
  have hv : ∀ s : List Byte, CompactTextSafe compactCfg s → CompactValueSafe compactCfg s → CompactValuesSafe compactCfg [.text s] := by
    intro s h1 h2
    refine ⟨fun s' hs => ?_, by simp, fun s' hs => ?_⟩ <;> simp at hs <;> subst hs <;> assumption
  obtain ⟨e1, e2, e3⟩ := nsDoc_heads compactCfg (.inl rfl) (CompactValuesSafe compactCfg) ⟨by simp, by simp, by simp⟩
    (hv _ (ht _ (by decide +kernel) (by decide) (by decide) (by decide)) ⟨by decide, .inr (by decide)⟩)
    (hv _ (ht _ (by decide +kernel) (by decide) (by decide) (by decide)) ⟨by decide, .inr (by decide)⟩)
  simp only [nsDoc, NsCompact, NsCompactNode, and_true]
  refine ⟨⟨line_of _ (by decide) (by decide) (by decide) (by decide) (by decide) (by decide) (by decide) (by decide), local_of _ (by decide)⟩,
    ⟨by decide, local_of _ (by decide), line_of _ (by decide) (by decide) (by decide) (by decide) (by decide) (by decide) (by decide) (by decide)⟩,
    ⟨by decide +kernel, by decide +kernel, by decide +kernel, by decide +kernel, by decide +kernel, by decide +kernel⟩,
    e1, ⟨⟨e2, ht _ (by decide +kernel) (by decide) (by decide) (by decide), fun s hs => ?_⟩,
      ⟨by decide, local_of _ (by decide), line_of _ (by decide) (by decide) (by decide) (by decide) (by decide) (by decide) (by decide) (by decide)⟩,
      ht _ (by decide +kernel) (by decide) (by decide) (by decide), e3, ⟨⟨fun b hb => .inl (local_of _ (by decide) b hb), by decide⟩, ht _ (by decide +kernel) (by decide) (by decide) (by decide)⟩,
      by simp⟩, by simp⟩
  simp at hs; subst hs
  exact ⟨by decide, .inl ⟨32, by decide, by decide⟩⟩

theorem nsDoc_pretty : NsPretty prettyCfg nsHeap nsDoc := by
  have ht : ∀ s : List Byte, NoStray s → (0 : Byte) ∉ s → (s.any (· != 39)) = true → s.all (fun c => !Esc prettyCfg c) = true → PieceSafe s →
      PrettyTextSafe prettyCfg s :=
    fun s h0 h1 h2 h3 h4 => ⟨h0, h1, fun _ => by simpa using h2, (by intro h; cases h), piecesSafe_one (notEscaped h3) h4⟩
  have hv : ∀ s : List Byte, PrettyTextSafe prettyCfg s → PrettyValueSafe prettyCfg s → PrettyValuesSafe prettyCfg [.text s] := by
    intro s h1 h2
    refine ⟨fun s' hs => ?_, by simp, fun s' hs => ?_⟩ <;> simp at hs <;> subst hs <;> assumption
  obtain ⟨e1, e2, e3⟩ := nsDoc_heads prettyCfg (.inr rfl) (PrettyValuesSafe prettyCfg) ⟨by simp, by simp, by simp⟩
    (hv _ (ht _ (by decide +kernel) (by decide) (by decide) (by decide) (pieceSafe_plain (by decide) (by decide) (by decide))) ⟨by decide, .inr (by decide)⟩)
    (hv _ (ht _ (by decide +kernel) (by decide) (by decide) (by decide) (pieceSafe_plain (by decide) (by decide) (by decide))) ⟨by decide, .inr (by decide)⟩)
  simp only [nsDoc, NsPretty, NsPrettyNode, and_true]
  refine ⟨⟨line_of _ (by decide) (by decide) (by decide) (by decide) (by decide) (by decide) (by decide) (by decide), local_of _ (by decide)⟩,
    ⟨by decide, local_of _ (by decide), line_of _ (by decide) (by decide) (by decide) (by decide) (by decide) (by decide) (by decide) (by decide)⟩,
    ⟨by decide +kernel, by decide, by decide, by decide, by simp⟩,
    e1, ⟨⟨e2, ht _ (by decide +kernel) (by decide) (by decide) (by decide) (pieceSafe_plain (by decide) (by decide) (by decide)), fun s hs => ?_, .inr (.inl (by simp))⟩,
      ⟨by decide, local_of _ (by decide), line_of _ (by decide) (by decide) (by decide) (by decide) (by decide) (by decide) (by decide) (by decide)⟩,
      ht _ (by decide +kernel) (by decide) (by decide) (by decide) (pieceSafe_plain (by decide) (by decide) (by decide)), e3,
      ⟨⟨fun b hb => .inl (local_of _ (by decide) b hb), by decide⟩, ht _ (by decide +kernel) (by decide) (by decide) (by decide)
        (pieceSafe_plain (by decide) (by decide) (by decide))⟩, by simp, by simp⟩, by simp, .inr (.inr ⟨.pi b#"p" b#"1", by simp, rfl⟩)⟩
  simp at hs; subst hs
  exact ⟨by decide, .inl ⟨32, by decide, by decide⟩⟩
end

/-! ## What is lost -/

/-- The document is bound, and what is printed is read with the one outline instead of the other. -/
def Changes (cfg : OutCfg) (heap : List Ns) (doc : List NNode) (is becomes : List Item) : Prop :=
  BoundTree heap doc ∧ outline (seeNodes heap doc) = is ∧ ∃ out x, printNs cfg heap doc = some out ∧ ReadsNames out x ∧ outline x = becomes

theorem changes_of {cfg : OutCfg} {heap : List Ns} {doc : List NNode} {is becomes : List Item}
    (h1 : (apartNodes doc && boundNodes topEnv heap doc) = true) (h2 : outline (seeNodes heap doc) = is)
    (h3 : (printNs cfg heap doc).map (fun out => (namesOf out).map outline) = some (some becomes)) : Changes cfg heap doc is becomes := by
  rw [Option.map_eq_some_iff] at h3
  obtain ⟨out, h3, h4⟩ := h3
  rw [Option.map_eq_some_iff] at h4
  obtain ⟨x, h4, h5⟩ := h4
  exact ⟨h1, h2, out, x, h3, (readsNames_iff _ _).2 h4, h5⟩

theorem Changes.not {cfg : OutCfg} {heap : List Ns} {doc : List NNode} {is becomes : List Item} (h : Changes cfg heap doc is becomes)
    (hne : is ≠ becomes) : ¬ NamesKept cfg := by
  intro hk
  obtain ⟨h1, rfl, out, x, h3, h4, rfl⟩ := h
  obtain ⟨out', h5, h6⟩ := hk heap doc h1
  rw [h3] at h5
  cases h5
  exact hne (by rw [C62_unique _ _ _ h4 h6])

/-- Two attributes with a prefix that is declared by their element: the second one loses its namespace, since declarations are
    printed behind the attributes. -/
theorem C64_false_two_attributes (cfg : OutCfg) (h : cfg = compactCfg ∨ cfg = prettyCfg) :
    Changes cfg [⟨some b#"p", some b#"u"⟩] [.element b#"a" none [0] [⟨b#"x", some 0, [.text b#"1"]⟩, ⟨b#"y", some 0, [.text b#"2"]⟩] []]
      [.start (plainName b#"a") [(inPrefix b#"u" b#"p" b#"x", [.text b#"1"]), (inPrefix b#"u" b#"p" b#"y", [.text b#"2"])], .stop]
      [.start (plainName b#"a") [(inPrefix b#"u" b#"p" b#"x", [.text b#"1"]), (plainName b#"y", [.text b#"2"])], .stop] := by
  rcases h with rfl | rfl <;> exact changes_of (by decide +kernel) (by decide +kernel) (by decide +kernel)

theorem C64_false : ¬ NamesKept compactCfg ∧ ¬ NamesKept prettyCfg :=
  ⟨(C64_false_two_attributes _ (.inl rfl)).not (by decide), (C64_false_two_attributes _ (.inr rfl)).not (by decide)⟩

/-- An element behind one that declares a default namespace is put into that namespace. -/
theorem C64_false_default_stays : Changes compactCfg [⟨none, some b#"u"⟩] [.element b#"r" none [] [] [.element b#"a" (some 0) [0] [] [], .element b#"b" none [] [] []]]
    [.start (plainName b#"r") [], .start (inDefault b#"u" b#"a") [], .stop, .start (plainName b#"b") [], .stop, .stop]
    [.start (plainName b#"r") [], .start (inDefault b#"u" b#"a") [], .stop, .start (inDefault b#"u" b#"b") [], .stop, .stop] :=
  changes_of (by decide +kernel) (by decide +kernel) (by decide +kernel)

/-- An element with another default namespace than the element around it is put into the outer one. -/
theorem C64_false_default_again : Changes compactCfg [⟨none, some b#"u"⟩, ⟨none, some b#"v"⟩] [.element b#"a" (some 0) [0] [] [.element b#"b" (some 1) [1] [] []]]
    [.start (inDefault b#"u" b#"a") [], .start (inDefault b#"v" b#"b") [], .stop, .stop]
    [.start (inDefault b#"u" b#"a") [], .start (inDefault b#"u" b#"b") [], .stop, .stop] :=
  changes_of (by decide +kernel) (by decide +kernel) (by decide +kernel)

/-- The content of a processing instruction gets spaces beside quotes at its ends. -/
theorem C64_false_pi_quotes : Changes compactCfg [] [.pi b#"a" b#"x='1'"] [.pi b#"a" b#"x='1'"] [.pi b#"a" b#"x='1' "] :=
  changes_of (by decide +kernel) (by decide +kernel) (by decide +kernel)

/-- In compact output a newline in a processing instruction becomes a space. -/
theorem C64_false_pi_newline : Changes compactCfg [] [.pi b#"a" b#"x\ny"] [.pi b#"a" b#"x\ny"] [.pi b#"a" b#"x y"] :=
  changes_of (by decide +kernel) (by decide +kernel) (by decide +kernel)

/-- Printing a processing instruction without content is undefined behaviour. -/
theorem C64_false_pi_empty (cfg : OutCfg) (t : List Byte) : BoundTree [] [.pi t []] ∧ printNs cfg [] [.pi t []] = none := ⟨rfl, rfl⟩

end Xmq.Props
