import Verif.Lemmas.NsTop
import Verif.Lemmas.SyntaxEval
import Verif.Lemmas.SyntaxUnique
import Verif.Lemmas.SyntaxRead
/-!
# C62, C63: the names of a document, processing instructions and doctypes
-/
namespace Xmq.Props
open Xmq Xmq.Spec

/-! ## The document as it is written -/

/-- **C62**, syntax: the tokens of every accepted text, in which carriage returns stand before line feeds only and whose
    references by number are numbers of characters, are those of exactly one document. -/
theorem C62_written (input : List Byte) (toks : List Tok) (h : Tokenizes input toks) (hc : NoLoneCr input) (hr : RefsOk toks) :
    ∃ d, Doc (noWs toks) d ∧ ∀ d', Doc (noWs toks) d' → d' = d := by
  obtain ⟨d, hd⟩ := tokenizes_doc input toks h (tokenizes_evaluates h hc hr)
  exact ⟨d, hd, fun d' h' => doc_unique h' hd⟩

/-- The text is read as the document with these nodes. -/
def ReadsNames (input : List Byte) (x : List XNode) : Prop :=
  ∃ toks heap kids, Tokenizes input toks ∧ nsBuild toks = some (heap, kids) ∧ seeNodes heap kids = x

/-- The text is written as the document `d`. -/
def Written (input : List Byte) (d : List SNode) : Prop := ∃ toks, Tokenizes input toks ∧ Doc (noWs toks) d

/-- The claim: a text is read as what the document means. -/
def NamesResolved : Prop := ∀ input d, Written input d → ReadsNames input (resolve d)

/-- **C62.**  The names of elements and attributes belong to the namespaces that the declarations in scope say, the
    declarations are kept, and values, comments and children are in place, for all documents that avoid what is shown to go
    wrong below (`Tame`). -/
theorem C62_resolved_partial (input : List Byte) (d : List SNode) (h : Written input d) (ht : Tame d) : ReadsNames input (resolve d) := by
  obtain ⟨toks, h1, h2⟩ := h
  obtain ⟨heap, kids, h3, h4⟩ := nsBuild_resolve h2 ht
  exact ⟨toks, heap, kids, h1, h3, h4⟩

/-- **C62**, from the text: an accepted text is written as one document, and if that is tame it is read as its meaning. -/
theorem C62_read_partial (input : List Byte) (toks : List Tok) (h : Tokenizes input toks) (hc : NoLoneCr input) (hr : RefsOk toks) :
    ∃ d, Written input d ∧ (Tame d → ReadsNames input (resolve d)) := by
  obtain ⟨d, hd, -⟩ := C62_written input toks h hc hr
  exact ⟨d, ⟨toks, h, hd⟩, C62_resolved_partial input d ⟨toks, h, hd⟩⟩

/-- What a text is read as, computed. -/
def namesOf (input : List Byte) : Option (List XNode) := ((tokensOf input).bind nsBuild).map fun x => seeNodes x.1 x.2

theorem readsNames_iff (input : List Byte) (x : List XNode) : ReadsNames input x ↔ namesOf input = some x := by
  unfold ReadsNames namesOf
  simp only [tokenizes_iff, Option.map_eq_some_iff, Option.bind_eq_some_iff, Prod.exists]
  constructor
  · rintro ⟨t, h, k, h1, h2, h3⟩; exact ⟨h, k, ⟨t, h1, h2⟩, h3⟩
  · rintro ⟨h, k, ⟨t, h1, h2⟩, h3⟩; exact ⟨t, h, k, h1, h2, h3⟩

/-- **C62**: a text is read as at most one document. -/
theorem C62_unique (input : List Byte) (x y : List XNode) (h : ReadsNames input x) (h' : ReadsNames input y) : x = y := by
  rw [readsNames_iff] at h h'
  rw [h] at h'
  exact Option.some.inj h'

/-- A document without its declarations, as a list. -/
inductive Item
  | text (s : List Byte)
  | entity (s : List Byte)
  | comment (s : List Byte)
  | pi (target content : List Byte)
  | doctype (name : List Byte)
  | start (name : QName) (attrs : List (QName × List Val))
  | stop
deriving DecidableEq

mutual
def outlineOne : XNode → List Item
  | .text s => [.text s]
  | .entity s => [.entity s]
  | .comment s => [.comment s]
  | .pi t c => [.pi t c]
  | .doctype n => [.doctype n]
  | .element n _ as kids => .start n as :: (outline kids ++ [.stop])
def outline : List XNode → List Item
  | [] => []
  | n :: ns => outlineOne n ++ outline ns
end

/-- The text means a document with the one outline and is read as one with the other. -/
def Differs (input : List Byte) (means is : List Item) : Prop :=
  ∃ d x, Written input d ∧ outline (resolve d) = means ∧ ReadsNames input x ∧ outline x = is

theorem differs_of {input : List Byte} {means is : List Item}
    (h1 : (docOf input).map (fun d => outline (resolve d)) = some means) (h2 : (namesOf input).map outline = some is) :
    Differs input means is := by
  rw [Option.map_eq_some_iff] at h1 h2
  obtain ⟨d, hd, e1⟩ := h1
  obtain ⟨x, hx, e2⟩ := h2
  exact ⟨d, x, docOf_sound hd, e1, (readsNames_iff _ _).2 hx, e2⟩

theorem Differs.not {input : List Byte} {means is : List Item} (h : Differs input means is) (hne : means ≠ is) : ¬ NamesResolved := by
  intro hn
  obtain ⟨d, x, h1, rfl, h3, rfl⟩ := h
  exact hne (by rw [C62_unique input _ _ (hn input d h1) h3])

/-- A name in no namespace. -/
def plainName (n : List Byte) : QName := ⟨none, none, n⟩
/-- A name in the default namespace. -/
def inDefault (uri n : List Byte) : QName := ⟨some uri, none, n⟩
/-- A name with a prefix. -/
def inPrefix (uri p n : List Byte) : QName := ⟨some uri, some p, n⟩

/-- A document with a doctype, two default names, prefixes declared before and behind their use, `xml:lang`, a processing
    instruction, a comment and values of all kinds. -/
def namesText : List Byte :=
  b#"!DOCTYPE = html html(xml:lang=en xmlns=h xmlns:q=z) { q:x(q:y=1 z) = ('a' &nbsp; 'b') ?p='q r' //c\n 'x' 'y' q:x(w:v=0 xmlns:w=3) { w = &#65; } }"

/-- What `namesText` means. -/
def namesItems : List Item :=
  [.doctype b#"html",
   .start (inDefault b#"h" b#"html") [(inPrefix b#"http://www.w3.org/XML/1998/namespace" b#"xml" b#"lang", [.text b#"en"])],
   .start (inPrefix b#"z" b#"q" b#"x") [(inPrefix b#"z" b#"q" b#"y", [.text b#"1"]), (plainName b#"z", [])],
   .text b#"a", .entity b#"nbsp", .text b#"b", .stop,
   .pi b#"p" b#"q r", .comment b#"c", .text b#"xy",
   .start (inPrefix b#"z" b#"q" b#"x") [(inPrefix b#"3" b#"w" b#"v", [.text b#"0"])],
   .start (inDefault b#"h" b#"w") [], .text b#"A", .stop, .stop, .stop]

/-- `namesText` meets the conditions of `C62_resolved_partial`. -/
theorem namesText_means : ∃ d, Written namesText d ∧ Tame d ∧ outline (resolve d) = namesItems := by
  have h : (docOf namesText).map (fun d => (tameTop true true d, outline (resolve d))) = some (true, namesItems) := by decide +kernel
  rw [Option.map_eq_some_iff] at h
  obtain ⟨d, hd, e⟩ := h
  rw [Prod.mk.injEq] at e
  exact ⟨d, docOf_sound hd, e.1, e.2⟩

/-! ## Where names go wrong -/

/-- A default namespace stays in force behind the element that declares it: `b` is put into the namespace declared by its
    sibling `a`. -/
theorem C62_false_default_stays : Differs b#"root { a(xmlns=u) b }"
    [.start (plainName b#"root") [], .start (inDefault b#"u" b#"a") [], .stop, .start (plainName b#"b") [], .stop, .stop]
    [.start (plainName b#"root") [], .start (inDefault b#"u" b#"a") [], .stop, .start (inDefault b#"u" b#"b") [], .stop, .stop] :=
  differs_of (by decide +kernel) (by decide +kernel)

theorem C62_false : ¬ NamesResolved := C62_false_default_stays.not (by decide)

/-- Another default namespace has no effect on the element that declares it. -/
theorem C62_false_default_again : Differs b#"a(xmlns=u){ b(xmlns=v) }"
    [.start (inDefault b#"u" b#"a") [], .start (inDefault b#"v" b#"b") [], .stop, .stop]
    [.start (inDefault b#"u" b#"a") [], .start (inDefault b#"u" b#"b") [], .stop, .stop] :=
  differs_of (by decide +kernel) (by decide +kernel)

/-- Taking the default namespace back for one element takes it back for all that follow. -/
theorem C62_false_default_off : Differs b#"a(xmlns=u){ b(xmlns='') c }"
    [.start (inDefault b#"u" b#"a") [], .start (plainName b#"b") [], .stop, .start (inDefault b#"u" b#"c") [], .stop, .stop]
    [.start (inDefault b#"u" b#"a") [], .start (plainName b#"b") [], .stop, .start (plainName b#"c") [], .stop, .stop] :=
  differs_of (by decide +kernel) (by decide +kernel)

/-- Taking the default namespace back takes the namespace of the prefix away. -/
theorem C62_false_default_off_prefixed : Differs b#"p:a(xmlns:p=u xmlns='')"
    [.start (inPrefix b#"u" b#"p" b#"a") [], .stop] [.start (plainName b#"a") [], .stop] :=
  differs_of (by decide +kernel) (by decide +kernel)

/-- An element with a prefix that it declares anew is put into the outer namespace of that prefix. -/
theorem C62_false_prefix_again : Differs b#"p:a(xmlns:p=1){ p:b(xmlns:p=2) }"
    [.start (inPrefix b#"1" b#"p" b#"a") [], .start (inPrefix b#"2" b#"p" b#"b") [], .stop, .stop]
    [.start (inPrefix b#"1" b#"p" b#"a") [], .start (inPrefix b#"1" b#"p" b#"b") [], .stop, .stop] :=
  differs_of (by decide +kernel) (by decide +kernel)

/-- The second attribute that uses a prefix before its declaration loses its namespace.  Printing puts declarations behind the
    attributes, so this happens to every document with two such attributes when it is printed and read again. -/
theorem C62_false_two_before : Differs b#"a(p:x=1 p:y=2 xmlns:p=u)"
    [.start (plainName b#"a") [(inPrefix b#"u" b#"p" b#"x", [.text b#"1"]), (inPrefix b#"u" b#"p" b#"y", [.text b#"2"])], .stop]
    [.start (plainName b#"a") [(inPrefix b#"u" b#"p" b#"x", [.text b#"1"]), (plainName b#"y", [.text b#"2"])], .stop] :=
  differs_of (by decide +kernel) (by decide +kernel)

/-- The same for an attribute of an element with the prefix. -/
theorem C62_false_element_before : Differs b#"p:a(p:x=1 xmlns:p=u)"
    [.start (inPrefix b#"u" b#"p" b#"a") [(inPrefix b#"u" b#"p" b#"x", [.text b#"1"])], .stop]
    [.start (inPrefix b#"u" b#"p" b#"a") [(plainName b#"x", [.text b#"1"])], .stop] :=
  differs_of (by decide +kernel) (by decide +kernel)

/-- A declaration without a value takes the value of the next attribute. -/
theorem C62_false_no_value : Differs b#"a(xmlns b=1)"
    [.start (plainName b#"a") [(plainName b#"b", [.text b#"1"])], .stop]
    [.start (inDefault b#"1" b#"a") [(plainName b#"b", [])], .stop] :=
  differs_of (by decide +kernel) (by decide +kernel)

/-! ## C63: processing instructions -/

/-- The claim: a processing instruction with a bare or quoted value is read with that value. -/
def PiRead : Prop := ∀ input name v u, Written input [.element none (b#'?' :: name) none (some v) []] → v.text? = some u →
  ReadsNames input [.pi name u]

/-- **C63.**  A processing instruction is read with its target and exactly its value, if the value is not empty and neither
    begins nor ends with a quote. -/
theorem C63_pi_partial (input name : List Byte) (v : SVal) (u : List Byte)
    (h : Written input [.element none (b#'?' :: name) none (some v) []]) (hv : v.text? = some u) (h0 : u ≠ [])
    (h1 : u.head? ≠ some b#'\'') (h2 : u.getLast? ≠ some b#'\'') : ReadsNames input [.pi name u] := by
  have hp : isPi none (b#'?' :: name) = true := by simp [isPi]
  have hd : isDoctype none (b#'?' :: name) = false := by simp [isDoctype]
  have ht : Tame [.element none (b#'?' :: name) none (some v) []] := by
    unfold Tame
    rw [tameTop_element, hd, hp, tameNode_element, hp]
    simp [tamePi, hv, h0, h1, h2, tameTop]
  have := C62_resolved_partial input _ h ht
  simpa [resolve, resolveNodes, resolveNode, hp, hd, hv, joinNodes] using this

/-- The conditions can be met. -/
theorem pi_written : Written b#"?xml-stylesheet = 'href=\"a.css\"'"
    [.element none b#"?xml-stylesheet" none (some (.quoted b#"href=\"a.css\"")) []] := docOf_sound (by rfl)

/-- A value that begins or ends with a quote gets spaces there. -/
theorem C63_false_edge_spaces : Differs b#"?a='''\n'x'\n'''" [.pi b#"a" b#"'x'"] [.pi b#"a" b#" 'x' "] :=
  differs_of (by decide +kernel) (by decide +kernel)

/-- A processing instruction without a value takes the value of the next element, and comes behind it. -/
theorem C63_false_no_value : Differs b#"?foo a=1" [.pi b#"foo" [], .start (plainName b#"a") [], .text b#"1", .stop]
    [.start (plainName b#"a") [], .stop, .pi b#"foo" b#"1"] :=
  differs_of (by decide +kernel) (by decide +kernel)

/-- A processing instruction with an empty value makes the code read the byte before an empty string. -/
theorem C63_false_empty : ∃ toks, Tokenizes b#"?foo=''" toks ∧ nsBuild toks = none := by
  have h2 : ∃ toks, tokensOf b#"?foo=''" = some toks := by
    cases h : tokensOf b#"?foo=''" with
    | some t => exact ⟨t, rfl⟩
    | none =>
      have : (tokensOf b#"?foo=''").isSome = true := by decide +kernel
      rw [h] at this; cases this
  obtain ⟨toks, ht⟩ := h2
  refine ⟨toks, (tokenizes_iff _ _).2 ht, ?_⟩
  have : ((tokensOf b#"?foo=''").bind nsBuild).isSome = false := by decide +kernel
  rw [ht, Option.bind_some] at this
  simpa using this

theorem C63_false : ¬ PiRead := by
  intro h
  obtain ⟨d, x, h1, h2, h3, h4⟩ := C63_false_edge_spaces
  have hd : (docOf b#"?a='''\n'x'\n'''") = some [.element none b#"?a" none (some (.quoted b#"'x'")) []] := by rfl
  have := h b#"?a='''\n'x'\n'''" b#"a" (.quoted b#"'x'") b#"'x'" (docOf_sound hd) rfl
  rw [C62_unique _ _ _ h3 this] at h4
  revert h4
  decide +kernel

end Xmq.Props
