import Verif.Lemmas.RootRun
import Verif.Props.Namespaces
/-!
# C76: reading with an implicit root
-/
namespace Xmq.Props
open Xmq Xmq.Spec

/-- With the implicit root `r` the text is read as the document with these nodes. -/
def ReadsRooted (r input : List Byte) (x : List XNode) : Prop :=
  ∃ toks heap kids, Tokenizes input toks ∧ rootBuild r toks = some (heap, kids) ∧ seeNodes heap kids = x

/-- The claim: an implicit root is put around what the text says, unless the text is one element with that name. -/
def RootSupplied : Prop := ∀ r input x, r ≠ [] → ReadsNames input x → ReadsRooted r input (expectRoot r x)

/-- **C76**, exactly: for every text and every name, the document that is read with an implicit root, in terms of the document
    that is read without. -/
theorem C76_exact (r input : List Byte) (x : List XNode) (hr : r ≠ []) (h : ReadsNames input x) : ReadsRooted r input (actualRoot r x) := by
  obtain ⟨toks, heap, kids, h1, h2, rfl⟩ := h
  exact ⟨toks, heap, Rooted.actual r kids, h1, Rooted.rootBuild_actual hr h1 h2, Rooted.see_actual heap r kids⟩

/-- An empty name is no root. -/
theorem C76_empty (input : List Byte) (x : List XNode) : ReadsRooted [] input x ↔ ReadsNames input x := Iff.rfl

/-- What a text is read as with an implicit root, computed. -/
def rootedOf (r input : List Byte) : Option (List XNode) := ((tokensOf input).bind (rootBuild r)).map fun x => seeNodes x.1 x.2

theorem readsRooted_iff (r input : List Byte) (x : List XNode) : ReadsRooted r input x ↔ rootedOf r input = some x := by
  unfold ReadsRooted rootedOf
  simp only [tokenizes_iff, Option.map_eq_some_iff, Option.bind_eq_some_iff, Prod.exists]
  constructor
  · rintro ⟨t, h, k, h1, h2, h3⟩; exact ⟨h, k, ⟨t, h1, h2⟩, h3⟩
  · rintro ⟨h, k, ⟨t, h1, h2⟩, h3⟩; exact ⟨t, h, k, h1, h2, h3⟩

/-- A text is read as at most one document. -/
theorem C76_unique (r input : List Byte) (x y : List XNode) (h : ReadsRooted r input x) (h' : ReadsRooted r input y) : x = y := by
  rw [readsRooted_iff] at h h'
  rw [h] at h'
  exact Option.some.inj h'

/-- **C76.**  If, apart from processing instructions and the doctype, the text begins with an element and that does not have
    the name of the root or is the only one, then the root is supplied as claimed. -/
theorem C76_root_partial (r input : List Byte) (pre post : List XNode) (q : QName) (e : Env) (as : List (QName × List Val)) (ks : List XNode)
    (hr : r ≠ []) (h : ReadsNames input (pre ++ .element q e as ks :: post)) (hpre : ∀ n ∈ pre, isProlog n = true)
    (hq : q.name = r → post.any isElem = false) :
    ReadsRooted r input (expectRoot r (pre ++ .element q e as ks :: post)) := by
  have := C76_exact r input _ hr h
  have hd : (pre ++ .element q e as ks :: post).dropWhile isProlog = .element q e as ks :: post := by
    rw [List.dropWhile_append_of_pos hpre]; simp [List.dropWhile_cons, isProlog]
  unfold actualRoot at this
  unfold expectRoot
  rw [hd] at this ⊢
  simp only at this ⊢
  by_cases c : q.name = r
  · rw [if_pos c] at this
    rw [if_pos ⟨c, hq c⟩]
    exact this
  · rw [if_neg c] at this
    rw [if_neg (fun h => c h.1)]
    exact this

/-- **C76**, the document: behind the processing instructions and the doctype there is the root alone, and its children are
    what is read without an implicit root. -/
theorem C76_children_partial (r input : List Byte) (pre post : List XNode) (q : QName) (e : Env) (as : List (QName × List Val)) (ks : List XNode)
    (hr : r ≠ []) (h : ReadsNames input (pre ++ .element q e as ks :: post)) (hpre : ∀ n ∈ pre, isProlog n = true) (hq : q.name ≠ r) :
    ReadsRooted r input (pre ++ [.element ⟨none, none, r⟩ (fun _ => none) [] (.element q e as ks :: post)]) := by
  have := C76_exact r input _ hr h
  have hd : (pre ++ .element q e as ks :: post).dropWhile isProlog = .element q e as ks :: post := by
    rw [List.dropWhile_append_of_pos hpre]; simp [List.dropWhile_cons, isProlog]
  have ht : (pre ++ .element q e as ks :: post).takeWhile isProlog = pre := by
    rw [List.takeWhile_append_of_pos hpre]; simp [List.takeWhile_cons, isProlog]
  unfold actualRoot at this
  rw [hd, ht] at this
  simp only [if_neg hq] at this
  exact this

/-- **C76**, negatively: whenever a comment, a text or a reference comes first, the implicit root has no effect. -/
theorem C76_ignored (r input : List Byte) (pre post : List XNode) (n : XNode) (hr : r ≠ []) (h : ReadsNames input (pre ++ n :: post))
    (hpre : ∀ n ∈ pre, isProlog n = true) (hn : isProlog n = false) (he : isElem n = false) : ReadsRooted r input (pre ++ n :: post) := by
  have := C76_exact r input _ hr h
  have hd : (pre ++ n :: post).dropWhile isProlog = n :: post := by
    rw [List.dropWhile_append_of_pos hpre]; simp [List.dropWhile_cons, hn]
  unfold actualRoot at this
  rw [hd] at this
  cases n with
  | element => cases he
  | _ => exact this

/-- The text means a document with the one outline under the root and is read as one with the other. -/
def RootDiffers (r input : List Byte) (means is : List Item) : Prop :=
  r ≠ [] ∧ ∃ x y, ReadsNames input x ∧ outline (expectRoot r x) = means ∧ ReadsRooted r input y ∧ outline y = is

theorem rootDiffers_of {r input : List Byte} {means is : List Item} (hr : r ≠ [])
    (h1 : (namesOf input).map (fun x => outline (expectRoot r x)) = some means) (h2 : (rootedOf r input).map outline = some is) :
    RootDiffers r input means is := by
  rw [Option.map_eq_some_iff] at h1 h2
  obtain ⟨x, hx, e1⟩ := h1
  obtain ⟨y, hy, e2⟩ := h2
  exact ⟨hr, x, y, (readsNames_iff _ _).2 hx, e1, (readsRooted_iff _ _ _).2 hy, e2⟩

theorem RootDiffers.not {r input : List Byte} {means is : List Item} (h : RootDiffers r input means is) (hne : means ≠ is) : ¬ RootSupplied := by
  intro hn
  obtain ⟨hr, x, y, h1, rfl, h3, rfl⟩ := h
  exact hne (by rw [C76_unique r input _ _ (hn r input x hr h1) h3])

/-- A comment at the beginning, and the root is not there. -/
theorem C76_false_comment : RootDiffers b#"config" b#"// My settings\nport=8080 host=a"
    [.start (plainName b#"config") [], .comment b#"My settings", .start (plainName b#"port") [], .text b#"8080", .stop,
     .start (plainName b#"host") [], .text b#"a", .stop, .stop]
    [.comment b#"My settings", .start (plainName b#"port") [], .text b#"8080", .stop, .start (plainName b#"host") [], .text b#"a", .stop] :=
  rootDiffers_of (by decide) (by decide +kernel) (by decide +kernel)

theorem C76_false : ¬ RootSupplied := C76_false_comment.not (by decide)

/-- The first element has the name of the root, and the others are beside it. -/
theorem C76_false_same_name : RootDiffers b#"a" b#"a=1 b=2"
    [.start (plainName b#"a") [], .start (plainName b#"a") [], .text b#"1", .stop, .start (plainName b#"b") [], .text b#"2", .stop, .stop]
    [.start (plainName b#"a") [], .text b#"1", .stop, .start (plainName b#"b") [], .text b#"2", .stop] :=
  rootDiffers_of (by decide) (by decide +kernel) (by decide +kernel)

/-- A text that meets the conditions of `C76_children_partial`: a doctype, a processing instruction, then two elements, a
    comment and a quote, with a prefix. -/
theorem root_example : (rootedOf b#"config" b#"!DOCTYPE=c ?p=q a=1 /*x*/ p:b(xmlns:p=u){c} 'z'").map outline =
    some [.doctype b#"c", .pi b#"p" b#"q", .start (plainName b#"config") [], .start (plainName b#"a") [], .text b#"1", .stop, .comment b#"x",
      .start (inPrefix b#"u" b#"p" b#"b") [], .start (plainName b#"c") [], .stop, .stop, .text b#"z", .stop] := by decide +kernel

end Xmq.Props
