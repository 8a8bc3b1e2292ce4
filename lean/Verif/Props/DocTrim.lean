import Verif.Lemmas.DocTrim
import Verif.Props.TextOut
/-!
# C69: trimming a document read from XML or HTML changes only whitespace
-/
namespace Xmq.Spec

/-- The words of a text. -/
def wordsOf (s : List Byte) : List (List Byte) := (s.splitOnP XmlWhite).filter (fun w => !w.isEmpty)

mutual
/-- A node without its texts and comments. -/
def skeleton : Node → List Node
  | .text _ => []
  | .comment _ => []
  | .entity n => [.entity n]
  | .element n as ks => [.element n as (skeletons ks)]
/-- The same for several nodes. -/
def skeletons : List Node → List Node
  | [] => []
  | n :: t => skeleton n ++ skeletons t
end

/-- What a text node becomes: without the spaces at its ends, and without the indentation that its lines have in common, where the first line counts as
    indented like the second. -/
def trimmed (s : List Byte) : List Byte :=
  let m := ((s.dropWhile (· == 32)).reverse.dropWhile (· == 32)).reverse
  if (10 : Byte) ∈ m then dedent [] (width ((splitLines (lfOnly m)).tail.headD [])) (splitLines (lfOnly m)) else m

end Xmq.Spec

namespace Xmq.Props
open Xmq.Spec

/-- The claim of C69 for all documents. -/
def OnlyWhitespaceChanges : Prop := ∀ doc, ∃ doc', trimDoc doc = some doc' ∧ Trims doc doc'

/-- **C69** for documents without lone carriage returns.  What is missing: the others (see `C69_false`). -/
theorem C69_only_whitespace_partial (doc : List Node) (h : NoLoneCrInAll doc) : ∃ doc', trimDoc doc = some doc' ∧ Trims doc doc' :=
  trimNodes_trims doc h

/-- Elements, attributes and entity references are kept, in their places. -/
theorem C69_structure (doc doc' : List Node) (h : trimDoc doc = some doc') : skeletons doc' = skeletons doc := by
  have app : ∀ a b : List Node, skeletons (a ++ b) = skeletons a ++ skeletons b := by
    intro a b
    induction a with
    | nil => rfl
    | cons x t ih => rw [List.cons_append, skeletons, skeletons, ih, List.append_assoc]
  have main : (∀ n : Node, ∀ x, trimNode n = some x → skeletons x = skeleton n) := by
    intro n
    refine Node.rec (motive_1 := fun n => ∀ x, trimNode n = some x → skeletons x = skeleton n)
      (motive_2 := fun ns => ∀ x, trimNodes ns = some x → skeletons x = skeletons ns) ?_ ?_ ?_ ?_ ?_ ?_ n
    · intro s x hx
      rw [trimNode] at hx
      split at hx <;> first | (obtain rfl := Option.some.inj hx; rfl) | cases hx
    · intro s x hx
      rw [trimNode] at hx
      obtain rfl := Option.some.inj hx; rfl
    · intro s x hx
      rw [trimNode] at hx
      split at hx <;> first | (obtain rfl := Option.some.inj hx; rfl) | cases hx
    · intro name attrs kids ih x hx
      rw [trimNode] at hx
      cases hk : trimNodes kids with
      | none => rw [hk] at hx; cases hx
      | some ks =>
        rw [hk] at hx
        obtain rfl := Option.some.inj hx
        rw [skeletons, skeleton, skeleton, ih ks hk]; rfl
    · intro x hx
      rw [trimNodes] at hx
      obtain rfl := Option.some.inj hx; rfl
    · intro n t ih1 ih2 x hx
      rw [trimNodes] at hx
      cases e1 : trimNode n with
      | none => rw [e1] at hx; cases hx
      | some a =>
        cases e2 : trimNodes t with
        | none => rw [e1, e2] at hx; cases hx
        | some b =>
          rw [e1, e2] at hx
          obtain rfl := Option.some.inj hx
          rw [app, ih1 a e1, ih2 b e2, skeletons]
  have all : ∀ ns : List Node, ∀ x, trimNodes ns = some x → skeletons x = skeletons ns := by
    intro ns
    induction ns with
    | nil =>
      intro x hx
      rw [trimNodes] at hx
      obtain rfl := Option.some.inj hx; rfl
    | cons n t ih =>
      intro x hx
      rw [trimNodes] at hx
      cases e1 : trimNode n with
      | none => rw [e1] at hx; cases hx
      | some a =>
        cases e2 : trimNodes t with
        | none => rw [e1, e2] at hx; cases hx
        | some b =>
          rw [e1, e2] at hx
          obtain rfl := Option.some.inj hx
          rw [app, main n a e1, ih b e2, skeletons]
  exact all doc doc' h

/-- What exactly becomes of a text or comment.  What is missing: texts with lone carriage returns. -/
theorem C69_text_partial (s : List Byte) (h : NoLoneCr s) :
    trimTextNode s = if s.all XmlWhite then .removed else .content (trimmed s) := by
  rcases trimTextNode_seen h with ⟨hw, e⟩ | ⟨hw, t, e, -⟩
  · rw [e, if_pos hw]
  · rw [e, if_neg (by rw [hw]; simp)]
    unfold trimTextNode at e
    rw [all_white, if_neg (by rw [hw]; simp)] at e
    have hs := noLoneCr_strip h
    have hd : (stripSpaces s) = ((s.dropWhile (· == 32)).reverse.dropWhile (· == 32)).reverse := rfl
    have hq : unQuote 0 0 (if s.getLast? = some b#' ' then b#' ' else 0) (stripSpaces s) false = some (trimmed s) := by
      rw [unQuote, trimmed]
      simp only [Bool.false_eq_true, if_false]
      rw [← hd]
      by_cases h10 : (10 : Byte) ∈ stripSpaces s
      · rw [C43_any_line_ending _ _ _ _ h10 hs, if_pos h10]
        simp [startColumn]
      · have h13 : (13 : Byte) ∉ stripSpaces s := by
          intro h13
          obtain ⟨p, t, e⟩ := List.append_of_mem h13
          have := hs p t e
          cases t with
          | nil => cases this
          | cons x y => simp at this; subst this; exact h10 (by rw [e]; simp)
        rw [C13_single_line_unchanged _ _ _ _ h10 h13, if_neg h10]
    rw [hq] at e
    cases ht : trimmed s with
    | nil => rw [ht] at e; cases e
    | cons x y => rw [ht] at e; rw [← e]

/-- False: the indentation of `<a>&#13; &#13;x</a>` is looked for beyond the end of the text. -/
theorem C69_false : ¬ OnlyWhitespaceChanges := by
  intro h
  obtain ⟨doc', e, -⟩ := h [.element b#"a" [] [.text b#"\r \rx"]]
  have : trimDoc [.element b#"a" [] [.text b#"\r \rx"]] = none := by decide +kernel
  rw [this] at e
  cases e

/-- The claim that trimming keeps the words of the document. -/
def WordsKept : Prop := ∀ doc doc', NoLoneCrInAll doc → trimDoc doc = some doc' → wordsOf (textContent doc') = wordsOf (textContent doc)

/-- False: `<p>a <b>b</b></p>` becomes `<p>a<b>b</b></p>`. -/
theorem C69_false_words : ¬ WordsKept := by
  intro h
  have := h [.element b#"p" [] [.text b#"a ", .element b#"b" [] [.text b#"b"]]] [.element b#"p" [] [.text b#"a", .element b#"b" [] [.text b#"b"]]]
    (by simp only [NoLoneCrInAll, NoLoneCrIn, and_true]; exact ⟨noLoneCr_of_noCr (by decide), noLoneCr_of_noCr (by decide)⟩) (by decide +kernel)
  revert this
  decide +kernel

example : NoLoneCrInAll [.element b#"a" [⟨b#"k", [.text b#" v "]⟩] [.text b#"\n  ", .element b#"b" [] [.text b#"\n   x  y\n     z\n  "], .comment b#" c ", .entity b#"nbsp", .text b#"\r\n"]] := by
  have : NoLoneCr b#"\r\n" := by
    intro p t e
    rcases p with _ | ⟨x, p⟩
    · simp at e; subst e; rfl
    · rcases p with _ | ⟨y, p⟩ <;> simp at e
  simp only [NoLoneCrInAll, NoLoneCrIn, and_true, true_and]
  exact ⟨noLoneCr_of_noCr (by decide), noLoneCr_of_noCr (by decide), noLoneCr_of_noCr (by decide), this⟩
example : trimDoc [.element b#"a" [⟨b#"k", [.text b#" v "]⟩] [.text b#"\n  ", .element b#"b" [] [.text b#"\n   x  y\n     z\n  "], .comment b#" c ", .entity b#"nbsp", .text b#"\r\n"]] =
    some [.element b#"a" [⟨b#"k", [.text b#" v "]⟩] [.element b#"b" [] [.text b#"x  y\n  z"], .comment b#"c", .entity b#"nbsp"]] := by decide +kernel
example : trimmed b#"\n   x  y\n     z\n  " = b#"x  y\n  z" ∧ seen b#"\n   x  y\n     z\n  " = [b#"x  y", b#"z"] := by decide +kernel
example : skeletons [.element b#"b" [] [.text b#"x", .entity b#"e", .comment b#"c"]] = [.element b#"b" [] [.entity b#"e"]] := by decide +kernel

end Xmq.Props
