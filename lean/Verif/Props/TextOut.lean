import Verif.Model.Clines
/-!
# C67: text input and text output
-/
namespace Xmq.Spec

mutual
/-- A node and everything inside of it, in document order. -/
def descendants : Node → List Node
  | .element n as ks => .element n as ks :: allDescendants ks
  | .text s => [.text s]
  | .entity s => [.entity s]
  | .comment s => [.comment s]
/-- The same for a list of nodes. -/
def allDescendants : List Node → List Node
  | [] => []
  | n :: t => descendants n ++ allDescendants t
end

/-- The text content of a document (the string value of XPath): all texts in document order. -/
def textContent (doc : List Node) : List Byte := (allDescendants doc).flatMap fun n => match n with | .text s => s | _ => []

end Xmq.Spec

namespace Xmq

open Spec

mutual
theorem textNode_eq : ∀ (n : Node), (∀ e, Node.entity e ∉ descendants n) → textNode n = (descendants n).flatMap fun n => match n with | .text s => s | _ => []
  | .text s, _ => by simp [textNode, descendants]
  | .entity s, h => absurd (by simp [descendants]) (h s)
  | .comment s, _ => by simp [textNode, descendants]
  | .element n as ks, h => by
    rw [textNode, descendants, List.flatMap_cons, textNodes_eq ks fun e he => h e (by simp [descendants, he])]
    rfl
theorem textNodes_eq : ∀ (ns : List Node), (∀ e, Node.entity e ∉ allDescendants ns) → textNodes ns = (allDescendants ns).flatMap fun n => match n with | .text s => s | _ => []
  | [], _ => rfl
  | n :: t, h => by
    rw [textNodes, allDescendants, List.flatMap_append, textNode_eq n fun e he => h e (by simp [allDescendants, he]),
      textNodes_eq t fun e he => h e (by simp [allDescendants, he])]
end

namespace Props

/-- The claim for documents with entity references too: nothing else but texts is printed. -/
def TextOutput : Prop := ∀ doc, printText doc = textContent doc

/-- The text output of a document without entity references is its text content. -/
theorem C67_text_partial (doc : List Node) (h : ∀ e, Node.entity e ∉ allDescendants doc) : printText doc = textContent doc := textNodes_eq doc h

/-- What is read as text is printed as the same text, with and without an implicit root. -/
theorem C67_round_trip_partial (s : List Byte) (root : Option (List Byte)) (h : (0 : Byte) ∉ s) : printText (parseText s root) = s := by
  have e : s.takeWhile (· != 0) = s := by
    induction s with
    | nil => rfl
    | cons c t ih =>
      have hc : (c != 0) = true := by simp only [bne_iff_ne]; exact fun h' => h (by simp [h'])
      rw [List.takeWhile_cons, hc, if_pos rfl, ih fun h' => h (by simp [h'])]
  unfold parseText
  rw [e]
  cases root with
  | none => simp [printText, textNodes, textNode]
  | some r =>
    simp only
    split <;> simp [printText, textNodes, textNode]

/-- `a { b = 'x ' c(d = e) { = y } // note }`. -/
example : (∀ e, Node.entity e ∉ allDescendants [.element b#"a" [] [.element b#"b" [] [.text b#"x "], .element b#"c" [⟨b#"d", [.text b#"e"]⟩] [.text b#"y"], .comment b#"note"]]) ∧
    printText [.element b#"a" [] [.element b#"b" [] [.text b#"x "], .element b#"c" [⟨b#"d", [.text b#"e"]⟩] [.text b#"y"], .comment b#"note"]] = b#"x y" := by
  refine ⟨?_, by decide +kernel⟩
  simp [allDescendants, descendants]

example : (0 : Byte) ∉ b#"a\n{ b" ∧ printText (parseText b#"a\n{ b" (some b#"root")) = b#"a\n{ b" := by decide +kernel

/-- An entity reference is printed as something that is not in the document. -/
theorem C67_false_entity : printText [.element b#"a" [] [.entity b#"nbsp"]] = b#"<ENTITY>nbsp" := by decide +kernel

theorem C67_false : ¬ TextOutput := by
  intro h
  have := h [.element b#"a" [] [.entity b#"nbsp"]]
  revert this
  decide +kernel

/-- The text behind a NUL byte is lost. -/
theorem C67_false_nul (a b : List Byte) (h : (0 : Byte) ∉ a) (root : Option (List Byte)) : printText (parseText (a ++ 0 :: b) root) = a := by
  have := C67_round_trip_partial a root h
  have e : (a ++ 0 :: b).takeWhile (· != 0) = a.takeWhile (· != 0) := by
    induction a with
    | nil => rfl
    | cons c t ih =>
      simp only [List.cons_append, List.takeWhile_cons]
      rw [ih (fun h' => h (by simp [h'])) (C67_round_trip_partial t root fun h' => h (by simp [h']))]
  unfold parseText at this ⊢
  rw [e]
  exact this

end Props

end Xmq
