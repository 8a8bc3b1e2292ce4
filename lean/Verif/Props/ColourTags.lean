import Verif.Lemmas.ColourNest
import Verif.Props.Colour
/-!
# C72: the elements of coloured HTML are closed
-/
namespace Xmq.Props
open Xmq Xmq.Spec

theorem leaves_closed {w : List Byte} (h : Leaves [] w) : TagsClosed w := by
  have := h [] []
  rw [List.append_nil] at this
  exact this

/-- What stands between two strings, if the strings are a start tag and its end tag. -/
theorem pre_closed {t u w : List Byte} (ht : b#'>' ∉ t) (hu : t = b#"pre " ++ u) (hw : Leaves [] w) :
    TagsClosed (b#'<' :: (t ++ b#">") ++ w ++ b#"</pre>" ++ b#"\n") := by
  have e : b#'<' :: (t ++ b#">") ++ w ++ b#"</pre>" ++ b#"\n" = b#'<' :: (t ++ b#'>' :: (w ++ (b#'<' :: (b#"/pre" ++ b#'>' :: b#"\n")))) := by
    simp
  unfold TagsClosed
  rw [e, openTags, if_pos rfl, openTags_tag ht, if_neg (by subst hu; show ¬ (some b#'p' = some b#'/'); decide), hw]
  have e' : (([] ++ t).takeWhile (· ≠ b#' ')) = b#"pre" := by subst hu; rfl
  rw [e', openTags, if_pos rfl, openTags_tag (by decide), if_pos (by decide), if_pos (by decide)]
  decide

/-- **C72**, compact output.  Every element that is opened is closed, in the right order, whatever the document. -/
theorem C72_compact (front back : List Byte) (id clazz : Option (List Byte)) (dark : Bool) (cfg : OutCfg) (hc : cfg.compact = true)
    (hi : b#'<' ∉ cfg.indentationSpace) (heap : List Ns) (nodes : List NNode) (hn : nodes ≠ []) (out : List Byte)
    (hp : printDressed (htmlDress front back id clazz dark) cfg heap nodes = some out) :
    ∃ body, out = front ++ htmlPre id clazz dark ++ body ++ b#"</pre>" ++ back ++ [10] ∧ TagsClosed body := by
  obtain ⟨w, h1, h2⟩ := printDressed_nested (html_tagDress front back id clazz dark) (cfg' := { cfg with escapeNewlines := true })
    (by rw [hc]; rfl) hi (nodesFit_all (fun s => .inl rfl) heap nodes) hn hp
  refine ⟨w, ?_, leaves_closed h2⟩
  rw [h1]
  simp only [htmlDress, List.append_assoc]

/-- **C72**, output with line breaks, if no part of a text that is quoted consists of newlines only. -/
theorem C72_pretty_partial (front back : List Byte) (id clazz : Option (List Byte)) (dark : Bool) (cfg : OutCfg)
    (hc : cfg.compact = false) (hi : b#'<' ∉ cfg.indentationSpace) (heap : List Ns) (nodes : List NNode)
    (ht : NodesFit cfg heap (Quotable cfg) nodes) (hn : nodes ≠ []) (out : List Byte)
    (hp : printDressed (htmlDress front back id clazz dark) cfg heap nodes = some out) :
    ∃ body, out = front ++ htmlPre id clazz dark ++ body ++ b#"</pre>" ++ back ++ [10] ∧ TagsClosed body := by
  obtain ⟨w, h1, h2⟩ := printDressed_nested (html_tagDress front back id clazz dark) (cfg' := cfg)
    (by rw [hc]; rfl) hi ht hn hp
  refine ⟨w, ?_, leaves_closed h2⟩
  rw [h1]
  simp only [htmlDress, List.append_assoc]

/-- The whole page, without a header. -/
theorem C72_page_partial (id clazz : Option (List Byte)) (dark : Bool) (hl : (id.getD []).length + (clazz.getD []).length ≤ 980)
    (h1 : b#'>' ∉ id.getD []) (h2 : b#'>' ∉ clazz.getD []) (cfg : OutCfg) (hi : b#'<' ∉ cfg.indentationSpace) (heap : List Ns)
    (nodes : List NNode) (ht : cfg.compact = true ∨ NodesFit cfg heap (Quotable cfg) nodes) (out : List Byte)
    (hp : printDressed (htmlDress [] [] id clazz dark) cfg heap nodes = some out) : TagsClosed out := by
  by_cases hn : nodes = []
  · subst hn
    rw [printDressed_nil] at hp
    cases hp
    rfl
  · have key : ∃ w, out = (htmlDress [] [] id clazz dark).front ++ w ++ (htmlDress [] [] id clazz dark).back ++ [b#'\n'] ∧ Leaves [] w := by
      cases hc : cfg.compact with
      | true =>
        exact printDressed_nested (html_tagDress [] [] id clazz dark) (cfg' := { cfg with escapeNewlines := true })
          (by rw [hc]; rfl) hi (nodesFit_all (fun s => .inl rfl) heap nodes) hn hp
      | false =>
        exact printDressed_nested (html_tagDress [] [] id clazz dark) (cfg' := cfg) (by rw [hc]; rfl) hi
          (ht.resolve_left (by rw [hc]; decide)) hn hp
    obtain ⟨w, rfl, hw⟩ := key
    obtain ⟨t, e, hm, u, hu⟩ := htmlPre_whole dark hl h1 h2
    have ef : (htmlDress [] [] id clazz dark).front = b#'<' :: (t ++ b#">") := by rw [← e]; rfl
    have eb : (htmlDress [] [] id clazz dark).back = b#"</pre>" := rfl
    rw [ef, eb]
    exact pre_closed hm hu hw

/-- The condition holds of a text without newlines and of a text that is not only white space and in which nothing is escaped. -/
example : Quotable prettyCfg b#"one\n  two\n" :=
  .inr (.inr ⟨rfl, by decide, b#'o', by decide, by decide⟩)

example : (printDressed (htmlDress [] [] none none false) prettyCfg []
    [.element b#"x" none [] [] [.text b#"one\n  <two>\n"], .comment b#"c"]).map (openTags none []) = some (some []) := by decide +kernel

/-! ## What does not hold -/

/-- The claim for every text. -/
def AlwaysClosed : Prop := ∀ cfg, (∀ c ∈ cfg.indentationSpace, c = 32) → ∀ heap nodes out,
  printDressed (htmlDress [] [] none none false) cfg heap nodes = some out → TagsClosed out

/-- A text of two newlines leaves an element open. -/
theorem C72_false_newlines : ¬ AlwaysClosed := by
  intro h
  have e : (printDressed (htmlDress [] [] none none false) prettyCfg [] [.element b#"x" none [] [] [.text b#"\n\n"]]).map
      (openTags none []) = some none := by decide +kernel
  cases hp : printDressed (htmlDress [] [] none none false) prettyCfg [] [.element b#"x" none [] [] [.text b#"\n\n"]] with
  | none => rw [hp] at e; cases e
  | some out =>
    have := h prettyCfg (by decide) [] _ out hp
    rw [hp] at e
    simp only [Option.map_some, Option.some.injEq] at e
    rw [TagsClosed, e] at this
    cases this

/-- The claim for every class. -/
def ClosedForClass : Prop := ∀ clazz : List Byte, b#'>' ∉ clazz → ∀ cfg, cfg.compact = true → (∀ c ∈ cfg.indentationSpace, c = 32) →
  ∀ heap nodes out, printDressed (htmlDress [] [] none (some clazz) false) cfg heap nodes = some out → TagsClosed out

/-- The start tag is cut off at 1022 bytes, so the first tag of the text becomes a part of it. -/
theorem C72_false_class : ¬ ClosedForClass := by
  intro h
  have e : (printDressed (htmlDress [] [] none (some (List.replicate 1000 97)) false) compactCfg [] [.element b#"x" none [] [] []]).map
      (openTags none []) = some none := by decide +kernel
  cases hp : printDressed (htmlDress [] [] none (some (List.replicate 1000 97)) false) compactCfg [] [.element b#"x" none [] [] []] with
  | none => rw [hp] at e; cases e
  | some out =>
    have := h _ (by decide +kernel) compactCfg rfl (by decide) [] _ out hp
    rw [hp] at e
    simp only [Option.map_some, Option.some.injEq] at e
    rw [TagsClosed, e] at this
    cases this

/-- The claim for TeX: all braces are closed. -/
def TexClosed : Prop := ∀ cfg, cfg.compact = true → ∀ heap nodes out,
  printDressed texDress cfg heap nodes = some out → openBraces none 0 out = some 0

/-- A percent sign is not escaped: the closing brace behind it is in a comment. -/
theorem C72_false_tex : ¬ TexClosed := by
  intro h
  have e : (printDressed texDress compactCfg [] [.element b#"x" none [] [] [.text b#"50%"]]).map (openBraces none 0) =
      some (some 1) := by decide +kernel
  cases hp : printDressed texDress compactCfg [] [.element b#"x" none [] [] [.text b#"50%"]] with
  | none => rw [hp] at e; cases e
  | some out =>
    have := h compactCfg rfl [] _ out hp
    rw [hp] at e
    simp only [Option.map_some, Option.some.injEq] at e
    rw [e] at this
    cases this

end Xmq.Props
