import Verif.Lemmas.ColourRead
import Verif.Props.NsRoundTrip
/-!
# C71: colouring does not change the text
-/
namespace Xmq.Props
open Xmq Xmq.Spec

/-- Without a theme the printer with themes is the plain printer. -/
theorem C71_plain (cfg : OutCfg) (heap : List Ns) (nodes : List NNode) :
    printDressed plainDress cfg heap nodes = printNs cfg heap nodes := by
  cases hp : printNs cfg heap nodes with
  | none =>
    unfold printNs at hp
    unfold printDressed
    simp only at hp ⊢
    split at hp
    · rename_i he; rw [if_pos he]
    · split at hp <;> cases hp
  | some plain =>
    by_cases hn : nodes = []
    · subst hn
      unfold printNs at hp
      unfold printDressed
      simp only at hp ⊢
      split at hp
      · cases hp
      · rename_i he; rw [if_neg he]; exact hp
    · obtain ⟨w, v, h1, rfl, rfl⟩ := printDressed_read (fun cfg' _ => plain_reading cfg') hp hn trivial
      rw [h1]
      simp [plainDress]

theorem printNs_nil (cfg : OutCfg) (heap : List Ns) : printNs cfg heap [] = some [] := by
  unfold printNs
  rw [if_neg (by simp [emptyPis])]
  rfl

theorem printDressed_nil (d : Dress) (cfg : OutCfg) (heap : List Ns) : printDressed d cfg heap [] = some [] := by
  unfold printDressed
  rw [if_neg (by simp [emptyPis])]
  rfl

/-- **C71**, terminal.  Whatever the colours, a terminal shows the text that is written without colours, if that text contains
    no escape character. -/
theorem C71_terminal_partial (colors : ColorName → ColorDef) (cfg : OutCfg) (hi : ∀ c ∈ cfg.indentationSpace, c = 32)
    (heap : List Ns) (nodes : List NNode) (plain : List Byte) (hp : printNs cfg heap nodes = some plain)
    (hg : (27 : Byte) ∉ plain) :
    ∃ out, printDressed (terminalDress colors) cfg heap nodes = some out ∧ ansiText false out = plain := by
  by_cases hn : nodes = []
  · subst hn
    rw [printNs_nil] at hp
    cases hp
    exact ⟨[], printDressed_nil _ _ _, rfl⟩
  · obtain ⟨w, v, h1, rfl, h3⟩ := printDressed_read (fun cfg' e => terminal_reading colors (cfg := cfg') (by rw [e]; exact hi)) hp hn hg
    refine ⟨_, h1, ?_⟩
    show ansiText false (([] ++ w ++ noColor) ++ [10]) = _
    rw [List.nil_append, List.append_assoc, h3, noColor_read]
    rfl

/-- **C71**, HTML.  Whatever stands around the `pre` element, the text of the element is the text that is written without
    colours, if no stray continuation byte stands behind `&`, `<` or `>`. -/
theorem C71_element_partial (front back : List Byte) (id clazz : Option (List Byte)) (dark : Bool) (cfg : OutCfg)
    (hi : ∀ c ∈ cfg.indentationSpace, c = 32) (heap : List Ns) (nodes : List NNode) (plain : List Byte)
    (hp : printNs cfg heap nodes = some plain) (hn : nodes ≠ []) (hg : TidyMarkup plain) :
    ∃ body, printDressed (htmlDress front back id clazz dark) cfg heap nodes =
        some (front ++ htmlPre id clazz dark ++ body ++ b#"</pre>" ++ back ++ [10]) ∧
      pageText false body ++ [10] = plain := by
  obtain ⟨w, v, h1, rfl, h3⟩ :=
    printDressed_read (fun cfg' e => html_reading front back id clazz dark (cfg := cfg') (by rw [e]; exact hi)) hp hn hg
  refine ⟨w, ?_, ?_⟩
  · rw [h1]
    simp only [htmlDress, List.append_assoc]
  · have := h3 []
    rw [List.append_nil] at this
    rw [this]
    simp [pageText]

/-- The tag is complete if id and class are not too long. -/
theorem htmlPre_whole {id clazz : Option (List Byte)} (dark : Bool)
    (hl : (id.getD []).length + (clazz.getD []).length ≤ 980) (h1 : b#'>' ∉ id.getD []) (h2 : b#'>' ∉ clazz.getD []) :
    ∃ t, htmlPre id clazz dark = b#'<' :: (t ++ b#">") ∧ b#'>' ∉ t ∧ ∃ u, t = b#"pre " ++ u := by
  refine ⟨(b#"pre " ++ (match id with | some i => b#"id=\"" ++ i ++ b#"\" " | none => []) ++ b#"class=\"xmq " ++
    (if dark then b#"xmq_dark" else b#"xmq_light") ++ (match clazz with | some c => b#' ' :: c | none => []) ++ b#"\""), ?_, ?_, ?_⟩
  · unfold htmlPre
    rw [List.take_of_length_le]
    · cases id <;> cases clazz <;> simp
    · cases id <;> cases clazz <;> cases dark <;> simp at hl ⊢ <;> omega
  · cases id <;> cases clazz <;> cases dark <;> simp at h1 h2 ⊢ <;> grind
  · exact ⟨_, by simp only [List.append_assoc]; rfl⟩

/-- **C71**, HTML without a header.  The text of what is written is the text that is written without colours. -/
theorem C71_page_partial (id clazz : Option (List Byte)) (dark : Bool) (hl : (id.getD []).length + (clazz.getD []).length ≤ 980)
    (h1 : b#'>' ∉ id.getD []) (h2 : b#'>' ∉ clazz.getD []) (cfg : OutCfg)
    (hi : ∀ c ∈ cfg.indentationSpace, c = 32) (heap : List Ns) (nodes : List NNode) (plain : List Byte)
    (hp : printNs cfg heap nodes = some plain) (hg : TidyMarkup plain) :
    ∃ out, printDressed (htmlDress [] [] id clazz dark) cfg heap nodes = some out ∧ pageText false out = plain := by
  by_cases hn : nodes = []
  · subst hn
    rw [printNs_nil] at hp
    cases hp
    exact ⟨[], printDressed_nil _ _ _, rfl⟩
  · obtain ⟨w, v, e1, rfl, e3⟩ :=
      printDressed_read (fun cfg' e => html_reading [] [] id clazz dark (cfg := cfg') (by rw [e]; exact hi)) hp hn hg
    refine ⟨_, e1, ?_⟩
    obtain ⟨t, ht, hm, _⟩ := htmlPre_whole dark hl h1 h2
    have e : (htmlDress [] [] id clazz dark).front = b#'<' :: (t ++ b#">") := by rw [← ht]; rfl
    have e' : (htmlDress [] [] id clazz dark).back = b#'<' :: (b#"/pre" ++ b#">") := rfl
    rw [e, e', List.append_assoc, List.append_assoc, pageText_element hm, e3, pageText_element (by decide)]
    rfl

/-- A page is tidy if it is proper UTF-8. -/
theorem C71_utf8 (s : List Byte) (h : ValidUtf8 s) : TidyMarkup s := h.tidyMarkup

/-- What a browser shows can be copied and read again: the document is the same. -/
theorem C71_copied_partial (id clazz : Option (List Byte)) (dark : Bool) (hl : (id.getD []).length + (clazz.getD []).length ≤ 980)
    (h1 : b#'>' ∉ id.getD []) (h2 : b#'>' ∉ clazz.getD []) (cfg : OutCfg) (hc : cfg.compact = true)
    (hsp : cfg.indentationSpace = [32]) (heap : List Ns) (doc : List NNode) (h : NsCompact cfg heap doc)
    (hb : BoundTree heap doc) (ht : Tame (allWritten heap doc)) (hg : ∀ p, printNs cfg heap doc = some p → TidyMarkup p) :
    ∃ out, printDressed (htmlDress [] [] id clazz dark) cfg heap doc = some out ∧
      ReadsNames (pageText false out) (seeNodes heap doc) := by
  obtain ⟨p, hp, hr⟩ := C64_compact_partial cfg hc hsp heap doc h hb ht
  obtain ⟨out, ho, he⟩ := C71_page_partial id clazz dark hl h1 h2 cfg (by rw [hsp]; simp) heap doc p hp (hg p hp)
  exact ⟨out, ho, he ▸ hr⟩

/-- The same for what a terminal shows. -/
theorem C71_shown_partial (colors : ColorName → ColorDef) (cfg : OutCfg) (hc : cfg.compact = true)
    (hsp : cfg.indentationSpace = [32]) (heap : List Ns) (doc : List NNode) (h : NsCompact cfg heap doc)
    (hb : BoundTree heap doc) (ht : Tame (allWritten heap doc)) (hg : ∀ p, printNs cfg heap doc = some p → (27 : Byte) ∉ p) :
    ∃ out, printDressed (terminalDress colors) cfg heap doc = some out ∧ ReadsNames (ansiText false out) (seeNodes heap doc) := by
  obtain ⟨p, hp, hr⟩ := C64_compact_partial cfg hc hsp heap doc h hb ht
  obtain ⟨out, ho, he⟩ := C71_terminal_partial colors cfg (by rw [hsp]; simp) heap doc p hp (hg p hp)
  exact ⟨out, ho, he ▸ hr⟩

/-! ## Cases -/

def prettyCfg : OutCfg := ⟨false, false, false, false, 4, b#" "⟩
def compactCfg : OutCfg := ⟨true, true, false, false, 0, b#" "⟩

/-- `a { x = 'b & c' // <i> ⏎ }` with a no-break space in a text. -/
def colourDoc : List NNode :=
  [.element b#"a" none [] [] [.element b#"x" none [] [] [.text b#"b & c"], .comment b#"<i>", .element b#"y" none [] [] [.text [65, 0xc2, 0xa0, 66]]]]

example : ∃ plain, printNs prettyCfg [] colourDoc = some plain ∧ (27 : Byte) ∉ plain ∧ plain.length > 20 := by decide +kernel

example : printDressed (htmlDress [] [] (some b#"i") none false) prettyCfg [] [.element b#"x" none [] [] [.text b#"b & c"]] =
    some (b#"<pre id=\"i\" class=\"xmq xmq_light\"><xmqEK>x</xmqEK> = <xmqEKV>'</xmqEKV><xmqEKV>b &amp; c</xmqEKV><xmqEKV>'</xmqEKV></pre>\n") := by decide +kernel

/-! ## What does not hold -/

/-- The claim without a condition on the text, HTML. -/
def PageKept : Prop := ∀ cfg, (∀ c ∈ cfg.indentationSpace, c = 32) → ∀ heap nodes plain, printNs cfg heap nodes = some plain →
  ∃ out, printDressed (htmlDress [] [] none none false) cfg heap nodes = some out ∧ pageText false out = plain

/-- A continuation byte behind `<` is dropped in HTML, and kept without colours. -/
theorem C71_false_stray : ¬ PageKept := by
  intro h
  obtain ⟨out, h1, h2⟩ := h compactCfg (by decide) [] [.element b#"x" none [] [] [.text [60, 0x80, 65]]]
    ((printNs compactCfg [] [.element b#"x" none [] [] [.text [60, 0x80, 65]]]).getD []) (by decide +kernel)
  have e : printDressed (htmlDress [] [] none none false) compactCfg [] [.element b#"x" none [] [] [.text [60, 0x80, 65]]] =
      some (b#"<pre class=\"xmq xmq_light\"><xmqEK>x</xmqEK>=<xmqEKV>&lt;A</xmqEKV></pre>\n") := by decide +kernel
  rw [e] at h1
  cases h1
  revert h2
  decide +kernel

/-- The claim for terminals without a condition on the text. -/
def ShownKept : Prop := ∀ colors cfg, (∀ c ∈ cfg.indentationSpace, c = 32) → ∀ heap nodes plain, printNs cfg heap nodes = some plain →
  ∃ out, printDressed (terminalDress colors) cfg heap nodes = some out ∧ ansiText false out = plain

/-- Escape sequences of a comment reach the terminal. -/
theorem C71_false_escape : ¬ ShownKept := by
  intro h
  obtain ⟨out, h1, h2⟩ := h (fun _ => ⟨0, 0, 0, false, false⟩) compactCfg (by decide) [] [.comment (27 :: b#"[8mhidden")]
    ((printNs compactCfg [] [.comment (27 :: b#"[8mhidden")]).getD []) (by decide +kernel)
  have e : printDressed (terminalDress (fun _ => ⟨0, 0, 0, false, false⟩)) compactCfg [] [.comment (27 :: b#"[8mhidden")] =
      some (27 :: b#"[0;38;2;0;0;0m/*" ++ 27 :: b#"[8mhidden*/" ++ 27 :: b#"[0m\n") := by decide +kernel
  rw [e] at h1
  cases h1
  revert h2
  decide +kernel

/-- The claim that the letters of a value have the colour of values. -/
def ValueColoured : Prop := ∀ colors cfg s out,
  printDressed (terminalDress colors) cfg [] [.element b#"x" none [] [] [.text s]] = some out →
  ∀ p ∈ ansiCells [] none out, p.2 = b#'Z' → p.1 = ansiColor (colors .EKV)

/-- The letters behind a no-break space have the colour of the first key of the document. -/
theorem C71_false_colour : ¬ ValueColoured := by
  intro h
  let colors : ColorName → ColorDef := fun n => match n with | .EKV => ⟨1, 2, 3, false, false⟩ | _ => ⟨4, 5, 6, false, false⟩
  have e : (printDressed (terminalDress colors) prettyCfg [] [.element b#"x" none [] [] [.text [32, 0xc2, 0xa0, 90]]]).map
      (fun o => decide (∀ p ∈ ansiCells [] none o, p.2 = b#'Z' → p.1 = ansiColor (colors .EKV))) = some false := by decide +kernel
  cases hp : printDressed (terminalDress colors) prettyCfg [] [.element b#"x" none [] [] [.text [32, 0xc2, 0xa0, 90]]] with
  | none => rw [hp] at e; cases e
  | some out =>
    have := h colors prettyCfg _ out hp
    rw [hp] at e
    simp only [Option.map_some, Option.some.injEq, decide_eq_false_iff_not] at e
    exact e this

end Xmq.Props
