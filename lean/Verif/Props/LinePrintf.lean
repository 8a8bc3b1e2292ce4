import Verif.Lemmas.LinePrintf
import Verif.Props.Document
/-!
# C65: a log line is one line of xmq that says what was logged
-/
namespace Xmq.Props
open Xmq Xmq.Spec

/-- The arguments of `xmqLinePrintf` for these keys and values: `"key=", "%s", value`. -/
def lineArgs (fields : List (List Byte × List Byte)) : List (List Byte × List Byte) := fields.map fun p => (p.1 ++ b#"=", p.2)

/-- The element that the line stands for. -/
def lineElement (name : List Byte) (fields : List (List Byte × List Byte)) : Node :=
  .element name [] (fields.map fun p => .element p.1 [] [.text p.2])

/-- The claim: `xmqLinePrintf(lc, "name{", "key=", "%s", value, ..., "}")` gives one line, which is read as the element `name`
    with an element for each key. -/
def LineFaithful : Prop := ∀ name fields, ElementName name → (∀ p ∈ fields, ElementName p.1 ∧ (0 : Byte) ∉ p.2) →
  ∃ out, linePrintf false (name ++ b#"{") [] (lineArgs fields) = some out ∧ OneLine out ∧ Reads out [lineElement name fields]

/-- The line has no line breaks, for all keys without line breaks and all values without three quotes in a row. -/
theorem lineFields_one (fields : List (List Byte × List Byte)) (hf : ∀ p ∈ fields, OneLine p.1 ∧ ¬ [39, 39, 39] <:+: p.2) (mb out : List Byte)
    (hm : OneLine mb) (h : lineFields mb fields = some out) : OneLine out := by
  induction fields generalizing mb with
  | nil => simp [lineFields] at h; rwa [← h]
  | cons p fs ih =>
    obtain ⟨h1, h2⟩ := hf p (by simp)
    have hsp : OneLine (if (back mb != b#'\'' && back mb != b#'(' && back mb != b#')' && back mb != b#'{' && back mb != b#'}') = true then mb ++ [b#' '] else mb) := by
      split
      · exact ⟨by simp [hm.1], by simp [hm.2]⟩
      · exact hm
    rw [lineFields] at h
    split at h
    · cases h
    split at h
    · cases h; exact hm
    dsimp only at h
    split at h
    · cases h; exact hsp
    unfold formatted at h
    split at h
    · cases h
    rename_i v hv
    split at hv <;> cases hv
    have hq := C07_compact_quote_single_line_partial p.2 h2
    exact ih (fun q hq => hf q (by simp [hq])) _ (OneLine.append (OneLine.append hsp h1) hq) h

/-- **C65**, one line: whatever is logged, the line has no line breaks, if names and keys have none and no value has three
    quotes in a row. -/
theorem C65_one_line_partial (name text : List Byte) (fields : List (List Byte × List Byte)) (out : List Byte) (hn : OneLine name)
    (ht : ¬ [39, 39, 39] <:+: text) (hf : ∀ p ∈ fields, OneLine p.1 ∧ ¬ [39, 39, 39] <:+: p.2) (h : linePrintf false name text fields = some out) :
    OneLine out := by
  simp only [linePrintf, Bool.false_eq_true, if_false, lineXmq] at h
  split at h
  · cases h
  split at h
  · unfold formatted at h
    split at h
    · cases h
    rename_i v hv
    split at hv <;> cases hv
    have hq := C07_compact_quote_single_line_partial text ht
    cases h
    split
    · exact ⟨by simp [hq.1], by simp [hq.2]⟩
    · exact ⟨by simp [hq.1, hn.1], by simp [hq.2, hn.2]⟩
  · rw [Option.map_eq_some_iff] at h
    obtain ⟨o, h1, rfl⟩ := h
    have := lineFields_one fields hf name o hn h1
    exact ⟨by simp [this.1], by simp [this.2]⟩

theorem oneLine_name {s : List Byte} (h : ∀ b ∈ s, LocalNameByte b) : OneLine s := by
  constructor <;> intro hc <;> have := h _ hc <;> simp [LocalNameByte] at this <;> revert this <;> decide

/-- **C65**, the line says what was logged: it is read as the element with exactly these keys and values, whatever the values
    contain (quotes, braces, line breaks, comments, ...), if `xmqCompactQuote` keeps them (C06) and they are shorter than 1024
    bytes. -/
theorem C65_line_partial (name text : List Byte) (fields : List (List Byte × List Byte)) (hn : ElementName name)
    (hf : ∀ p ∈ fields, ElementName p.1 ∧ CompactQuoteSafe p.2 ∧ p.2.length < 1024) :
    ∃ out, linePrintf false (name ++ b#"{") text (lineArgs fields) = some out ∧ OneLine out ∧ Reads out [lineElement name fields] := by
  obtain ⟨w, h1, h2, -, -, -⟩ := line_fields [] fields (fun p hp => ⟨elemName_of (hf p hp).1, (hf p hp).2⟩) (name ++ b#"{")
  have he : lineXmq (name ++ b#"{") text (lineArgs fields) = some (name ++ 123 :: (w ++ [125])) := by
    unfold lineXmq
    rw [List.getLast?_append]
    simp only [List.getLast?_singleton, Option.some_or]
    rw [if_neg (by decide)]
    have e : lineArgs fields = fields.map fun p => (p.1 ++ [61], p.2) := rfl
    rw [e, h1]
    simp
  have hx : X (name ++ 123 :: (w ++ [125])) 1 [⟨false, [], [], [], false⟩] [] _ _ :=
    X_elem (as := []) (elemName_of hn) (w1 := 123 :: (w ++ [125])) (by intro x hx; simp at hx; subst hx; decide)
      (PA_none (ws := []) Ws.nil (countWhitespace_of_head (by decide) (by decide) (by decide)) (by simp) _ _)
      (PB_braces (ws := []) Ws.nil (elemName_of hn).notSpecial (fun o' stk' _ _ => h2 _ o' stk'))
  rw [← elem_add] at hx
  have hr := (reads_of_X hx).plain
  have hm : mergeNodes (fields.map fun p => Node.element p.1 [] [.text p.2]) = fields.map fun p => Node.element p.1 [] [.text p.2] := by
    rw [mergeNodes_eq]
    clear hr hx he h2 h1 hf
    induction fields with
    | nil => rfl
    | cons p t ih => simp only [List.map_cons, joinTexts, ih]
  rw [hm] at hr
  refine ⟨_, he, ?_, by simpa [mergeNodes, addChild, lineElement] using hr⟩
  have hl := oneLine_name hn.1
  have hw : OneLine (name ++ b#"{" ++ w) := lineFields_one _ (fun p hp => by
    simp only [List.mem_map] at hp
    obtain ⟨q, hq, rfl⟩ := hp
    exact ⟨OneLine.append (oneLine_name (hf q hq).1.1) ⟨by decide, by decide⟩, (hf q hq).2.1.noTriple⟩) _ _ (OneLine.append hl ⟨by decide, by decide⟩) h1
  have := OneLine.append hw (b := [125]) ⟨by decide, by decide⟩
  simpa using this

/-- **C65**, a single text: `xmqLinePrintf(lc, "name=", "%s", text)`. -/
theorem C65_text_partial (name text : List Byte) (fields : List (List Byte × List Byte)) (hn : ElementName name) (ht : CompactQuoteSafe text)
    (hl : text.length < 1024) :
    ∃ out, linePrintf false (name ++ b#"=") text fields = some out ∧ OneLine out ∧ Reads out [.element name [] [.text text]] := by
  have he : linePrintf false (name ++ b#"=") text fields = some (name ++ 61 :: compactQuote text) := by
    simp only [linePrintf, Bool.false_eq_true, if_false, lineXmq]
    rw [List.getLast?_append]
    simp only [List.getLast?_singleton, Option.some_or]
    rw [if_pos (by decide), if_neg (by decide)]
    have : formatted text = some text := if_pos hl
    rw [this]
    simp
  refine ⟨_, he, ?_, C06_compact_quote_lossless_partial text name ht hn⟩
  have h1 := oneLine_name hn.1
  exact OneLine.append h1 (OneLine.append (a := [61]) ⟨by decide, by decide⟩ (C07_compact_quote_single_line_partial text ht.noTriple))

/-- Different values give different lines. -/
theorem C65_injective_partial (name text : List Byte) (f1 f2 : List (List Byte × List Byte)) (hn : ElementName name)
    (h1 : ∀ p ∈ f1, ElementName p.1 ∧ CompactQuoteSafe p.2 ∧ p.2.length < 1024) (h2 : ∀ p ∈ f2, ElementName p.1 ∧ CompactQuoteSafe p.2 ∧ p.2.length < 1024)
    (h : linePrintf false (name ++ b#"{") text (lineArgs f1) = linePrintf false (name ++ b#"{") text (lineArgs f2)) : f1 = f2 := by
  obtain ⟨o1, e1, -, r1⟩ := C65_line_partial name text f1 hn h1
  obtain ⟨o2, e2, -, r2⟩ := C65_line_partial name text f2 hn h2
  rw [h, e2] at e1
  cases e1
  have := C30_reads_unique _ _ _ r1 r2
  simp only [lineElement, List.cons.injEq, Node.element.injEq, and_true, true_and] at this
  clear e2 r1 r2 h h1 h2
  induction f1 generalizing f2 with
  | nil => cases f2 <;> simp at this ⊢
  | cons p t ih =>
    cases f2 with
    | nil => simp at this
    | cons q u =>
      simp at this
      rw [ih u (by simpa using this.2), Prod.ext this.1.1 this.1.2]

/-! ## A line of the kind the theorems speak of -/

/-- Keys and values. -/
def sampleFields : List (List Byte × List Byte) :=
  [(b#"model", b#"Volvo"), (b#"id", b#"123"), (b#"note", b#"it's {new}\n// fast"), (b#"empty", b#""), (b#"path", b#"/home/x/")]

theorem quoteSafe_of (s : List Byte) (h0 : (0 : Byte) ∉ s) (h1 : ¬ [39, 39, 39] <:+: s)
    (h2 : ∀ c, s.head? = some c → c ∉ ([32, 10, 9, 13, 39] : List Byte)) (h3 : NoStray s := by decide +kernel) : CompactQuoteSafe s where
  noStray := h3
  noNul := h0
  noTriple := h1
  notOnlyQuotes := by
    intro hne
    cases s with
    | nil => exact absurd rfl hne
    | cons c t => exact ⟨c, by simp, fun hc => h2 c rfl (by simp [hc])⟩
  tabs := by
    rintro ⟨h, h9, -⟩
    cases s with
    | nil => cases h9
    | cons c t =>
      have := h2 c rfl
      rcases h c (by simp) with rfl | rfl <;> simp at this
  lead := by
    intro a b h ha hm
    cases a with
    | nil => cases hm
    | cons x t =>
      have := h2 x (by rw [h]; rfl)
      have := ha x (by simp)
      simp at *
      grind

theorem sampleFields_ok : ∀ p ∈ sampleFields, ElementName p.1 ∧ CompactQuoteSafe p.2 ∧ p.2.length < 1024 := by
  intro p hp
  have hname : ∀ c t, (c :: t).all (fun b => 97 ≤ b && b ≤ 122) = true → ElementName (c :: t) := by
    intro c t h
    have h' : ∀ b ∈ c :: t, 97 ≤ b ∧ b ≤ 122 := by simpa using h
    exact ⟨fun b hb => .inl (h' b hb), c, t, rfl, .inl (h' c (by simp))⟩
  simp only [sampleFields, List.mem_cons, List.not_mem_nil, or_false] at hp
  rcases hp with rfl | rfl | rfl | rfl | rfl <;>
    exact ⟨hname _ _ (by decide), quoteSafe_of _ (by decide) (by decide +kernel) (by decide), by decide⟩

example : ∃ out, linePrintf false b#"car{" [] (lineArgs sampleFields) = some out ∧ OneLine out ∧ Reads out [lineElement b#"car" sampleFields] :=
  C65_line_partial b#"car" [] sampleFields ⟨by intro b hb; simp at hb; rcases hb with rfl | rfl | rfl <;> exact .inl ⟨by decide, by decide⟩, _, _, rfl, .inl ⟨by decide, by decide⟩⟩
    sampleFields_ok

example : linePrintf false b#"car{" [] (lineArgs sampleFields) =
    some b#"car{model=Volvo id=123 note=('''it's {new}'''&#10;'// fast')empty=''path=/home/x/}" := by decide +kernel

/-! ## Where the claim is false -/

/-- A value of 1024 bytes: the `va_list` is used twice. -/
theorem C65_false_long (name : List Byte) (key text : List Byte) (h : 1024 ≤ text.length) (hk : peek key ≠ 125) :
    linePrintf false (name ++ b#"{") [] (lineArgs [(key, text)]) = none := by
  simp only [linePrintf, Bool.false_eq_true, if_false, lineXmq]
  rw [List.getLast?_append]
  simp only [List.getLast?_singleton, Option.some_or]
  rw [if_neg (by decide)]
  have hp : (peek (key ++ b#"=") == b#'}') = false := by
    cases key with
    | nil => rfl
    | cons c t => simpa using hk
  have hf : formatted text = none := if_neg (by omega)
  simp only [lineArgs, List.map_cons, List.map_nil, lineFields]
  rw [List.getLast?_append]
  simp only [List.getLast?_singleton, Option.some_or, hp, Bool.false_eq_true, if_false, hf, show ((61 : Byte) != b#'=') = false from rfl, Option.map_none]

theorem C65_false : ¬ LineFaithful := by
  intro h
  obtain ⟨out, h1, -⟩ := h b#"a" [(b#"k", List.replicate 1024 120)] ⟨by intro b hb; simp at hb; subst hb; exact .inl ⟨by decide, by decide⟩, _, _, rfl, .inl ⟨by decide, by decide⟩⟩
    (by
      intro p hp
      simp only [List.mem_cons, List.not_mem_nil, or_false] at hp
      subst hp
      exact ⟨⟨by intro b hb; simp at hb; subst hb; exact .inl ⟨by decide, by decide⟩, _, _, rfl, .inl ⟨by decide, by decide⟩⟩, by
        intro h0; rw [List.mem_replicate] at h0; exact absurd h0.2 (by decide)⟩)
  rw [C65_false_long _ _ _ (by rw [List.length_replicate]; exact Nat.le_refl _) (by decide)] at h1
  cases h1

/-- Three quotes in a row break the line. -/
theorem C65_false_triple_quote : ∃ out, linePrintf false b#"a{" [] [(b#"k=", b#"x'''y")] = some out ∧ (10 : Byte) ∈ out :=
  ⟨_, rfl, by decide +kernel⟩

/-- Two tabs: the second one becomes a text behind the field. -/
theorem C65_false_tabs : ∃ out, linePrintf false b#"a{" [] [(b#"k=", b#"\t\t")] = some out ∧
    Reads out [.element b#"a" [] [.element b#"k" [] [.text b#"\t"], .text b#"\t"]] :=
  ⟨_, rfl, (reads_iff _ _).2 (by decide +kernel)⟩

/-- Human readable lines do not separate the fields: different fields give the same line. -/
theorem C65_false_human_fields : linePrintf true b#"car{" [] [(b#"a=", b#"1"), (b#"b=", b#"2")] = some b#"(car{) a:1b:2" ∧
    linePrintf true b#"car{" [] [(b#"a=", b#"1b:2")] = some b#"(car{) a:1b:2" := by decide +kernel

/-- Human readable lines contain the line breaks of the values: a value can look like another log entry. -/
theorem C65_false_human_lines : linePrintf true b#"a=" b#"x\n(b) y" [] = some b#"(a) x\n(b) y" := by decide +kernel

/-- `xmqLineDoc` gives the same line, which is not xmq, for all documents. -/
theorem C65_false_doc (doc : List Node) : ∀ d, ¬ Reads (lineDoc doc) d := by
  intro d h
  rw [reads_iff] at h
  have : readOf (lineDoc doc) = none := by
    show readOf b#"{howdy}" = none
    decide +kernel
  rw [this] at h
  cases h

end Xmq.Props
