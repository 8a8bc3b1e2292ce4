import Verif.Spec.Highlight
import Verif.Lemmas.ColourRead
import Verif.Props.Colour
import Verif.Props.Parser
/-!
# C73: highlighting a source text
-/
namespace Xmq.Props
open Xmq Xmq.Spec

theorem tokenColour_eq (k : Kind) : tokenColour k = k.colorName.map ColorName.tag := by cases k <;> rfl

theorem tokens_map {h : HighlightCfg} {toks : List Tok} {w : List Byte} (e : h.tokens toks = some w) :
    (∀ t ∈ toks, ∃ b, h.body t.text = some b) ∧
      w = toks.flatMap fun t => h.pre t.kind ++ (h.body t.text).getD [] ++ h.post t.kind := by
  induction toks generalizing w with
  | nil => cases e; exact ⟨fun t ht => (nomatch ht), rfl⟩
  | cons t ts ih =>
    rw [HighlightCfg.tokens] at e
    cases hb : h.body t.text with
    | none => rw [HighlightCfg.token, hb] at e; cases e
    | some b =>
      rw [HighlightCfg.token, hb] at e
      cases hs : h.tokens ts with
      | none => rw [hs] at e; cases e
      | some v =>
        rw [hs] at e
        cases e
        obtain ⟨h1, h2⟩ := ih hs
        refine ⟨?_, ?_⟩
        · intro x hx
          rcases List.mem_cons.1 hx with rfl | hx
          · exact ⟨b, hb⟩
          · exact h1 x hx
        · rw [List.flatMap_cons, hb, ← h2]
          rfl

/-! ## Terminal -/

/-- The sequence in front of a token in a terminal. -/
theorem pre_seq (colors : ColorName → ColorDef) (stdout : Bool) (k : Kind) :
    ∃ q, (terminalHighlight (some colors) stdout).pre k = 27 :: 91 :: (q ++ [b#'m']) ∧ b#'m' ∉ q := by
  unfold HighlightCfg.pre terminalHighlight
  simp only
  cases k.colorName with
  | none => exact ⟨[b#'0'], rfl, by decide⟩
  | some n =>
    refine ⟨b#"0;" ++ (if (colors n).bold then b#"1;" else []) ++ (if (colors n).underline then b#"4;" else []) ++
      b#"38;2;" ++ printInt (colors n).r ++ b#";" ++ printInt (colors n).g ++ b#";" ++ printInt (colors n).b, ?_, ?_⟩
    · simp [ansiColor]
    · have h1 : b#'m' ∉ (if (colors n).bold then b#"1;" else []) := by split <;> decide
      have h2 : b#'m' ∉ (if (colors n).underline then b#"4;" else []) := by split <;> decide
      have h3 : b#'m' ∉ b#"0;" := by decide
      have h4 : b#'m' ∉ b#"38;2;" := by decide
      have h5 : b#'m' ∉ b#";" := by decide
      simp only [List.mem_append, not_or]
      exact ⟨⟨⟨⟨⟨⟨⟨⟨h3, h1⟩, h2⟩, h4⟩, printInt_noM _⟩, h5⟩, printInt_noM _⟩, h5⟩, printInt_noM _⟩

theorem ansiCells_seq {cur q acc rest : List Byte} (h : b#'m' ∉ q) :
    ansiCells cur (some acc) (q ++ b#'m' :: rest) = ansiCells (acc ++ q ++ [b#'m']) none rest := by
  induction q generalizing acc with
  | nil => rw [List.nil_append, ansiCells, if_pos rfl, List.append_nil]
  | cons c t ih =>
    simp only [List.mem_cons, not_or] at h
    rw [List.cons_append, ansiCells, if_neg (fun e => h.1 e.symm), ih h.2]
    simp

theorem ansiEnd_seq {cur q acc rest : List Byte} (h : b#'m' ∉ q) :
    ansiEnd cur (some acc) (q ++ b#'m' :: rest) = ansiEnd (acc ++ q ++ [b#'m']) none rest := by
  induction q generalizing acc with
  | nil => rw [List.nil_append, ansiEnd, if_pos rfl, List.append_nil]
  | cons c t ih =>
    simp only [List.mem_cons, not_or] at h
    rw [List.cons_append, ansiEnd, if_neg (fun e => h.1 e.symm), ih h.2]
    simp

theorem ansiCells_text {cur w rest : List Byte} (h : (27 : Byte) ∉ w) :
    ansiCells cur none (w ++ rest) = w.map (fun c => (cur, c)) ++ ansiCells cur none rest := by
  induction w with
  | nil => rfl
  | cons c t ih =>
    simp only [List.mem_cons, not_or] at h
    have e : ansiCells cur none (c :: (t ++ rest)) = (cur, c) :: ansiCells cur none (t ++ rest) := by
      rw [ansiCells]
      intro e; exact h.1 e.symm
    rw [List.cons_append, e, ih h.2]
    rfl

theorem ansiEnd_text {cur w rest : List Byte} (h : (27 : Byte) ∉ w) : ansiEnd cur none (w ++ rest) = ansiEnd cur none rest := by
  induction w with
  | nil => rfl
  | cons c t ih =>
    simp only [List.mem_cons, not_or] at h
    have e : ansiEnd cur none (c :: (t ++ rest)) = ansiEnd cur none (t ++ rest) := by
      rw [ansiEnd]
      intro e; exact h.1 e.symm
    rw [List.cons_append, e, ih h.2]

theorem textOf_mem {toks : List Tok} {t : Tok} (h : t ∈ toks) {c : Byte} (hc : c ∉ (toks.map Tok.text).flatten) : c ∉ t.text := by
  intro e
  exact hc (List.mem_flatten.2 ⟨t.text, List.mem_map.2 ⟨t, h, rfl⟩, e⟩)

/-- Terminal, without colours: the text itself is written. -/
theorem C73_uncoloured (stdout : Bool) (input out : List Byte) (h : Highlights (terminalHighlight none stdout) input out) :
    out = input := by
  obtain ⟨_, toks, ht, hw⟩ := h
  have hc := C09_tokens_cover_input input toks ht
  cases hs : (terminalHighlight none stdout).tokens toks with
  | none => rw [hs] at hw; cases hw
  | some w =>
    rw [hs] at hw
    cases hw
    obtain ⟨hb, rfl⟩ := tokens_map hs
    rw [← hc]
    show [] ++ _ ++ [] = _
    rw [List.nil_append, List.append_nil]
    clear hc ht hs
    induction toks with
    | nil => rfl
    | cons t ts ih =>
      rw [List.flatMap_cons, List.map_cons, List.flatten_cons, ih fun x hx => hb x (List.mem_cons_of_mem _ hx)]
      obtain ⟨b, e⟩ := hb t (by simp)
      rw [e]
      have : b = t.text := by
        unfold HighlightCfg.body terminalHighlight at e
        simp only at e
        split at e
        · cases e
        · cases e; rfl
      subst this
      simp [terminalHighlight, HighlightCfg.pre, HighlightCfg.post]

theorem body_terminal {colors : Option (ColorName → ColorDef)} {stdout : Bool} {s b : List Byte}
    (e : (terminalHighlight colors stdout).body s = some b) : b = s := by
  unfold HighlightCfg.body terminalHighlight at e
  simp only at e
  split at e
  · cases e
  · cases e; rfl

/-- **C73**, terminal: every character of the source is shown, in order, and each in the colour that belongs to the kind of
    its token, if the source contains no escape character. -/
theorem C73_cells_partial (colors : ColorName → ColorDef) (stdout : Bool) (input out : List Byte)
    (h : Highlights (terminalHighlight (some colors) stdout) input out) (hg : (27 : Byte) ∉ input) :
    ∃ toks, Tokenizes input toks ∧ ∀ cur, ansiCells cur none out =
      toks.flatMap fun t => t.text.map fun c => ((terminalHighlight (some colors) stdout).pre t.kind, c) := by
  obtain ⟨_, toks, ht, hw⟩ := h
  have hc := C09_tokens_cover_input input toks ht
  refine ⟨toks, ht, ?_⟩
  cases hs : (terminalHighlight (some colors) stdout).tokens toks with
  | none => rw [hs] at hw; cases hw
  | some w =>
    rw [hs] at hw
    cases hw
    obtain ⟨hb, rfl⟩ := tokens_map hs
    rw [← hc] at hg
    show ∀ cur, ansiCells cur none ([] ++ _ ++ []) = _
    simp only [List.nil_append, List.append_nil]
    clear hc ht hs
    induction toks with
    | nil => intro cur; rfl
    | cons t ts ih =>
      intro cur
      have hts : (27 : Byte) ∉ (ts.map Tok.text).flatten := by
        intro e; apply hg; rw [List.map_cons, List.flatten_cons, List.mem_append]; exact Or.inr e
      have := ih hts (fun x hx => hb x (List.mem_cons_of_mem _ hx))
      obtain ⟨b, e⟩ := hb t (by simp)
      obtain ⟨q, hq, hm⟩ := pre_seq colors stdout t.kind
      rw [List.flatMap_cons, List.flatMap_cons, e, body_terminal e, ← this ((terminalHighlight (some colors) stdout).pre t.kind)]
      have hp : (terminalHighlight (some colors) stdout).post t.kind = [] := rfl
      rw [hp, hq, Option.getD_some, List.append_nil]
      simp only [List.cons_append, List.append_assoc, List.nil_append]
      rw [ansiCells]
      have e2 : ∀ r, ansiCells cur (some [27]) (91 :: (q ++ b#'m' :: r)) = ansiCells (27 :: 91 :: (q ++ [b#'m'])) none r := by
        intro r
        have := ansiCells_seq (cur := cur) (acc := [27]) (q := 91 :: q) (rest := r)
          (by simp only [List.mem_cons, not_or]; exact ⟨by decide, hm⟩)
        simpa using this
      rw [e2, ansiCells_text (textOf_mem (by simp) hg)]

/-- The colours: the sequence for a token sets the colour of its kind (red, green and blue), after switching off everything,
    with bold and underline as the theme says; tokens without a colour switch everything off. -/
theorem C73_sequence (colors : ColorName → ColorDef) (stdout : Bool) (k : Kind) :
    (tokenColour k = none → sgr ((terminalHighlight (some colors) stdout).pre k) = some [0]) ∧
    ∀ n : ColorName, tokenColour k = some n.tag → ∀ r g b : Nat, (colors n).r = r → (colors n).g = g → (colors n).b = b →
      sgr ((terminalHighlight (some colors) stdout).pre k) =
        some ([0] ++ (if (colors n).bold then [1] else []) ++ (if (colors n).underline then [4] else []) ++ [38, 2, r, g, b]) := by
  have dig : ∀ k n rest, n < 10 ^ k → 0 < k → sgrNumbers 0 (decDigits k n ++ rest) = sgrNumbers n rest := by
    intro k
    induction k with
    | zero => intro n rest _ h0; omega
    | succ k ih =>
      intro n rest hn _
      have step : ∀ a d rest, d < 10 → sgrNumbers a (UInt8.ofNat (48 + d) :: rest) = sgrNumbers (a * 10 + d) rest := by
        intro a d rest hd
        have e : (UInt8.ofNat (48 + d)).toNat = 48 + d := byte_ofNat_toNat (by omega)
        have h1 : UInt8.ofNat (48 + d) ≠ b#'m' := fun h => by have := congrArg UInt8.toNat h; rw [e] at this; revert this; simp; omega
        have h2 : UInt8.ofNat (48 + d) ≠ b#';' := fun h => by have := congrArg UInt8.toNat h; rw [e] at this; revert this; simp; omega
        rw [sgrNumbers, if_neg h1, if_neg h2, e, if_pos (by omega)]
        congr 1; omega
      rw [decDigits]
      split
      · rename_i hs
        rw [List.singleton_append, step 0 n rest hs]
        congr 1; omega
      · rename_i hs
        cases k with
        | zero => omega
        | succ k =>
          rw [List.append_assoc, ih (n / 10) _ (by rw [Nat.pow_succ] at hn; omega) (by omega), List.singleton_append, step _ _ _ (by omega)]
          congr 1; omega
  have num : ∀ (z : Int) (n : Nat) rest, z = n → sgrNumbers 0 (printInt z ++ rest) = sgrNumbers n rest := by
    intro z n rest e
    subst e
    unfold printInt
    rw [if_neg (by omega)]
    simp only [Int.natAbs_natCast]
    exact dig _ _ _ (Nat.lt_of_lt_of_le (Nat.lt_pow_self (by decide)) (Nat.pow_le_pow_right (by decide) (by omega))) (by omega)
  constructor
  · intro h
    have hn : k.colorName = none := by
      have := tokenColour_eq k; rw [h] at this
      cases hc : k.colorName with
      | none => rfl
      | some n => rw [hc] at this; cases this
    simp only [HighlightCfg.pre, terminalHighlight, hn]
    decide
  · intro n hn r g b hr hg hb
    have hc : k.colorName = some n := by
      have := tokenColour_eq k; rw [hn] at this
      cases hc : k.colorName with
      | none => rw [hc] at this; cases this
      | some m =>
        rw [hc] at this
        simp only [Option.map_some, Option.some.injEq] at this
        congr 1
        revert this
        cases m <;> cases n <;> decide
    simp only [HighlightCfg.pre, terminalHighlight, hc, ansiColor]
    have sem : ∀ n rest, sgrNumbers n (b#';' :: rest) = (sgrNumbers 0 rest).map (n :: ·) := by
      intro n rest
      rw [sgrNumbers, if_neg (by decide), if_pos rfl]
    have e0 : ∀ rest, sgr ([27, b#'[', b#'0', b#';'] ++ rest) = (sgrNumbers 0 rest).map (0 :: ·) := by
      intro rest
      show sgrNumbers 0 (b#'0' :: (b#';' :: rest)) = _
      rw [sgrNumbers, if_neg (by decide), if_neg (by decide), if_pos (by decide), sem]
      rfl
    have e1 : ∀ rest, sgrNumbers 0 (b#"1;" ++ rest) = (sgrNumbers 0 rest).map (1 :: ·) := by
      intro rest
      show sgrNumbers 0 (b#'1' :: (b#';' :: rest)) = _
      rw [sgrNumbers, if_neg (by decide), if_neg (by decide), if_pos (by decide), sem]
      rfl
    have e4 : ∀ rest, sgrNumbers 0 (b#"4;" ++ rest) = (sgrNumbers 0 rest).map (4 :: ·) := by
      intro rest
      show sgrNumbers 0 (b#'4' :: (b#';' :: rest)) = _
      rw [sgrNumbers, if_neg (by decide), if_neg (by decide), if_pos (by decide), sem]
      rfl
    have e38 : ∀ rest, sgrNumbers 0 (b#"38;2;" ++ rest) = (sgrNumbers 0 rest).map (fun l => 38 :: 2 :: l) := by
      intro rest
      show sgrNumbers 0 (b#'3' :: b#'8' :: b#';' :: b#'2' :: (b#';' :: rest)) = _
      rw [sgrNumbers, if_neg (by decide), if_neg (by decide), if_pos (by decide),
        sgrNumbers, if_neg (by decide), if_neg (by decide), if_pos (by decide), sem,
        sgrNumbers, if_neg (by decide), if_neg (by decide), if_pos (by decide), sem, Option.map_map]
      rfl
    have last : sgrNumbers 0 (printInt (colors n).r ++ (b#";" ++ (printInt (colors n).g ++ (b#";" ++ (printInt (colors n).b ++ b#"m"))))) =
        some [r, g, b] := by
      have sem' : ∀ n rest, sgrNumbers n (b#";" ++ rest) = (sgrNumbers 0 rest).map (n :: ·) := sem
      rw [num _ r _ hr, sem', num _ g _ hg, sem', num _ b _ hb]
      rfl
    simp only [List.append_assoc]
    rw [e0]
    cases (colors n).bold <;> cases (colors n).underline
    · show ((sgrNumbers 0 (b#"38;2;" ++ _)).map _) = _
      rw [e38, last]; rfl
    · show ((sgrNumbers 0 (b#"4;" ++ (b#"38;2;" ++ _))).map _) = _
      rw [e4, e38, last]; rfl
    · show ((sgrNumbers 0 (b#"1;" ++ (b#"38;2;" ++ _))).map _) = _
      rw [e1, e38, last]; rfl
    · show ((sgrNumbers 0 (b#"1;" ++ (b#"4;" ++ (b#"38;2;" ++ _)))).map _) = _
      rw [e1, e4, e38, last]; rfl

/-- **C73**, terminal: the text shown is the source. -/
theorem C73_terminal_partial (colors : ColorName → ColorDef) (stdout : Bool) (input out : List Byte)
    (h : Highlights (terminalHighlight (some colors) stdout) input out) (hg : (27 : Byte) ∉ input) :
    (ansiCells [] none out).map Prod.snd = input := by
  obtain ⟨toks, ht, hc⟩ := C73_cells_partial colors stdout input out h hg
  rw [hc, ← C09_tokens_cover_input input toks ht]
  clear hc ht h
  induction toks with
  | nil => rfl
  | cons t ts ih =>
    rw [List.flatMap_cons, List.map_append, ih, List.map_map, List.map_cons, List.flatten_cons]
    congr 1
    exact List.map_id _

/-- **C73**, terminal: behind the text the colour of the last token stays on. -/
theorem C73_left_on (colors : ColorName → ColorDef) (stdout : Bool) (input out : List Byte)
    (h : Highlights (terminalHighlight (some colors) stdout) input out) (hg : (27 : Byte) ∉ input) :
    ∃ toks, Tokenizes input toks ∧ ∀ t, toks.getLast? = some t → ∀ cur,
      ansiEnd cur none out = (terminalHighlight (some colors) stdout).pre t.kind := by
  obtain ⟨_, toks, ht, hw⟩ := h
  have hc := C09_tokens_cover_input input toks ht
  refine ⟨toks, ht, ?_⟩
  cases hs : (terminalHighlight (some colors) stdout).tokens toks with
  | none => rw [hs] at hw; cases hw
  | some w =>
    rw [hs] at hw
    cases hw
    obtain ⟨hb, rfl⟩ := tokens_map hs
    rw [← hc] at hg
    show ∀ t, toks.getLast? = some t → ∀ cur, ansiEnd cur none ([] ++ _ ++ []) = _
    simp only [List.nil_append, List.append_nil]
    clear hc ht hs
    induction toks with
    | nil => intro t e; cases e
    | cons t ts ih =>
      intro l hl cur
      have hts : (27 : Byte) ∉ (ts.map Tok.text).flatten := by
        intro e; apply hg; rw [List.map_cons, List.flatten_cons, List.mem_append]; exact Or.inr e
      have := ih hts (fun x hx => hb x (List.mem_cons_of_mem _ hx))
      obtain ⟨b, e⟩ := hb t (by simp)
      obtain ⟨q, hq, hm⟩ := pre_seq colors stdout t.kind
      rw [List.flatMap_cons, e, body_terminal e]
      have hp : (terminalHighlight (some colors) stdout).post t.kind = [] := rfl
      rw [hp, Option.getD_some, List.append_nil]
      have key : ∀ r, ansiEnd cur none ((terminalHighlight (some colors) stdout).pre t.kind ++ t.text ++ r) =
          ansiEnd ((terminalHighlight (some colors) stdout).pre t.kind) none r := by
        intro r
        rw [hq]
        simp only [List.cons_append, List.append_assoc, List.nil_append]
        rw [ansiEnd]
        have := ansiEnd_seq (cur := cur) (acc := [27]) (q := 91 :: q) (rest := t.text ++ r)
          (by simp only [List.mem_cons, not_or]; exact ⟨by decide, hm⟩)
        simp only [List.cons_append, List.append_assoc, List.nil_append] at this
        rw [this, ansiEnd_text (textOf_mem (by simp) hg)]
      rw [key]
      cases ts with
      | nil =>
        simp only [List.getLast?_singleton, Option.some.injEq] at hl
        subst hl
        rfl
      | cons u us =>
        exact this l (by rw [List.getLast?_cons_cons] at hl; exact hl) _

/-! ## HTML -/

theorem pageCells_tag {st : List (List Byte)} {q acc rest : List Byte} (h : b#'>' ∉ q) :
    pageCells (.tag acc) st (q ++ b#'>' :: rest) = pageCells (.tag (acc ++ q)) st (b#'>' :: rest) := by
  induction q generalizing acc with
  | nil => rw [List.nil_append, List.append_nil]
  | cons c t ih =>
    simp only [List.mem_cons, not_or] at h
    rw [List.cons_append, pageCells, if_neg (fun e => h.1 e.symm), ih h.2]
    simp

theorem pageCells_lt (st : List (List Byte)) (t : List Byte) : pageCells .text st (60 :: t) = pageCells (.tag []) st t := by
  cases t <;> simp [pageCells]

theorem pageCells_open {st : List (List Byte)} {n rest : List Byte} (h : b#'>' ∉ n) (h2 : n.head? ≠ some b#'/')
    (h3 : n.takeWhile (· ≠ b#' ') = n) (h4 : n ≠ b#"pre") :
    pageCells .text st (b#'<' :: (n ++ b#">") ++ rest) = pageCells .text (n :: st) rest := by
  rw [List.cons_append, pageCells_lt, List.append_assoc]
  show pageCells _ _ (n ++ b#'>' :: rest) = _
  rw [pageCells_tag h, List.nil_append, pageCells, if_pos rfl, if_neg h2]
  simp only [h3]
  rw [if_neg h4]

theorem pageCells_close {st : List (List Byte)} {n rest : List Byte} (h : b#'>' ∉ n) :
    pageCells .text st (b#"</" ++ n ++ b#">" ++ rest) = pageCells .text (st.drop 1) rest := by
  have e : b#"</" ++ n ++ b#">" ++ rest = 60 :: ((b#'/' :: n) ++ b#'>' :: rest) := by simp
  rw [e, pageCells_lt, pageCells_tag (by simp only [List.mem_cons, not_or]; exact ⟨by decide, h⟩), List.nil_append, pageCells, if_pos rfl,
    if_pos (show (b#'/' :: n).head? = some b#'/' from rfl)]

theorem pageCells_safe (st : List (List Byte)) (s rest : List Byte) :
    pageCells .text st (writeSafeHtml s ++ rest) = s.map (fun c => (st.headD [], c)) ++ pageCells .text st rest := by
  induction s with
  | nil => rfl
  | cons c t ih =>
    rw [writeSafeHtml, List.append_assoc, List.map_cons, List.cons_append, ← ih]
    by_cases h1 : c = b#'&'
    · subst h1
      simp [pageCells]
    by_cases h2 : c = b#'<'
    · subst h2
      simp [pageCells]
    by_cases h3 : c = b#'>'
    · subst h3
      simp [pageCells]
    by_cases h4 : c = b#'"'
    · subst h4
      simp [pageCells]
    simp only [beq_iff_eq, h1, h2, h3, h4, if_false, List.singleton_append]
    generalize writeSafeHtml t ++ rest = r
    rw [pageCells] <;> first | (intros; simp_all; done) | (intros; rename_i e _; exact absurd e (by assumption)) | skip

theorem tag_plain (n : ColorName) : b#'>' ∉ n.tag ∧ n.tag.head? ≠ some b#'/' ∧ n.tag.takeWhile (· ≠ b#' ') = n.tag ∧ n.tag ≠ b#"pre" := by
  cases n <;> decide

/-- The element that shows a token. -/
theorem pageCells_toks {id clazz : Option (List Byte)} {dark stdout : Bool} {st : List (List Byte)} (hst : st.headD [] = b#"pre")
    (toks : List Tok) (rest : List Byte) :
    pageCells .text st ((toks.flatMap fun t => (htmlHighlight id clazz dark stdout).pre t.kind ++
        ((htmlHighlight id clazz dark stdout).body t.text).getD [] ++ (htmlHighlight id clazz dark stdout).post t.kind) ++ rest) =
      (toks.flatMap fun t => t.text.map fun c => ((tokenColour t.kind).getD b#"pre", c)) ++ pageCells .text st rest := by
  induction toks with
  | nil => rfl
  | cons t ts ih =>
    rw [List.flatMap_cons, List.flatMap_cons, List.append_assoc, List.append_assoc (as := t.text.map _), ← ih]
    generalize (ts.flatMap fun t => (htmlHighlight id clazz dark stdout).pre t.kind ++
        ((htmlHighlight id clazz dark stdout).body t.text).getD [] ++ (htmlHighlight id clazz dark stdout).post t.kind) ++ rest = r
    rw [tokenColour_eq]
    have hb : ((htmlHighlight id clazz dark stdout).body t.text).getD [] = writeSafeHtml t.text := rfl
    rw [hb]
    unfold HighlightCfg.pre HighlightCfg.post htmlHighlight
    simp only
    cases hk : t.kind.colorName with
    | none =>
      simp only [List.nil_append, List.append_nil, Option.map_none, Option.getD_none]
      rw [pageCells_safe, hst]
    | some n =>
      obtain ⟨h1, h2, h3, h4⟩ := tag_plain n
      simp only [Option.map_some, Option.getD_some]
      rw [List.append_assoc, List.append_assoc, pageCells_open h1 h2 h3 h4, pageCells_safe, pageCells_close h1]
      rfl

theorem pageCells_preStart {st : List (List Byte)} {s : List Byte} (h : s.head? ≠ some 10) :
    pageCells .preStart st s = pageCells .text st s := by
  unfold pageCells
  split <;> simp_all

theorem toks_head {id clazz : Option (List Byte)} {dark stdout : Bool} {rest : List Byte} (hr : rest.head? ≠ some 10)
    (toks : List Tok) (h : (toks.map Tok.text).flatten.head? ≠ some 10) :
    ((toks.flatMap fun t => (htmlHighlight id clazz dark stdout).pre t.kind ++
        ((htmlHighlight id clazz dark stdout).body t.text).getD [] ++ (htmlHighlight id clazz dark stdout).post t.kind) ++ rest).head? ≠
      some 10 := by
  induction toks with
  | nil => exact hr
  | cons t ts ih =>
    rw [List.flatMap_cons, List.append_assoc]
    have hb : ((htmlHighlight id clazz dark stdout).body t.text).getD [] = writeSafeHtml t.text := rfl
    rw [hb]
    unfold HighlightCfg.pre HighlightCfg.post htmlHighlight
    simp only
    cases hk : t.kind.colorName with
    | some n => simp
    | none =>
      simp only [List.nil_append, List.append_nil]
      cases ht : t.text with
      | nil =>
        rw [writeSafeHtml]
        apply ih
        rw [List.map_cons, ht] at h
        exact h
      | cons c s =>
        rw [List.map_cons, ht] at h
        simp only [List.flatten_cons, List.cons_append, List.head?_cons, ne_eq, Option.some.injEq] at h
        rw [writeSafeHtml]
        split
        · simp
        split
        · simp
        split
        · simp
        split
        · simp
        · simpa using h

/-- **C73**, HTML: every character of the source is shown, in order, and each in an element whose name tells the kind of its token
    (tokens without a colour stand in the `pre` element itself), if the source does not begin with a newline. -/
theorem C73_page_cells_partial (id clazz : Option (List Byte)) (dark stdout : Bool)
    (hl : (id.getD []).length + (clazz.getD []).length ≤ 980) (h1 : b#'>' ∉ id.getD []) (h2 : b#'>' ∉ clazz.getD [])
    (input out : List Byte) (h : Highlights (htmlHighlight id clazz dark stdout) input out) (hg : input.head? ≠ some 10) :
    ∃ toks, Tokenizes input toks ∧ pageCells .text [] out =
      toks.flatMap fun t => t.text.map fun c => ((tokenColour t.kind).getD b#"pre", c) := by
  obtain ⟨_, toks, ht, hw⟩ := h
  have hc := C09_tokens_cover_input input toks ht
  refine ⟨toks, ht, ?_⟩
  cases hs : (htmlHighlight id clazz dark stdout).tokens toks with
  | none => rw [hs] at hw; cases hw
  | some w =>
    rw [hs] at hw
    cases hw
    obtain ⟨_, rfl⟩ := tokens_map hs
    obtain ⟨t, e1, e2, u, rfl⟩ := htmlPre_whole dark hl h1 h2
    have ef : (htmlHighlight id clazz dark stdout).front = b#'<' :: ((b#"pre " ++ u) ++ b#">") := e1
    have eb : (htmlHighlight id clazz dark stdout).back = b#"</" ++ b#"pre" ++ b#">" ++ [] := rfl
    simp only []
    rw [ef, List.append_assoc, List.cons_append, pageCells_lt, List.append_assoc]
    have e3 : ∀ r, pageCells (.tag []) [] ((b#"pre " ++ u) ++ (b#">" ++ r)) = pageCells .preStart [b#"pre"] r := by
      intro r
      show pageCells (.tag []) [] ((b#"pre " ++ u) ++ b#'>' :: r) = _
      rw [pageCells_tag e2, List.nil_append, pageCells, if_pos rfl, if_neg (by simp)]
      have : (b#"pre " ++ u).takeWhile (· ≠ b#' ') = b#"pre" := by simp [List.takeWhile]
      simp only [this]
      rfl
    rw [e3, pageCells_preStart, pageCells_toks rfl, eb, pageCells_close (by decide)]
    · simp [pageCells]
    · exact toks_head (by rw [eb]; simp) toks (by rw [hc]; exact hg)

/-- **C73**, HTML: the text shown is the source. -/
theorem C73_page_partial (id clazz : Option (List Byte)) (dark stdout : Bool)
    (hl : (id.getD []).length + (clazz.getD []).length ≤ 980) (h1 : b#'>' ∉ id.getD []) (h2 : b#'>' ∉ clazz.getD [])
    (input out : List Byte) (h : Highlights (htmlHighlight id clazz dark stdout) input out) (hg : input.head? ≠ some 10) :
    pageShown out = input := by
  obtain ⟨toks, ht, hc⟩ := C73_page_cells_partial id clazz dark stdout hl h1 h2 input out h hg
  rw [pageShown, hc, ← C09_tokens_cover_input input toks ht]
  clear hc ht h hg
  induction toks with
  | nil => rfl
  | cons t ts ih =>
    rw [List.flatMap_cons, List.map_append, ih, List.map_map, List.map_cons, List.flatten_cons]
    congr 1
    exact List.map_id _

/-! ## Cases and where it fails -/

/-- Colours of the dark theme, parts/default_themes.c 34-48 (some of them). -/
def darkColors : ColorName → ColorDef
  | .C => ⟨0x2a, 0xa1, 0xb3, false, false⟩
  | .EK => ⟨0x88, 0xb4, 0xf7, false, false⟩
  | .AK => ⟨0x88, 0xb4, 0xf7, false, false⟩
  | .UW => ⟨0x88, 0, 0, false, true⟩
  | _ => ⟨0x26, 0xa2, 0x69, true, false⟩

def highlightSource : List Byte := b#"car(nr = 1) { wheel = '<a & \"b\">' // round\n}"

/-- An evaluator: what is written for a source that is accepted with the given fuel. -/
def highlightOf (h : HighlightCfg) (input : List Byte) : Option (List Byte) :=
  match parseBuffer (input.length + 1) input with
  | .ok st => (h.tokens st.out.reverse).map fun w => h.front ++ w ++ h.back
  | _ => none

theorem highlights_of {h : HighlightCfg} {input out : List Byte} (hd : detect input = some .xmq) (e : highlightOf h input = some out) :
    Highlights h input out := by
  unfold highlightOf at e
  split at e
  · rename_i st hs
    exact ⟨hd, st.out.reverse, ⟨_, st, hs, rfl⟩, e⟩
  · cases e

example : ∃ out, Highlights (terminalHighlight (some darkColors) true) highlightSource out ∧ (27 : Byte) ∉ highlightSource ∧
    out.length = 224 :=
  ⟨_, highlights_of (by decide +kernel) (Option.eq_some_of_isSome (by decide +kernel)), by decide +kernel, by decide +kernel⟩

example : Highlights (htmlHighlight none none true true) highlightSource
      (b#"<pre class=\"xmq xmq_dark\"><xmqEN>car</xmqEN>(<xmqAK>nr</xmqAK> = <xmqAKV>1</xmqAKV>) { <xmqEK>wheel</xmqEK> = " ++
        b#"<xmqEKV>'&lt;a &amp; &quot;b&quot;&gt;'</xmqEKV> <xmqC>// round\n</xmqC>}</pre>") ∧ highlightSource.head? ≠ some 10 :=
  ⟨highlights_of (by decide +kernel) (by decide +kernel), by decide +kernel⟩

/-- The claim for terminals as one would like it. -/
def HighlightShown : Prop :=
  ∀ colors stdout input out, Highlights (terminalHighlight (some colors) stdout) input out →
    (ansiCells [] none out).map Prod.snd = input

/-- **C73** fails for a source with an escape sequence in it. -/
theorem C73_false : ¬ HighlightShown := by
  intro h
  have e : ∃ out, highlightOf (terminalHighlight (some darkColors) true) (b#"a='x" ++ [27] ++ b#"[0my'") = some out ∧
      (ansiCells [] none out).map Prod.snd ≠ b#"a='x" ++ [27] ++ b#"[0my'" :=
    ⟨_, Option.eq_some_of_isSome (by decide +kernel), by decide +kernel⟩
  obtain ⟨out, e1, e2⟩ := e
  exact e2 (h darkColors true _ out (highlights_of (by decide +kernel) e1))

/-- **C73** fails for HTML if the source begins with a newline: a browser does not show it. -/
theorem C73_false_newline : ∃ out, Highlights (htmlHighlight none none true true) b#"\na" out ∧ pageShown out = b#"a" :=
  ⟨_, highlights_of (by decide +kernel) (Option.eq_some_of_isSome (by decide +kernel)), by decide +kernel⟩

/-- **C73** fails for plain rendering: none of the tokens is written. -/
theorem C73_false_plain (colors : Option (ColorName → ColorDef)) (stdout : Bool) (input out : List Byte)
    (h : Highlights ⟨.plain, colors, stdout, [], []⟩ input out) : out = [] := by
  obtain ⟨_, toks, _, hw⟩ := h
  have : ∀ toks : List Tok, (HighlightCfg.tokens ⟨.plain, colors, stdout, [], []⟩ toks) = some [] := by
    intro toks
    induction toks with
    | nil => rfl
    | cons t ts ih =>
      rw [HighlightCfg.tokens, ih]
      rfl
  rw [this] at hw
  cases hw
  rfl

/-- **C73** fails for TeX: braces of the source are not shown. -/
theorem C73_false_tex : ∃ out, Highlights (texHighlight true) b#"a{b}" out ∧ texShown false out ≠ b#"a{b}" ∧
    ∀ c ∈ texShown false out, c ≠ b#'{' ∧ c ≠ b#'}' :=
  ⟨_, highlights_of (by decide +kernel) (Option.eq_some_of_isSome (by decide +kernel)), by decide +kernel, by decide +kernel⟩

/-- **C73** fails on the standard output for a prefix without a name: the source is accepted, but an assertion stops the program.
    Into memory it is written. -/
theorem C73_false_empty (colors : Option (ColorName → ColorDef)) :
    (∃ toks, Tokenizes b#"a:=b" toks) ∧ ¬ (∃ out, Highlights (terminalHighlight colors true) b#"a:=b" out) ∧
      ∃ out, Highlights (terminalHighlight colors false) b#"a:=b" out := by
  have e : (tokensOf b#"a:=b").map (fun l => l.any fun t => t.text.isEmpty) = some true := by decide +kernel
  cases hk : tokensOf b#"a:=b" with
  | none => rw [hk] at e; cases e
  | some l =>
  rw [hk] at e
  simp only [Option.map_some, Option.some.injEq] at e
  have ht : Tokenizes b#"a:=b" l := (tokenizes_iff _ _).2 hk
  refine ⟨⟨_, ht⟩, ?_, ?_⟩
  · rintro ⟨out, _, toks, ht', hw⟩
    have hl : toks = l := by
      have := (tokenizes_iff _ _).1 ht'
      rw [hk] at this
      cases this
      rfl
    rw [hl] at hw
    obtain ⟨t, hm, hemp⟩ := List.any_eq_true.1 e
    cases hs : (terminalHighlight colors true).tokens l with
    | none => rw [hs] at hw; cases hw
    | some w =>
      obtain ⟨b, hb⟩ := (tokens_map hs).1 t hm
      simp [HighlightCfg.body, terminalHighlight, hemp] at hb
  · have key : ∀ toks : List Tok, ∃ w, (terminalHighlight colors false).tokens toks = some w := by
      intro toks
      induction toks with
      | nil => exact ⟨[], rfl⟩
      | cons t ts ih =>
        obtain ⟨w, hw⟩ := ih
        rw [HighlightCfg.tokens, hw]
        exact ⟨_, rfl⟩
    obtain ⟨w, hw⟩ := key l
    exact ⟨_, by decide +kernel, _, ht, by rw [hw]; rfl⟩

end Xmq.Props
