import Verif.Lemmas.PrettyText
/-!
# Values of attributes and elements in pretty output
-/
namespace Xmq
open Spec

set_option linter.unusedSectionVars false

variable [Mode]

variable {S : Prop}

/-- A text that is kept in pretty output, wherever it is quoted. -/
structure PrettyPart (S : Prop) (cfg : OutCfg) (s : List Byte) : Prop extends PrettyText S cfg s where
  notQuotes : s ≠ [] → hasAllQuotes s = false
  utf8 : cfg.escapeNon7bit = true → ValidUtf8 s

theorem pretty_textEmits {cfg : OutCfg} (hc : cfg.compact = false) (hsp : cfg.indentationSpace = [32]) {lv : Level}
    (hlv : QuotedLevel lv) {s : List Byte} (h : PrettyPart S cfg s) : TextEmits S cfg lv s := by
  by_cases hne : s = []
  · subst hne; exact textEmits_empty
  · exact EmitsText.textEmits hne (fun ps _ =>
      emits_internalText_pretty hc hsp hlv _ ps s (by omega) h.toPrettyText hne (h.notQuotes hne) h.utf8)

theorem textParts_leaf {cfg : OutCfg} (hc : cfg.compact = false) {level : Level} {rec : PS → List Byte → PS} {ps : PS} {s : List Byte}
    (hne : s ≠ []) (hesc : ∀ b ∈ s, Esc cfg b = false) (ha : addCompound s false = false) :
    PS.textParts cfg level rec ps s = (ps.beforeQuote cfg level).safeLeafQuote cfg s := by
  have hloop : PS.textLoop cfg level rec s.length ps s = (ps.beforeQuote cfg level).safeLeafQuote cfg s := by
    cases s with
    | nil => exact absurd rfl hne
    | cons c t =>
      rw [List.length_cons, PS.textLoop]
      simp only [findEscape_none cfg (c :: t) hesc (by simp [hc])]
      rw [if_neg (by simp), if_pos (by rw [List.take_length, ha, hc]; simp)]
      rw [List.take_length, List.drop_length]
      have : ∀ (k : Nat) (p : PS), PS.textLoop cfg level rec k p [] = p := by intro k p; cases k <;> rfl
      rw [this]
  simp only [addCompound, Bool.or_eq_false_iff] at ha
  have hend : (match hasEndingNlSpace s with
    | some e =>
      if e.onlyNewlines = 0 then
        PS.allWhitespace cfg (e.ws.drop (e.ws.takeWhile (· == (32 : Byte))).length).length
          (PS.textLoop cfg level rec (e.text ++ e.ws.takeWhile (· == (32 : Byte))).length ps (e.text ++ e.ws.takeWhile (· == (32 : Byte))))
          (e.ws.drop (e.ws.takeWhile (· == (32 : Byte))).length) level
      else PS.textLoop cfg level rec s.length ps s
    | none => PS.textLoop cfg level rec s.length ps s) = (ps.beforeQuote cfg level).safeLeafQuote cfg s := by
    have h := ha.2
    cases hl : hasEndingNlSpace s with
    | none => exact hloop
    | some l =>
      rw [hl] at h
      dsimp only
      rw [if_neg (by simpa using h)]
      exact hloop
  unfold PS.textParts
  dsimp only
  have h := ha.1.2
  cases hl : hasLeadingSpaceNl s with
  | none => exact hend
  | some l =>
    rw [hl] at h
    dsimp only
    rw [if_neg (by simpa using h)]
    exact hend

/-- Texts that are kept as the only child of an attribute or element. -/
structure PrettySingle (S : Prop) (cfg : OutCfg) (s : List Byte) : Prop extends PrettyPart S cfg s where
  noTabs : ¬ ((∀ b ∈ s, b = 32 ∨ b = 9) ∧ (9 : Byte) ∈ s ∧ 2 ≤ s.length ∧ cfg.escapeTabs = false)

/-- What is printed when no compound is needed: one part or a bare text. -/
theorem internalText_single_pretty {cfg : OutCfg} (hc : cfg.compact = false) (hsp : cfg.indentationSpace = [32]) {level : Level} (k : Nat)
    {ps : PS} {s : List Byte} (h : PrettySingle S cfg s) (hn : quoteNeedsCompounded cfg s = false) :
    (s ≠ [] ∧ isXmqTextValue s = true ∧ PS.internalText cfg level (k + 1) ps s = ps.printSpan s ∧ (∀ b ∈ s, Esc cfg b = false)) ∨
    (Emits S cfg ps (PS.internalText cfg level (k + 1) ps s) [.text s] ∧ ((PS.internalText cfg level (k + 1) ps s).last = 39 ∨
      (PS.internalText cfg level (k + 1) ps s).last = 59)) := by
  have hs : SepQ cfg ps := .inl hsp
  rw [PS.internalText]
  by_cases hne : s = []
  · subst hne
    right
    exact ⟨emits_empty hs, .inl rfl⟩
  rw [if_neg (by simpa using hne), if_neg (by simp [h.notQuotes hne])]
  dsimp only
  by_cases hone : ∃ c, s = [c] ∧ (c = 10 ∨ c = 13 ∨ c = 9)
  · obtain ⟨c, rfl, hcc⟩ := hone
    right
    have hw : (hasAllWhitespace [c]).1 = true ∧ (hasAllWhitespace [c]).2.1 = false := by
      rcases hcc with rfl | rfl | rfl <;> decide
    rw [if_neg (by simp [hw.2]), if_pos (by simp [hw.1])]
    have hca := charAt_ascii c [] (by rcases hcc with rfl | rfl | rfl <;> decide) (by rcases hcc with rfl | rfl | rfl <;> decide)
    have := emits_char1 (S := S) hs.toE hca
    have e : PS.allWhitespace cfg [c].length ps [c] level = ((ps.beforeEntity cfg).charEntity [c]).1 := by
      rw [List.length_singleton, PS.allWhitespace, if_neg (by rcases hcc with rfl | rfl | rfl <;> decide)]
      rfl
    rw [e]; exact ⟨this, .inr (charEntity_last (ps.beforeEntity cfg) hca).1⟩
  have hn1 : ¬ (s == [b#'\''] || s == [b#'\n'] || s == [b#'\r'] || s == [b#'\t']) = true := by
    intro hm
    simp only [Bool.or_eq_true, beq_iff_eq] at hm
    rcases hm with ((hm | hm) | hm) | hm
    · have := h.notQuotes hne; subst hm; revert this; decide
    · exact hone ⟨10, hm, .inl rfl⟩
    · exact hone ⟨13, hm, .inr (.inl rfl)⟩
    · exact hone ⟨9, hm, .inr (.inr rfl)⟩
  unfold quoteNeedsCompounded at hn
  rw [if_neg hn1] at hn
  simp only [Bool.or_eq_false_iff] at hn
  obtain ⟨⟨⟨hlead, htrail⟩, -⟩, hesc⟩ := hn
  have hesc := quoteNeedsCompounded_esc (by simp only [Bool.or_assoc]; simp only [Bool.or_assoc] at hesc; exact hesc)
  have ha : addCompound s false = false := by
    simp only [addCompound, Bool.and_false, Bool.false_or, Bool.or_eq_false_iff]
    exact ⟨hlead, htrail⟩
  have h13 : (13 : Byte) ∉ s := by
    intro hm; have := hesc _ hm; simp [Esc] at this
  by_cases hsp' : (hasAllWhitespace s).2.1 = true
  · rw [if_pos hsp']
    right
    have := emits_spaces1 (S := S) (cfg := cfg) (ps := ps) (level := level) hs (List.length_pos_iff.2 hne)
    rw [← allWhitespace_space hsp'] at this
    exact ⟨this, .inl rfl⟩
  rw [if_neg hsp']
  by_cases hw : ((hasAllWhitespace s).1 && !((hasAllWhitespace s).2.2 && !cfg.compact && decide (s.length > 1))) = true
  · exfalso
    simp only [Bool.and_eq_true, Bool.not_eq_true', Bool.and_eq_false_iff] at hw
    have hws := allWhitespace_fst hw.1
    have hlen : ¬ 2 ≤ s.length → ∃ c, s = [c] := by
      intro hlt
      match s, hne, hlt with
      | [c], _, _ => exact ⟨c, rfl⟩
      | _ :: _ :: t, _, hlt => simp at hlt
    have h10 : (10 : Byte) ∉ s := by
      intro h10
      have hall := (addCompound_leadNl ha).1 s [] (by simp) hws h10
      have h2 : (hasAllWhitespace s).2.2 = true := by
        unfold hasAllWhitespace
        rw [if_pos (by rw [List.all_eq_true]; exact hws)]
        simpa using hall
      have hlt : ¬ 2 ≤ s.length := by
        intro hlt
        have := hw.2
        rw [h2, hc] at this
        simp at this; omega
      obtain ⟨c, rfl⟩ := hlen hlt
      exact hone ⟨c, rfl, .inl (hall c (by simp))⟩
    have hbl : ∀ b ∈ s, b = 32 ∨ b = 9 := by
      intro b hb
      have := hws b hb
      simp [isXmlWhitespace] at this
      rcases this with ((h | h) | h) | h
      · exact .inl h
      · subst h; exact absurd hb h10
      · exact .inr h
      · subst h; exact absurd hb h13
    have h9 : (9 : Byte) ∈ s := by
      apply Classical.byContradiction
      intro h9
      apply hsp'
      unfold hasAllWhitespace
      rw [if_pos (by rw [List.all_eq_true]; exact hws)]
      simp only [List.all_eq_true, beq_iff_eq]
      intro b hb
      rcases hbl b hb with h | h
      · exact h
      · subst h; exact absurd hb h9
    refine h.noTabs ⟨hbl, h9, ?_, ?_⟩
    · apply Classical.byContradiction
      intro hlt
      obtain ⟨c, rfl⟩ := hlen hlt
      simp at h9
      exact hone ⟨c, rfl, .inr (.inr h9.symm)⟩
    · have := hesc _ h9
      simp [Esc] at this; exact this
  rw [if_neg hw]
  by_cases hv : (isXmqTextValue s && (level == .elementValue || level == .attrValue)) = true
  · rw [if_pos hv]
    simp only [Bool.and_eq_true] at hv
    exact .inl ⟨hne, hv.1, rfl, hesc⟩
  · rw [if_neg hv]
    right
    rw [textParts_leaf hc hne hesc ha]
    have := emits_leaf_pretty (S := S) hc hsp (ps := ps) (level := level) hne h.sync h13 (h.pieces.whole hesc) ha h.noStray
    exact ⟨this.1, .inl this.2⟩

/-- A bare value in pretty output. -/
def PrettyBare (s : List Byte) : Prop := isXmqTextValue s = true → s.getLast? ≠ some 61

theorem pretty_value_text {cfg : OutCfg} (hc : cfg.compact = false) (hsp : cfg.indentationSpace = [32]) {lv : Level}
    (hlv : ValueLevel lv) {ps : PS} {s : List Byte} (h : PrettySingle S cfg s) (hb : PrettyBare s) :
    ReadsAs cfg S lv ps (PS.value cfg ps [.text s] lv) [.text s] := by
  cases hn : quoteNeedsCompounded cfg s
  · refine value_text_plain hlv hn ?_
    rcases internalText_single_pretty (S := S) hc hsp s.length h hn (level := lv) (ps := ps) with ⟨hne, hv, he, hesc⟩ | ⟨he, hl39⟩
    · rw [he]
      obtain ⟨c, hcl⟩ : ∃ c, s.getLast? = some c := by
        cases hg : s.getLast? with
        | none => simp at hg; exact absurd hg hne
        | some c => exact ⟨c, rfl⟩
      have hmem := List.mem_of_getLast? hcl
      have hcc := safeLast_class hv hcl
      have h61 : c ≠ 61 := fun h => hb hv (h ▸ hcl)
      have h0 : c ≠ 0 := fun h0 => h.noNul (h0 ▸ hmem)
      have hc1 : c ≠ 1 := by
        rintro rfl
        have := hesc _ hmem
        simp [Esc] at this
      refine ⟨⟨_, Splits.refl [Val.text s], value_bare hlv hne hv c hcl (.inr ⟨hc, ?_⟩) hc1 h0 hcc.2.1 h61 rfl⟩, ?_⟩
      · simp [h0, hcc.2.1, h61]
      · simp [PS.printSpan, hcl, hc1]
    · refine ⟨⟨_, Splits.refl [Val.text s], value_single hlv (by simp [hc]) hl39 he (by simp)⟩, ?_⟩
      rcases hl39 with h | h <;> rw [h] <;> decide
  · refine value_compounded hlv (fun _ => hsp) hn (fun p1 hp1 => ?_)
    obtain ⟨-, hl, ls, hls, he, hf⟩ := pretty_textEmits (S := S) hc hsp (enterCompound_quoted hlv) h.toPrettyPart p1 (.inl hsp)
    refine ⟨_, ?_, he, hl⟩
    have := Splits.text hls
    rw [hf] at this; exact this

/-- The values that pretty output keeps. -/
structure PrettyVals (S : Prop) (cfg : OutCfg) (vs : List Val) : Prop where
  ne : vs ≠ []
  texts : ∀ s, Val.text s ∈ vs → PrettyPart S cfg s
  names : ∀ n, Val.entity n ∈ vs → EntName n
  single : ∀ s, vs = [.text s] → PrettySingle S cfg s ∧ PrettyBare s

theorem pretty_value {cfg : OutCfg} (hc : cfg.compact = false) (hsp : cfg.indentationSpace = [32]) {lv : Level} (hlv : ValueLevel lv)
    {ps : PS} {vs : List Val} (h : PrettyVals S cfg vs) : ReadsAs cfg S lv ps (PS.value cfg ps vs lv) vs := by
  have key : compounded cfg vs = true → ReadsAs cfg S lv ps (PS.value cfg ps vs lv) vs := by
    intro hcomp
    refine value_compounded hlv (fun _ => hsp) hcomp (fun p1 hp1 => ?_)
    refine emits_values hsp vs (fun v hv => ?_) p1 (by rw [hp1]; decide)
    cases v with
    | text s => exact pretty_textEmits hc hsp (enterCompound_quoted hlv) (h.texts s hv)
    | entity n => exact h.names n hv
  match vs, h, key with
  | [], h, _ => exact absurd rfl h.ne
  | [.text s], h, _ => exact pretty_value_text hc hsp hlv (h.single s rfl).1 (h.single s rfl).2
  | [.entity n], h, _ => exact value_entity_plain hlv (h.names n (by simp)) (.inl hsp) (by simp [hc])
  | a :: b :: t, h, key => exact key (by cases a <;> rfl)

end Xmq
