import Verif.Lemmas.SingleLine
/-!
# `xmqCompactQuote`
-/
namespace Xmq
open Spec

/-! ## The level only matters for bare texts and for the white space before quotes -/

def isBareLevel (lv : Level) : Bool := lv == .elementValue || lv == .attrValue

section
variable {cfg : OutCfg} {lv lv' : Level} (hx : (lv == .xmq) = (lv' == .xmq)) (hb : isBareLevel lv = isBareLevel lv')
include hx

theorem beforeQuote_level (ps : PS) : ps.beforeQuote cfg lv = ps.beforeQuote cfg lv' := by
  unfold PS.beforeQuote; rw [hx]

theorem allWhitespace_level (k : Nat) (ps : PS) (s : List Byte) : PS.allWhitespace cfg k ps s lv = PS.allWhitespace cfg k ps s lv' := by
  induction k generalizing ps s with
  | zero => rfl
  | succ k ih =>
    cases s with
    | nil => rfl
    | cons c t => rw [PS.allWhitespace, PS.allWhitespace]; simp only [ih, beforeQuote_level hx]

theorem textLoop_level (rec : PS → List Byte → PS) (k : Nat) (ps : PS) (s : List Byte) :
    PS.textLoop cfg lv rec k ps s = PS.textLoop cfg lv' rec k ps s := by
  induction k generalizing ps s with
  | zero => rfl
  | succ k ih =>
    cases s with
    | nil => rfl
    | cons c t => rw [PS.textLoop, PS.textLoop]; simp only [ih, beforeQuote_level hx]

theorem textParts_level (rec : PS → List Byte → PS) (ps : PS) (s : List Byte) :
    PS.textParts cfg lv rec ps s = PS.textParts cfg lv' rec ps s := by
  unfold PS.textParts
  simp only [allWhitespace_level hx, textLoop_level hx]

include hb
theorem internalText_level (k : Nat) (ps : PS) (s : List Byte) : PS.internalText cfg lv k ps s = PS.internalText cfg lv' k ps s := by
  induction k generalizing ps s with
  | zero => rfl
  | succ k ih =>
    have e : PS.internalText cfg lv k = PS.internalText cfg lv' k := by funext p s; exact ih p s
    have hb' : (lv == .elementValue || lv == .attrValue) = (lv' == .elementValue || lv' == .attrValue) := hb
    rw [PS.internalText, PS.internalText]
    simp only [beforeQuote_level hx, allWhitespace_level hx, textParts_level hx, e, hb']
end

theorem value_level (cfg : OutCfg) (ps : PS) (s : List Byte) :
    ps.value cfg [.text s] .attrValue = ps.value cfg [.text s] .elementValue := by
  have h1 : ∀ k p t, PS.internalText cfg .attrValue k p t = PS.internalText cfg .elementValue k p t :=
    internalText_level rfl rfl
  have h2 : ∀ k p t, PS.internalText cfg .attrValueCompound k p t = PS.internalText cfg .elementValueCompound k p t :=
    internalText_level rfl rfl
  have e1 : (Level.attrValue == Level.xmq) = false := rfl
  have e2 : (Level.elementValue == Level.xmq) = false := rfl
  have e3 : (Level.attrValue != Level.xmq) = true := rfl
  have e4 : (Level.elementValue != Level.xmq) = true := rfl
  unfold PS.value
  simp only [PS.value.enterCompound, e1, e2, e3, e4, Bool.false_eq_true, if_false, PS.valueInternal, List.foldl_cons, List.foldl_nil, h1, h2]

theorem takeWhile_two {p q : Byte → Bool} (hpq : ∀ b, p b = true → q b = true) (s : List Byte) :
    s.takeWhile p ++ (s.dropWhile p).takeWhile q = s.takeWhile q := by
  induction s with
  | nil => rfl
  | cons c t ih =>
    by_cases h : p c = true
    · rw [List.takeWhile_cons_of_pos h, List.dropWhile_cons_of_pos h, List.takeWhile_cons_of_pos (hpq c h), List.cons_append, ih]
    · rw [List.takeWhile_cons_of_neg h, List.dropWhile_cons_of_neg h, List.nil_append]

theorem isXmlWs_mem {b : Byte} : isXmlWhitespace b = true ↔ b ∈ ([32, 10, 9, 13] : List Byte) := by
  simp only [isXmlWhitespace, Bool.or_eq_true, beq_iff_eq, List.mem_cons, List.not_mem_nil, or_false]
  grind

theorem leadOk_of {s : List Byte} (h : CompactQuoteSafe s) (hw : (hasAllWhitespace s).1 = false) : LeadOk s := by
  intro l hl h0 hlast
  unfold hasLeadingSpaceNl at hl
  dsimp only at hl
  split at hl
  · cases hl
  rename_i hf
  cases hl
  dsimp only at hlast h0
  have hnl : (10 : Byte) ∈ s.takeWhile isXmlWhitespace := by
    have hws := takeWhile_two (p := (· == (10 : Byte))) (q := isXmlWhitespace) (by intro b hb; simp at hb; subst hb; decide) s
    rw [← hws]
    simp only [Bool.not_eq_true', Bool.not_eq_false, Bool.or_eq_true, decide_eq_true_eq, List.any_eq_true, beq_iff_eq] at hf
    rcases hf with hf | ⟨x, hx, rfl⟩
    · obtain ⟨x, hx⟩ := List.exists_mem_of_length_pos hf
      have := mem_takeWhile_pos hx
      simp at this; subst this
      exact List.mem_append_left _ hx
    · exact List.mem_append_right _ hx
  rw [takeWhile_two (q := isXmlWhitespace) (by intro b hb; simp at hb; subst hb; decide)] at hlast
  rcases List.eq_nil_or_concat (s.takeWhile isXmlWhitespace) with he | ⟨a, x, he⟩
  · rw [he] at hnl; cases hnl
  · rw [List.concat_eq_append] at he
    rw [he] at hlast
    simp at hlast; subst hlast
    have hs : s = a ++ 32 :: s.dropWhile isXmlWhitespace := by
      have := List.takeWhile_append_dropWhile (p := isXmlWhitespace) (l := s)
      rw [he] at this
      conv => lhs; rw [← this]
      simp
    have ha : (10 : Byte) ∈ a := by
      rw [he] at hnl
      rcases List.mem_append.1 hnl with h | h
      · exact h
      · simp at h
    have hall : ∀ x ∈ a, x ∈ ([32, 10, 9, 13] : List Byte) := fun x hx =>
      isXmlWs_mem.1 (mem_takeWhile_pos (t := s) (by rw [he]; exact List.mem_append_left _ hx))
    have hd := h.lead a _ hs hall ha
    cases hdw : s.dropWhile isXmlWhitespace with
    | nil =>
      have hall2 : s.all isXmlWhitespace = true := by
        have := List.takeWhile_append_dropWhile (p := isXmlWhitespace) (l := s)
        rw [hdw, List.append_nil] at this
        rw [← this, List.all_takeWhile]
      simp [hasAllWhitespace, hall2] at hw
    | cons c t =>
      have := isXmlWs_mem.2 (hd c (by rw [hdw]; rfl))
      have h2 := List.head?_dropWhile_not isXmlWhitespace s
      rw [hdw] at h2
      simp [this] at h2

/-- The settings of `xmqCompactQuote`. -/
def quoteCfg : OutCfg := ⟨true, true, false, false, 0, []⟩

theorem compactSingle_of {s : List Byte} (h : CompactQuoteSafe s) : CompactSingle quoteCfg s where
  noStray := h.noStray
  noNul := h.noNul
  noRun := h.noTriple
  notQuotes := (compactPart_of (cfg := quoteCfg) ⟨h.noStray, h.noNul, h.noTriple, h.notOnlyQuotes, by simp [quoteCfg]⟩).notQuotes
  utf8 := by simp [quoteCfg]
  noTabs := fun ⟨a, b, c, _⟩ => h.tabs ⟨a, b, c⟩

theorem K_end (cfg : OutCfg) {c : Byte} (hc : c ≠ 1) : K cfg c [] :=
  ⟨⟨[], [], rfl, Ws.nil, rfl, by simp⟩, by simp, by simp, fun h => absurd h hc, fun _ => .inl rfl⟩

/-- The value is read by the parser. -/
theorem compactQuote_parse {s : List Byte} (h : CompactQuoteSafe s) : ∃ es, Splits es [.text s] ∧
    ∀ col b f, Recv false b f → P (fun F st => parseXmqValue F st .elementValue) (compactQuote s ++ []) col b [] (colw col (compactQuote s)) (f es) := by
  have hlv : ValueLevel .elementValue := .inl rfl
  have e : compactQuote s = (PS.value quoteCfg ⟨[], 0, 0, 0⟩ [.text s] .elementValue).out := by
    unfold compactQuote; rw [value_level]; rfl
  have hsq : ∀ p : PS, p.last = (0 : Byte) ∨ p.last = 40 → SepQ quoteCfg p := by
    intro p hp
    refine .inr ⟨rfl, rfl, ?_⟩
    rcases hp with hp | hp <;> rw [hp] <;> decide
  have hsing := compactSingle_of h
  by_cases hbare : quoteNeedsCompounded quoteCfg s = false ∧ isXmqTextValue s = true ∧ s ≠ []
  · obtain ⟨hn, hv, hne⟩ := hbare
    rcases internalText_single (S := False) rfl s.length (hsq ⟨[], 0, 0, 0⟩ (.inl rfl)) hsing hn (level := .elementValue) with ⟨-, -, he, -⟩ | ⟨he, hl39⟩
    · have ho : compactQuote s = s := by
        rw [e]
        unfold PS.value
        simp only [hn, Bool.and_false, Bool.false_eq_true, if_false]
        show (PS.internalText quoteCfg .elementValue (s.length + 1) ⟨[], 0, 0, 0⟩ s).out = s
        rw [he, (printSpan_out _ (bare_noStray hv)).1]; rfl
      refine ⟨_, Splits.refl [Val.text s], fun col b f hb => ?_⟩
      rw [ho]
      exact P_value_text hlv hb.one [] s [] Ws.nil hne hv (.inl rfl) col
    · have hr : ReadsAs quoteCfg False .elementValue ⟨[], 0, 0, 0⟩ (PS.value quoteCfg ⟨[], 0, 0, 0⟩ [.text s] .elementValue) [.text s] := by
        refine value_text_plain hlv hn ⟨⟨_, Splits.refl [Val.text s], value_single hlv (fun _ => by decide) hl39 he (by simp)⟩, ?_⟩
        rcases hl39 with h | h <;> rw [h] <;> decide
      obtain ⟨⟨es, hsp, w, ho, -, hw⟩, hl⟩ := hr
      refine ⟨es, hsp, fun col b f hb => ?_⟩
      have := (hw col [] Ws.nil (by simp)).2 [] (K_end _ hl) b f hb
      rw [e, ho]; simpa using this
  · have hb : BareOk s ∨ True := .inr trivial
    have hr : ReadsAs quoteCfg False .elementValue ⟨[], 0, 0, 0⟩ (PS.value quoteCfg ⟨[], 0, 0, 0⟩ [.text s] .elementValue) [.text s] := by
      cases hn : quoteNeedsCompounded quoteCfg s
      · refine compact_value_text rfl rfl hlv hsq (by decide) hsing (fun hv c hc => ?_) (.inr (leadOk_of h))
        exact absurd ⟨hn, hv, by rintro rfl; simp at hc⟩ hbare
      · refine value_compounded hlv (by simp [quoteCfg]) hn (fun p1 hp1 => ?_)
        obtain ⟨-, hl, ls, hls, he, hf⟩ := compact_textEmits (S := False) rfl rfl (enterCompound_quoted hlv) hsing.part (.inr (leadOk_of h)) p1 (hsq p1 (.inr hp1))
        refine ⟨_, ?_, he, hl⟩
        have := Splits.text hls
        rw [hf] at this; exact this
    obtain ⟨⟨es, hsp, w, ho, -, hw⟩, hl⟩ := hr
    refine ⟨es, hsp, fun col b f hb => ?_⟩
    have := (hw col [] Ws.nil (by simp)).2 [] (K_end _ hl) b f hb
    rw [e, ho]; simpa using this

theorem reads_value {v name : List Byte} {es : List Val} (hP : ∀ col b f, Recv false b f →
      P (fun F st => parseXmqValue F st .elementValue) (v ++ []) col b [] (colw col v) (f es)) (hn : ElemName name) :
    Reads (name ++ 61 :: v) [.element name [] ((mergeVals es).map Val.node)] := by
  have hb := fun o stk => PB_value (ws := []) (vw := v) (k := []) (col := colw 1 name) (o := o) (stk := stk) (name := name) (as := []) (vs := es)
    Ws.nil (fun _ => hn.notSpecial) hn.notDoctype (fun b f hb => hP _ b f hb)
  have hx := X_elem (k := []) (col := 1) (o := ⟨false, [], [], [], false⟩) (stk := []) (as := []) hn
    (w1 := 61 :: (v ++ [])) (by intro x hx; simp at hx; subst hx; decide)
    (PA_none (ws := []) Ws.nil (countWhitespace_of_head (by decide) (by decide) (by decide)) (by simp) _ _) (hb _ _)
  rw [mergeNodes_vals, List.append_nil] at hx
  have := (reads_of_X (ns := [.element name [] ((mergeVals es).map Val.node)]) hx).plain
  simpa [mergeNodes, addChild] using this

theorem compactQuote_reads {s name : List Byte} (h : CompactQuoteSafe s) (hn : ElemName name) :
    Reads (name ++ 61 :: compactQuote s) [.element name [] [.text s]] := by
  obtain ⟨es, hsp, hP⟩ := compactQuote_parse h
  have := reads_value hP hn
  rw [hsp.merge] at this
  exact this

/-- A numeric character reference as the value. -/
theorem charEntity_reads {cp : Nat} (h0 : cp ≠ 0) (hcp : cp < 0x110000) {name : List Byte} (hn : ElemName name) :
    Reads (name ++ 61 :: charEntity cp) [.element name [] [.text ((rfc3629 cp).map UInt8.ofNat)]] := by
  have hd := Props.C01_decode_encode cp (by omega) [] _ (rfc_encode cp hcp)
  rw [List.append_nil] at hd
  have hca : CharAt ((rfc3629 cp).map UInt8.ofNat) cp ((rfc3629 cp).map UInt8.ofNat).length :=
    ⟨hd, by rw [List.take_length]; exact rfc_encode cp hcp, h0, by simp [rfc_ne, List.length_pos_iff]⟩
  have he := emits_char1 (S := False) (cfg := quoteCfg) (ps := ⟨[], 0, 0, 0⟩) (.inr ⟨rfl, rfl, by decide⟩) hca
  rw [List.take_length] at he
  obtain ⟨w, ho, -, hw⟩ := value_single (S := False) (lv := .elementValue) (.inl rfl) (fun _ => by decide) (.inr (charEntity_last _ hca).1) he (sp := false) (by simp)
  have hout : w = charEntity cp := by
    have e : ((PS.beforeEntity quoteCfg ⟨[], 0, 0, 0⟩).charEntity ((rfc3629 cp).map UInt8.ofNat)).1.out = charEntity cp := by
      have : PS.beforeEntity quoteCfg ⟨[], 0, 0, 0⟩ = ⟨[], 0, 0, 0⟩ := rfl
      rw [this]
      unfold PS.charEntity
      rw [hd]
      simp only [if_true]
      unfold PS.print
      have : (charEntity cp).getLast? = some 59 := by
        unfold charEntity; rw [List.getLast?_append]; rfl
      rw [this]; rfl
    rw [e] at ho; simpa using ho.symm
  have hl : ((PS.beforeEntity quoteCfg ⟨[], 0, 0, 0⟩).charEntity ((rfc3629 cp).map UInt8.ofNat)).1.last ≠ 1 := by
    have := (hw 0 [] Ws.nil (by simp)).1
    simpa [Sync, quoteCfg] using this
  have := reads_value (v := charEntity cp) (es := [.text ((rfc3629 cp).map UInt8.ofNat)]) (fun col b f hb => by
    have := (hw col [] Ws.nil (by simp)).2 [] (K_end _ hl) b f hb
    rw [hout] at this; simpa using this) hn
  simpa [mergeVals, addVal, Val.node] using this

end Xmq
