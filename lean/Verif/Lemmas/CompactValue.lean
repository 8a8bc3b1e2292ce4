import Verif.Lemmas.PrintValue
/-!
# Values of attributes and elements in compact output
-/
namespace Xmq
open Spec

set_option linter.unusedSectionVars false

variable [Mode]

variable {S : Prop}

/-- A text that is kept in compact output, wherever it is quoted. -/
structure CompactPart (cfg : OutCfg) (s : List Byte) : Prop extends CompactText s where
  notQuotes : s ≠ [] → hasAllQuotes s = false
  utf8 : cfg.escapeNon7bit = true → ValidUtf8 s

theorem CompactSingle.part {cfg : OutCfg} {s : List Byte} (h : CompactSingle cfg s) : CompactPart cfg s :=
  ⟨h.toCompactText, h.notQuotes, h.utf8⟩

theorem compact_textEmits {cfg : OutCfg} (hc : cfg.compact = true) (hen : cfg.escapeNewlines = true) {lv : Level}
    (hlv : QuotedLevel lv) {s : List Byte} (h : CompactPart cfg s) (hlead : cfg.indentationSpace = [32] ∨ ((hasAllWhitespace s).1 = false → LeadOk s)) :
    TextEmits S cfg lv s := by
  by_cases hne : s = []
  · subst hne; exact textEmits_empty
  · exact EmitsText.textEmits hne (fun ps hs =>
      emits_internalText hc hen hlv _ ps s (by omega) hs h.toCompactText hne (h.notQuotes hne) h.utf8 hlead)

theorem enterCompound_quoted {lv : Level} (hlv : ValueLevel lv) : QuotedLevel (PS.value.enterCompound lv) := by
  rcases hlv with rfl | rfl <;> exact ⟨by decide, by decide⟩

/-- A bare value that is the last thing before another node. -/
def BareOk (s : List Byte) : Prop := isXmqTextValue s = true → ∀ c, s.getLast? = some c → c ≠ 47 ∧ c ≠ 59 ∧ c ≠ 61

theorem safeLast_class {s : List Byte} (hv : isXmqTextValue s = true) {c : Byte} (hc : s.getLast? = some c) :
    c ≠ 39 ∧ c ≠ 40 ∧ c ≠ 41 ∧ c ≠ 123 ∧ c ≠ 125 := by
  unfold isXmqTextValue at hv
  split at hv
  · cases hv
  · rename_i hu
    clear hu
    induction s with
    | nil => cases hc
    | cons x t ih =>
      simp only [allSafeValueChars, Bool.and_eq_true] at hv
      cases t with
      | nil =>
        simp at hc; subst hc
        have := hv.1
        simp only [isSafeValueChar, peek_cons] at this
        simp at this
        grind
      | cons y t => exact ih (by rw [List.getLast?_cons_cons] at hc; exact hc) hv.2

theorem compact_value_text {cfg : OutCfg} (hc : cfg.compact = true) (hen : cfg.escapeNewlines = true) {lv : Level}
    (hlv : ValueLevel lv) {ps : PS} {s : List Byte} (hs : ∀ p : PS, p.last = ps.last ∨ p.last = 40 → SepQ cfg p)
    (h1 : ps.last ≠ 1) (h : CompactSingle cfg s) (hb : BareOk s) (hlead : cfg.indentationSpace = [32] ∨ ((hasAllWhitespace s).1 = false → LeadOk s)) :
    ReadsAs cfg S lv ps (PS.value cfg ps [.text s] lv) [.text s] := by
  cases hn : quoteNeedsCompounded cfg s
  · refine value_text_plain hlv hn ?_
    rcases internalText_single (S := S) hc s.length (hs ps (.inl rfl)) h hn (level := lv) with ⟨hne, hv, he, hesc, h10⟩ | ⟨he, hl39⟩
    · rw [he]
      obtain ⟨c, hcl⟩ : ∃ c, s.getLast? = some c := by
        cases hg : s.getLast? with
        | none => simp at hg; exact absurd hg hne
        | some c => exact ⟨c, rfl⟩
      have hmem := List.mem_of_getLast? hcl
      have hcc := safeLast_class hv hcl
      have hbb := hb hv c hcl
      have h0 : c ≠ 0 := fun h0 => h.noNul (h0 ▸ hmem)
      have hc1 : c ≠ 1 := by
        rintro rfl
        have := hesc _ hmem
        simp [Esc] at this
      refine ⟨⟨_, Splits.refl [Val.text s], value_bare hlv hne hv c hcl (.inl ?_) hc1 h0 hcc.2.1 hbb.2.2 rfl⟩, ?_⟩
      · simp only [Other, List.mem_cons, List.not_mem_nil]
        grind
      · simp [PS.printSpan, hcl, hc1]
    · refine ⟨⟨_, Splits.refl [Val.text s], value_single hlv (fun _ => h1) hl39 he (by simp)⟩, ?_⟩
      rcases hl39 with h | h <;> rw [h] <;> decide
  · refine value_compounded hlv (by simp [hc]) hn (fun p1 hp1 => ?_)
    obtain ⟨-, hl, ls, hls, he, hf⟩ := compact_textEmits (S := S) hc hen (enterCompound_quoted hlv) h.part hlead p1 (hs p1 (.inr hp1))
    refine ⟨_, ?_, he, hl⟩
    have := Splits.text hls
    rw [hf] at this; exact this

/-- The values that compact output keeps. -/
structure CompactVals (cfg : OutCfg) (vs : List Val) : Prop where
  ne : vs ≠ []
  texts : ∀ s, Val.text s ∈ vs → CompactPart cfg s
  names : ∀ n, Val.entity n ∈ vs → EntName n
  single : ∀ s, vs = [.text s] → CompactSingle cfg s ∧ BareOk s

theorem compact_value {cfg : OutCfg} (hc : cfg.compact = true) (hen : cfg.escapeNewlines = true)
    (hsp : cfg.indentationSpace = [32]) {lv : Level} (hlv : ValueLevel lv) {ps : PS} {vs : List Val} (h1 : ps.last ≠ 1)
    (h : CompactVals cfg vs) : ReadsAs cfg S lv ps (PS.value cfg ps vs lv) vs := by
  have key : compounded cfg vs = true → ReadsAs cfg S lv ps (PS.value cfg ps vs lv) vs := by
    intro hcomp
    refine value_compounded hlv (fun _ => hsp) hcomp (fun p1 hp1 => ?_)
    refine emits_values hsp vs (fun v hv => ?_) p1 (by rw [hp1]; decide)
    cases v with
    | text s => exact compact_textEmits hc hen (enterCompound_quoted hlv) (h.texts s hv) (.inl hsp)
    | entity n => exact h.names n hv
  match vs, h, key with
  | [], h, _ => exact absurd rfl h.ne
  | [.text s], h, _ =>
    exact compact_value_text hc hen hlv (fun p _ => .inl hsp) h1 (h.single s rfl).1 (h.single s rfl).2 (.inl hsp)
  | [.entity n], h, _ => exact value_entity_plain hlv (h.names n (by simp)) (.inl hsp) (fun _ => h1)
  | a :: b :: t, h, key => exact key (by cases a <;> rfl)

end Xmq
