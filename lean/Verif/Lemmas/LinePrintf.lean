import Verif.Model.LinePrintf
import Verif.Lemmas.CompactQuote
/-!
# Reading log lines
-/
namespace Xmq
open Spec

theorem K_after {c : Byte} {k : List Byte} (hc : c = 39 ∨ c = 41 ∨ c = 59) (hk : Calm [61, 40, 123] k) (h39 : k.head? ≠ some 39) : K quoteCfg c k := by
  refine ⟨hk, fun _ => h39, fun h => ?_, fun h => ?_, fun h => ?_⟩
  · rcases hc with rfl | rfl | rfl <;> simp at h
  · rcases hc with rfl | rfl | rfl <;> simp at h
  · rcases h with h | h
    · rcases hc with rfl | rfl | rfl <;> simp [Other] at h
    · simp [quoteCfg] at h

theorem safe_last {s : List Byte} (hv : isXmqTextValue s = true) {c : Byte} (hc : s.getLast? = some c) : c ≠ 39 ∧ c ≠ 41 := by
  have := safeLast_class hv hc
  grind

/-- The quoted value is read whatever reasonable follows. -/
theorem compactQuote_next {s k : List Byte} (h : CompactQuoteSafe s) (hk : Calm [61, 40, 123] k) (h39 : k.head? ≠ some 39)
    (hend : (∀ c, (compactQuote s).getLast? = some c → c ≠ 39 ∧ c ≠ 41) → EndsValue k) : ∃ es, Splits es [.text s] ∧
    ∀ col b f, Recv false b f → P (fun F st => parseXmqValue F st .elementValue) (compactQuote s ++ k) col b k (colw col (compactQuote s)) (f es) := by
  have hlv : ValueLevel .elementValue := .inl rfl
  have e : compactQuote s = (PS.value quoteCfg ⟨[], 0, 0, 0⟩ [.text s] .elementValue).out := by
    unfold compactQuote; rw [value_level]; rfl
  have hsq : ∀ p : PS, p.last = (0 : Byte) ∨ p.last = 40 → SepQ quoteCfg p := by
    intro p hp
    refine .inr ⟨rfl, rfl, ?_⟩
    rcases hp with hp | hp <;> rw [hp] <;> decide
  have hsing := compactSingle_of h
  cases hn : quoteNeedsCompounded quoteCfg s
  · rcases internalText_single (S := False) rfl s.length (hsq ⟨[], 0, 0, 0⟩ (.inl rfl)) hsing hn (level := .elementValue) with ⟨hne, hv, he, -⟩ | ⟨he, hl39⟩
    · have ho : compactQuote s = s := by
        rw [e]
        unfold PS.value
        simp only [hn, Bool.and_false, Bool.false_eq_true, if_false]
        show (PS.internalText quoteCfg .elementValue (s.length + 1) ⟨[], 0, 0, 0⟩ s).out = s
        rw [he, (printSpan_out _ (bare_noStray hv)).1]; rfl
      refine ⟨_, Splits.refl [Val.text s], fun col b f hb => ?_⟩
      rw [ho] at hend ⊢
      exact P_value_text hlv hb.one [] s k Ws.nil hne hv (hend fun c hc => safe_last hv hc) col
    · have el : (PS.value quoteCfg ⟨[], 0, 0, 0⟩ [.text s] .elementValue).last = (PS.internalText quoteCfg .elementValue (s.length + 1) ⟨[], 0, 0, 0⟩ s).last := by
        unfold PS.value
        simp only [hn, Bool.and_false, Bool.false_eq_true, if_false]
        rfl
      have hr : ReadsAs quoteCfg False .elementValue ⟨[], 0, 0, 0⟩ (PS.value quoteCfg ⟨[], 0, 0, 0⟩ [.text s] .elementValue) [.text s] := by
        refine value_text_plain hlv hn ⟨⟨_, Splits.refl [Val.text s], value_single hlv (fun _ => by decide) hl39 he (by simp)⟩, ?_⟩
        rcases hl39 with h | h <;> rw [h] <;> decide
      obtain ⟨⟨es, hsp, w, ho, -, hw⟩, hl⟩ := hr
      refine ⟨es, hsp, fun col b f hb => ?_⟩
      have := (hw col [] Ws.nil (by simp)).2 k (K_after (by rw [el]; grind) hk h39) b f hb
      rw [e, ho]; simpa using this
  · have hr : ReadsAs quoteCfg False .elementValue ⟨[], 0, 0, 0⟩ (PS.value quoteCfg ⟨[], 0, 0, 0⟩ [.text s] .elementValue) [.text s] := by
      refine value_compounded hlv (by simp [quoteCfg]) hn (fun p1 hp1 => ?_)
      obtain ⟨-, hl, ls, hls, he, hf⟩ := compact_textEmits (S := False) rfl rfl (enterCompound_quoted hlv) hsing.part (.inr (leadOk_of h)) p1 (hsq p1 (.inr hp1))
      refine ⟨_, ?_, he, hl⟩
      have := Splits.text hls
      rw [hf] at this; exact this
    have el : (PS.value quoteCfg ⟨[], 0, 0, 0⟩ [.text s] .elementValue).last = 41 := by
      unfold PS.value
      simp only [hn, Bool.and_true, show (Level.elementValue != Level.xmq) = true from rfl, if_true]
      rfl
    obtain ⟨⟨es, hsp, w, ho, -, hw⟩, hl⟩ := hr
    refine ⟨es, hsp, fun col b f hb => ?_⟩
    have := (hw col [] Ws.nil (by simp)).2 k (K_after (by rw [el]; simp) hk h39) b f hb
    rw [e, ho]; simpa using this

theorem Part.last {col : Nat} {p k : List Byte} {v : Val} (h : Part col p k v) : p.getLast? = some 39 ∨ p.getLast? = some 59 := by
  cases h with
  | quote d body k v hd =>
    left
    obtain ⟨n, rfl⟩ : ∃ n, d = n + 1 := ⟨d - 1, by omega⟩
    rw [← List.append_assoc, List.getLast?_append, List.replicate_succ']
    simp
  | empty => left; rfl
  | entity name => right; rw [← List.cons_append, List.getLast?_append]; rfl

/-- The last byte of a quoted value. -/
theorem compactQuote_last {s : List Byte} (h : CompactQuoteSafe s) : ∃ c, (compactQuote s).getLast? = some c ∧ c ≠ 40 ∧ c ≠ 123 ∧ c ≠ 125 := by
  have e : compactQuote s = (PS.value quoteCfg ⟨[], 0, 0, 0⟩ [.text s] .elementValue).out := by
    unfold compactQuote; rw [value_level]; rfl
  have hsq : SepQ quoteCfg ⟨[], 0, 0, 0⟩ := .inr ⟨rfl, rfl, by decide⟩
  cases hn : quoteNeedsCompounded quoteCfg s
  · have ho : compactQuote s = (PS.internalText quoteCfg .elementValue (s.length + 1) ⟨[], 0, 0, 0⟩ s).out := by
      rw [e]
      unfold PS.value
      simp only [hn, Bool.and_false, Bool.false_eq_true, if_false]
      rfl
    rcases internalText_single (S := False) rfl s.length hsq (compactSingle_of h) hn (level := .elementValue) with ⟨hne, hv, he, -⟩ | ⟨⟨w, hw, -, hp⟩, hl39⟩
    · rw [ho, he, (printSpan_out _ (bare_noStray hv)).1]
      show ∃ c, s.getLast? = some c ∧ _
      cases hg : s.getLast? with
      | none => simp at hg; exact absurd hg hne
      | some c =>
        have := safeLast_class hv hg
        exact ⟨c, rfl, by grind, by grind, by grind⟩
    · obtain ⟨-, hp⟩ := hp 1 (by simp [Sync, quoteCfg])
      obtain ⟨hp, -⟩ := hp [] (K_after (by grind) ⟨[], [], rfl, Ws.nil, rfl, by simp⟩ (by simp))
      rw [ho, hw, List.nil_append]
      cases hp with
      | cons _ ws p w _ _ _ _ hp h =>
        cases h
        rcases hp.last with h | h <;> simp [List.getLast?_append, h]
  · refine ⟨41, ?_, by decide, by decide, by decide⟩
    rw [e]
    unfold PS.value
    simp only [hn, Bool.and_true, show (Level.elementValue != Level.xmq) = true from rfl, if_true]
    simp [PS.print, quoteCfg]

/-- A field is read as an element with the text. -/
theorem X_field {key s k : List Byte} (hn : ElemName key) (h : CompactQuoteSafe s) (hk : Calm [61, 40, 123] k) (h39 : k.head? ≠ some 39)
    (hend : (∀ c, (compactQuote s).getLast? = some c → c ≠ 39 ∧ c ≠ 41) → EndsValue k) (col : Nat) (o : Open) (stk : List Open) :
    X (key ++ 61 :: (compactQuote s ++ k)) col (o :: stk) k (colw col (key ++ 61 :: compactQuote s)) (o.add (.element key [] [.text s]) :: stk) := by
  obtain ⟨es, hsp, hP⟩ := compactQuote_next h hk h39 hend
  have hb := PB_value (ws := []) (vw := compactQuote s) (k := k) (col := colw col key) (o := o) (stk := stk) (name := key) (as := []) (vs := es)
    Ws.nil (fun _ => hn.notSpecial) hn.notDoctype (fun b f hb => hP _ b f hb)
  have hx := X_elem (k := k) (col := col) (o := o) (stk := stk) (as := []) hn
    (w1 := 61 :: (compactQuote s ++ k)) (by intro x hx; simp at hx; subst hx; decide)
    (PA_none (ws := []) Ws.nil (countWhitespace_of_head (by decide) (by decide) (by decide)) (by simp) _ _) hb
  rw [mergeNodes_vals, hsp.merge] at hx
  rw [← elem_add] at hx
  rw [← colw_append] at hx
  exact hx

theorem elemName_cons {name : List Byte} (hn : ElemName name) : ∃ c t, name = c :: t ∧ isXmqTextName c = true := by
  cases name with
  | nil => exact absurd rfl hn.ne
  | cons c t => exact ⟨c, t, rfl, hn.bytes c (by simp)⟩

/-- The fields of a line are read as elements. -/
theorem line_fields (k : List Byte) (fields : List (List Byte × List Byte)) (hf : ∀ p ∈ fields, ElemName p.1 ∧ CompactQuoteSafe p.2 ∧ p.2.length < 1024) (mb : List Byte) :
    ∃ w, lineFields mb (fields.map fun p => (p.1 ++ [61], p.2)) = some (mb ++ w) ∧
      (∀ col o stk, X (w ++ 125 :: k) col (o :: stk) (125 :: k) (colw col w) (o.addAll (fields.map fun p => .element p.1 [] [.text p.2]) :: stk)) ∧
      Calm [61, 40, 123] (w ++ 125 :: k) ∧ (w ++ 125 :: k).head? ≠ some 39 ∧
      (back mb ≠ 39 → back mb ≠ 41 → back mb ≠ 40 → back mb ≠ 123 → back mb ≠ 125 → EndsValue (w ++ 125 :: k)) := by
  induction fields generalizing mb with
  | nil =>
    refine ⟨[], by simp [lineFields], fun col o stk => X.refl _ _ _, ⟨[], 125 :: k, rfl, Ws.nil, countWhitespace_of_head (by decide) (by decide) (by decide), by simp⟩,
      by simp, fun _ _ _ _ _ => .inr (by simp [isSafeValueChar])⟩
  | cons p fs ih =>
    obtain ⟨hn, hq, hl⟩ := hf p (by simp)
    obtain ⟨c, t, hc, hc1⟩ := elemName_cons hn
    have hcl := nameByte_class c hc1
    let sep : List Byte := if back mb != b#'\'' && back mb != b#'(' && back mb != b#')' && back mb != b#'{' && back mb != b#'}' then [32] else []
    have hsep : Ws sep := by
      intro x hx
      simp only [sep] at hx
      split at hx
      · simp at hx; exact .inl hx
      · cases hx
    obtain ⟨w, h1, h2, h3, h4, h5⟩ := ih (fun q hq => hf q (by simp [hq])) (mb ++ sep ++ (p.1 ++ [61]) ++ compactQuote p.2)
    have hcw : ∀ r, countWhitespace (p.1 ++ r) = 0 := by
      intro r
      rw [hc]; exact countWhitespace_of_head hcl.2.1 hcl.2.2.2.1 hcl.2.2.2.2.1
    have hback : (∀ c, (compactQuote p.2).getLast? = some c → c ≠ 39 ∧ c ≠ 41) → EndsValue (w ++ 125 :: k) := by
      intro hb
      obtain ⟨x, hx, x1, x2, x3⟩ := compactQuote_last hq
      have eb : back (mb ++ sep ++ (p.1 ++ [61]) ++ compactQuote p.2) = x := by
        unfold back; rw [List.getLast?_append, hx]; rfl
      rw [eb] at h5
      exact h5 (hb x hx).1 (hb x hx).2 x1 x2 x3
    refine ⟨sep ++ (p.1 ++ 61 :: (compactQuote p.2 ++ w)), ?_, fun col o stk => ?_, ?_, ?_, ?_⟩
    · rw [List.map_cons, lineFields]
      simp only [List.getLast?_append, List.getLast?_singleton, Option.some_or]
      have : peek (p.1 ++ [61]) = c := by rw [hc]; rfl
      rw [this]
      have : (c == b#'}') = false := by simpa using hcl.2.2.2.2.2.2.2.2.2.2.2.2.2.1
      rw [this]
      have : formatted p.2 = some p.2 := if_pos hl
      simp only [this, Bool.false_eq_true, if_false, show ((61 : Byte) != b#'=') = false from rfl]
      have e : (if (back mb != b#'\'' && back mb != b#'(' && back mb != b#')' && back mb != b#'{' && back mb != b#'}') = true then mb ++ [b#' '] else mb) = mb ++ sep := by
        simp only [sep]; split <;> simp
      rw [e, h1]
      simp
    · have a1 := X_ws hsep (hcw (61 :: (compactQuote p.2 ++ (w ++ 125 :: k)))) col (o :: stk)
      have a2 := X_field hn hq h3 h4 hback (colw col sep) o stk
      have a3 := h2 (colw (colw col sep) (p.1 ++ 61 :: compactQuote p.2)) (o.add (.element p.1 [] [.text p.2])) stk
      have := a1.trans (a2.trans a3)
      rw [← colw_append, ← colw_append] at this
      simpa [Open.addAll] using this
    · exact ⟨sep, p.1 ++ 61 :: (compactQuote p.2 ++ w) ++ 125 :: k, by simp, hsep, by rw [List.append_assoc]; exact hcw _, by
        intro x hx
        rw [hc] at hx
        simp at hx
        subst hx
        simp; grind⟩
    · simp only [sep]
      split
      · simp
      · rw [hc]; simp; grind
    · intro b1 b2 b3 b4 b5
      have : sep = [32] := by simp only [sep]; rw [if_pos]; simp; grind
      rw [this]
      exact .inr (by simp [isSafeValueChar, countWhitespace])

end Xmq
