import Verif.Model.Detect
import Verif.Spec.Detect
import Verif.Props.Document
/-!
# C18, C33, C44: content detection, byte order marks, explicitly requested content types
-/
namespace Xmq.Props
open Xmq.Spec

/-! ## C18 -/

theorem xmlSpace_eq : ∀ c : Byte, xmlSpace c = isXmlWhitespace c := by
  apply forall_byte (P := fun c => xmlSpace c = isXmlWhitespace c); decide +kernel

theorem letterOrDigit_eq : ∀ c : Byte, letterOrDigit c = isAlnum c := by
  apply forall_byte (P := fun c => letterOrDigit c = isAlnum c); decide +kernel

theorem lower_eq : ∀ c : Byte, lower c = toLower c := by
  apply forall_byte (P := fun c => lower c = toLower c); decide +kernel

theorem ws_not_alnum : ∀ c : Byte, (isXmlWhitespace c || c == 0 || !isAlnum c) = !isAlnum c := by
  apply forall_byte (P := fun c => (isXmlWhitespace c || c == 0 || !isAlnum c) = !isAlnum c); decide +kernel

theorem significant_cons_ws {c : Byte} (t : List Byte) (h : isXmlWhitespace c = true) : significant (c :: t) = significant t := by
  unfold significant; rw [List.dropWhile_cons, if_pos (by rw [xmlSpace_eq]; exact h)]

theorem significant_cons_not {c : Byte} (t : List Byte) (h : isXmlWhitespace c ≠ true) : significant (c :: t) = c :: t := by
  unfold significant; rw [List.dropWhile_cons, if_neg (by rw [xmlSpace_eq]; exact h)]

/-- Detection looks only at the significant part. -/
theorem C18_ignores_leading_space (s : List Byte) : detect s = detect (significant s) := by
  induction s with
  | nil => rfl
  | cons c t ih =>
    by_cases h : isXmlWhitespace c = true
    · rw [significant_cons_ws t h, detect, if_pos h, ih]
    · rw [significant_cons_not t h]

theorem significant_head {s t : List Byte} {c : Byte} (h : significant s = c :: t) : isXmlWhitespace c ≠ true := by
  intro hw
  rw [← xmlSpace_eq] at hw
  have := List.head?_dropWhile_not (p := xmlSpace) s
  unfold significant at h
  rw [h] at this
  simp at this
  rw [this] at hw; cases hw

theorem jsonLiteral_aux {w r s : List Byte} (h : r.length = 0 ∨ (peek r = 10 ∧ r.length = 1)) (e : s = w ++ r) : s = w ∨ s = w ++ [10] := by
  rcases h with h | ⟨h1, h2⟩
  · left; rw [e, List.eq_nil_of_length_eq_zero h, List.append_nil]
  · right
    obtain ⟨x, rfl⟩ := List.length_eq_one_iff.1 h2
    simp at h1; rw [e, h1]

theorem jsonLiteral_iff {s : List Byte} : isJsonLiteral s = true ↔ JsonLiteral s := by
  constructor
  · intro h
    unfold isJsonLiteral at h
    simp only [Bool.and_eq_true, Bool.or_eq_true, beq_iff_eq, decide_eq_true_eq, bne_iff_ne, ne_eq] at h
    obtain ⟨⟨⟨h0, h1⟩, h2⟩, h3⟩ := h
    rcases h3 with (h3 | h3) | h3
    · have e : s = b#"true" ++ s.drop 4 := by rw [← h3, List.take_append_drop]
      refine ⟨_, by simp, jsonLiteral_aux (r := s.drop 4) ?_ e⟩
      have hl : literalLen (peek s) = 4 := by rw [e]; rfl
      rw [hl] at h1 h2
      simp only [List.length_drop]; rcases h2 with h2 | h2
      · left; omega
      · right; exact ⟨h2.1, by omega⟩
    · have e : s = b#"false" ++ s.drop 5 := by rw [← h3, List.take_append_drop]
      refine ⟨_, by simp, jsonLiteral_aux (r := s.drop 5) ?_ e⟩
      have hl : literalLen (peek s) = 5 := by rw [e]; rfl
      rw [hl] at h1 h2
      simp only [List.length_drop]; rcases h2 with h2 | h2
      · left; omega
      · right; exact ⟨h2.1, by omega⟩
    · have e : s = b#"null" ++ s.drop 4 := by rw [← h3, List.take_append_drop]
      refine ⟨_, by simp, jsonLiteral_aux (r := s.drop 4) ?_ e⟩
      have hl : literalLen (peek s) = 4 := by rw [e]; rfl
      rw [hl] at h1 h2
      simp only [List.length_drop]; rcases h2 with h2 | h2
      · left; omega
      · right; exact ⟨h2.1, by omega⟩
  · rintro ⟨w, hw, h⟩
    simp only [List.mem_cons, List.not_mem_nil, or_false] at hw
    rcases hw with rfl | rfl | rfl <;> rcases h with rfl | rfl <;> decide +kernel

theorem detectHtml_markup (i : List Byte) (d : Detected) (h : detectHtml i = some d) : d = .xml ∨ d = .html := by
  unfold detectHtml at h
  split at h
  · cases h; exact .inr rfl
  · split at h
    · cases h; exact .inl rfl
    · cases h
    · split at h <;> cases h
      · exact .inr rfl
      · exact .inl rfl

theorem detectMarkup_markup (i : List Byte) (d : Detected) (h : detectMarkup i = some d) : d = .xml ∨ d = .html := by
  unfold detectMarkup at h
  split at h
  · cases h; exact .inl rfl
  · split at h
    · split at h
      · cases h; exact .inl rfl
      · exact detectHtml_markup _ _ h
    · exact detectHtml_markup _ _ h

theorem jsonStart_iff (c : Byte) (t : List Byte) :
    (c == 123 || c == 34 || c == 91 || (decide (c ≥ 48) && decide (c ≤ 57))) = true ↔ JsonStart (c :: t) := by
  simp only [Bool.or_eq_true, Bool.and_eq_true, beq_iff_eq, decide_eq_true_eq]
  constructor
  · intro h; exact ⟨c, t, rfl, by simpa [or_assoc] using h⟩
  · rintro ⟨c', t', e, h⟩
    cases e
    simpa [or_assoc] using h

/-- What is detected, by the first significant bytes (nothing is claimed when the buffer is over-read, see
    `C18_memory_safe_partial`). -/
theorem C18_rule (s : List Byte) (d : Detected) (h : detect s = some d) :
    ((d = .xml ∨ d = .html) ↔ ∃ t, significant s = 60 :: t) ∧
    (d = .json ↔ JsonStart (significant s) ∨ JsonLiteral (significant s)) := by
  rw [C18_ignores_leading_space] at h
  cases e : significant s with
  | nil =>
    rw [e] at h
    cases h
    refine ⟨⟨(by rintro (h | h) <;> cases h), (by rintro ⟨t, h⟩; cases h)⟩, ⟨fun h => (by cases h), ?_⟩⟩
    rintro (⟨c, t, h, _⟩ | h)
    · cases h
    · rw [← jsonLiteral_iff] at h; cases h
  | cons c t =>
    rw [e, detect, if_neg (significant_head e)] at h
    by_cases h1 : c = 60
    · subst h1
      rw [if_pos (by decide)] at h
      have hm := detectMarkup_markup _ _ h
      refine ⟨⟨fun _ => ⟨t, rfl⟩, fun _ => hm⟩, ⟨fun hd => (by rcases hm with hm | hm <;> rw [hm] at hd <;> cases hd), ?_⟩⟩
      intro hj
      exfalso
      rw [← jsonStart_iff, ← jsonLiteral_iff] at hj
      rcases hj with hj | hj
      · revert hj; decide
      · unfold isJsonLiteral literalLen at hj; simp at hj
    · rw [if_neg (by simpa using h1)] at h
      have hx : ¬ ∃ u, (c :: t) = 60 :: u := by rintro ⟨u, h⟩; cases h; exact h1 rfl
      rw [← jsonStart_iff, ← jsonLiteral_iff]
      by_cases h2 : (c == 123 || c == 34 || c == 91 || (decide (c ≥ 48) && decide (c ≤ 57))) = true
      · rw [if_pos h2] at h
        cases h
        exact ⟨⟨(by rintro (h | h) <;> cases h), fun h => absurd h hx⟩, ⟨fun _ => .inl h2, fun _ => rfl⟩⟩
      · rw [if_neg h2] at h
        by_cases h3 : isJsonLiteral (c :: t) = true
        · rw [if_pos h3] at h
          cases h
          exact ⟨⟨(by rintro (h | h) <;> cases h), fun h => absurd h hx⟩, ⟨fun _ => .inr h3, fun _ => rfl⟩⟩
        · rw [if_neg h3] at h
          cases h
          refine ⟨⟨(by rintro (h | h) <;> cases h), fun h => absurd h hx⟩, ⟨(by intro h; cases h), ?_⟩⟩
          rintro (h | h)
          · exact absurd h h2
          · exact absurd h h3

example : detect b#"\n { \"a\":1}" = some .json ∧ detect b#" null\n" = some .json ∧ detect b#"nullable\n" = some .xmq ∧
    detect b#"<x/>" = some .xml := by decide +kernel

/-! ### html or xml -/

theorem prefixIgnoreCase_iff (w s : List Byte) :
    prefixIgnoreCase w s = true ↔ ∃ t r, s = t ++ r ∧ t.map lower = w.map lower := by
  induction w generalizing s with
  | nil => exact ⟨fun _ => ⟨[], s, rfl, rfl⟩, fun _ => by simp [prefixIgnoreCase]⟩
  | cons c w ih =>
    cases s with
    | nil =>
      refine ⟨fun h => by simp [prefixIgnoreCase] at h, ?_⟩
      rintro ⟨t, r, e, h⟩
      have : t = [] := by cases t <;> simp_all
      subst this; cases h
    | cons x s =>
      simp only [prefixIgnoreCase, peek_cons, Bool.and_eq_true, beq_iff_eq, ih]
      constructor
      · rintro ⟨h, t, r, rfl, h'⟩
        exact ⟨x :: t, r, rfl, by simp [lower_eq, h]; simpa [lower_eq] using h'⟩
      · rintro ⟨t, r, e, h⟩
        cases t with
        | nil => cases h
        | cons y t =>
          simp at e h
          obtain ⟨rfl, rfl⟩ := e
          exact ⟨by simpa [lower_eq] using h.1, t, r, rfl, h.2⟩

/-- A word found behind white space. -/
theorem findWord_iff (s word : List Byte) (hw : ∀ c t, word.map lower = c :: t → xmlSpace c = false)
    (hw' : word ≠ []) (hl : ∀ c, xmlSpace (lower c) = xmlSpace c) (r : List Byte) :
    findWordIgnoreCase s word = some r ↔
      ∃ w t, s = w ++ t ++ r ∧ (∀ c ∈ w, xmlSpace c = true) ∧ t.map lower = word.map lower ∧ WordEnd r := by
  have hfun : (isXmlWhitespace : Byte → Bool) = xmlSpace := funext fun c => (xmlSpace_eq c).symm
  have hend : ∀ r : List Byte, (isXmlWhitespace (peek r) || peek r == 0 || !isAlnum (peek r)) = true ↔ WordEnd r := by
    intro r
    rw [ws_not_alnum]
    cases r with
    | nil => simp [WordEnd, isAlnum]
    | cons c t => simp [WordEnd, letterOrDigit_eq]
  unfold findWordIgnoreCase
  rw [hfun]
  constructor
  · intro h
    by_cases hp : prefixIgnoreCase word (s.dropWhile xmlSpace) = true
    · simp only [hp, if_true] at h
      obtain ⟨t, r', e, ht⟩ := (prefixIgnoreCase_iff _ _).1 hp
      have hlen : t.length = word.length := by have := congrArg List.length ht; simpa using this
      rw [e, ← hlen, List.drop_left] at h
      split at h
      · rename_i he
        cases h
        exact ⟨s.takeWhile xmlSpace, t, by rw [List.append_assoc, ← e, List.takeWhile_append_dropWhile],
          fun c hc => mem_takeWhile_pos hc, ht, (hend r).1 (by rw [hfun]; exact he)⟩
      · cases h
    · simp only [hp] at h
      cases h
  · rintro ⟨w, t, rfl, hws, ht, he⟩
    have hlen : t.length = word.length := by have := congrArg List.length ht; simpa using this
    have hd : (w ++ t ++ r).dropWhile xmlSpace = t ++ r := by
      rw [List.append_assoc, List.dropWhile_append_of_pos hws]
      cases t with
      | nil => simp at hlen; exact absurd hlen.symm (by simpa using hw')
      | cons c t =>
        have := hw (lower c) (t.map lower) (by rw [← ht]; rfl)
        rw [hl] at this
        simp [this]
    rw [hd]
    have hp : prefixIgnoreCase word (t ++ r) = true := (prefixIgnoreCase_iff _ _).2 ⟨t, r, rfl, ht⟩
    simp only [hp, if_true]
    rw [← hlen, List.drop_left]
    have := (hend r).2 he
    rw [hfun] at this
    rw [if_pos this]

theorem lower_space : ∀ c : Byte, xmlSpace (lower c) = xmlSpace c := by
  apply forall_byte (P := fun c => xmlSpace (lower c) = xmlSpace c); decide +kernel

theorem findHtml_iff (s : List Byte) : (∃ r, findWordIgnoreCase s b#"html" = some r) ↔ HtmlWord s := by
  constructor
  · rintro ⟨r, h⟩
    obtain ⟨w, t, e, h1, h2, h3⟩ := (findWord_iff s b#"html" (by intro c t h; cases h; decide) (by decide) lower_space r).1 h
    exact ⟨w, t, r, e, h1, h2, h3⟩
  · rintro ⟨w, t, r, e, h1, h2, h3⟩
    exact ⟨r, (findWord_iff s b#"html" (by intro c t h; cases h; decide) (by decide) lower_space r).2 ⟨w, t, e, h1, h2, h3⟩⟩

theorem findDoctype_iff (s r : List Byte) : findWordIgnoreCase s b#"<!doctype" = some r ↔
    ∃ w t, s = w ++ t ++ r ∧ (∀ c ∈ w, xmlSpace c = true) ∧ t.map lower = b#"<!doctype" ∧ WordEnd r :=
  findWord_iff s b#"<!doctype" (by intro c t h; cases h; decide) (by decide) lower_space r

/-- Markup without XML declaration or comment in front is html exactly when it starts with `<html` or `<!doctype html`. -/
theorem C18_html_rule (s : List Byte) (d : Detected) (h : detect s = some d) (t : List Byte) (ht : significant s = 60 :: t)
    (hp : ¬ XmlPrologue (significant s)) : d = .html ↔ HtmlStart (significant s) := by
  rw [C18_ignores_leading_space] at h
  rw [ht, detect, if_neg (significant_head ht), if_pos (by decide)] at h
  unfold detectMarkup at h
  unfold XmlPrologue at hp
  rw [ht] at hp ⊢
  rw [if_neg, if_neg] at h
  · unfold detectHtml at h
    by_cases h1 : HtmlWord t
    · obtain ⟨r, hr⟩ := (findHtml_iff t).2 h1
      simp only [List.tail_cons, hr] at h
      cases h
      exact ⟨fun _ => .inl ⟨t, rfl, h1⟩, fun _ => rfl⟩
    · have hn : findWordIgnoreCase t b#"html" = none := by
        cases e : findWordIgnoreCase t b#"html" with
        | none => rfl
        | some r => exact absurd ((findHtml_iff t).1 ⟨r, e⟩) h1
      simp only [List.tail_cons, hn] at h
      have hnot : ∀ {r}, (60 :: t) = 60 :: r → ¬ HtmlWord r := by intro r e; cases e; exact h1
      cases e : findWordIgnoreCase (60 :: t) b#"<!doctype" with
      | none =>
        simp only [e] at h
        cases h
        refine ⟨fun h => (by cases h), ?_⟩
        rintro (⟨r, he, hw⟩ | ⟨dd, b, r, he, hd, hb, hw⟩)
        · exact absurd hw (hnot he)
        · rw [(findDoctype_iff _ (b :: r)).2 ⟨[], dd, by simpa using he, by simp, hd, by intro c hc; cases hc; exact hb⟩] at e
          cases e
      | some u =>
        simp only [e] at h
        obtain ⟨w, dd, he, hw, hd, hend⟩ := (findDoctype_iff _ _).1 e
        have hw0 : w = [] := by
          cases w with
          | nil => rfl
          | cons c w =>
            have hc := hw c (by simp)
            cases he
            cases hc
        subst hw0
        have huniq : ∀ {dd' : List Byte} {b : Byte} {r : List Byte}, (60 :: t) = dd' ++ b :: r → dd'.map lower = b#"<!doctype" → u = b :: r := by
          intro dd' b r he' hd'
          have l1 : dd.length = 9 := by have := congrArg List.length hd; simpa using this
          have l2 : dd'.length = 9 := by have := congrArg List.length hd'; simpa using this
          rw [he] at he'
          exact (List.append_inj (by simpa using he') (by omega)).2
        cases u with
        | nil => cases h
        | cons b r =>
          have hb : letterOrDigit b = false := hend b rfl
          by_cases hr : HtmlWord r
          · obtain ⟨v, hv⟩ := (findHtml_iff r).2 hr
            simp only [hv] at h
            cases h
            exact ⟨fun _ => .inr ⟨dd, b, r, by simpa using he, hd, hb, hr⟩, fun _ => rfl⟩
          · have hn' : findWordIgnoreCase r b#"html" = none := by
              cases e' : findWordIgnoreCase r b#"html" with
              | none => rfl
              | some v => exact absurd ((findHtml_iff r).1 ⟨v, e'⟩) hr
            simp only [hn'] at h
            cases h
            refine ⟨fun h => (by cases h), ?_⟩
            rintro (⟨r', he', hw'⟩ | ⟨dd', b', r', he', hd', hb', hw'⟩)
            · exact absurd hw' (hnot he')
            · have := huniq he' hd'
              cases this
              exact absurd hw' hr
  · intro hc
    exact hp (.inr ⟨(60 :: t).drop 4, by rw [← hc]; exact List.take_append_drop 4 _⟩)
  · intro hc
    exact hp (.inl ⟨(60 :: t).drop 5, by rw [← hc]; exact List.take_append_drop 5 _⟩)

example : detect b#"\n< HTML>" = some .html ∧ detect b#"<!DOCTYPE\thtml>" = some .html ∧ detect b#"<htmlx/>" = some .xml ∧
    detect b#"<!-- c --><html>" = some .html := by decide +kernel

/-- A newline between a leading comment and `<html` makes it xml. -/
theorem C18_html_behind_comment_missed : detect b#"<!-- c -->\n<html>" = some .xml := by decide +kernel

/-- A negative number, a JSON document, is taken for xmq. -/
theorem C18_negative_number_missed : detect b#"-1" = some .xmq := by decide +kernel

/-- Detection never reads behind the terminating NUL. -/
def DetectMemorySafe : Prop := ∀ s : List Byte, detect s ≠ none

/-- A buffer that ends in `<!doctype` is over-read. -/
theorem C18_memory_safe_false : ¬ DetectMemorySafe := fun h => h b#"<!doctype" (by decide +kernel)

theorem detectHtml_none {i : List Byte} (h : detectHtml i = none) : ∃ p d, i = p ++ d ∧ d.map lower = b#"<!doctype" := by
  unfold detectHtml at h
  split at h
  · cases h
  · split at h
    · cases h
    · rename_i e
      obtain ⟨w, t, he, _, ht, _⟩ := (findDoctype_iff _ _).1 e
      exact ⟨w, t, by simpa using he, ht⟩
    · split at h <;> cases h

theorem afterXmlComment_suffix (s : List Byte) : ∃ p, s = p ++ afterXmlComment s := by
  fun_induction afterXmlComment s with
  | case1 a b c t h => exact ⟨[a, b, c], rfl⟩
  | case2 a b c t h ih =>
    obtain ⟨p, hp⟩ := ih
    exact ⟨a :: p, by rw [List.cons_append, ← hp]⟩
  | case3 s h => exact ⟨s, by simp⟩

/-- Detection is memory safe unless the buffer ends in `<!doctype`, in any case. -/
theorem C18_memory_safe_partial (s : List Byte) (h : ∀ p d, s = p ++ d → d.map lower ≠ b#"<!doctype") : detect s ≠ none := by
  intro hn
  rw [C18_ignores_leading_space] at hn
  have hs : s = s.takeWhile xmlSpace ++ significant s := (List.takeWhile_append_dropWhile).symm
  have fin : ∀ p i, significant s = p ++ i → detectHtml i ≠ none := by
    intro p i e hi
    obtain ⟨q, d, e2, hd⟩ := detectHtml_none hi
    refine h (s.takeWhile xmlSpace ++ p ++ q) d ?_ hd
    rw [e2] at e
    simp only [List.append_assoc]
    rw [← e]; exact hs
  cases e : significant s with
  | nil => rw [e] at hn; cases hn
  | cons c t =>
    rw [e, detect, if_neg (significant_head e)] at hn
    by_cases h1 : (c == 60) = true
    · rw [if_pos h1] at hn
      unfold detectMarkup at hn
      split at hn
      · cases hn
      · split at hn
        · split at hn
          · cases hn
          · obtain ⟨p, hp⟩ := afterXmlComment_suffix (c :: t)
            exact fin p _ (by rw [e, ← hp]) hn
        · exact fin [] _ (by rw [e]; rfl) hn
    · rw [if_neg h1] at hn
      split at hn
      · cases hn
      · split at hn <;> cases hn

example : ∀ p d, b#"<!doctype html>" = p ++ d → d.map lower ≠ b#"<!doctype" := by
  intro p d e hd
  have hl : d.length = 9 := by have := congrArg List.length hd; simpa using this
  have : d = b#"<!doctype html>".drop 6 := by
    have l2 : p.length = 6 := by have := congrArg List.length e; simp at this; omega
    rw [e, ← l2, List.drop_left]
  rw [this] at hd
  exact absurd hd (by decide)

/-! ### What the xmq parser accepts is detected as xmq -/

theorem tokenWhitespace_significant (n : Nat) (st : St) (c : Byte) (t : List Byte) (h : significant st.rest = c :: t)
    (hc : c < 128) : significant (tokenWhitespaceLoop n st).rest = c :: t := by
  induction n generalizing st with
  | zero => exact h
  | succ n ih =>
    rw [tokenWhitespaceLoop]
    cases e : st.rest with
    | nil => rw [e] at h; cases h
    | cons x u =>
      rw [e] at h
      by_cases hx : isXmlWhitespace x = true
      · have hn : countWhitespace (x :: u) = 1 := by
          unfold countWhitespace
          exact if_pos hx
        simp only [List.isEmpty_cons, Bool.false_eq_true, if_false, hn, peek_cons]
        rw [significant_cons_ws u hx] at h
        split
        · rename_i h0; cases h0
        · split
          · show significant st.rest = _
            rw [e, significant_cons_ws u hx]; exact h
          · apply ih
            simpa [St.increment, e] using h
      · rw [significant_cons_not u hx] at h
        have hxc : x = c := by cases h; rfl
        have hn : countWhitespace (x :: u) = 0 := by
          apply countWhitespace_of_head (by simpa using hx)
          · intro h; rw [← hxc, h] at hc; revert hc; decide
          · intro h; rw [← hxc, h] at hc; revert hc; decide
        simp only [List.isEmpty_cons, Bool.false_eq_true, if_false, hn]
        rw [if_pos (by decide), e, significant_cons_not _ hx]; exact h

/-- A byte that nothing at the top level of a document starts with. -/
def Foreign (c : Byte) : Prop :=
  isXmqTokenWhitespace c = false ∧ c ≠ 39 ∧ c ≠ 38 ∧ c ≠ 47 ∧ isXmqElementStart c = false ∧ c ≠ 33 ∧ c ≠ 63 ∧ c ≠ 125

theorem foreign_of : ∀ c : Byte, (c = 9 ∨ c = 60 ∨ c = 123 ∨ c = 34 ∨ c = 91 ∨ (48 ≤ c ∧ c ≤ 57)) → Foreign c := by
  unfold Foreign
  apply forall_byte (P := fun c => (c = 9 ∨ c = 60 ∨ c = 123 ∨ c = 34 ∨ c = 91 ∨ (48 ≤ c ∧ c ≤ 57)) →
    isXmqTokenWhitespace c = false ∧ c ≠ 39 ∧ c ≠ 38 ∧ c ≠ 47 ∧ isXmqElementStart c = false ∧ c ≠ 33 ∧ c ≠ 63 ∧ c ≠ 125)
  decide +kernel

theorem parseXmq_foreign (fuel : Nat) (st st' : St) (x : Byte) (u : List Byte) (e : st.rest = x :: u) (h : Foreign x) :
    parseXmq (fuel + 1) st ≠ .ok st' := by
  obtain ⟨h1, h2, h3, h4, h5, h6, h7, h8⟩ := h
  rw [parseXmq, e]
  dsimp only
  have d : isXmqDoctypeStart (x :: u) = false := by
    unfold isXmqDoctypeStart
    rw [if_neg]
    rw [beq_iff_eq]
    intro h; cases u <;> simp at h <;> exact h6 h.1
  have p : isXmqPiStart (x :: u) = false := by simp [isXmqPiStart, h7]
  have c : ∀ y, isXmqCommentStart x y = false := by intro y; simp [isXmqCommentStart, h4]
  rw [h1, d, p, c, h5]
  simp only [Bool.false_eq_true, if_false]
  rw [if_neg (by simpa using h2), if_neg (by simpa using h3), if_neg (by simpa using h8)]
  split
  · simp
  · simp
  · split <;> simp

theorem parseXmq_not_ok (fuel : Nat) (st : St) (c : Byte) (t : List Byte) (h : significant st.rest = c :: t)
    (hc : c = 60 ∨ c = 123 ∨ c = 34 ∨ c = 91 ∨ (48 ≤ c ∧ c ≤ 57)) (st' : St) : parseXmq fuel st ≠ .ok st' := by
  have hlt : c < 128 := by grind
  induction fuel generalizing st with
  | zero => simp [parseXmq]
  | succ fuel ih =>
    cases e : st.rest with
    | nil => rw [e] at h; cases h
    | cons x u =>
      rw [e] at h
      by_cases hx : isXmlWhitespace x = true
      · by_cases ht : isXmqTokenWhitespace x = true
        · rw [parseXmq, e]
          dsimp only
          rw [if_pos ht]
          apply ih
          show significant (eatXmqTokenWhitespace st).rest = _
          exact tokenWhitespace_significant _ _ _ _ (by rw [e]; exact h) hlt
        · have hx9 : x = 9 := by
            unfold isXmlWhitespace at hx; unfold isXmqTokenWhitespace at ht
            simp at hx ht; grind
          exact parseXmq_foreign fuel st st' x u e (foreign_of x (.inl hx9))
      · rw [significant_cons_not u hx] at h
        have hxc : x = c := by cases h; rfl
        exact parseXmq_foreign fuel st st' x u e (foreign_of x (.inr (by rw [hxc]; exact hc)))

/-- Whatever the parser accepts as an xmq document is detected as xmq, unless it is only the word `true`, `false` or `null`. -/
theorem C18_accepted_is_xmq (input : List Byte) (toks : List Tok) (h : Tokenizes input toks)
    (hj : ¬ JsonLiteral (significant input)) : detect input = some .xmq := by
  obtain ⟨fuel, st, hp, _⟩ := h
  have hok : ∃ st', parseXmq fuel (initSt input) = .ok st' := by
    unfold parseBuffer at hp
    cases e : parseXmq fuel (initSt input) with
    | ok s => exact ⟨s, rfl⟩
    | _ => rw [e] at hp; cases hp
  obtain ⟨st', hst⟩ := hok
  rw [C18_ignores_leading_space]
  cases e : significant input with
  | nil => rfl
  | cons c t =>
    have hno : ¬ (c = 60 ∨ c = 123 ∨ c = 34 ∨ c = 91 ∨ (48 ≤ c ∧ c ≤ 57)) := fun hc =>
      parseXmq_not_ok fuel (initSt input) c t e hc st' hst
    rw [detect, if_neg (significant_head e), if_neg (by simp; exact fun h => hno (.inl h)), if_neg, if_neg]
    · rw [e, ← jsonLiteral_iff] at hj; exact hj
    · intro h
      apply hno
      right
      simpa [or_assoc] using h

example : Tokenizes b#"// c\nnullable=true" (((tokensOf b#"// c\nnullable=true").getD [])) ∧
    ¬ JsonLiteral (significant b#"// c\nnullable=true") := by
  refine ⟨(tokenizes_iff _ _).2 (by decide +kernel), ?_⟩
  rw [← jsonLiteral_iff]; decide +kernel

/-- Printed documents are detected as xmq again. -/
def PrintedIsXmq : Prop := ∀ doc, Canonical doc → CompactSafe compactCfg doc → detect (printDoc compactCfg doc) = some .xmq

/-- A document with the single empty element `true` is taken for JSON. -/
theorem C18_printed_is_xmq_false : ¬ PrintedIsXmq := by
  intro h
  have := h [.element b#"true" [] []] ⟨noTextPair_one _ _, by simp only [CanonicalNodes, CanonicalNode, and_true]; exact ⟨by simp, noTextPair_nil _⟩⟩
    (by
      simp only [CompactSafe, CompactNodeSafe, and_true]
      refine ⟨⟨?_, 116, _, rfl, .inl ⟨by decide, by decide⟩⟩, by simp, by simp⟩
      intro b hb
      simp at hb
      rcases hb with rfl | rfl | rfl | rfl <;> exact .inl ⟨by decide, by decide⟩)
  exact absurd this (by decide +kernel)

/-- A printed document is detected as xmq unless it is one of those words. -/
theorem C18_printed_is_xmq_partial (cfg : OutCfg) (hc : cfg.compact = true) (hsp : cfg.indentationSpace = [32])
    (doc : List Node) (h : CompactSafe cfg doc) (hj : ¬ JsonLiteral (significant (printDoc cfg doc))) :
    detect (printDoc cfg doc) = some .xmq := by
  obtain ⟨toks, ht, _⟩ := C30_compact_round_trip_partial cfg hc hsp doc h
  exact C18_accepted_is_xmq _ toks ht hj

/-! ## C33 -/

/-- A byte order mark is transparent and nothing else is skipped. -/
def BomTransparent : Prop := ∀ s : List Byte, skipBom ([0xef, 0xbb, 0xbf] ++ s) = some s

/-- A file with only a byte order mark keeps it. -/
theorem C33_false : ¬ BomTransparent := fun h => absurd (h []) (by decide +kernel)

theorem C33_bom_transparent_partial (s : List Byte) (h : s ≠ []) : skipBom ([0xef, 0xbb, 0xbf] ++ s) = some s := by
  cases s with
  | nil => exact absurd rfl h
  | cons c t => rfl

/-- Nothing but a byte order mark is ever skipped, and NULL is answered only for UTF-16. -/
theorem C33_nothing_else_skipped (s : List Byte) (h : ¬ [0xef, 0xbb, 0xbf] <+: s) :
    skipBom s = some s ∨ (skipBom s = none ∧ ([0xff, 0xfe] <+: s ∨ [0xfe, 0xff] <+: s)) := by
  have utf16 : ∀ (a b : Byte) (t : List Byte), ((a == 0xff && b == 0xfe) || (a == 0xfe && b == 0xff)) = true →
      ([0xff, 0xfe] <+: a :: b :: t ∨ [0xfe, 0xff] <+: a :: b :: t) := by
    intro a b t h
    simp at h
    rcases h with ⟨rfl, rfl⟩ | ⟨rfl, rfl⟩
    · exact .inl ⟨t, rfl⟩
    · exact .inr ⟨t, rfl⟩
  unfold skipBom
  split
  · rename_i a b c d t
    have : ¬ (a == 0xef && b == 0xbb && c == 0xbf) = true := by
      intro hh
      simp at hh
      obtain ⟨⟨rfl, rfl⟩, rfl⟩ := hh
      exact h ⟨d :: t, rfl⟩
    rw [if_neg this]
    split
    · rename_i h2; exact .inr ⟨rfl, utf16 _ _ _ h2⟩
    · exact .inl rfl
  · split
    · rename_i h2; exact .inr ⟨rfl, utf16 _ _ _ h2⟩
    · exact .inl rfl
  · exact .inl rfl

/-- The byte order mark does not change what is detected or read. -/
theorem C33_same_document (s : List Byte) (hs : s ≠ []) (h : ¬ [0xef, 0xbb, 0xbf] <+: s) (h1 : ¬ [0xff, 0xfe] <+: s)
    (h2 : ¬ [0xfe, 0xff] <+: s) : skipBom ([0xef, 0xbb, 0xbf] ++ s) = skipBom s := by
  rw [C33_bom_transparent_partial s hs]
  rcases C33_nothing_else_skipped s h with e | ⟨_, e | e⟩
  · exact e.symm
  · exact absurd e h1
  · exact absurd e h2

/-! ## C44 -/

/-- Asking for the type that is detected runs the parser for that type. -/
theorem C44_agreeing_type (d : Detected) : chooseParser d.wanted d = d.wanted.runs ∧ chooseParser .detect d = d.wanted.runs := by
  cases d <;> decide

/-- Asking for another of the four detectable types fails, except html for what looks like xml. -/
theorem C44_disagreeing_type (w d : Detected) (h : w ≠ d) : chooseParser w.wanted d = if w = .html ∧ d = .xml then some .html else none := by
  cases w <;> cases d <;> first | decide | exact absurd rfl h

/-- Every content type that can be asked for is accepted for some content. -/
def EveryTypeUsable : Prop := ∀ w : Wanted, ∃ d, chooseParser w d ≠ none

/-- Asking for htmq always fails, whatever the content. -/
theorem C44_htmq_never_accepted (d : Detected) : chooseParser .htmq d = none := by cases d <;> decide

/-- Asking for clines always fails, whatever the content. -/
theorem C44_clines_never_accepted (d : Detected) : chooseParser .clines d = none := by cases d <;> decide

theorem C44_false : ¬ EveryTypeUsable := fun h => let ⟨d, hd⟩ := h .htmq; hd (C44_htmq_never_accepted d)

end Xmq.Props
