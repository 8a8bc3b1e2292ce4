import Verif.Model.Escape
import Verif.Spec.Escape
/-!
# C17, C32: escaping of XML comments, HTML and TeX
-/
namespace Xmq.Props
open Xmq.Spec

/-! ## C17 -/

theorem countDle_zero {s : List Byte} (h : countDle s = 0) : copyDle s = s := by
  induction s with
  | nil => rfl
  | cons c t ih =>
    simp only [countDle] at h
    have h1 : needsDle c t = false := by
      cases e : needsDle c t
      · rfl
      · rw [e] at h; simp at h
    rw [copyDle, h1]
    simp only [Bool.false_eq_true, if_false, List.cons_append, List.nil_append]
    rw [ih (by omega)]

theorem countUndle_zero {s : List Byte} (h : countUndle s = 0) : copyUndle 0 s = s := by
  induction s with
  | nil => rfl
  | cons c t ih =>
    simp only [countUndle] at h
    have h1 : (c == 45 && startsWithDle t) = false := by
      cases e : (c == 45 && startsWithDle t)
      · rfl
      · rw [e] at h; simp at h
    rw [copyUndle, h1]
    simp only [Bool.false_eq_true, if_false]
    rw [ih (by omega)]

theorem writtenComment_eq (s : List Byte) : writtenComment s = copyDle s := by
  unfold writtenComment escapeXmlComment
  split
  · rename_i h
    split at h
    · rename_i h0; exact (countDle_zero h0).symm
    · cases h
  · rename_i h
    split at h
    · cases h
    · cases h; rfl

theorem readComment_eq (s : List Byte) : readComment s = copyUndle 0 s := by
  unfold readComment unescapeXmlComment
  split
  · rename_i h
    split at h
    · rename_i h0; exact (countUndle_zero h0).symm
    · cases h
  · rename_i h
    split at h
    · cases h
    · cases h; rfl

theorem peek_copyDle (s : List Byte) : peek (copyDle s) = peek s := by
  cases s with
  | nil => rfl
  | cons c t => rfl

theorem startsWithDle_eq (s : List Byte) :
    startsWithDle s = (peek s == 0xe2 && peek s.tail == 0x90 && peek s.tail.tail == 0x90) := by
  match s with
  | [] => rfl
  | [a] => simp [startsWithDle]
  | [a, b] => simp [startsWithDle]
  | a :: b :: c :: t => rfl

theorem copyDle_tail {s : List Byte} (h : peek s ≠ 45) : (copyDle s).tail = copyDle s.tail := by
  cases s with
  | nil => rfl
  | cons c t =>
    have : needsDle c t = false := by simp at h; simp [needsDle, h]
    simp [copyDle, this]

theorem startsWithDle_copyDle (s : List Byte) : startsWithDle (copyDle s) = startsWithDle s := by
  -- the three bytes of the escape are not dashes, hence nothing is inserted between them
  rw [startsWithDle_eq, startsWithDle_eq, peek_copyDle]
  by_cases h : peek s = 0xe2
  · rw [copyDle_tail (by rw [h]; decide), peek_copyDle]
    by_cases h2 : peek s.tail = 0x90
    · rw [copyDle_tail (by rw [h2]; decide), peek_copyDle]
    · have e : (peek s.tail == 0x90) = false := by rw [beq_eq_false_iff_ne]; exact h2
      rw [e]; simp
  · have e : (peek s == 0xe2) = false := by rw [beq_eq_false_iff_ne]; exact h
    rw [e]; simp

/-- No two dashes in a row are written. -/
theorem C17_no_double_dash (s : List Byte) : ¬ [45, 45] <:+: writtenComment s := by
  rw [writtenComment_eq]
  induction s with
  | nil => simp [copyDle]
  | cons c t ih =>
    intro h
    rw [copyDle] at h
    have key : ∀ (x : Byte) (u : List Byte), [45, 45] <:+: x :: u → ¬ (x = 45 ∧ peek u = 45) → [45, 45] <:+: u := by
      intro x u hx hn
      rw [List.infix_cons_iff] at hx
      rcases hx with hx | hx
      · refine absurd ?_ hn
        obtain ⟨v, hv⟩ := hx
        cases u with
        | nil => simp at hv
        | cons y u => simp at hv; exact ⟨hv.1.symm, hv.2.1.symm⟩
      · exact hx
    cases hd : needsDle c t with
    | true =>
      rw [hd] at h
      simp only [if_true, List.cons_append, List.nil_append] at h
      exact ih (key _ _ (key _ _ (key _ _ (key _ _ h (by simp)) (by simp)) (by simp)) (by simp))
    | false =>
      rw [hd] at h
      simp only [Bool.false_eq_true, if_false, List.cons_append, List.nil_append] at h
      refine ih (key _ _ h ?_)
      rw [peek_copyDle]
      intro ⟨h1, h2⟩
      simp [needsDle, h1, h2] at hd

/-- Reading what was written gives the original comment. -/
theorem C17_lossless (s : List Byte) : readComment (writtenComment s) = s := by
  rw [writtenComment_eq, readComment_eq]
  induction s with
  | nil => rfl
  | cons c t ih =>
    rw [copyDle]
    cases hd : needsDle c t with
    | true =>
      have hc : c = 45 := by simp [needsDle] at hd; exact hd.1
      subst hc
      simp [copyUndle, startsWithDle, ih]
    | false =>
      simp only [Bool.false_eq_true, if_false, List.cons_append, List.nil_append, copyUndle]
      rw [startsWithDle_copyDle]
      have : (c == 45 && startsWithDle t) = false := by
        unfold needsDle at hd
        cases h1 : (c == 45) <;> cases h2 : startsWithDle t <;> simp_all
      rw [this]
      simp [ih]

/-- The buffer is filled exactly (the assertion at the end of `escape_xml_comment`). -/
theorem C17_buffer_exact (s t : List Byte) (n : Nat) (h : escapeXmlComment s = some (t, n)) : t.length + 1 = n := by
  unfold escapeXmlComment at h
  split at h
  · cases h
  · cases h
    have : ∀ s, (copyDle s).length = s.length + countDle s * 3 := by
      intro s
      induction s with
      | nil => rfl
      | cons c t ih =>
        simp only [copyDle, countDle, List.length_cons, List.length_append, ih]
        split <;> simp <;> omega
    have := this s
    omega

/-- The buffer of `unescape_xml_comment` is large enough. -/
theorem C17_unescape_fits (s t : List Byte) (n : Nat) (h : unescapeXmlComment s = some (t, n)) : t.length + 1 ≤ n := by
  unfold unescapeXmlComment at h
  split at h
  · cases h
  · cases h
    have : ∀ k s, (copyUndle k s).length ≤ s.length := by
      intro k s
      induction s generalizing k with
      | nil => cases k <;> simp [copyUndle]
      | cons c t ih =>
        cases k with
        | zero => simp only [copyUndle, List.length_cons]; have := ih (if (c == 45 && startsWithDle t) = true then 3 else 0); omega
        | succ k => simp only [copyUndle, List.length_cons]; have := ih k; omega
    have := this 0 s
    omega

/-- `--` and an escape of an escape. -/
example : writtenComment b#"a---b" = b#"a-" ++ [0xe2, 0x90, 0x90] ++ b#"-" ++ [0xe2, 0x90, 0x90] ++ b#"-b" ∧
    writtenComment (b#"-" ++ [0xe2, 0x90, 0x90]) = b#"-" ++ [0xe2, 0x90, 0x90, 0xe2, 0x90, 0x90] := by decide +kernel

/-- What is written is the text of an XML comment. -/
def CommentWellFormed : Prop := ∀ s : List Byte, XmlCommentText (writtenComment s)

/-- A dash at the end is not escaped: `<!--x--->` is not well formed. -/
theorem C17_well_formed_false : ¬ CommentWellFormed := fun h => (h b#"x-").2 (by decide +kernel)

theorem C17_well_formed_partial (s : List Byte) (h : s.getLast? ≠ some 45) : XmlCommentText (writtenComment s) := by
  refine ⟨C17_no_double_dash s, ?_⟩
  rw [writtenComment_eq]
  induction s with
  | nil => simp [copyDle]
  | cons c t ih =>
    rw [copyDle]
    cases t with
    | nil =>
      have : needsDle c [] = false := by simp [needsDle, startsWithDle]
      rw [this]
      simpa [copyDle] using h
    | cons d u =>
      have h' : (d :: u).getLast? ≠ some 45 := by simpa using h
      have ih := ih h'
      have hne : copyDle (d :: u) ≠ [] := by simp [copyDle]
      rw [List.getLast?_append]
      cases e : (copyDle (d :: u)).getLast? with
      | none => rw [List.getLast?_eq_none_iff] at e; exact absurd e hne
      | some x => rw [e] at ih; simpa using ih

/-- Comments of an XML file survive reading and writing. -/
def XmlCommentsKept : Prop := ∀ s : List Byte, XmlCommentText s → writtenComment (readComment s) = s

/-- A dash followed by the escape character loses it. -/
theorem C17_xml_to_xml_false : ¬ XmlCommentsKept := fun h =>
  absurd (h (b#"-" ++ [0xe2, 0x90, 0x90] ++ b#"a") ⟨by decide +kernel, by decide +kernel⟩) (by decide +kernel)

theorem C17_xml_to_xml_partial (s : List Byte) (h : XmlCommentText s) (hd : ¬ [45, 0xe2, 0x90, 0x90] <:+: s) :
    writtenComment (readComment s) = s := by
  have e1 : readComment s = s := by
    rw [readComment_eq]
    clear h
    induction s with
    | nil => rfl
    | cons c t ih =>
      rw [copyUndle]
      have : (c == 45 && startsWithDle t) = false := by
        rw [Bool.and_eq_false_iff]
        by_cases hc : c = 45
        · right
          subst hc
          match t with
          | [] => rfl
          | [_] => rfl
          | [_, _] => rfl
          | x :: y :: z :: u =>
            simp only [startsWithDle]
            cases hh : (x == 0xe2 && y == 0x90 && z == 0x90)
            · rfl
            · simp at hh
              obtain ⟨⟨rfl, rfl⟩, rfl⟩ := hh
              exact absurd ⟨[], u, rfl⟩ hd
        · left; simpa using hc
      rw [this]
      simp only [Bool.false_eq_true, if_false]
      rw [ih (fun hi => hd (hi.trans (List.suffix_cons c t).isInfix))]
  rw [e1, writtenComment_eq]
  apply countDle_zero
  have h1 := h.1
  clear h e1
  induction s with
  | nil => rfl
  | cons c t ih =>
    rw [countDle, ih (fun hi => hd (hi.trans (List.suffix_cons c t).isInfix)) (fun hi => h1 (hi.trans (List.suffix_cons c t).isInfix))]
    have : needsDle c t = false := by
      unfold needsDle
      rw [Bool.and_eq_false_iff]
      by_cases hc : c = 45
      · right
        subst hc
        rw [Bool.or_eq_false_iff]
        constructor
        · match t with
          | [] => rfl
          | x :: u =>
            simp only [peek]
            by_cases hx : x = 45
            · subst hx; exact absurd ⟨[], u, rfl⟩ h1
            · simpa using hx
        · match t with
          | [] => rfl
          | [_] => rfl
          | [_, _] => rfl
          | x :: y :: z :: u =>
            simp only [startsWithDle]
            cases hh : (x == 0xe2 && y == 0x90 && z == 0x90)
            · rfl
            · simp at hh
              obtain ⟨⟨rfl, rfl⟩, rfl⟩ := hh
              exact absurd ⟨[], u, rfl⟩ hd
      · left; simpa using hc
    rw [this]; rfl

example : XmlCommentText b#" a - b " ∧ ¬ [45, 0xe2, 0x90, 0x90] <:+: b#" a - b " := ⟨⟨by decide, by decide⟩, by decide⟩

/-! ## C32 -/

/-- Escaped HTML is read as the original text. -/
theorem C32_html_read_back (s : List Byte) : htmlText (writeSafeHtml s) = s := by
  induction s with
  | nil => rfl
  | cons c t ih =>
    unfold writeSafeHtml
    by_cases h1 : c = 38
    · subst h1; simp [htmlText, ih]
    by_cases h2 : c = 60
    · subst h2; simp [htmlText, ih]
    by_cases h3 : c = 62
    · subst h3; simp [htmlText, ih]
    by_cases h4 : c = 34
    · subst h4; simp [htmlText, ih]
    simp [h1, h2, h3, h4]
    rw [htmlText, ih] <;> intros <;> simp_all

/-- No markup characters are left. -/
theorem C32_html_no_markup (s : List Byte) : ∀ c ∈ writeSafeHtml s, c ≠ 60 ∧ c ≠ 62 ∧ c ≠ 34 := by
  induction s with
  | nil => simp [writeSafeHtml]
  | cons c t ih =>
    intro x hx
    unfold writeSafeHtml at hx
    rcases List.mem_append.1 hx with h | h
    · by_cases h1 : c = 38
      · subst h1; clear hx; revert x; decide
      by_cases h2 : c = 60
      · subst h2; clear hx; revert x; decide
      by_cases h3 : c = 62
      · subst h3; clear hx; revert x; decide
      by_cases h4 : c = 34
      · subst h4; clear hx; revert x; decide
      simp [h1, h2, h3, h4] at h
      subst h
      exact ⟨h2, h3, h4⟩
    · exact ih x h

/-- Different texts have different TeX renderings. -/
theorem C32_tex_injective (s t : List Byte) (h : writeSafeTex s = writeSafeTex t) : s = t := by
  induction s generalizing t with
  | nil =>
    cases t with
    | nil => rfl
    | cons c t => unfold writeSafeTex at h; split at h <;> (try split at h) <;> (try split at h) <;> simp at h
  | cons c s ih =>
    cases t with
    | nil => unfold writeSafeTex at h; split at h <;> (try split at h) <;> (try split at h) <;> simp at h
    | cons d t =>
      have key : c = d ∧ writeSafeTex s = writeSafeTex t := by
        rw [writeSafeTex, writeSafeTex.eq_def (d :: t)] at h
        simp only at h
        by_cases c1 : c = 38 <;> by_cases c2 : c = 92 <;> by_cases c3 : c = 95 <;>
        by_cases d1 : d = 38 <;> by_cases d2 : d = 92 <;> by_cases d3 : d = 95 <;> simp_all
      rw [key.1, ih t key.2]

example : writeSafeTex b#"a_b\\&" = b#"a\\_b\\\\\\&" := by decide +kernel

/-- How TeX output of the printer is read: `\\backslash;` is a backslash, `{'}` a quote, a backslash before any other byte is dropped. -/
def texText : List Byte → List Byte
  | 92 :: 98 :: 97 :: 99 :: 107 :: 115 :: 108 :: 97 :: 115 :: 104 :: 59 :: t => 92 :: texText t
  | 92 :: c :: t => c :: texText t
  | 123 :: 39 :: 125 :: t => 39 :: texText t
  | c :: t => c :: texText t
  | [] => []

/-- Pretty printed HTML is read as the original text. -/
theorem C32_render_html_read_back (s : List Byte) : htmlText (renderWith needsEscapeHtml s) = s := by
  induction s with
  | nil => rfl
  | cons c t ih =>
    unfold renderWith at ih ⊢
    rw [List.flatMap_cons]
    by_cases h1 : c = 38
    · subst h1; simpa [needsEscapeHtml, htmlText] using ih
    by_cases h2 : c = 60
    · subst h2; simpa [needsEscapeHtml, htmlText] using ih
    by_cases h3 : c = 62
    · subst h3; simpa [needsEscapeHtml, htmlText] using ih
    have : needsEscapeHtml c = none := by simp [needsEscapeHtml, h1, h2, h3]
    rw [this]
    simp only [Option.getD_none, List.cons_append, List.nil_append]
    rw [htmlText, ih] <;> intros <;> simp_all

/-- Pretty printed TeX determines the text. -/
theorem C32_render_tex_read_back (s : List Byte) : texText (renderWith needsEscapeTex s) = s := by
  induction s with
  | nil => rfl
  | cons c t ih =>
    unfold renderWith at ih ⊢
    rw [List.flatMap_cons]
    by_cases h1 : c = 92
    · subst h1; simpa [needsEscapeTex, texText] using ih
    by_cases h2 : c = 38
    · subst h2; simpa [needsEscapeTex, texText] using ih
    by_cases h3 : c = 35
    · subst h3; simpa [needsEscapeTex, texText] using ih
    by_cases h4 : c = 123
    · subst h4; simpa [needsEscapeTex, texText] using ih
    by_cases h5 : c = 125
    · subst h5; simpa [needsEscapeTex, texText] using ih
    by_cases h6 : c = 95
    · subst h6; simpa [needsEscapeTex, texText] using ih
    by_cases h7 : c = 39
    · subst h7; simpa [needsEscapeTex, texText] using ih
    have : needsEscapeTex c = none := by simp [needsEscapeTex, h1, h2, h3, h4, h5, h6, h7]
    rw [this]
    simp only [Option.getD_none, List.cons_append, List.nil_append]
    rw [texText, ih] <;> intros <;> simp_all

end Xmq.Props
