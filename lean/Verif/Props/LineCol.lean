import Verif.Model.LineCol
import Verif.Spec.CodePoints
import Verif.Props.Utf8
/-!
# C40: positions of syntax errors
-/
namespace Xmq.Props
open Xmq.Spec

theorem rfc3629_ne_nil (cp : Nat) : rfc3629 cp ≠ [] := by
  unfold rfc3629; split
  · simp
  · split
    · simp
    · split <;> simp

theorem decode_rfc3629 (cp : Nat) (h : cp < 0x110000) (rest : List Byte) :
    decodeUtf8 ((rfc3629 cp).map UInt8.ofNat ++ rest) = ⟨true, cp, (rfc3629 cp).length⟩ := by
  obtain ⟨bs, h1, h2⟩ := C01_encode_is_rfc3629 cp (by omega)
  have e : (rfc3629 cp).map UInt8.ofNat = bs := by
    rw [← h2, List.map_map]
    have : (UInt8.ofNat ∘ UInt8.toNat) = id := by funext x; simp
    rw [this]; simp
  rw [e, C01_decode_encode cp (by omega) rest bs h1, ← h2]
  simp

theorem utf8Text_cons (cp : Nat) (cps : List Nat) : utf8Text (cp :: cps) = (rfc3629 cp).map UInt8.ofNat ++ utf8Text cps := rfl

theorem utf8Text_cons_ne (cp : Nat) (cps : List Nat) : utf8Text (cp :: cps) ≠ [] := by
  rw [utf8Text_cons]
  have := rfc3629_ne_nil cp
  simp [this]

theorem utf8Text_length (cps : List Nat) : cps.length ≤ (utf8Text cps).length := by
  induction cps with
  | nil => simp
  | cons c t ih =>
    rw [utf8Text_cons, List.length_append, List.length_map, List.length_cons]
    have := List.length_pos_iff.2 (rfc3629_ne_nil c)
    omega

theorem drop_rfc3629 (cp : Nat) (rest : List Byte) : ((rfc3629 cp).map UInt8.ofNat ++ rest).drop (rfc3629 cp).length = rest := by
  have : (rfc3629 cp).length = ((rfc3629 cp).map UInt8.ofNat).length := by simp
  rw [this, List.drop_left]

/-- What the loop computes, from any position. -/
def lineColFrom : List Nat → Nat → Nat → Nat × Nat
  | [], line, col => (line, col)
  | c :: t, line, col => if c = 10 then lineColFrom t (line + 1) 0 else lineColFrom t line (col + 1)

theorem findLineColLoop_eq (cps : List Nat) (h : ∀ c ∈ cps, c < 0x110000) :
    ∀ fuel at_ line col, (utf8Text cps).length < fuel →
      findLineColLoop fuel (utf8Text cps) at_ line col = some (lineColFrom (cps.take at_) line col) := by
  induction cps with
  | nil =>
    intro fuel at_ line col hf
    cases fuel with
    | zero => simp at hf
    | succ n => simp [findLineColLoop, utf8Text, lineColFrom]
  | cons c t ih =>
    intro fuel at_ line col hf
    cases fuel with
    | zero => simp at hf
    | succ n =>
      cases at_ with
      | zero => simp [findLineColLoop, lineColFrom]
      | succ a =>
        have ih' := ih (fun x hx => h x (by simp [hx]))
        have hlen : (utf8Text t).length < n := by
          rw [utf8Text_cons, List.length_append, List.length_map] at hf
          have := List.length_pos_iff.2 (rfc3629_ne_nil c)
          omega
        unfold findLineColLoop
        rw [if_pos ⟨utf8Text_cons_ne c t, by omega⟩]
        rw [utf8Text_cons, decode_rfc3629 c (h c (by simp))]
        dsimp only
        rw [if_neg (by simp), drop_rfc3629, List.take_succ_cons]
        unfold lineColFrom
        by_cases hc : c = 10
        · rw [if_pos hc, if_pos hc]; exact ih' n a _ _ hlen
        · rw [if_neg hc, if_neg hc]; exact ih' n a _ _ hlen

theorem lineColFrom_eq (cs : List Nat) : ∀ line col, lineColFrom cs line col =
    (line + cs.count 10, if 10 ∈ cs then sinceNewline cs else col + cs.length) := by
  induction cs with
  | nil => intro line col; simp [lineColFrom]
  | cons c t ih =>
    intro line col
    unfold lineColFrom
    have hs : ∀ (p : Nat → Bool) (l : List Nat) (x : Nat), (l ++ [x]).takeWhile p = if l.all p then l ++ [x].takeWhile p else l.takeWhile p := by
      intro p l x
      induction l with
      | nil => simp
      | cons y u ih => simp only [List.cons_append, List.takeWhile_cons, ih, List.all_cons]; cases p y <;> simp; split <;> rfl
    by_cases hc : c = 10
    · subst hc
      rw [if_pos rfl, ih]
      by_cases ht : 10 ∈ t
      · have : (t.reverse).all (fun x => decide (x ≠ 10)) = false := by
          rw [List.all_eq_false]; exact ⟨10, by simpa using ht, by simp⟩
        simp only [ht, if_true, List.mem_cons, true_or, List.count_cons_self, sinceNewline, List.reverse_cons, hs, this, Bool.false_eq_true, if_false]
        congr 1; omega
      · have : (t.reverse).all (fun x => decide (x ≠ 10)) = true := by
          rw [List.all_eq_true]; intro x hx; simp; rintro rfl; exact ht (by simpa using hx)
        simp only [ht, if_false, List.mem_cons, true_or, if_true, List.count_cons_self, sinceNewline, List.reverse_cons, hs, this]
        simp
        omega
    · rw [if_neg hc, ih]
      by_cases ht : 10 ∈ t
      · have : (t.reverse).all (fun x => decide (x ≠ 10)) = false := by
          rw [List.all_eq_false]; exact ⟨10, by simpa using ht, by simp⟩
        simp only [ht, if_true, List.mem_cons, or_true, sinceNewline, List.reverse_cons, hs, this, Bool.false_eq_true, if_false]
        rw [List.count_cons_of_ne hc]
      · have h2 : ¬ 10 ∈ c :: t := by simp [ht, Ne.symm hc]
        simp only [ht, if_false, h2]
        rw [List.count_cons_of_ne hc]
        simp; omega

/-- What is reported for a character of a text in UTF-8: the line is right; the column is the right one on the first line and one less on the others. -/
theorem C40_line_col (cps : List Nat) (h : ∀ c ∈ cps, c < 0x110000) (n : Nat) :
    findLineCol (utf8Text cps) n = some (lineBehind (cps.take n),
      if 10 ∈ cps.take n then columnBehind (cps.take n) - 1 else columnBehind (cps.take n)) := by
  unfold findLineCol
  rw [findLineColLoop_eq cps h _ _ _ _ (by omega), lineColFrom_eq]
  congr 2
  by_cases hm : 10 ∈ cps.take n
  · rw [if_pos hm, if_pos hm]; unfold columnBehind; omega
  · rw [if_neg hm, if_neg hm]
    unfold columnBehind sinceNewline
    have : ((cps.take n).reverse.takeWhile (· ≠ 10)) = (cps.take n).reverse := by
      have : ∀ l : List Nat, 10 ∉ l → l.takeWhile (· ≠ 10) = l := by
        intro l
        induction l with
        | nil => simp
        | cons x t ih =>
          intro hx
          simp at hx
          rw [List.takeWhile_cons, if_pos (by simpa using Ne.symm hx.1), ih hx.2]
      exact this _ (by simpa using hm)
    rw [this, List.length_reverse]

/-- The full claim: line and column of every character are reported right. -/
def LineColRight : Prop := ∀ cps n, (∀ c ∈ cps, c < 0x110000) → n ≤ cps.length →
    findLineCol (utf8Text cps) n = some (lineBehind (cps.take n), columnBehind (cps.take n))

/-- They are not: behind a line break the column is 0 instead of 1. -/
theorem C40_false : ¬ LineColRight := by
  intro h
  have := h [97, 10, 98] 2 (by decide) (by decide)
  revert this
  decide +kernel

/-- The position is right on the first line, and the line is right everywhere. -/
theorem C40_right_partial (cps : List Nat) (h : ∀ c ∈ cps, c < 0x110000) (n : Nat) :
    (10 ∉ cps.take n → findLineCol (utf8Text cps) n = some (lineBehind (cps.take n), columnBehind (cps.take n))) ∧
    ∃ col, findLineCol (utf8Text cps) n = some (lineBehind (cps.take n), col) := by
  rw [C40_line_col cps h n]
  exact ⟨fun hn => by rw [if_neg hn], _, rfl⟩

example : findLineCol (utf8Text [0xe5, 97, 10, 98, 99]) 4 = some (2, 1) ∧ findLineCol (utf8Text [0xe5, 97, 98]) 2 = some (1, 3) := by decide +kernel

/-- The excerpt shown with an error uses the number of the character as a byte index: with 30 characters of two bytes in front the failing character is not shown at all. -/
theorem C40_excerpt_false : ¬ ∀ (before : List Nat) (c : Nat) (after : List Nat), (∀ x ∈ before ++ c :: after, 0 < x ∧ x < 0x110000) →
    ∃ a b, errorExcerpt (utf8Text (before ++ c :: after)) before.length = a ++ (rfc3629 c).map UInt8.ofNat ++ b := by
  intro h
  obtain ⟨a, b, e⟩ := h (List.replicate 30 0xe5) 63 [] (by decide)
  have hm : (63 : Byte) ∈ errorExcerpt (utf8Text (List.replicate 30 0xe5 ++ [63])) 30 := by
    have : (List.replicate 30 0xe5).length = 30 := by simp
    rw [this] at e
    rw [e]; simp [rfc3629]
  revert hm
  decide +kernel

/-- For texts of single byte characters the excerpt has the failing character above the caret. -/
theorem C40_excerpt_partial (before : List Nat) (c : Nat) (after : List Nat) (h : ∀ x ∈ before ++ c :: after, 0 < x ∧ x < 128) :
    (errorExcerpt (utf8Text (before ++ c :: after)) before.length)[errorCaret before.length]? = some (UInt8.ofNat c) := by
  have hu : ∀ l : List Nat, (∀ x ∈ l, 0 < x ∧ x < 128) → utf8Text l = l.map UInt8.ofNat := by
    intro l
    induction l with
    | nil => simp [utf8Text]
    | cons x t ih =>
      intro hl
      rw [utf8Text_cons, ih (fun y hy => hl y (by simp [hy]))]
      have := (hl x (by simp)).2
      unfold rfc3629
      rw [if_pos this]; simp
  rw [hu _ h]
  unfold errorExcerpt errorCaret
  have hnz : ∀ x ∈ (before ++ c :: after).map UInt8.ofNat, x ≠ 0 := by
    intro x hx
    obtain ⟨y, hy, rfl⟩ := List.mem_map.1 hx
    have := h y hy
    intro h0
    have := congrArg UInt8.toNat h0
    simp at this
    omega
  have htw : ∀ l : List Byte, (∀ x ∈ l, x ≠ 0) → l.takeWhile (· ≠ 0) = l := by
    intro l
    induction l with
    | nil => simp
    | cons x t ih =>
      intro hl
      rw [List.takeWhile_cons, if_pos (by simpa using hl x (by simp)), ih (fun y hy => hl y (by simp [hy]))]
  rw [htw _ (fun x hx => hnz x (List.mem_of_mem_drop (List.mem_of_mem_take hx)))]
  rw [List.getElem?_take, if_pos (by omega), List.getElem?_drop]
  have : before.length - 20 + (before.length - (before.length - 20)) = before.length := by omega
  rw [this, List.getElem?_map]
  simp

end Xmq.Props
