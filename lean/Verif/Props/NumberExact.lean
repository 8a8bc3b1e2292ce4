import Verif.Props.Numbers
/-!
# Exact condition for C46: which numerals `xmqGetInt` and `xmqGetLong` read
-/
namespace Xmq.Props
open Xmq.Spec

/-- A zero and an `x` or `X`: only the zero is read in bases 8 and 10, whatever the sign. -/
theorem strtol_zero_x (b : Nat) (hb : b = 8 ∨ b = 10) (x : Byte) (hx : x = 120 ∨ x = 88) (s : List Byte) :
    (strtol b (48 :: x :: s)).value = 0 ∧ (strtol b (43 :: 48 :: x :: s)).value = 0 ∧ (strtol b (45 :: 48 :: x :: s)).value = 0 := by
  have hpre : strtolPrefix b (48 :: x :: s) = (b, 48 :: x :: s) := by
    unfold strtolPrefix
    rw [if_neg (by rintro ⟨h, _⟩; omega), if_neg (by omega)]
  have hxb : ¬ digitValue x < b := by
    rcases hx with rfl | rfl <;> rcases hb with rfl | rfl <;> decide
  have h0 : digitValue 48 < b := by rcases hb with rfl | rfl <;> decide
  have tk : (48 :: x :: s : List Byte).takeWhile (fun c => decide (digitValue c < b)) = [48] := by
    rw [List.takeWhile_cons, if_pos (by simpa using h0), List.takeWhile_cons, if_neg (by simpa using hxb)]
  have d0 : (48 :: x :: s : List Byte).dropWhile isSpace = 48 :: x :: s := by rw [List.dropWhile_cons]; rfl
  have d1 : (43 :: 48 :: x :: s : List Byte).dropWhile isSpace = 43 :: 48 :: x :: s := by rw [List.dropWhile_cons]; rfl
  have d2 : (45 :: 48 :: x :: s : List Byte).dropWhile isSpace = 45 :: 48 :: x :: s := by rw [List.dropWhile_cons]; rfl
  have n1 : ¬ (48 : Byte) = 45 := by decide
  have n2 : ¬ (48 : Byte) = 43 := by decide
  have n3 : ¬ (43 : Byte) = 45 := by decide
  have z : ∀ b : Nat, List.foldl (fun acc c => acc * b + digitValue c) 0 [(48 : Byte)] = 0 := by
    intro b; simp; decide
  refine ⟨?_, ?_, ?_⟩
  · unfold strtol
    simp only [d0, peek_cons, n1, n2, or_self, if_false, hpre, tk]
    rw [if_neg (by simp), z]
    simp [clamp64]
  · unfold strtol
    simp only [d1, peek_cons, or_true, if_true, List.drop_one, List.tail_cons, hpre, tk, n3]
    rw [if_neg (by simp), z]
    simp [clamp64]
  · unfold strtol
    simp only [d2, peek_cons, true_or, if_true, List.drop_one, List.tail_cons, hpre, tk]
    rw [if_neg (by simp), z]
    simp [clamp64]

/-- A hexadecimal numeral with a sign or with `0X` is read as 0. -/
theorem C46_hex_zero (s : List Byte) (x : Byte) (hx : x = 120 ∨ x = 88) (sign : Byte) (hs : sign = 43 ∨ sign = 45) :
    xmqGetInt (sign :: 48 :: x :: s) = 0 ∧ xmqGetLong (sign :: 48 :: x :: s) = 0 ∧
    xmqGetInt (48 :: 88 :: s) = 0 ∧ xmqGetLong (48 :: 88 :: s) = 0 := by
  have k := strtol_zero_x 10 (.inr rfl) x hx s
  have k' := strtol_zero_x 8 (.inl rfl) 88 (.inr rfl) s
  have h1 : (strtol 10 (sign :: 48 :: x :: s)).value = 0 := by
    rcases hs with rfl | rfl
    · exact k.2.1
    · exact k.2.2
  have n : ¬ sign = 48 := by rcases hs with rfl | rfl <;> decide
  have n' : ¬ (88 : Byte) = 120 := by decide
  unfold xmqGetInt xmqGetLong
  simp only [peek_cons, n, false_and, if_false, h1, List.drop_one, List.tail_cons, n', and_false, if_true, k'.1]
  decide

theorem digits_octal {s : List Byte} {v : Nat} (h : Digits 8 s v) : ∃ w, Digits 10 s w ∧ v ≤ w ∧ (v = 0 → w = 0) := by
  induction h with
  | one hc hd => exact ⟨_, .one hc (by omega), Nat.le_refl _, id⟩
  | snoc _ hc hd ih =>
    obtain ⟨w, hw, hle, hz⟩ := ih
    exact ⟨_, .snoc hw hc (by omega), by omega, by omega⟩

/-- An octal numeral with a sign is read as a decimal one. -/
theorem C46_octal_decimal (s : List Byte) (v : Nat) (h : Digits 8 s v) : ∃ w, Digits 10 s w ∧ v ≤ w ∧
    xmqGetLong (43 :: s) = clamp64 w ∧ xmqGetLong (45 :: s) = clamp64 (-w) ∧
    xmqGetInt (43 :: s) = toInt32 (clamp64 w) ∧ xmqGetInt (45 :: s) = toInt32 (clamp64 (-w)) := by
  obtain ⟨w, hw, hle, _⟩ := digits_octal h
  exact ⟨w, hw, hle, (getForms (.plus hw)).2, (getForms (.minus hw)).2, (getForms (.plus hw)).1, (getForms (.minus hw)).1⟩

/-- Of the numerals strictly inside 64 bits `xmqGetLong` reads exactly these: decimal ones, octal ones and `0x` ones without a sign,
    those with a sign that mean the same in base 10, and all whose value is 0. -/
theorem C46_exact (n : List Byte) (v : Int) (h : Numeral n v) (h1 : -2 ^ 63 < v) (h2 : v < 2 ^ 63 - 1) :
    xmqGetLong n = v ↔ ReadNumeral n v ∨ v = 0 := by
  have cl : ∀ w : Nat, clamp64 w = v → (w : Int) = v := by
    intro w hw
    unfold clamp64 at hw
    split at hw
    · omega
    · split at hw <;> omega
  have cl' : ∀ w : Nat, clamp64 (-w) = v → -(w : Int) = v := by
    intro w hw
    unfold clamp64 at hw
    split at hw
    · omega
    · split at hw <;> omega
  constructor
  · intro e
    cases h with
    | plain hm =>
      cases hm with
      | dec hd h0 => exact .inl (.dec hd h0)
      | oct hd h0 => exact .inl (.oct hd h0)
      | @hex s v x hd hx =>
        rcases hx with rfl | rfl
        · exact .inl (.hex hd)
        · right; rw [← e]; exact (C46_hex_zero s 120 (.inl rfl) 43 (.inl rfl)).2.2.2
    | plus hm =>
      cases hm with
      | dec hd h0 => exact .inl (.plus hd)
      | oct hd h0 =>
        obtain ⟨w, hw, _⟩ := digits_octal hd
        have := cl w ((getForms (.plus hw)).2 ▸ e)
        left; rw [← this]; exact .plus hw
      | @hex s v x hd hx => right; rw [← e]; exact (C46_hex_zero s x hx 43 (.inl rfl)).2.1
    | minus hm =>
      cases hm with
      | dec hd h0 => exact .inl (.minus hd)
      | oct hd h0 =>
        obtain ⟨w, hw, _⟩ := digits_octal hd
        have := cl' w ((getForms (.minus hw)).2 ▸ e)
        left; rw [← this]; exact .minus hw
      | @hex s v x hd hx => right; rw [← e]; exact (C46_hex_zero s x hx 45 (.inr rfl)).2.1
  · rintro (h' | h0)
    · exact (C46_get_long_partial h').1 (by omega) (by omega)
    · cases h with
      | plain hm =>
        cases hm with
        | dec hd h0 => exact (C46_get_long_partial (.dec hd h0)).1 (by omega) (by omega)
        | oct hd h0 => exact (C46_get_long_partial (.oct hd h0)).1 (by omega) (by omega)
        | @hex s v x hd hx =>
          rcases hx with rfl | rfl
          · exact (C46_get_long_partial (.hex hd)).1 (by omega) (by omega)
          · rw [h0]; exact (C46_hex_zero s 120 (.inl rfl) 43 (.inl rfl)).2.2.2
      | plus hm =>
        cases hm with
        | dec hd _ => exact (C46_get_long_partial (.plus hd)).1 (by omega) (by omega)
        | oct hd _ =>
          obtain ⟨w, hw, _, hz⟩ := digits_octal hd
          have e := hz (by omega)
          subst e
          rw [h0]
          exact (C46_get_long_partial (.plus hw)).1 (by omega) (by omega)
        | @hex s v x hd hx => rw [h0]; exact (C46_hex_zero s x hx 43 (.inl rfl)).2.1
      | minus hm =>
        cases hm with
        | dec hd _ => exact (C46_get_long_partial (.minus hd)).1 (by omega) (by omega)
        | oct hd _ =>
          obtain ⟨w, hw, _, hz⟩ := digits_octal hd
          have e := hz (by omega)
          subst e
          rw [h0]
          exact (C46_get_long_partial (.minus hw)).1 (by omega) (by omega)
        | @hex s v x hd hx => rw [h0]; exact (C46_hex_zero s x hx 45 (.inr rfl)).2.1

/-- `-017` is read as -17, `-0x10` and `0X10` as 0, `+07` as 7. -/
example : xmqGetLong b#"-017" = -17 ∧ xmqGetLong b#"-0x10" = 0 ∧ xmqGetInt b#"0X10" = 0 ∧ xmqGetLong b#"+07" = 7 ∧
    Numeral b#"+07" 7 ∧ ReadNumeral b#"+07" 7 := by
  have h8 : Digits 8 b#"07" 7 := .snoc (s := b#"0") (c := 55) (v := 0) (d := 7) (.one (by unfold DigitIs; decide) (by omega)) (by unfold DigitIs; decide) (by omega)
  have h10 : Digits 10 b#"07" 7 := .snoc (s := b#"0") (c := 55) (v := 0) (d := 7) (.one (by unfold DigitIs; decide) (by omega)) (by unfold DigitIs; decide) (by omega)
  exact ⟨by decide +kernel, by decide +kernel, by decide +kernel, by decide +kernel, .plus (.oct h8 rfl), .plus h10⟩

end Xmq.Props
