import Verif.Model.Utf8
namespace Xmq

theorem and_80 (c : Byte) : (c.toNat &&& 0x80 = 0) ↔ c.toNat < 128 :=
  forall_byte (P := fun c => (c.toNat &&& 0x80 = 0) ↔ c.toNat < 128) (by decide +kernel) c
theorem and_e0 (c : Byte) : (c.toNat &&& 0xe0 = 0xc0) ↔ (192 ≤ c.toNat ∧ c.toNat < 224) :=
  forall_byte (P := fun c => (c.toNat &&& 0xe0 = 0xc0) ↔ (192 ≤ c.toNat ∧ c.toNat < 224)) (by decide +kernel) c
theorem and_f0 (c : Byte) : (c.toNat &&& 0xf0 = 0xe0) ↔ (224 ≤ c.toNat ∧ c.toNat < 240) :=
  forall_byte (P := fun c => (c.toNat &&& 0xf0 = 0xe0) ↔ (224 ≤ c.toNat ∧ c.toNat < 240)) (by decide +kernel) c
theorem and_f8 (c : Byte) : (c.toNat &&& 0xf8 = 0xf0) ↔ (240 ≤ c.toNat ∧ c.toNat < 248) :=
  forall_byte (P := fun c => (c.toNat &&& 0xf8 = 0xf0) ↔ (240 ≤ c.toNat ∧ c.toNat < 248)) (by decide +kernel) c
theorem isCont_iff (c : Byte) : isCont c = true ↔ (128 ≤ c.toNat ∧ c.toNat < 192) :=
  forall_byte (P := fun c => isCont c = true ↔ (128 ≤ c.toNat ∧ c.toNat < 192)) (by decide +kernel) c

theorem and_3f (n : Nat) : n &&& 0x3f = n % 64 := Nat.and_two_pow_sub_one_eq_mod n 6
theorem and_1f (n : Nat) : n &&& 0x1f = n % 32 := Nat.and_two_pow_sub_one_eq_mod n 5
theorem and_0f (n : Nat) : n &&& 0x0f = n % 16 := Nat.and_two_pow_sub_one_eq_mod n 4
theorem and_07 (n : Nat) : n &&& 0x07 = n % 8 := Nat.and_two_pow_sub_one_eq_mod n 3

theorem or_80 (n : Nat) (h : n < 64) : 0x80 ||| n = 128 + n := by
  have := Nat.two_pow_add_eq_or_of_lt (i := 6) (b := n) (by omega) 2; simpa using this.symm
theorem or_c0 (n : Nat) (h : n < 32) : 0xc0 ||| n = 192 + n := by
  have := Nat.two_pow_add_eq_or_of_lt (i := 5) (b := n) (by omega) 6; simpa using this.symm
theorem or_e0 (n : Nat) (h : n < 16) : 0xe0 ||| n = 224 + n := by
  have := Nat.two_pow_add_eq_or_of_lt (i := 4) (b := n) (by omega) 14; simpa using this.symm
theorem or_f0 (n : Nat) (h : n < 8) : 0xf0 ||| n = 240 + n := by
  have := Nat.two_pow_add_eq_or_of_lt (i := 3) (b := n) (by omega) 30; simpa using this.symm

theorem shl6_or (a b : Nat) (h : b < 64) : (a <<< 6) ||| b = a * 64 + b := by
  have := Nat.two_pow_add_eq_or_of_lt (i := 6) (b := b) (by omega) a
  rw [Nat.shiftLeft_eq]; rw [Nat.mul_comm a]; rw [← this]
theorem shl12_or (a b : Nat) (h : b < 4096) : (a <<< 12) ||| b = a * 4096 + b := by
  have := Nat.two_pow_add_eq_or_of_lt (i := 12) (b := b) (by omega) a
  rw [Nat.shiftLeft_eq]; rw [Nat.mul_comm a]; rw [← this]
theorem shl18_or (a b : Nat) (h : b < 262144) : (a <<< 18) ||| b = a * 262144 + b := by
  have := Nat.two_pow_add_eq_or_of_lt (i := 18) (b := b) (by omega) a
  rw [Nat.shiftLeft_eq]; rw [Nat.mul_comm a]; rw [← this]

theorem dec2 (c cc : Nat) : ((c &&& 0x1f) <<< 6) ||| (cc &&& 0x3f) = (c % 32) * 64 + cc % 64 := by
  rw [and_3f, and_1f, shl6_or _ _ (by omega)]
theorem dec3 (c cc ccc : Nat) : ((c &&& 0x0f) <<< 12) ||| ((cc &&& 0x3f) <<< 6) ||| (ccc &&& 0x3f)
    = (c % 16) * 4096 + (cc % 64) * 64 + ccc % 64 := by
  rw [and_3f, and_3f, and_0f, Nat.or_assoc, shl6_or _ _ (by omega), shl12_or _ _ (by omega)]; omega
theorem dec4 (c cc ccc cccc : Nat) :
    ((c &&& 0x07) <<< 18) ||| ((cc &&& 0x3f) <<< 12) ||| ((ccc &&& 0x3f) <<< 6) ||| (cccc &&& 0x3f)
    = (c % 8) * 262144 + (cc % 64) * 4096 + (ccc % 64) * 64 + cccc % 64 := by
  rw [and_3f, and_3f, and_3f, and_07, Nat.or_assoc, Nat.or_assoc, shl6_or _ _ (by omega), shl12_or _ _ (by omega),
    shl18_or _ _ (by omega)]; omega

/-- Arithmetic form of `decodeUtf8`. -/
theorem decodeUtf8_eq (s : List Byte) : decodeUtf8 s =
    (let c := (peek s).toNat
     if c < 128 then ⟨true, c, 1⟩
     else if 192 ≤ c ∧ c < 224 then
       match s with
       | _ :: cc :: _ => if isCont cc then ⟨true, (c % 32) * 64 + cc.toNat % 64, 2⟩ else ⟨false, 1, 1⟩
       | _ => ⟨false, 1, 1⟩
     else if 224 ≤ c ∧ c < 240 then
       match s with
       | _ :: cc :: ccc :: _ => if isCont cc && isCont ccc then
           ⟨true, (c % 16) * 4096 + (cc.toNat % 64) * 64 + ccc.toNat % 64, 3⟩ else ⟨false, 1, 1⟩
       | _ => ⟨false, 1, 1⟩
     else if 240 ≤ c ∧ c < 248 then
       match s with
       | _ :: cc :: ccc :: cccc :: _ => if isCont cc && isCont ccc && isCont cccc then
           ⟨true, (c % 8) * 262144 + (cc.toNat % 64) * 4096 + (ccc.toNat % 64) * 64 + cccc.toNat % 64, 4⟩
           else ⟨false, 1, 1⟩
       | _ => ⟨false, 1, 1⟩
     else ⟨false, 1, 1⟩) := by
  unfold decodeUtf8
  simp only [and_80, and_e0, and_f0, and_f8, dec2, dec3, dec4]
  rcases s with _ | ⟨a, _ | ⟨b, _ | ⟨c, _ | ⟨d, t⟩⟩⟩⟩ <;> rfl

/-- Arithmetic form of `encodeUtf8`. -/
theorem encodeUtf8_eq (n : Nat) : encodeUtf8 n =
    if n < 0x80 then some [UInt8.ofNat n]
    else if n < 0x800 then some [UInt8.ofNat (192 + n / 64), UInt8.ofNat (128 + n % 64)]
    else if n < 0x10000 then some [UInt8.ofNat (224 + n / 4096), UInt8.ofNat (128 + n / 64 % 64), UInt8.ofNat (128 + n % 64)]
    else if n < 0x110000 then some [UInt8.ofNat (240 + n / 262144), UInt8.ofNat (128 + n / 4096 % 64),
      UInt8.ofNat (128 + n / 64 % 64), UInt8.ofNat (128 + n % 64)]
    else none := by
  unfold encodeUtf8
  have e1 : ((n : Int) ≤ 0x7f) ↔ n < 0x80 := by omega
  have e2 : (n ≤ 0x7ff) ↔ n < 0x800 := by omega
  have e3 : (n ≤ 0xffff) ↔ n < 0x10000 := by omega
  have e4 : (n ≤ 0x10ffff) ↔ n < 0x110000 := by omega
  simp only [e1, e2, e3, e4, Int.toNat_natCast, and_3f, and_1f, and_0f, and_07, Nat.shiftRight_eq_div_pow]
  split
  · rename_i h; simp [UInt8.ofInt]; congr 1; omega
  · split
    · rw [or_c0 _ (by omega), or_80 _ (by omega)]; congr 3; omega
    · split
      · rw [or_e0 _ (by omega), or_80 _ (by omega), or_80 _ (by omega)]; congr 3; omega
      · split
        · rw [or_f0 _ (by omega), or_80 _ (by omega), or_80 _ (by omega), or_80 _ (by omega)]; congr 3; omega
        · rfl

theorem decode_one (a : Byte) (t : List Byte) (h : a.toNat < 128) :
    decodeUtf8 (a :: t) = ⟨true, a.toNat, 1⟩ := by
  rw [decodeUtf8_eq]; dsimp only [peek_cons]; rw [if_pos h]

theorem decode_two (a b : Byte) (t : List Byte) (h : 192 ≤ a.toNat ∧ a.toNat < 224) (hb : isCont b = true) :
    decodeUtf8 (a :: b :: t) = ⟨true, (a.toNat % 32) * 64 + b.toNat % 64, 2⟩ := by
  rw [decodeUtf8_eq]; dsimp only [peek_cons]; rw [if_neg (by omega), if_pos h, if_pos hb]

theorem decode_three (a b c : Byte) (t : List Byte) (h : 224 ≤ a.toNat ∧ a.toNat < 240)
    (hb : isCont b = true) (hc : isCont c = true) :
    decodeUtf8 (a :: b :: c :: t) = ⟨true, (a.toNat % 16) * 4096 + (b.toNat % 64) * 64 + c.toNat % 64, 3⟩ := by
  rw [decodeUtf8_eq]; dsimp only [peek_cons]
  rw [if_neg (by omega), if_neg (by omega), if_pos h, if_pos (by rw [hb, hc]; rfl)]

theorem decode_four (a b c d : Byte) (t : List Byte) (h : 240 ≤ a.toNat ∧ a.toNat < 248)
    (hb : isCont b = true) (hc : isCont c = true) (hd : isCont d = true) :
    decodeUtf8 (a :: b :: c :: d :: t) =
      ⟨true, (a.toNat % 8) * 262144 + (b.toNat % 64) * 4096 + (c.toNat % 64) * 64 + d.toNat % 64, 4⟩ := by
  rw [decodeUtf8_eq]; dsimp only [peek_cons]
  rw [if_neg (by omega), if_neg (by omega), if_neg (by omega), if_pos h, if_pos (by rw [hb, hc, hd]; rfl)]

/-- The four ways to decode successfully. -/
theorem decode_ok_cases (s : List Byte) (hne : s ≠ []) (hok : (decodeUtf8 s).ok = true) :
    (∃ a t, s = a :: t ∧ a.toNat < 128) ∨
    (∃ a b t, s = a :: b :: t ∧ (192 ≤ a.toNat ∧ a.toNat < 224) ∧ isCont b = true) ∨
    (∃ a b c t, s = a :: b :: c :: t ∧ (224 ≤ a.toNat ∧ a.toNat < 240) ∧ isCont b = true ∧ isCont c = true) ∨
    (∃ a b c d t, s = a :: b :: c :: d :: t ∧ (240 ≤ a.toNat ∧ a.toNat < 248) ∧ isCont b = true ∧
      isCont c = true ∧ isCont d = true) := by
  revert hok
  rw [decodeUtf8_eq]
  rcases s with _ | ⟨a, _ | ⟨b, _ | ⟨c, _ | ⟨d, u⟩⟩⟩⟩
  · exact absurd rfl hne
  all_goals dsimp only [peek_cons]
  all_goals (repeat' split)
  all_goals intro hok
  all_goals try (simp only [Bool.false_eq_true] at hok)
  all_goals try (simp only [Bool.and_eq_true] at *)
  all_goals first
    | exact Or.inl ⟨_, _, rfl, by assumption⟩
    | exact Or.inr (Or.inl ⟨_, _, _, rfl, by assumption, by assumption⟩)
    | exact Or.inr (Or.inr (Or.inl ⟨_, _, _, _, rfl, by assumption, by grind⟩))
    | exact Or.inr (Or.inr (Or.inr ⟨_, _, _, _, _, rfl, by assumption, by grind⟩))

end Xmq
