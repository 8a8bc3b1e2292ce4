import Verif.Props.Document
/-!
# C51: numeric character references
-/
namespace Xmq.Spec

/-- The value of a digit: `0`..`9` are 0..9, `a`..`f` and `A`..`F` are 10..15. -/
def DigitVal (b : Byte) (v : Nat) : Prop :=
  (v < 10 ∧ b.toNat = 48 + v) ∨ (10 ≤ v ∧ v < 16 ∧ (b.toNat = 97 + (v - 10) ∨ b.toNat = 65 + (v - 10)))

/-- `bs` spells the number `n` in the given base, most significant digit first.  Leading zeros are allowed. -/
inductive Spells (base : Nat) : List Byte → Nat → Prop
  | one (b : Byte) (v : Nat) : DigitVal b v → v < base → Spells base [b] v
  | snoc (bs : List Byte) (n : Nat) (b : Byte) (v : Nat) : Spells base bs n → DigitVal b v → v < base →
      Spells base (bs ++ [b]) (n * base + v)

end Xmq.Spec

namespace Xmq.Props
open Xmq Xmq.Spec

theorem digitVal_class (b : Byte) (v : Nat) (h : DigitVal b v) : isXmqTextName b = true ∧ b ≠ 45 ∧ b ≠ 120 ∧ b ≠ 88 ∧
    (if b ≥ b#'0' && b ≤ b#'9' then b.toNat - 48 else if b ≥ b#'a' && b ≤ b#'f' then b.toNat - 87
      else if b ≥ b#'A' && b ≤ b#'F' then b.toNat - 55 else 16) = v := by
  revert h
  have hv : v < 16 ∨ 16 ≤ v := by omega
  rcases hv with hv | hv
  · refine forall_byte (P := fun b => ∀ v, v < 16 → (DigitVal b v → isXmqTextName b = true ∧ b ≠ 45 ∧ b ≠ 120 ∧ b ≠ 88 ∧
      (if b ≥ b#'0' && b ≤ b#'9' then b.toNat - 48 else if b ≥ b#'a' && b ≤ b#'f' then b.toNat - 87
        else if b ≥ b#'A' && b ≤ b#'F' then b.toNat - 55 else 16) = v)) ?_ b v hv
    unfold DigitVal
    decide +kernel
  · rintro (⟨h, -⟩ | ⟨-, h, -⟩) <;> omega

theorem spells_all {base : Nat} {bs : List Byte} {n : Nat} (h : Spells base bs n) : ∀ b ∈ bs, ∃ v, v < base ∧ DigitVal b v := by
  induction h with
  | one b v hd hv => intro c hc; simp at hc; subst hc; exact ⟨v, hv, hd⟩
  | snoc bs n b v _ hd hv ih =>
    intro c hc
    rw [List.mem_append, List.mem_singleton] at hc
    rcases hc with hc | rfl
    · exact ih c hc
    · exact ⟨v, hv, hd⟩

theorem readDigits_append (base : Nat) : ∀ (bs t : List Byte) (acc : Nat), (∀ b ∈ bs, ∃ v, v < base ∧ DigitVal b v) →
    readDigits base (bs ++ t) acc = readDigits base t (readDigits base bs acc)
  | [], t, acc, _ => by simp [readDigits]
  | b :: bs, t, acc, h => by
    obtain ⟨v, hv, hd⟩ := h b (by simp)
    have hc := (digitVal_class b v hd).2.2.2.2
    rw [List.cons_append, readDigits, readDigits]
    rw [hc, if_pos hv, if_pos hv, readDigits_append base bs t _ (fun c hc => h c (by simp [hc]))]

theorem readDigits_spells {base : Nat} {bs : List Byte} {n : Nat} (h : Spells base bs n) : readDigits base bs 0 = n := by
  induction h with
  | one b v hd hv =>
    have hc := (digitVal_class b v hd).2.2.2.2
    rw [readDigits]
    rw [hc, if_pos hv, readDigits]; omega
  | snoc bs n b v hs hd hv ih =>
    have hc := (digitVal_class b v hd).2.2.2.2
    rw [readDigits_append base bs [b] 0 (spells_all hs), ih, readDigits]
    rw [hc, if_pos hv, readDigits]

theorem readDigits_semicolon (base n : Nat) (hb : base ≤ 16) : readDigits base b#";" n = n := by
  rw [readDigits]
  rw [if_neg (by simp; omega)]

/-- What the characters between `&#` and `;` mean. -/
theorem charEntityText_spells {base : Nat} {bs : List Byte} {n : Nat} (h : Spells base bs n) (hb : base ≤ 16) (pre : List Byte)
    (hpre : (base = 10 ∧ pre = []) ∨ (base = 16 ∧ pre = [120])) (h0 : n ≠ 0) (hn : n < 0x110000) :
    charEntityText (pre ++ (bs ++ [59])) = some ((rfc3629 n).map UInt8.ofNat) := by
  have hall := spells_all h
  have hne : bs ≠ [] := by cases h <;> simp
  have hv : readDigits base (bs ++ [59]) 0 = n := by
    rw [readDigits_append base bs [59] 0 hall, readDigits_spells h]
    exact readDigits_semicolon base n hb
  have hx : ∀ t, peek (bs ++ t) ≠ 120 ∧ peek (bs ++ t) ≠ 88 := by
    intro t
    cases bs with
    | nil => exact absurd rfl hne
    | cons c r =>
      obtain ⟨v, -, hd⟩ := hall c (by simp)
      exact ⟨(digitVal_class c v hd).2.2.1, (digitVal_class c v hd).2.2.2.1⟩
  have hdash : ∀ pre : List Byte, (pre = [] ∨ pre = [120]) → (pre ++ (bs ++ [59])).contains b#'-' = false := by
    intro pre hp
    rw [Bool.eq_false_iff]
    intro hm
    rw [List.contains_iff_mem, List.mem_append, List.mem_append] at hm
    rcases hm with hm | hm | hm
    · rcases hp with rfl | rfl <;> revert hm <;> decide
    · obtain ⟨v, -, hd⟩ := hall _ hm
      exact (digitVal_class _ v hd).2.1 rfl
    · revert hm; decide
  have henc := rfc_encode n hn
  have hz : ((rfc3629 n).map UInt8.ofNat).takeWhile (· != 0) = (rfc3629 n).map UInt8.ofNat := by
    have := entityVal_charEntity n h0 _ henc
    have hd := Xmq.Props.C01_decode_encode n (by omega) [] _ henc
    have tw : ∀ l : List Byte, (∀ b ∈ l, (b != 0) = true) → l.takeWhile (· != 0) = l := by
      intro l hl
      have := List.takeWhile_append_of_pos (p := fun b : Byte => b != 0) (l₁ := l) (l₂ := []) hl
      simpa using this
    apply tw
    intro b hb
    have : ∀ x ∈ rfc3629 n, x ≠ 0 ∧ x < 256 := by
      unfold rfc3629
      intro x hx
      repeat' split at hx
      all_goals simp at hx; omega
    obtain ⟨x, hx, rfl⟩ := List.mem_map.1 hb
    obtain ⟨h1, h2⟩ := this x hx
    rw [bne_iff_ne]
    intro e
    have := congrArg UInt8.toNat e
    simp at this
    omega
  rcases hpre with ⟨rfl, rfl⟩ | ⟨rfl, rfl⟩
  · have hxx : (peek (bs ++ [59]) == b#'x') = false := by simpa using (hx [59]).1
    have hd := hdash [] (.inl rfl)
    rw [List.nil_append] at hd ⊢
    unfold charEntityText
    dsimp only
    rw [hxx, hd]
    simp only [Bool.false_eq_true, if_false, Bool.false_and, Bool.false_or, hv]
    rw [if_neg (by simp; omega), henc, Option.map_some, hz]
  · have hd := hdash [120] (.inr rfl)
    unfold charEntityText
    dsimp only
    rw [hd]
    have e1 : (peek ([120] ++ (bs ++ [59])) == b#'x') = true := rfl
    have e2 : ([120] ++ (bs ++ [59])).drop 1 = bs ++ [59] := rfl
    have e3 : (peek (([120] ++ (bs ++ [59])).drop 2) == b#'x' || peek (([120] ++ (bs ++ [59])).drop 2) == b#'X') = false := by
      show (peek ((bs ++ [59]).drop 1) == b#'x' || peek ((bs ++ [59]).drop 1) == b#'X') = false
      cases bs with
      | nil => exact absurd rfl hne
      | cons c r =>
        show (peek (r ++ [59]) == b#'x' || peek (r ++ [59]) == b#'X') = false
        cases r with
        | nil => rfl
        | cons d r =>
          obtain ⟨v, -, hd⟩ := hall d (by simp)
          simp [(digitVal_class d v hd).2.2.1, (digitVal_class d v hd).2.2.2.1]
    rw [e1, e2, e3]
    simp only [if_true, Bool.true_and, Bool.or_false, Bool.false_or, hv]
    rw [if_neg (by simp; omega), henc, Option.map_some, hz]

theorem reads_charRef {key pre bs : List Byte} {base n : Nat} (hk : ElementName key) (h : Spells base bs n) (hb : base ≤ 16)
    (hpre : (base = 10 ∧ pre = []) ∨ (base = 16 ∧ pre = [120])) (h0 : n ≠ 0) (hn : n < 0x110000) :
    Reads (key ++ 61 :: 38 :: ((35 :: (pre ++ bs)) ++ [59])) [.element key [] [.text ((rfc3629 n).map UInt8.ofNat)]] := by
  have hname : ∀ b ∈ 35 :: (pre ++ bs), isXmqTextName b = true := by
    intro b hb
    simp only [List.mem_cons, List.mem_append] at hb
    rcases hb with rfl | hb | hb
    · decide
    · rcases hpre with ⟨-, rfl⟩ | ⟨-, rfl⟩
      · cases hb
      · simp at hb; subst hb; decide
    · obtain ⟨v, -, hd⟩ := spells_all h b hb
      exact (digitVal_class b v hd).1
  have hv : entityVal (38 :: ((35 :: (pre ++ bs)) ++ [59])) = some (.text ((rfc3629 n).map UInt8.ofNat)) := by
    unfold entityVal
    rw [if_pos (by rfl)]
    have : (38 :: ((35 :: (pre ++ bs)) ++ [59])).drop 2 = pre ++ (bs ++ [59]) := by simp
    rw [this, charEntityText_spells h hb pre hpre h0 hn]; rfl
  have := reads_value (v := 38 :: ((35 :: (pre ++ bs)) ++ [59])) (es := [.text ((rfc3629 n).map UInt8.ofNat)]) (fun col b f hb => by
    have hp := P_value_part (lv := .elementValue) (.inl rfl) hb (w := 38 :: ((35 :: (pre ++ bs)) ++ [59])) (k := []) (col := col) [] Ws.nil
      (by
        have := Parts.cons (colw col []) [] (38 :: ((35 :: (pre ++ bs)) ++ [59])) [] [] _ [] Ws.nil (.entity _ _ _ hname hv) (.nil _ _)
        simpa using this)
    simpa using hp) (elemName_of hk)
  simpa [mergeVals, addVal, Val.node] using this

/-- **C51**, decimal: the reference `&#digits;` is read as the character with that number, for every character and every
    spelling of its number, leading zeros included. -/
theorem C51_decimal_reference (key ds : List Byte) (n : Nat) (hk : ElementName key) (h : Spells 10 ds n) (h0 : n ≠ 0) (hn : n ≤ 0x10ffff) :
    Reads (key ++ b#"=&#" ++ ds ++ b#";") [.element key [] [.text ((rfc3629 n).map UInt8.ofNat)]] := by
  have := reads_charRef hk h (by omega) (pre := []) (.inl ⟨rfl, rfl⟩) h0 (by omega)
  simpa using this

/-- **C51**, hexadecimal: the reference `&#xdigits;` is read as the character with that number in base 16, with upper and
    lower case digits. -/
theorem C51_hex_reference (key ds : List Byte) (n : Nat) (hk : ElementName key) (h : Spells 16 ds n) (h0 : n ≠ 0) (hn : n ≤ 0x10ffff) :
    Reads (key ++ b#"=&#x" ++ ds ++ b#";") [.element key [] [.text ((rfc3629 n).map UInt8.ofNat)]] := by
  have := reads_charRef hk h (by omega) (pre := [120]) (.inr ⟨rfl, rfl⟩) h0 (by omega)
  simpa using this

example : Spells 16 b#"1F60a" 0x1f60a ∧ (rfc3629 0x1f60a).map UInt8.ofNat = [0xf0, 0x9f, 0x98, 0x8a] := by
  refine ⟨?_, by decide +kernel⟩
  have h1 : Spells 16 [49] 1 := .one 49 1 (by unfold DigitVal; decide) (by decide)
  have h2 : Spells 16 ([49] ++ [70]) (1 * 16 + 15) := .snoc _ _ 70 15 h1 (by unfold DigitVal; decide) (by decide)
  have h3 := Spells.snoc _ _ 54 6 h2 (by unfold DigitVal; decide) (by decide)
  have h4 := Spells.snoc _ _ 48 0 h3 (by unfold DigitVal; decide) (by decide)
  have h5 := Spells.snoc _ _ 97 10 h4 (by unfold DigitVal; decide) (by decide)
  simpa using h5

/-- References beyond the last character are not read but stop the process (a failing assert), and the reference to
    character 0 is read as no character at all. -/
theorem C51_outside_range : entityVal b#"&#x110000;" = none ∧ entityVal b#"&#0;" = some (.text []) := by decide +kernel

/-- **C51**, names: the reference `&name;` is kept as a reference with that name. -/
theorem C51_named_reference (key name : List Byte) (hk : ElementName key) (hn : ∀ b ∈ name, NameByte b) (h0 : name.head? ≠ some b#'#') :
    Reads (key ++ b#"=&" ++ name ++ b#";") [.element key [] [.entity name]] := by
  have hname : ∀ b ∈ name, isXmqTextName b = true := fun b hb => (nameByte_iff b).2 (hn b hb)
  have hv : entityVal (38 :: (name ++ [59])) = some (.entity name) := by
    unfold entityVal
    rw [if_neg]
    · simp
    · cases name with
      | nil => decide
      | cons c t => simpa [peek] using h0
  have := reads_value (v := 38 :: (name ++ [59])) (es := [.entity name]) (fun col b f hb => by
    have hp := P_value_part (lv := .elementValue) (.inl rfl) hb (w := 38 :: (name ++ [59])) (k := []) (col := col) [] Ws.nil
      (by
        have := Parts.cons (colw col []) [] (38 :: (name ++ [59])) [] [] _ [] Ws.nil (.entity _ _ _ hname hv) (.nil _ _)
        simpa using this)
    simpa using hp) (elemName_of hk)
  simpa [mergeVals, addVal, Val.node] using this

example : (∀ b ∈ b#"nbsp", NameByte b) ∧ b#"nbsp".head? ≠ some b#'#' := by
  refine ⟨?_, by decide⟩
  simp [NameByte]

/-- When the semicolon is missing (C42) the name is the same. -/
theorem C42_without_semicolon : Reads b#"a=&abc" [.element b#"a" [] [.entity b#"abc"]] :=
  ⟨_, ⟨10, _, rfl, rfl⟩, by decide +kernel⟩

end Xmq.Props
