import Verif.Model.Numbers
import Verif.Spec.Numbers
/-!
# C35, C46: numbers in texts
-/
namespace Xmq.Props
open Xmq.Spec

theorem digitIs_iff (c : Byte) (d : Nat) (hd : d < 16) : DigitIs c d ↔ digitValue c = d := by
  have h : ∀ c : Byte, ∀ d : Fin 16, ((d.val < 10 ∧ c.toNat = 48 + d.val) ∨ (10 ≤ d.val ∧ d.val < 16 ∧ (c.toNat = 87 + d.val ∨ c.toNat = 55 + d.val))) ↔ digitValue c = d.val := by
    apply forall_byte (P := fun c => ∀ d : Fin 16, ((d.val < 10 ∧ c.toNat = 48 + d.val) ∨ (10 ≤ d.val ∧ d.val < 16 ∧ (c.toNat = 87 + d.val ∨ c.toNat = 55 + d.val))) ↔ digitValue c = d.val)
    decide +kernel
  exact h c ⟨d, hd⟩

/-- The value computed by the loop of `strtol`. -/
def digitsVal (b : Nat) (s : List Byte) : Nat := s.foldl (fun acc c => acc * b + digitValue c) 0

theorem digits_iff (b : Nat) (hb : b ≤ 16) (s : List Byte) (v : Nat) :
    Digits b s v ↔ s ≠ [] ∧ (∀ c ∈ s, digitValue c < b) ∧ digitsVal b s = v := by
  constructor
  · intro h
    induction h with
    | one hc hd => 
      rename_i c d
      have := (digitIs_iff c d (by omega)).1 hc
      simp [digitsVal, this, hd]
    | snoc _ hc hd ih =>
      rename_i s c v d _
      have := (digitIs_iff c d (by omega)).1 hc
      refine ⟨by simp, ?_, ?_⟩
      · intro x hx
        rcases List.mem_append.1 hx with hx | hx
        · exact ih.2.1 x hx
        · simp at hx; subst hx; omega
      · unfold digitsVal at ih ⊢
        rw [List.foldl_append, ih.2.2]; simp [this]
  · rintro ⟨h1, h2, h3⟩
    subst h3
    have key : ∀ (r : List Byte), (∀ c ∈ r, digitValue c < b) → r ≠ [] → Digits b r.reverse (digitsVal b r.reverse) := by
      intro r
      induction r with
      | nil => intro _ h; exact absurd rfl h
      | cons c t ih =>
        intro h _
        have hc := h c (by simp)
        have hdig := (digitIs_iff c (digitValue c) (by omega)).2 rfl
        cases ht : t with
        | nil =>
          have : digitsVal b [c].reverse = digitValue c := by simp [digitsVal]
          rw [this]
          exact .one hdig hc
        | cons y u =>
          have := ih (fun c hc => h c (by simp [hc])) (by rw [ht]; simp)
          rw [← ht, List.reverse_cons]
          have e : digitsVal b (t.reverse ++ [c]) = digitsVal b t.reverse * b + digitValue c := by
            unfold digitsVal; rw [List.foldl_append]; rfl
          rw [e]
          exact .snoc this hdig hc
    have := key s.reverse (by simpa using h2) (by simpa using h1)
    simpa using this

theorem isSpace_iff : ∀ c : Byte, isSpace c = true ↔ CSpace c := by
  intro c; unfold isSpace CSpace; simp

theorem digitValue_space : ∀ c : Byte, digitValue c < 16 → isSpace c = false ∧ c ≠ 43 ∧ c ≠ 45 ∧ c ≠ 120 ∧ c ≠ 88 ∧ c ≠ 0 := by
  apply forall_byte (P := fun c => digitValue c < 16 → isSpace c = false ∧ c ≠ 43 ∧ c ≠ 45 ∧ c ≠ 120 ∧ c ≠ 88 ∧ c ≠ 0)
  decide +kernel

theorem takeWhile_eq_self {p : Byte → Bool} {l : List Byte} (h : ∀ c ∈ l, p c = true) : l.takeWhile p = l ∧ l.dropWhile p = [] := by
  induction l with
  | nil => simp
  | cons c t ih =>
    have := ih (fun x hx => h x (by simp [hx]))
    simp [h c (by simp), this]

theorem dropWhile_nil {p : Byte → Bool} {l : List Byte} (h : l.dropWhile p = []) : ∀ c ∈ l, p c = true := by
  induction l with
  | nil => simp
  | cons c t ih =>
    rw [List.dropWhile_cons] at h
    split at h
    · rename_i hc
      intro x hx
      rcases List.mem_cons.1 hx with rfl | hx
      · exact hc
      · exact ih h x hx
    · cases h

/-- The digits of a number without sign, as `strtol` splits them in base 0. -/
theorem magnitude_iff (r : List Byte) (v : Nat) :
    Magnitude r v ↔ ((strtolPrefix 0 r).2 ≠ [] ∧ (∀ c ∈ (strtolPrefix 0 r).2, digitValue c < (strtolPrefix 0 r).1) ∧
      digitsVal (strtolPrefix 0 r).1 (strtolPrefix 0 r).2 = v) := by
  constructor
  · intro h
    cases h with
    | dec hd h0 =>
      obtain ⟨h1, h2, h3⟩ := (digits_iff 10 (by omega) _ _).1 hd
      have hp : peek r ≠ 48 := by
        cases r with
        | nil => simp
        | cons c t => simpa using h0
      unfold strtolPrefix
      rw [if_neg (by simp [hp]), if_pos rfl, if_neg hp]
      exact ⟨h1, h2, h3⟩
    | oct hd h0 =>
      obtain ⟨h1, h2, h3⟩ := (digits_iff 8 (by omega) _ _).1 hd
      have hp : peek r = 48 := by
        cases r with
        | nil => simp at h0
        | cons c t => simpa using h0
      have hx : ¬ (peek (r.drop 1) = 120 ∨ peek (r.drop 1) = 88) := by
        intro hx
        cases r with
        | nil => simp at h0
        | cons c t =>
          cases t with
          | nil => simp at hx
          | cons d u =>
            have := digitValue_space d (by have := h2 d (by simp); omega)
            simp at hx
            rcases hx with rfl | rfl <;> simp_all
      unfold strtolPrefix
      rw [if_neg (fun h => hx h.2.2.1), if_pos rfl, if_pos hp]
      exact ⟨h1, h2, h3⟩
    | @hex s _ x hd hx =>
      obtain ⟨h1, h2, h3⟩ := (digits_iff 16 (by omega) _ _).1 hd
      have hh : digitValue (peek s) < 16 := by
        cases s with
        | nil => exact absurd rfl h1
        | cons c t => exact h2 c (by simp)
      unfold strtolPrefix
      rw [if_pos ⟨.inl rfl, rfl, hx, hh⟩]
      exact ⟨h1, h2, h3⟩
  · rintro ⟨h1, h2, h3⟩
    unfold strtolPrefix at h1 h2 h3
    by_cases hx : ((0 : Nat) = 0 ∨ (0 : Nat) = 16) ∧ peek r = 48 ∧ (peek (r.drop 1) = 120 ∨ peek (r.drop 1) = 88) ∧ digitValue (peek (r.drop 2)) < 16
    · rw [if_pos hx] at h1 h2 h3
      obtain ⟨_, ha, hb, _⟩ := hx
      cases r with
      | nil => simp at ha
      | cons c t =>
        cases t with
        | nil => simp at hb
        | cons d u =>
          simp at ha hb h1 h2 h3
          subst ha
          exact .hex ((digits_iff 16 (by omega) _ _).2 ⟨h1, h2, h3⟩) hb
    · rw [if_neg hx, if_pos rfl] at h1 h2 h3
      by_cases hp : peek r = 48
      · rw [if_pos hp] at h2 h3
        refine .oct ((digits_iff 8 (by omega) _ _).2 ⟨h1, h2, h3⟩) ?_
        cases r with
        | nil => simp at hp
        | cons c t => simpa using hp
      · rw [if_neg hp] at h2 h3
        refine .dec ((digits_iff 10 (by omega) _ _).2 ⟨h1, h2, h3⟩) ?_
        cases r with
        | nil => simp
        | cons c t => simpa using hp

theorem magnitude_head {r : List Byte} {v : Nat} (h : Magnitude r v) : ∃ c t, r = c :: t ∧ digitValue c < 16 := by
  have key : ∀ b s v, b ≤ 16 → Digits b s v → ∃ c t, s = c :: t ∧ digitValue c < 16 := by
    intro b s v hb hd
    obtain ⟨h1, h2, _⟩ := (digits_iff b hb _ _).1 hd
    cases s with
    | nil => exact absurd rfl h1
    | cons c t => exact ⟨c, t, rfl, by have := h2 c (by simp); omega⟩
  cases h with
  | dec hd _ => exact key 10 _ _ (by omega) hd
  | oct hd _ => exact key 8 _ _ (by omega) hd
  | hex hd _ => exact ⟨48, _, rfl, by decide⟩

/-- `strtol` in base 0 consumes everything exactly for white space followed by a numeral, and gives its (clamped) value. -/
theorem strtol_all_iff (s : List Byte) (hs : s ≠ []) (w : Int) :
    ((strtol 0 s).stop = [] ∧ (strtol 0 s).value = w) ↔
      ∃ sp n v, s = sp ++ n ∧ (∀ c ∈ sp, CSpace c) ∧ Numeral n v ∧ w = clamp64 v := by
  have core : ∀ r : List Byte, (∃ v, Magnitude r v) ↔ (((strtolPrefix 0 r).2.takeWhile fun c => digitValue c < (strtolPrefix 0 r).1) ≠ [] ∧
      ((strtolPrefix 0 r).2.dropWhile fun c => digitValue c < (strtolPrefix 0 r).1) = []) := by
    intro r
    constructor
    · rintro ⟨v, h⟩
      obtain ⟨h1, h2, _⟩ := (magnitude_iff r v).1 h
      have := takeWhile_eq_self (p := fun c => decide (digitValue c < (strtolPrefix 0 r).1)) (l := (strtolPrefix 0 r).2) (by simpa using h2)
      rw [this.1, this.2]; exact ⟨h1, rfl⟩
    · rintro ⟨h1, h2⟩
      have := dropWhile_nil h2
      refine ⟨_, (magnitude_iff r _).2 ⟨?_, by simpa using this, rfl⟩⟩
      intro h0; rw [h0] at h1; exact h1 rfl
  have val : ∀ r v, Magnitude r v → ((strtolPrefix 0 r).2.takeWhile fun c => digitValue c < (strtolPrefix 0 r).1).foldl (fun acc c => acc * (strtolPrefix 0 r).1 + digitValue c) 0 = v := by
    intro r v h
    obtain ⟨h1, h2, h3⟩ := (magnitude_iff r v).1 h
    rw [(takeWhile_eq_self (p := fun c => decide (digitValue c < (strtolPrefix 0 r).1)) (l := (strtolPrefix 0 r).2) (by simpa using h2)).1]
    exact h3
  constructor
  · rintro ⟨h1, h2⟩
    unfold strtol at h1 h2
    simp only at h1 h2
    generalize hr : (if peek (s.dropWhile isSpace) = 45 ∨ peek (s.dropWhile isSpace) = 43 then (s.dropWhile isSpace).drop 1 else s.dropWhile isSpace) = r at h1 h2
    by_cases hd : ((strtolPrefix 0 r).2.takeWhile fun c => digitValue c < (strtolPrefix 0 r).1) = []
    · rw [if_pos hd] at h1; exact absurd h1 hs
    · rw [if_neg hd] at h1 h2
      obtain ⟨v, hv⟩ := (core r).2 ⟨hd, h1⟩
      have hval := val r v hv
      rw [hval] at h2
      have hsp : ∀ c ∈ s.takeWhile isSpace, CSpace c := by
        intro c hc
        have : ∀ l : List Byte, c ∈ l.takeWhile isSpace → isSpace c = true := by
          intro l
          induction l with
          | nil => simp
          | cons x t ih =>
            rw [List.takeWhile_cons]
            split
            · intro h; rcases List.mem_cons.1 h with rfl | h
              · assumption
              · exact ih h
            · simp
        exact (isSpace_iff c).1 (this s hc)
      have hsplit : s = s.takeWhile isSpace ++ s.dropWhile isSpace := (List.takeWhile_append_dropWhile).symm
      cases hq : s.dropWhile isSpace with
      | nil =>
        rw [hq] at hr
        simp at hr
        subst hr
        obtain ⟨c, t, e, _⟩ := magnitude_head hv
        cases e
      | cons c t =>
        rw [hq] at hr h2 hsplit
        by_cases hm : c = 45
        · subst hm
          simp at hr h2
          subst hr
          exact ⟨_, _, _, hsplit, hsp, .minus hv, h2.symm⟩
        · by_cases hp : c = 43
          · subst hp
            simp at hr h2
            subst hr
            exact ⟨_, _, _, hsplit, hsp, .plus hv, h2.symm⟩
          · simp [hm, hp] at hr h2
            subst hr
            exact ⟨_, _, _, hsplit, hsp, .plain hv, h2.symm⟩
  · rintro ⟨sp, n, v, rfl, hsp, hn, rfl⟩
    have hdrop : ∀ c t, n = c :: t → isSpace c = false → (sp ++ n).dropWhile isSpace = n := by
      intro c t e hc
      rw [List.dropWhile_append_of_pos (fun x hx => (isSpace_iff x).2 (hsp x hx)), e, List.dropWhile_cons, hc]; rfl
    unfold strtol
    simp only
    cases hn with
    | plain hv =>
      obtain ⟨c, t, e, hc⟩ := magnitude_head hv
      obtain ⟨c1, c2, c3, _⟩ := digitValue_space c hc
      rw [hdrop c t e c1]
      have hnp : ¬ (peek n = 45 ∨ peek n = 43) := by rw [e]; simp [c2, c3]
      have hnm : ¬ peek n = 45 := fun h => hnp (.inl h)
      rw [if_neg hnp]
      obtain ⟨k1, k2⟩ := (core n).1 ⟨_, hv⟩
      rw [if_neg k1, if_neg hnm, k2, val n _ hv]
      exact ⟨rfl, rfl⟩
    | @plus m v hv =>
      rw [hdrop 43 m rfl (by decide)]
      have e1 : (if peek (43 :: m : List Byte) = 45 ∨ peek (43 :: m : List Byte) = 43 then (43 :: m : List Byte).drop 1 else 43 :: m) = m := by simp
      have e2 : ¬ peek (43 :: m : List Byte) = 45 := by simp
      obtain ⟨k1, k2⟩ := (core m).1 ⟨_, hv⟩
      rw [e1, if_neg k1, if_neg e2, k2, val m _ hv]
      exact ⟨rfl, rfl⟩
    | @minus m v hv =>
      rw [hdrop 45 m rfl (by decide)]
      have e1 : (if peek (45 :: m : List Byte) = 45 ∨ peek (45 :: m : List Byte) = 43 then (45 :: m : List Byte).drop 1 else 45 :: m) = m := by simp
      have e2 : peek (45 :: m : List Byte) = 45 := by simp
      obtain ⟨k1, k2⟩ := (core m).1 ⟨_, hv⟩
      rw [e1, if_neg k1, if_pos e2, k2, val m _ hv]
      exact ⟨rfl, rfl⟩

/-- `coreParseI8` accepts exactly the numerals with a value that fits 8 bits, after white space, and gives that value. -/
theorem C35_parse_i8 (s : List Byte) (w : Int) :
    coreParseI8 s = some w ↔ ∃ sp n, s = sp ++ n ∧ (∀ c ∈ sp, CSpace c) ∧ Numeral n w ∧ -128 ≤ w ∧ w ≤ 127 := by
  unfold coreParseI8 internalParserNumber
  by_cases hs : s = []
  · subst hs
    refine ⟨fun h => by simp at h, ?_⟩
    rintro ⟨sp, n, e, _, hn, _⟩
    simp at e
    obtain ⟨rfl, rfl⟩ := e
    cases hn with
    | plain hv => obtain ⟨c, t, e, _⟩ := magnitude_head hv; cases e
  · rw [if_neg hs]
    simp only
    have key := strtol_all_iff s hs
    constructor
    · intro h
      by_cases h1 : (strtol 0 s).stop = []
      · simp only [h1, ne_eq, not_true_eq_false, if_false] at h
        split at h
        · cases h
        · split at h
          · cases h
          · cases h
            obtain ⟨sp, n, v, e1, e2, e3, e4⟩ := (key (strtol 0 s).value).1 ⟨h1, rfl⟩
            generalize (strtol 0 s).value = x at *
            have : v = x := by
              unfold clamp64 at e4
              split at e4
              · omega
              · split at e4
                · omega
                · exact e4.symm
            subst this
            exact ⟨sp, n, e1, e2, e3, by omega, by omega⟩
      · simp only [ne_eq, h1, not_false_eq_true, if_true] at h
        cases h
    · rintro ⟨sp, n, e1, e2, e3, e4, e5⟩
      have hcl : w = clamp64 w := by unfold clamp64; rw [if_neg (by omega), if_neg (by omega)]
      obtain ⟨k1, k2⟩ := (key w).2 ⟨sp, n, w, e1, e2, e3, hcl⟩
      simp only [k1, k2, ne_eq, not_true_eq_false, if_false]
      rw [if_neg (by omega), if_neg (by omega)]

example : coreParseI8 b#" -0x80" = some (-128) ∧ coreParseI8 b#"128" = none ∧ coreParseI8 b#"017" = some 15 ∧
    coreParseI8 b#"09" = none ∧ coreParseI8 b#"1 " = none := by decide +kernel

/-- `strtol` in a given base on digits, with an optional sign. -/
theorem strtol_digits {b : Nat} (hb : b = 8 ∨ b = 10) {s : List Byte} {v : Nat} (h : Digits b s v) :
    strtol b s = ⟨clamp64 v, []⟩ ∧ strtol b (43 :: s) = ⟨clamp64 v, []⟩ ∧ strtol b (45 :: s) = ⟨clamp64 (-v), []⟩ := by
  obtain ⟨h1, h2, h3⟩ := (digits_iff b (by omega) _ _).1 h
  have hpre : strtolPrefix b s = (b, s) := by
    unfold strtolPrefix
    rw [if_neg (by rintro ⟨h, _⟩; omega), if_neg (by omega)]
  obtain ⟨t1, t2⟩ := takeWhile_eq_self (p := fun c => decide (digitValue c < b)) (l := s) (by simpa using h2)
  have hval : s.foldl (fun acc c => acc * b + digitValue c) 0 = v := h3
  obtain ⟨c, t, rfl⟩ : ∃ c t, s = c :: t := by
    cases s with
    | nil => exact absurd rfl h1
    | cons c t => exact ⟨c, t, rfl⟩
  obtain ⟨c1, c2, c3, _⟩ := digitValue_space c (by have := h2 c (by simp); omega)
  have d0 : (c :: t).dropWhile isSpace = c :: t := by rw [List.dropWhile_cons, c1]; rfl
  have d1 : (43 :: c :: t : List Byte).dropWhile isSpace = 43 :: c :: t := by rw [List.dropWhile_cons]; rfl
  have d2 : (45 :: c :: t : List Byte).dropWhile isSpace = 45 :: c :: t := by rw [List.dropWhile_cons]; rfl
  refine ⟨?_, ?_, ?_⟩
  · unfold strtol
    simp only [d0, peek_cons, c2, c3, or_self, if_false, hpre]
    rw [t1, t2, if_neg h1, hval]
  · unfold strtol
    simp only [d1, peek_cons, or_true, if_true, List.drop_one, List.tail_cons, hpre]
    rw [t1, t2, if_neg h1, hval]
    simp
  · unfold strtol
    simp only [d2, peek_cons, true_or, if_true, List.drop_one, List.tail_cons, hpre]
    rw [t1, t2, if_neg h1, hval]

theorem strtol_hex {s : List Byte} {v : Nat} (h : Digits 16 s v) : strtol 16 (48 :: 120 :: s) = ⟨clamp64 v, []⟩ := by
  obtain ⟨h1, h2, h3⟩ := (digits_iff 16 (by omega) _ _).1 h
  have hh : digitValue (peek s) < 16 := by
    cases s with
    | nil => exact absurd rfl h1
    | cons c t => exact h2 c (by simp)
  have hpre : strtolPrefix 16 (48 :: 120 :: s) = (16, s) := by
    unfold strtolPrefix
    rw [if_pos ⟨.inr rfl, rfl, .inl rfl, hh⟩]
    rfl
  obtain ⟨t1, t2⟩ := takeWhile_eq_self (p := fun c => decide (digitValue c < 16)) (l := s) (by simpa using h2)
  have hval : s.foldl (fun acc c => acc * 16 + digitValue c) 0 = v := h3
  have d0 : (48 :: 120 :: s : List Byte).dropWhile isSpace = 48 :: 120 :: s := by rw [List.dropWhile_cons]; rfl
  unfold strtol
  have n1 : ¬ (48 : Byte) = 45 := by decide
  have n2 : ¬ (48 : Byte) = 43 := by decide
  simp only [d0, peek_cons, n1, n2, or_self, if_false, hpre]
  rw [t1, t2, if_neg h1, hval]

/-- The full claim: `xmqGetInt` gives the value of every numeral that fits 32 bits. -/
def GetIntRight : Prop := ∀ n v, Numeral n v → -2 ^ 31 ≤ v → v < 2 ^ 31 → xmqGetInt n = v

/-- It does not: `-0x10` is read as 0, although `0x10` is 16 and `-10` is -10. -/
theorem C46_false : ¬ GetIntRight := by
  intro h
  have hd : Digits 16 b#"10" 16 := .snoc (s := b#"1") (c := 48) (v := 1) (d := 0) (.one (by unfold DigitIs; decide) (by omega)) (by unfold DigitIs; decide) (by omega)
  have := h b#"-0x10" (-16) (.minus (.hex hd (.inl rfl))) (by omega) (by omega)
  revert this
  decide +kernel

/-- The numerals that are read: decimal ones with an optional sign, octal and hexadecimal (`0x`) ones without sign. -/
inductive ReadNumeral : List Byte → Int → Prop
  | dec {s v} : Digits 10 s v → s.head? ≠ some 48 → ReadNumeral s v
  | plus {s v} : Digits 10 s v → ReadNumeral (43 :: s) v
  | minus {s v} : Digits 10 s v → ReadNumeral (45 :: s) (-v)
  | oct {s v} : Digits 8 s v → s.head? = some 48 → ReadNumeral s v
  | hex {s v} : Digits 16 s v → ReadNumeral (48 :: 120 :: s) v

theorem getForms {n : List Byte} {v : Int} (h : ReadNumeral n v) :
    xmqGetInt n = toInt32 (clamp64 v) ∧ xmqGetLong n = clamp64 v := by
  have key : ∀ s : List Byte, peek s ≠ 48 → xmqGetInt s = toInt32 (strtol 10 s).value ∧ xmqGetLong s = (strtol 10 s).value := by
    intro s hs
    unfold xmqGetInt xmqGetLong
    simp [hs]
  cases h with
  | dec hd h0 =>
    have hp : peek n ≠ 48 := by
      cases n with
      | nil => simp
      | cons c t => simpa using h0
    obtain ⟨k1, k2⟩ := key n hp
    rw [k1, k2, (strtol_digits (.inr rfl) hd).1]
    exact ⟨rfl, rfl⟩
  | @plus s v hd =>
    obtain ⟨k1, k2⟩ := key (43 :: s) (by simp)
    rw [k1, k2, (strtol_digits (.inr rfl) hd).2.1]
    exact ⟨rfl, rfl⟩
  | @minus s v hd =>
    obtain ⟨k1, k2⟩ := key (45 :: s) (by simp)
    rw [k1, k2, (strtol_digits (.inr rfl) hd).2.2]
    exact ⟨rfl, rfl⟩
  | oct hd h0 =>
    obtain ⟨t, rfl⟩ : ∃ t, n = 48 :: t := by
      cases n with
      | nil => simp at h0
      | cons c t => simp at h0; exact ⟨t, by rw [h0]⟩
    obtain ⟨h1, h2, h3⟩ := (digits_iff 8 (by omega) _ _).1 hd
    have hx : peek t ≠ 120 := by
      cases t with
      | nil => simp
      | cons d u =>
        have := digitValue_space d (by have := h2 d (by simp); omega)
        simpa using this.2.2.2.1
    unfold xmqGetInt xmqGetLong
    simp only [peek_cons, List.drop_one, List.tail_cons, hx, and_false, if_false, if_true]
    rw [(strtol_digits (.inl rfl) hd).1]
    exact ⟨rfl, rfl⟩
  | hex hd =>
    unfold xmqGetInt xmqGetLong
    simp only [peek_cons, List.drop_one, List.tail_cons, and_self, if_true]
    rw [strtol_hex hd]
    exact ⟨rfl, rfl⟩

/-- `xmqGetInt` gives the value of every such numeral that fits 32 bits. -/
theorem C46_get_int_partial {n : List Byte} {v : Int} (h : ReadNumeral n v) (h1 : -2 ^ 31 ≤ v) (h2 : v < 2 ^ 31) :
    xmqGetInt n = v := by
  rw [(getForms h).1]
  unfold clamp64
  rw [if_neg (by omega), if_neg (by omega)]
  unfold toInt32
  omega

/-- `xmqGetLong` gives the value of every such numeral that fits 64 bits, and the nearest 64 bit value of the others. -/
theorem C46_get_long_partial {n : List Byte} {v : Int} (h : ReadNumeral n v) :
    (-2 ^ 63 ≤ v → v < 2 ^ 63 → xmqGetLong n = v) ∧ (2 ^ 63 ≤ v → xmqGetLong n = 2 ^ 63 - 1) ∧
      (v < -2 ^ 63 → xmqGetLong n = -2 ^ 63) := by
  rw [(getForms h).2]
  unfold clamp64
  refine ⟨fun h1 h2 => ?_, fun h1 => ?_, fun h1 => ?_⟩
  · rw [if_neg (by omega), if_neg (by omega)]
  · rw [if_pos (by omega)]
  · rw [if_neg (by omega), if_pos (by omega)]

/-- Outside 32 bits `xmqGetInt` wraps around instead of failing. -/
theorem C46_get_int_wraps : xmqGetInt b#"4294967297" = 1 ∧ xmqGetInt b#"0xffffffff" = -1 := by decide +kernel

example : xmqGetInt b#"0x7fffffff" = 2147483647 ∧ xmqGetInt b#"-2147483648" = -2147483648 ∧ xmqGetInt b#"017" = 15 := by decide +kernel

end Xmq.Props
