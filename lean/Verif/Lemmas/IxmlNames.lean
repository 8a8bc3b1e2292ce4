import Verif.Lemmas.IxmlSem
import Verif.Props.Charset
/-!
# The names made by the reader of ixml grammars are different
-/
namespace Xmq.Ixml
open Xmq.Spec Xmq.Spec.Ixml Xmq.Props

/-! ## Numbers -/

/-- The value of a digit. -/
def digitVal (b : Byte) : Nat := if b.toNat < 58 then b.toNat - 48 else b.toNat - 87

theorem digitByte_facts : ∀ d : Nat, d < 16 → digitVal (digitByte d) = d ∧ digitByte d ≠ b#';' ∧ digitByte d ≠ b#'-' ∧ digitByte d ≠ b#'#' ∧ digitByte d ≠ b#']' ∧
    digitByte d ≠ b#'+' := by
  decide

theorem digits_bytes {base : Nat} (hb : base ≤ 16) (hb2 : 1 < base) : ∀ (k n : Nat), ∀ b ∈ digits base k n, ∃ d, d < 16 ∧ b = digitByte d
  | 0, _, b, h => by simp [digits] at h
  | k + 1, n, b, h => by
    rw [digits] at h
    split at h
    · rename_i hn
      exact ⟨n, by omega, by simpa using h⟩
    · rcases List.mem_append.1 h with h | h
      · exact digits_bytes hb hb2 k _ b h
      · exact ⟨n % base, by have := Nat.mod_lt n (show base > 0 by omega); omega, by simpa using h⟩

theorem digits_val {base : Nat} (hb : base ≤ 16) (hb2 : 1 < base) : ∀ (k n : Nat), n < k → (digits base k n).foldl (fun acc b => acc * base + digitVal b) 0 = n
  | 0, n, h => by omega
  | k + 1, n, h => by
    rw [digits]
    split
    · rename_i hn
      simp [(digitByte_facts n (by omega)).1]
    · rename_i hn
      have h1 : n / base < n := Nat.div_lt_self (by omega) hb2
      have h2 := Nat.mod_lt n (show base > 0 by omega)
      rw [List.foldl_append, digits_val hb hb2 k (n / base) (by omega)]
      simp only [List.foldl_cons, List.foldl_nil, (digitByte_facts (n % base) (by omega)).1]
      rw [Nat.mul_comm]
      exact Nat.div_add_mod n base

theorem digits_inj {base : Nat} (hb : base ≤ 16) (hb2 : 1 < base) {n m : Nat} (h : digits base (n + 1) n = digits base (m + 1) m) : n = m := by
  rw [← digits_val hb hb2 (n + 1) n (by omega), h, digits_val hb hb2 (m + 1) m (by omega)]

theorem digits_ne_nil {base : Nat} (k n : Nat) : digits base (k + 1) n ≠ [] := by
  rw [digits]; split <;> simp

theorem genName_inj {n m : Nat} (h : genName n = genName m) : n = m :=
  digits_inj (by decide) (by decide) (List.cons.inj h).2

theorem genName_take (n : Nat) : (genName n).take 2 ≠ b#"|+" := by
  unfold genName
  obtain ⟨b, t, e⟩ : ∃ b t, digits 10 (n + 1) n = b :: t := by
    cases h : digits 10 (n + 1) n with
    | nil => exact absurd h (digits_ne_nil _ _)
    | cons b t => exact ⟨b, t, rfl⟩
  obtain ⟨d, hd, hb⟩ := digits_bytes (base := 10) (by decide) (by decide) (n + 1) n b (by rw [e]; simp)
  rw [e]
  intro h
  have : b = b#'+' := by simpa using h
  exact (digitByte_facts d hd).2.2.2.2.2 (hb ▸ this)

theorem genName_head (n : Nat) : ∃ t, genName n = b#'|' :: t := ⟨_, rfl⟩

theorem genName_not_name (n : Nat) : ¬ IsName (genName n) := by
  intro h
  obtain ⟨c, t, e, hc⟩ := isName_head h
  obtain ⟨u, e2⟩ := genName_head n
  have : c = b#'|' := by rw [e2] at e; exact (List.cons.inj e).1.symm
  exact (letter_class hc).2.2.2.2.2.2.2.2.2.2.2.2.1 this

/-! ## Character sets -/

/-- Parts that come from a set that was read. -/
inductive GoodPart : CharsetPart → Prop
  | range (a b : Nat) : a < 0x110000 → b < 0x110000 → GoodPart (.range a b)
  | cat (n : List Byte) : n ∈ catNames → GoodPart (.category (catName n))

theorem hexStr_length : ∀ (k n : Nat) (j : Nat), n < 16 ^ (j + 1) → (digits 16 k n).length ≤ j + 1
  | 0, n, j, _ => by simp [digits]
  | k + 1, n, j, h => by
    rw [digits]
    split
    · simp
    · rename_i hn
      cases j with
      | zero => simp at h; omega
      | succ j =>
        rw [List.length_append, List.length_singleton]
        have := hexStr_length k (n / 16) j (by rw [Nat.div_lt_iff_lt_mul (by decide)]; rw [Nat.pow_succ] at h; omega)
        omega

theorem hexCode_eq {a : Nat} (h : a < 0x110000) : hexCode (a : Int) = b#'#' :: digits 16 (a + 1) a := by
  unfold hexCode hexStr
  have : ((a : Int) % 2 ^ 32).toNat = a := by omega
  rw [this]

theorem hexCode_length {a : Nat} (h : a < 0x110000) : (hexCode (a : Int)).length ≤ 7 := by
  rw [hexCode_eq h]
  have := hexStr_length (a + 1) a 5 (by omega)
  simp only [List.length_cons]
  omega

theorem partName_range {a b : Nat} (ha : a < 0x110000) (hb : b < 0x110000) :
    partName (.range a b) = if a = b then b#'#' :: digits 16 (a + 1) a else b#'#' :: digits 16 (a + 1) a ++ b#'-' :: b#'#' :: digits 16 (b + 1) b := by
  have h1 := hexCode_length ha
  have h2 := hexCode_length hb
  unfold partName
  dsimp only
  by_cases h : a = b
  · subst h
    simp only [ne_eq, not_true_eq_false, if_false, if_true]
    rw [List.take_of_length_le (by omega), hexCode_eq ha]
  · have h' : ((a : Int) = (b : Int)) = False := eq_false (by omega)
    simp only [ne_eq, h', not_false_eq_true, if_true, h, if_false]
    rw [List.take_of_length_le (by simp only [List.length_append, List.length_cons]; omega), hexCode_eq ha, hexCode_eq hb]

theorem catName_bytes : ∀ n ∈ catNames, partName (.category (catName n)) = n := by decide +kernel

theorem cat_bytes : ∀ n ∈ catNames, n ≠ [] ∧ ∀ b ∈ n, b ≠ b#';' ∧ b ≠ b#'#' ∧ b ≠ b#']' ∧ b ≠ b#'-' := by decide +kernel

/-- The bytes in the name of a part. -/
theorem partName_bytes {p : CharsetPart} (h : GoodPart p) : partName p ≠ [] ∧ (∀ b ∈ partName p, b ≠ b#';' ∧ b ≠ b#']') ∧ peek (partName p) ≠ b#'-' := by
  cases h with
  | range a b ha hb =>
    rw [partName_range ha hb]
    have hd : ∀ k n, ∀ x ∈ digits 16 k n, x ≠ b#';' ∧ x ≠ b#']' := by
      intro k n x hx
      obtain ⟨d, hd, rfl⟩ := digits_bytes (base := 16) (by decide) (by decide) k n x hx
      exact ⟨(digitByte_facts d hd).2.1, (digitByte_facts d hd).2.2.2.2.1⟩
    split
    · refine ⟨by simp, ?_, by simp⟩
      intro x hx
      rcases List.mem_cons.1 hx with rfl | hx
      · decide
      · exact hd _ _ x hx
    · refine ⟨by simp, ?_, by simp⟩
      intro x hx
      simp only [List.cons_append, List.mem_cons, List.mem_append] at hx
      rcases hx with rfl | hx | rfl | rfl | hx
      · decide
      · exact hd _ _ x hx
      · decide
      · decide
      · exact hd _ _ x hx
  | cat n hn =>
    rw [catName_bytes n hn]
    obtain ⟨h1, h2⟩ := cat_bytes n hn
    refine ⟨h1, fun b hb => ⟨(h2 b hb).1, (h2 b hb).2.2.1⟩, ?_⟩
    cases n with
    | nil => exact absurd rfl h1
    | cons c t => exact (h2 c (by simp)).2.2.2

/-- The name of a part determines it. -/
theorem partName_inj {p q : CharsetPart} (hp : GoodPart p) (hq : GoodPart q) (h : partName p = partName q) : p = q := by
  have hd : ∀ k n, ∀ x ∈ digits 16 k n, x ≠ b#'-' := by
    intro k n x hx
    obtain ⟨d, hd, rfl⟩ := digits_bytes (base := 16) (by decide) (by decide) k n x hx
    exact (digitByte_facts d hd).2.2.1
  have hno : ∀ k n, ∀ x ∈ digits 16 k n, (fun y : Byte => y != b#'-') x = true := fun k n x hx => by simpa using hd k n x hx
  cases hp with
  | range a b ha hb =>
    rw [partName_range ha hb] at h
    cases hq with
    | range c d hc hd' =>
      rw [partName_range hc hd'] at h
      by_cases e1 : a = b <;> by_cases e2 : c = d
      · rw [if_pos e1, if_pos e2] at h
        have := digits_inj (by decide) (by decide) (List.cons.inj h).2
        subst this e1 e2
        rfl
      · rw [if_pos e1, if_neg e2, List.cons_append] at h
        have := (List.cons.inj h).2
        have hm : b#'-' ∈ digits 16 (a + 1) a := by rw [this]; simp
        exact absurd rfl (hd _ _ _ hm)
      · rw [if_neg e1, if_pos e2, List.cons_append] at h
        have := (List.cons.inj h).2
        have hm : b#'-' ∈ digits 16 (c + 1) c := by rw [← this]; simp
        exact absurd rfl (hd _ _ _ hm)
      · rw [if_neg e1, if_neg e2, List.cons_append, List.cons_append] at h
        have h := (List.cons.inj h).2
        have ht := congrArg (List.takeWhile (fun y : Byte => y != b#'-')) h
        have hdr := congrArg (List.dropWhile (fun y : Byte => y != b#'-')) h
        rw [takeWhile_all_append _ _ _ (hno _ _), takeWhile_all_append _ _ _ (hno _ _)] at ht
        rw [dropWhile_all_append _ _ _ (hno _ _), dropWhile_all_append _ _ _ (hno _ _)] at hdr
        have ht : digits 16 (a + 1) a = digits 16 (c + 1) c := by simpa using ht
        have hdr : digits 16 (b + 1) b = digits 16 (d + 1) d := by simpa using hdr
        have e3 := digits_inj (by decide) (by decide) ht
        have e4 := digits_inj (by decide) (by decide) hdr
        subst e3 e4
        rfl
    | cat n hn =>
      rw [catName_bytes n hn] at h
      have : b#'#' ∈ n := by rw [← h]; split <;> simp
      exact absurd rfl ((cat_bytes n hn).2 _ this).2.1
  | cat n hn =>
    rw [catName_bytes n hn] at h
    cases hq with
    | range c d hc hd' =>
      rw [partName_range hc hd'] at h
      have : b#'#' ∈ n := by rw [h]; split <;> simp
      exact absurd rfl ((cat_bytes n hn).2 _ this).2.1
    | cat n' hn' =>
      rw [catName_bytes n' hn'] at h
      rw [h]

/-- The names of the parts and what follows them determine the parts. -/
theorem partNames_inj : ∀ {ps qs : List CharsetPart}, (∀ p ∈ ps, GoodPart p) → (∀ q ∈ qs, GoodPart q) → partNames ps = partNames qs → ps = qs := by
  have hno : ∀ {p : CharsetPart}, GoodPart p → ∀ x ∈ partName p, (fun y : Byte => y != b#';') x = true := fun hp x hx => by
    simpa using ((partName_bytes hp).2.1 x hx).1
  have step : ∀ (p : CharsetPart) (ps : List CharsetPart), GoodPart p →
      (partNames (p :: ps)).takeWhile (fun y : Byte => y != b#';') = partName p ∧
      (partNames (p :: ps)).dropWhile (fun y : Byte => y != b#';') = (match ps with | [] => [] | _ :: _ => b#';' :: partNames ps) := by
    intro p ps hp
    cases ps with
    | nil =>
      have h0 : partNames [p] = partName p := rfl
      have h1 := takeWhile_all_append (fun y : Byte => y != b#';') (partName p) [] (hno hp)
      have h2 := dropWhile_all_append (fun y : Byte => y != b#';') (partName p) [] (hno hp)
      rw [List.append_nil] at h1 h2
      exact ⟨by rw [h0]; simpa using h1, by rw [h0]; simpa using h2⟩
    | cons q ps =>
      rw [partNames, takeWhile_all_append _ _ _ (hno hp), dropWhile_all_append _ _ _ (hno hp)]
      exact ⟨by simp, by simp⟩
  intro ps
  induction ps with
  | nil =>
    intro qs _ hq h
    cases qs with
    | nil => rfl
    | cons q qs =>
      have h1 := (step q qs (hq q (by simp))).1
      rw [← h] at h1
      exact absurd h1.symm (partName_bytes (hq q (by simp))).1
  | cons p ps ih =>
    intro qs hp hq h
    cases qs with
    | nil =>
      have h1 := (step p ps (hp p (by simp))).1
      rw [h] at h1
      exact absurd h1.symm (partName_bytes (hp p (by simp))).1
    | cons q qs =>
      obtain ⟨h1, h2⟩ := step p ps (hp p (by simp))
      obtain ⟨h3, h4⟩ := step q qs (hq q (by simp))
      rw [h] at h1 h2
      have e := partName_inj (hp p (by simp)) (hq q (by simp)) (h1.symm.trans h3)
      subst e
      congr 1
      have h5 := h2.symm.trans h4
      cases ps with
      | nil =>
        cases qs with
        | nil => rfl
        | cons q' qs => simp at h5
      | cons p' ps =>
        cases qs with
        | nil => simp at h5
        | cons q' qs =>
          exact ih (fun x hx => hp x (by simp [hx])) (fun x hx => hq x (by simp [hx])) (by simpa using h5)

/-- A set that was read. -/
def GoodSet (cs : CSet) : Prop := (cs.mark = 0 ∨ cs.mark = b#'-') ∧ ∀ p ∈ cs.parts, GoodPart p

theorem partNames_head {ps : List CharsetPart} (h : ∀ p ∈ ps, GoodPart p) (x : List Byte) (hx : peek x ≠ b#'-') : peek (partNames ps ++ x) ≠ b#'-' := by
  match ps with
  | [] => exact hx
  | [p] =>
    have h1 := partName_bytes (h p (by simp))
    rw [partNames]
    cases e : partName p with
    | nil => exact absurd e h1.1
    | cons c t => rw [e] at h1; exact h1.2.2
  | p :: q :: ps =>
    have h1 := partName_bytes (h p (by simp))
    rw [partNames]
    cases e : partName p with
    | nil => exact absurd e h1.1
    | cons c t => rw [e] at h1; exact h1.2.2

/-- The name of a set determines it. -/
theorem setName_inj {a b : CSet} (ha : GoodSet a) (hb : GoodSet b) (h : setName a = setName b) : a = b := by
  obtain ⟨am, ax, ap⟩ := a
  obtain ⟨bm, bx, bp⟩ := b
  obtain ⟨ha1, ha2⟩ := ha
  obtain ⟨hb1, hb2⟩ := hb
  simp only at ha1 ha2 hb1 hb2
  unfold setName at h
  simp only at h
  have hx : ax = bx := by
    cases ax <;> cases bx <;> first | rfl | (simp at h)
  subst hx
  have h1 : (if am ≠ 0 then [am] else []) ++ (partNames ap ++ b#"]") = (if bm ≠ 0 then [bm] else []) ++ (partNames bp ++ b#"]") := by
    cases ax <;> simpa [List.append_assoc] using h
  have ga := partNames_head ha2 b#"]" (by decide)
  have gb := partNames_head hb2 b#"]" (by decide)
  have hm : am = bm := by
    rcases ha1 with rfl | rfl <;> rcases hb1 with rfl | rfl
    · rfl
    · simp at h1
      rw [h1] at ga
      exact absurd rfl ga
    · simp at h1
      rw [← h1] at gb
      exact absurd rfl gb
    · rfl
  subst hm
  have h2 := List.append_cancel_left h1
  have h3 := partNames_inj ha2 hb2 (List.append_cancel_right h2)
  rw [h3]

theorem setName_head (cs : CSet) : ∃ t, setName cs = b#'[' :: t ∨ setName cs = b#'~' :: t := by
  unfold setName
  cases cs.exclude
  · exact ⟨_, .inl rfl⟩
  · exact ⟨_, .inr rfl⟩

theorem setName_take (cs : CSet) : (setName cs).take 2 ≠ b#"|+" := by
  obtain ⟨t, h | h⟩ := setName_head cs <;> rw [h] <;> intro e <;> cases t <;> simp at e

theorem setName_ne_gen (cs : CSet) (n : Nat) : setName cs ≠ genName n := by
  obtain ⟨u, e⟩ := genName_head n
  obtain ⟨t, h | h⟩ := setName_head cs <;> rw [h, e] <;> simp

theorem setName_not_name (cs : CSet) : ¬ IsName (setName cs) := by
  intro h
  obtain ⟨c, t, e, hc⟩ := isName_head h
  obtain ⟨u, h1 | h1⟩ := setName_head cs
  · exact (letter_class hc).2.2.2.2.2.2.2.2.2.2.2.1 (by rw [h1] at e; exact (List.cons.inj e).1.symm)
  · exact (letter_class hc).2.2.2.2.2.2.2.2.2.2.1 (by rw [h1] at e; exact (List.cons.inj e).1.symm)

/-- The characters of a set in the tables of the library. -/
def tableCat (n : List Byte) (c : Nat) : Prop := ∃ ts, partTables (catName n) = some ts ∧ ∃ t ∈ ts, (c : Int) ∈ t

theorem cat_known : ∀ n ∈ catNames, (partTables (catName n)).isSome = true := by decide +kernel

theorem good_known {p : CharsetPart} (h : GoodPart p) : PartKnown p := by
  cases h with
  | range => trivial
  | cat n hn =>
    have := cat_known n hn
    intro e
    rw [e] at this
    cases this

theorem parts_mean {lim : Bool} {m : Member} {t : List Byte} (h : WMember lim m t) : (∀ p ∈ parts m, GoodPart p) ∧
    ∀ c : Nat, (∃ p ∈ parts m, partMeans p c) ↔ m.has tableCat c := by
  have hend : ∀ {f na c t}, End f c na t → c < 0x110000 := by
    intro f na c t h
    cases h with
    | chr _ h hn => exact (quoted_codes h c (by simp)).2
    | num _ h => obtain ⟨ds, _, _, _, h⟩ := encoded_head h; exact h
  cases h with
  | chars cs t s hq hs =>
    have hc := quoted_codes hq
    constructor
    · intro p hp
      obtain ⟨c, hcc, rfl⟩ := List.mem_map.1 hp
      exact .range c c (hc c hcc).2 (hc c hcc).2
    · intro c
      simp only [parts, List.mem_map, Member.has]
      constructor
      · rintro ⟨p, ⟨d, hd, rfl⟩, h⟩
        simp only [partMeans] at h
        obtain rfl : c = d := by omega
        exact hd
      · intro h
        exact ⟨_, ⟨c, h, rfl⟩, by simp [partMeans]⟩
  | code c t s he hs =>
    obtain ⟨ds, _, _, _, h⟩ := encoded_head he
    constructor
    · intro p hp
      obtain rfl := List.mem_singleton.1 hp
      exact .range c c h h
    · intro d
      simp only [parts, List.mem_singleton, Member.has, exists_eq_left, partMeans]
      omega
  | range a b na nb ta s1 s2 tb s3 ha h1 h2 hb h3 =>
    constructor
    · intro p hp
      obtain rfl := List.mem_singleton.1 hp
      exact .range a b (hend ha) (hend hb)
    · intro d
      simp only [parts, List.mem_singleton, Member.has, exists_eq_left, partMeans]
      omega
  | cat n s hn hs =>
    constructor
    · intro p hp
      obtain rfl := List.mem_singleton.1 hp
      exact .cat n hn
    · intro d
      simp only [parts, List.mem_singleton, Member.has, exists_eq_left, partMeans, tableCat]

theorem members_mean {lim : Bool} {ms : List Member} {t : List Byte} (h : WMembers lim ms t) : (∀ p ∈ ms.flatMap parts, GoodPart p) ∧
    ∀ c : Nat, (∃ p ∈ ms.flatMap parts, partMeans p c) ↔ ∃ m ∈ ms, m.has tableCat c := by
  induction h with
  | nil => simp
  | one m t h => simpa using parts_mean h
  | cons m ms t s u c h _ _ _ _ ih =>
    obtain ⟨h1, h2⟩ := parts_mean h
    obtain ⟨h3, h4⟩ := ih
    constructor
    · intro p hp
      rw [List.flatMap_cons, List.mem_append] at hp
      exact hp.elim (h1 p) (h3 p)
    · intro c
      simp only [List.flatMap_cons, List.mem_append, List.mem_cons]
      constructor
      · rintro ⟨p, hp | hp, h⟩
        · exact ⟨m, .inl rfl, (h2 c).1 ⟨p, hp, h⟩⟩
        · obtain ⟨x, hx, h⟩ := (h4 c).1 ⟨p, hp, h⟩
          exact ⟨x, .inr hx, h⟩
      · rintro ⟨x, rfl | hx, h'⟩
        · obtain ⟨p, hp, h⟩ := (h2 c).2 h'
          exact ⟨p, .inl hp, h⟩
        · obtain ⟨p, hp, h⟩ := (h4 c).2 ⟨x, hx, h'⟩
          exact ⟨p, .inr hp, h⟩

/-! ## The rules of the sets -/

theorem setRules_mem (used : Nat → Bool) {cs : CSet} (h : GoodSet cs) : ∃ l, setRules used cs = some l ∧
    ∀ ρ, ρ ∈ l ↔ ∃ c : Nat, used c = true ∧ c < 0x110000 ∧ ((∃ p ∈ cs.parts, partMeans p c) ↔ cs.exclude = false) ∧
      ρ = hidden (setName cs) [⟨if cs.mark = b#'-' then b#'-' else 0, .t c⟩] := by
  have hk : ∀ p ∈ cs.parts, PartKnown p := fun p hp => good_known (h.2 p hp)
  unfold setRules
  cases hx : cs.exclude with
  | false =>
    obtain ⟨l, e, hl⟩ := includeCodes_mem used cs.parts hk
    refine ⟨l.map fun (c : Nat) => hidden (setName cs) [⟨if cs.mark = b#'-' then b#'-' else 0, .t c⟩], by simp [e], ?_⟩
    intro ρ
    rw [List.mem_map]
    constructor
    · rintro ⟨c, hc, rfl⟩
      have := (hl c).1 hc
      exact ⟨c, this.2.1, this.1, ⟨fun _ => rfl, fun _ => this.2.2⟩, rfl⟩
    · rintro ⟨c, h1, h2, h3, rfl⟩
      exact ⟨c, (hl c).2 ⟨h2, h1, h3.2 rfl⟩, rfl⟩
  | true =>
    obtain ⟨l, e, _, hl⟩ := excludeCodes_mem used cs.parts hk
    refine ⟨l.map fun (c : Nat) => hidden (setName cs) [⟨if cs.mark = b#'-' then b#'-' else 0, .t c⟩], by simp [e], ?_⟩
    intro ρ
    rw [List.mem_map]
    constructor
    · rintro ⟨c, hc, rfl⟩
      have := (hl c).1 hc
      exact ⟨c, this.2.1, this.1, ⟨fun h => absurd h this.2.2, fun h => by cases h⟩, rfl⟩
    · rintro ⟨c, h1, h2, h3, rfl⟩
      refine ⟨c, (hl c).2 ⟨h2, h1, fun h => ?_⟩, rfl⟩
      have := h3.1 h
      cases this

theorem sets_mem (used : Nat → Bool) : ∀ {sets : List CSet}, (∀ cs ∈ sets, GoodSet cs) → ∃ l, sets.mapM (setRules used) = some l ∧
    ∀ ρ, ρ ∈ l.flatten ↔ ∃ cs ∈ sets, ∃ c : Nat, used c = true ∧ c < 0x110000 ∧ ((∃ p ∈ cs.parts, partMeans p c) ↔ cs.exclude = false) ∧
      ρ = hidden (setName cs) [⟨if cs.mark = b#'-' then b#'-' else 0, .t c⟩]
  | [], _ => ⟨[], rfl, by simp⟩
  | cs :: sets, hg => by
    obtain ⟨l, e, hl⟩ := setRules_mem used (hg cs (by simp))
    obtain ⟨k, e2, hk⟩ := sets_mem used (sets := sets) (fun c hc => hg c (by simp [hc]))
    refine ⟨l :: k, by simp [List.mapM_cons, e, e2], ?_⟩
    intro ρ
    rw [List.flatten_cons, List.mem_append, hl, hk]
    constructor
    · rintro (h | ⟨c, hc, h⟩)
      · exact ⟨cs, by simp, h⟩
      · exact ⟨c, by simp [hc], h⟩
    · rintro ⟨c, hc, h⟩
      rcases List.mem_cons.1 hc with rfl | hc
      · exact .inl h
      · exact .inr ⟨c, hc, h⟩

end Xmq.Ixml
