import Verif.Spec.YaepHash
import Mathlib.NumberTheory.Bertrand
import Mathlib.Data.Nat.Prime.Basic
/-!
# Lemmas on the hash table of the Earley parser
-/
namespace Xmq.Yaep

open Xmq.Spec

/-! ## Sizes are primes -/

theorem noDivisor_iff (n i : Nat) (hi : 1 ≤ i) :
    noDivisor n i = true ↔ ∀ k, (i + 2 * k) * (i + 2 * k) ≤ n → n % (i + 2 * k) ≠ 0 := by
  fun_induction noDivisor n i with
  | case1 i h hd =>
    constructor
    · intro hh; cases hh
    · intro hk; exact absurd hd (by simpa using hk 0 (by simpa using h))
  | case2 i h hd ih =>
    rw [ih (by omega)]
    constructor
    · intro hk k
      cases k with
      | zero => intro _; simpa using hd
      | succ k =>
        have := hk k
        have e : i + 2 + 2 * k = i + 2 * (k + 1) := by omega
        rwa [e] at this
    · intro hk k
      have := hk (k + 1)
      have e : i + 2 + 2 * k = i + 2 * (k + 1) := by omega
      rwa [e]
  | case3 i h =>
    refine ⟨fun _ k hk => ?_, fun _ => rfl⟩
    have : i * i ≤ (i + 2 * k) * (i + 2 * k) := Nat.mul_le_mul (by omega) (by omega)
    omega

theorem noDivisor_prime (n : Nat) (h3 : 3 ≤ n) (odd : n % 2 = 1) : noDivisor n 3 = true ↔ n.Prime := by
  rw [noDivisor_iff n 3 (by omega)]
  constructor
  · intro h
    refine Classical.byContradiction fun hp => ?_
    have hm := Nat.minFac_sq_le_self (by omega : 0 < n) hp
    have hd := Nat.minFac_dvd n
    have hpr := Nat.minFac_prime (by omega : n ≠ 1)
    have h2 := hpr.two_le
    have hodd : n.minFac % 2 = 1 := by
      refine Classical.byContradiction fun he => ?_
      have : 2 ∣ n := Nat.dvd_trans (Nat.dvd_of_mod_eq_zero (by omega)) hd
      have := Nat.mod_eq_zero_of_dvd this
      omega
    have e : 3 + 2 * ((n.minFac - 3) / 2) = n.minFac := by omega
    have := h ((n.minFac - 3) / 2)
    rw [e] at this
    exact this (by rw [← Nat.pow_two]; exact hm) (Nat.mod_eq_zero_of_dvd hd)
  · intro hp k hk hm
    have hd := Nat.dvd_of_mod_eq_zero hm
    rcases (Nat.dvd_prime hp).1 hd with h | h
    · omega
    · rw [h] at hk
      have : n * 3 ≤ n * n := Nat.mul_le_mul (Nat.le_refl _) h3
      omega

theorem primeFrom_some (f n p : Nat) (h3 : 3 ≤ n) (odd : n % 2 = 1) (h : primeFrom f n = some p) :
    p.Prime ∧ n ≤ p ∧ ∀ q, q.Prime → n ≤ q → p ≤ q := by
  induction f generalizing n with
  | zero => simp [primeFrom] at h
  | succ f ih =>
    unfold primeFrom at h
    split at h
    · rename_i hn
      have hp := (noDivisor_prime n h3 odd).1 hn
      have e : n = p := by simpa using h
      subst e
      exact ⟨hp, Nat.le_refl _, fun q _ hq => hq⟩
    · rename_i hn
      obtain ⟨hp, hl, hm⟩ := ih (n + 2) (by omega) (by omega) h
      refine ⟨hp, by omega, fun q hq hnq => ?_⟩
      by_cases e1 : q = n
      · subst e1; exact absurd ((noDivisor_prime q h3 odd).2 hq) hn
      · by_cases e2 : q = n + 1
        · have : q % 2 = 0 := by omega
          have h2 : 2 ∣ q := Nat.dvd_of_mod_eq_zero this
          rcases (Nat.dvd_prime hq).1 h2 with h | h <;> omega
        · exact hm q hq (by omega)

theorem primeFrom_exists (f n q : Nat) (h3 : 3 ≤ n) (odd : n % 2 = 1) (hq : q.Prime) (hnq : n ≤ q) (hf : q < n + 2 * f) :
    ∃ p, primeFrom f n = some p := by
  induction f generalizing n with
  | zero => omega
  | succ f ih =>
    unfold primeFrom
    by_cases hn : noDivisor n 3 = true
    · simp [hn]
    · simp only [hn]
      refine ih (n + 2) (by omega) (by omega) ?_ (by omega)
      by_cases e1 : q = n
      · subst e1; exact absurd ((noDivisor_prime q h3 odd).2 hq) hn
      · by_cases e2 : q = n + 1
        · have : q % 2 = 0 := by omega
          have h2 : 2 ∣ q := Nat.dvd_of_mod_eq_zero this
          rcases (Nat.dvd_prime hq).1 h2 with h | h <;> omega
        · omega

theorem higherPrime_spec (n : Nat) : ∃ p, higherPrime n = some p ∧ p.Prime ∧ n / 2 * 2 + 3 ≤ p ∧
    ∀ q, q.Prime → n / 2 * 2 + 3 ≤ q → p ≤ q := by
  obtain ⟨q, hq, h1, h2⟩ := Nat.exists_prime_lt_and_le_two_mul (n / 2 * 2 + 2) (by omega)
  obtain ⟨p, hp⟩ := primeFrom_exists (n + 3) (n / 2 * 2 + 3) q (by omega) (by omega) hq (by omega) (by omega)
  exact ⟨p, hp, primeFrom_some _ _ _ (by omega) (by omega) hp⟩

/-! ## The order in which entries are visited -/

/-- The entry visited at step `k`. -/
def hpos (h step size k : Nat) : Nat := (h + k * step) % size

theorem hpos_next (h step size k : Nat) (hs : step < size) :
    (if hpos h step size k + step ≥ size then hpos h step size k + step - size else hpos h step size k + step) =
      hpos h step size (k + 1) := by
  unfold hpos
  have hl : (h + k * step) % size < size := Nat.mod_lt _ (by omega)
  have e : h + (k + 1) * step = (h + k * step) + step := by rw [Nat.add_mul]; omega
  have e2 : (h + k * step + step) % size = ((h + k * step) % size + step) % size := (Nat.mod_add_mod _ _ _).symm
  rw [e, e2]
  generalize (h + k * step) % size = i at hl
  split
  · rename_i hg
    rw [Nat.mod_eq_sub_mod hg, Nat.mod_eq_of_lt (by omega)]
  · rw [Nat.mod_eq_of_lt (by omega)]

theorem hpos_surj (h step size i : Nat) (hp : size.Prime) (h1 : 1 ≤ step) (hs : step < size) (hi : i < size) :
    ∃ k, k < size ∧ hpos h step size k = i := by
  have hcop : Nat.gcd size step = 1 := by
    have := (Nat.Prime.coprime_iff_not_dvd hp).2 (Nat.not_dvd_of_pos_of_lt h1 hs)
    exact this
  have inj : Function.Injective (fun k : Fin size => (⟨hpos h step size k.1, Nat.mod_lt _ (by omega)⟩ : Fin size)) := by
    intro a b hab
    have hab' : (h + a.1 * step) ≡ (h + b.1 * step) [MOD size] := by
      have := congrArg Fin.val hab
      exact this
    have h2 := Nat.ModEq.add_left_cancel' h hab'
    have h3 := Nat.ModEq.cancel_right_of_coprime hcop h2
    have : a.1 % size = b.1 % size := h3
    rw [Nat.mod_eq_of_lt a.2, Nat.mod_eq_of_lt b.2] at this
    exact Fin.ext this
  obtain ⟨k, hk⟩ := (Finite.injective_iff_surjective.1 inj) ⟨i, hi⟩
  exact ⟨k.1, k.2, congrArg Fin.val hk⟩

/-! ## Searching -/

variable {α : Type}

/-- The search for `x` stops at this entry. -/
def HStops (eq : α → α → Bool) (slots : List (HSlot α)) (x : α) (i : Nat) : Prop :=
  slots[i]? = some .empty ∨ ∃ a, slots[i]? = some (.el a) ∧ eq a x = true

theorem hprobe_spec (eq : α → α → Bool) (slots : List (HSlot α)) (x : α) (h step m : Nat)
    (hs : step < slots.length) (stop : HStops eq slots x (hpos h step slots.length m))
    (before : ∀ j, j < m → ¬ HStops eq slots x (hpos h step slots.length j)) (f k : Nat) (fd : Option Nat)
    (hk : k ≤ m) (hf : m - k < f) :
    ((∃ a, slots[hpos h step slots.length m]? = some (.el a) ∧ eq a x = true) ∧
      hprobe eq slots x step f (hpos h step slots.length k) fd = some (.found (hpos h step slots.length m))) ∨
    (slots[hpos h step slots.length m]? = some .empty ∧ ∃ fd',
      hprobe eq slots x step f (hpos h step slots.length k) fd = some (.free (hpos h step slots.length m) fd') ∧
      (fd' = fd ∨ ∃ j, j < m ∧ fd' = some (hpos h step slots.length j) ∧
        slots[hpos h step slots.length j]? = some .deleted)) := by
  induction f generalizing k fd with
  | zero => omega
  | succ f ih =>
    unfold hprobe
    by_cases e : k = m
    · subst e
      rcases stop with he | ⟨a, ha, hx⟩
      · right
        exact ⟨he, fd, by simp [he], Or.inl rfl⟩
      · left
        exact ⟨⟨a, ha, hx⟩, by simp [ha, hx]⟩
    · have hlt : k < m := by omega
      have hb := before k hlt
      simp only [hpos_next h step slots.length k hs]
      have hin : hpos h step slots.length k < slots.length := Nat.mod_lt _ (by omega)
      have hsome := List.getElem?_eq_getElem hin
      cases hc : slots[hpos h step slots.length k] with
      | empty => exact absurd (Or.inl (by rw [hsome, hc])) hb
      | el a =>
        rw [hc] at hsome
        have hne : ¬ eq a x = true := fun hx => hb (Or.inr ⟨a, hsome, hx⟩)
        simp only [hsome, hne]
        exact ih (k + 1) fd (by omega) (by omega)
      | deleted =>
        rw [hc] at hsome
        simp only [hsome]
        rcases ih (k + 1) (if fd = none then some (hpos h step slots.length k) else fd) (by omega) (by omega) with
          h1 | ⟨h1, fd', h2, h3⟩
        · exact Or.inl h1
        · right
          refine ⟨h1, fd', h2, ?_⟩
          rcases h3 with h3 | h3
          · cases fd with
            | none => exact Or.inr ⟨k, hlt, by simpa using h3, hsome⟩
            | some d => exact Or.inl (by simpa using h3)
          · exact Or.inr h3

/-! ## What the entries hold -/

/-- The element of an entry. -/
def hel : HSlot α → Option α
  | .el a => some a
  | _ => none

/-- The entry is not empty. -/
def hused : HSlot α → Bool
  | .empty => false
  | _ => true

theorem live_set (slots : List (HSlot α)) (i : Nat) (a : α) (c : HSlot α) (hc : slots[i]? = some c) (hn : hel c = none) :
    ((slots.set i (.el a)).filterMap hel).Perm (a :: slots.filterMap hel) := by
  induction slots generalizing i with
  | nil => simp at hc
  | cons b t ih =>
    cases i with
    | zero =>
      have e : b = c := by simpa using hc
      subst e
      rw [List.set_cons_zero, List.filterMap_cons, List.filterMap_cons, hn]
      exact List.Perm.refl _
    | succ i =>
      have hc' : t[i]? = some c := by simpa using hc
      have := ih i hc'
      rw [List.set_cons_succ, List.filterMap_cons, List.filterMap_cons]
      cases hb : hel b with
      | none => exact this
      | some d => exact (this.cons d).trans (List.Perm.swap a d _)

theorem live_remove (slots : List (HSlot α)) (i : Nat) (a : α) (c : HSlot α) (hc : slots[i]? = some (.el a))
    (hn : hel c = none) : (slots.filterMap hel).Perm (a :: (slots.set i c).filterMap hel) := by
  induction slots generalizing i with
  | nil => simp at hc
  | cons b t ih =>
    cases i with
    | zero =>
      have e : b = .el a := by simpa using hc
      subst e
      rw [List.set_cons_zero, List.filterMap_cons, List.filterMap_cons, hn]
      exact List.Perm.refl _
    | succ i =>
      have hc' : t[i]? = some (.el a) := by simpa using hc
      have := ih i hc'
      rw [List.set_cons_succ, List.filterMap_cons, List.filterMap_cons]
      cases hb : hel b with
      | none => exact this
      | some d => exact (this.cons d).trans (List.Perm.swap a d _)

theorem used_set (slots : List (HSlot α)) (i : Nat) (c : HSlot α) :
    (slots.set i c).countP hused ≤ slots.countP hused + 1 := by
  induction slots generalizing i with
  | nil => simp
  | cons b t ih =>
    cases i with
    | zero =>
      simp only [List.set_cons_zero, List.countP_cons]
      split <;> split <;> omega
    | succ i =>
      have := ih i
      simp only [List.set_cons_succ, List.countP_cons]
      omega

theorem used_set_used (slots : List (HSlot α)) (i : Nat) (c d : HSlot α) (hd : slots[i]? = some d) (hu : hused d = true) :
    (slots.set i c).countP hused ≤ slots.countP hused := by
  induction slots generalizing i with
  | nil => simp
  | cons b t ih =>
    cases i with
    | zero =>
      have e : b = d := by simpa using hd
      subst e
      simp only [List.set_cons_zero, List.countP_cons, hu, if_true]
      split <;> omega
    | succ i =>
      have := ih i (by simpa using hd)
      simp only [List.set_cons_succ, List.countP_cons]
      omega

theorem exists_empty (slots : List (HSlot α)) (h : slots.countP hused < slots.length) :
    ∃ i : Nat, i < slots.length ∧ slots[i]? = some .empty := by
  refine Classical.byContradiction fun hn => ?_
  have : slots.countP hused = slots.length := by
    rw [List.countP_eq_length]
    intro a ha
    obtain ⟨i, hi, e⟩ := List.getElem_of_mem ha
    cases a with
    | empty => exact absurd ⟨i, hi, by rw [List.getElem?_eq_getElem hi, e]⟩ hn
    | deleted => rfl
    | el a => rfl
  omega

/-! ## The table and the set it stands for -/

/-- The start and the step for an element. -/
def hstart (hash : α → UInt32) (size : Nat) (x : α) (k : Nat) : Nat :=
  hpos ((hash x).toNat % size) (1 + (hash x).toNat % (size - 2)) size k

/-- The table holds exactly the elements of `s`; every element is reached over entries that are not empty. -/
structure Holds (hash : α → UInt32) (eq : α → α → Bool) (t : HTable α) (s : List α) : Prop where
  prime : t.slots.length.Prime
  three : 3 ≤ t.slots.length
  live : (t.slots.filterMap hel).Perm s
  apart : s.Pairwise fun a b => ¬ eq a b = true
  count : s.length + t.deleted ≤ t.elements
  used : t.slots.countP hused ≤ t.elements
  room : t.elements < t.slots.length
  chain : ∀ (i : Nat) (a : α), t.slots[i]? = some (.el a) →
    ∃ k, hstart hash t.slots.length a k = i ∧ ∀ j, j < k → t.slots[hstart hash t.slots.length a j]? ≠ some .empty

/-- No entry is marked as deleted. -/
def NoDel (t : HTable α) : Prop := ∀ i : Nat, t.slots[i]? ≠ some .deleted

theorem noDel_set {slots : List (HSlot α)} (h : ∀ i : Nat, slots[i]? ≠ some .deleted) (j : Nat) (c : HSlot α)
    (hc : c ≠ .deleted) : ∀ i : Nat, (slots.set j c)[i]? ≠ some .deleted := by
  intro i hi
  rw [List.getElem?_set] at hi
  split at hi
  · split at hi
    · exact hc (Option.some.inj hi)
    · cases hi
  · exact h i hi

theorem Holds.mem {hash : α → UInt32} {eq : α → α → Bool} {t : HTable α} {s : List α} (H : Holds hash eq t s) (a : α) :
    a ∈ s ↔ ∃ i : Nat, t.slots[i]? = some (.el a) := by
  rw [← H.live.mem_iff, List.mem_filterMap]
  constructor
  · rintro ⟨c, hc, he⟩
    cases c with
    | el b =>
      have : b = a := by simpa [hel] using he
      subst this
      exact List.mem_iff_getElem?.1 hc
    | empty => simp [hel] at he
    | deleted => simp [hel] at he
  · rintro ⟨i, hi⟩
    exact ⟨.el a, List.mem_of_getElem? hi, rfl⟩

theorem apart_eq {eq : α → α → Bool} (symm : ∀ a b, eq a b = true → eq b a = true) {s : List α}
    (h : s.Pairwise fun a b => ¬ eq a b = true) {a b : α} (ha : a ∈ s) (hb : b ∈ s) (e : eq a b = true) : a = b := by
  induction h with
  | nil => cases ha
  | cons hx _ ih =>
    rcases List.mem_cons.1 ha with rfl | ha' <;> rcases List.mem_cons.1 hb with rfl | hb'
    · rfl
    · exact absurd e (hx _ hb')
    · exact absurd (symm _ _ e) (hx _ ha')
    · exact ih ha' hb'

theorem find_of_apart {hash : α → UInt32} {eq : α → α → Bool} (F : HashesFit hash eq) {s : List α}
    (h : s.Pairwise fun a b => ¬ eq a b = true) {a x : α} (ha : a ∈ s) (e : eq a x = true) :
    s.find? (eq · x) = some a := by
  cases hf : s.find? (eq · x) with
  | none => exact absurd e (by simpa using List.find?_eq_none.1 hf a ha)
  | some b =>
    have hb := List.mem_of_find?_eq_some hf
    have hbx : eq b x = true := by simpa using List.find?_some hf
    rw [apart_eq F.symm h hb ha (F.trans _ _ _ hbx (F.symm _ _ e))]

/-- The search in a table: it ends at the equal element, or at an empty entry when there is none. -/
theorem hprobe_holds {hash : α → UInt32} {eq : α → α → Bool} (F : HashesFit hash eq) {t : HTable α} {s : List α}
    (H : Holds hash eq t s) (x : α) :
    (∃ (i : Nat) (a : α), t.slots[i]? = some (.el a) ∧ a ∈ s ∧ eq a x = true ∧
      hprobe eq t.slots x (1 + (hash x).toNat % (t.slots.length - 2)) t.slots.length
        ((hash x).toNat % t.slots.length) none = some (.found i)) ∨
    ((∀ a ∈ s, ¬ eq a x = true) ∧ ∃ (k : Nat) (fd : Option Nat),
      hprobe eq t.slots x (1 + (hash x).toNat % (t.slots.length - 2)) t.slots.length
        ((hash x).toNat % t.slots.length) none = some (.free (hstart hash t.slots.length x k) fd) ∧
      t.slots[hstart hash t.slots.length x k]? = some .empty ∧
      (∀ j, j < k → t.slots[hstart hash t.slots.length x j]? ≠ some .empty) ∧
      (fd = none ∨ ∃ j, j < k ∧ fd = some (hstart hash t.slots.length x j) ∧
        t.slots[hstart hash t.slots.length x j]? = some .deleted)) := by
  have h3 := H.three
  have hstep : 1 + (hash x).toNat % (t.slots.length - 2) < t.slots.length := by
    have := Nat.mod_lt (hash x).toNat (by omega : 0 < t.slots.length - 2)
    omega
  obtain ⟨e, he, hempty⟩ := exists_empty t.slots (Nat.lt_of_le_of_lt H.used H.room)
  obtain ⟨k0, hk0, hpk⟩ := hpos_surj ((hash x).toNat % t.slots.length) _ t.slots.length e H.prime
    (by omega : 1 ≤ 1 + (hash x).toNat % (t.slots.length - 2)) hstep he
  have hex : ∃ m, HStops eq t.slots x (hstart hash t.slots.length x m) :=
    ⟨k0, Or.inl (by unfold hstart; rw [hpk]; exact hempty)⟩
  haveI : DecidablePred fun m => HStops eq t.slots x (hstart hash t.slots.length x m) := fun _ => Classical.propDecidable _
  have hstop := Nat.find_spec hex
  have hmin := fun j hj => Nat.find_min (H := hex) (m := j) hj
  have hle : Nat.find hex ≤ k0 := Nat.find_min' hex (Or.inl (by unfold hstart; rw [hpk]; exact hempty))
  generalize Nat.find hex = m at hstop hmin hle
  have h0 : hpos ((hash x).toNat % t.slots.length) (1 + (hash x).toNat % (t.slots.length - 2)) t.slots.length 0 =
      (hash x).toNat % t.slots.length := by
    unfold hpos
    rw [Nat.zero_mul, Nat.add_zero, Nat.mod_mod]
  have hpr := hprobe_spec eq t.slots x _ _ m hstep hstop hmin t.slots.length 0 none (Nat.zero_le _) (by omega)
  rw [h0] at hpr
  rcases hpr with ⟨⟨a, ha, hax⟩, hp⟩ | ⟨hem, fd, hp, hfd⟩
  · left
    exact ⟨_, a, ha, (H.mem a).2 ⟨_, ha⟩, hax, hp⟩
  · right
    refine ⟨fun a ha hax => ?_, m, fd, hp, hem, fun j hj hj' => hmin j hj (Or.inl hj'), hfd⟩
    obtain ⟨i, hi⟩ := (H.mem a).1 ha
    obtain ⟨k, hk, hch⟩ := H.chain i a hi
    have hh : hash a = hash x := F.hash _ _ hax
    have hsame : ∀ j, hstart hash t.slots.length a j = hstart hash t.slots.length x j := by
      intro j; unfold hstart; rw [hh]
    rcases Nat.lt_trichotomy m k with hmk | hmk | hmk
    · exact hch m hmk (by rw [hsame]; exact hem)
    · have hem' : t.slots[hstart hash t.slots.length x m]? = some .empty := hem
      rw [hmk, ← hsame, hk, hi] at hem'
      cases hem'
    · exact hmin k hmk (Or.inr ⟨a, by rw [← hsame, hk]; exact hi, hax⟩)

theorem hfindIn_found {hash : α → UInt32} {eq : α → α → Bool} (F : HashesFit hash eq) {t : HTable α} {s : List α}
    (H : Holds hash eq t s) (x a : α) (ha : a ∈ s) (hax : eq a x = true) (reserve : Bool) :
    ∃ i : Nat, hfindIn hash eq t x reserve = some (t, i) ∧ t.slots[i]? = some (.el a) := by
  rcases hprobe_holds F H x with ⟨i, b, hi, hb, hbx, hp⟩ | ⟨hno, _⟩
  · have e := apart_eq F.symm H.apart hb ha (F.trans _ _ _ hbx (F.symm _ _ hax))
    subst e
    refine ⟨i, ?_, hi⟩
    unfold hfindIn
    have h3 := H.three
    rw [if_neg (by omega), hp]
  · exact absurd hax (hno a ha)

theorem hfindIn_absent {hash : α → UInt32} {eq : α → α → Bool} (F : HashesFit hash eq) {t : HTable α} {s : List α}
    (H : Holds hash eq t s) (x : α) (hx : ∀ a ∈ s, ¬ eq a x = true) :
    ∃ i : Nat, hfindIn hash eq t x false = some (t, i) ∧ t.slots[i]? = some .empty := by
  rcases hprobe_holds F H x with ⟨i, b, hi, hb, hbx, hp⟩ | ⟨_, k, fd, hp, he, _⟩
  · exact absurd hbx (hx b hb)
  · refine ⟨_, ?_, he⟩
    unfold hfindIn
    have h3 := H.three
    rw [if_neg (by omega), hp]
    rfl

/-- Writing an element into an entry on its way that holds no element. -/
theorem holds_write {hash : α → UInt32} {eq : α → α → Bool} (F : HashesFit hash eq) {t : HTable α} {s : List α}
    (H : Holds hash eq t s) (x : α) (hx : ∀ a ∈ s, ¬ eq a x = true) (room : t.elements + 1 < t.slots.length) (k : Nat)
    (c : HSlot α) (hc : t.slots[hstart hash t.slots.length x k]? = some c) (hn : hel c = none)
    (hk : ∀ j, j < k → t.slots[hstart hash t.slots.length x j]? ≠ some .empty) :
    Holds hash eq ⟨t.slots.set (hstart hash t.slots.length x k) (.el x), t.elements + 1, t.deleted⟩ (x :: s) := by
  have hlt : hstart hash t.slots.length x k < t.slots.length := (List.getElem?_eq_some_iff.1 hc).1
  refine ⟨?_, ?_, ?_, ?_, ?_, ?_, ?_, ?_⟩
  · simpa using H.prime
  · simpa using H.three
  · exact (live_set t.slots _ x c hc hn).trans (H.live.cons x)
  · exact List.pairwise_cons.2 ⟨fun a ha hxa => hx a ha (F.symm _ _ hxa), H.apart⟩
  · show (x :: s).length + t.deleted ≤ t.elements + 1
    have := H.count
    rw [List.length_cons]; omega
  · exact Nat.le_trans (used_set _ _ _) (Nat.add_le_add_right H.used 1)
  · simpa using room
  · intro i a hi
    simp only [List.length_set]
    have keep : ∀ j : Nat, t.slots[j]? ≠ some .empty →
        (t.slots.set (hstart hash t.slots.length x k) (.el x))[j]? ≠ some .empty := by
      intro j hj
      rw [List.getElem?_set]
      split
      · intro h; cases h
      · exact hj
    simp only [List.getElem?_set] at hi
    split at hi
    · rename_i e
      have : x = a := by simpa using hi
      subst this
      exact ⟨k, e, fun j hj => keep _ (hk j hj)⟩
    · obtain ⟨k', hk', hch⟩ := H.chain i a hi
      exact ⟨k', hk', fun j hj => keep _ (hch j hj)⟩

theorem hfindIn_reserve {hash : α → UInt32} {eq : α → α → Bool} (F : HashesFit hash eq) {t : HTable α} {s : List α}
    (H : Holds hash eq t s) (x : α) (hx : ∀ a ∈ s, ¬ eq a x = true) (room : t.elements + 1 < t.slots.length) :
    ∃ (t' : HTable α) (i : Nat), hfindIn hash eq t x true = some (t', i) ∧ t'.slots[i]? = some .empty ∧
      t'.slots.length = t.slots.length ∧ t'.elements = t.elements + 1 ∧ t'.deleted = t.deleted ∧
      (NoDel t → t' = { t with elements := t.elements + 1 }) ∧
      Holds hash eq { t' with slots := t'.slots.set i (.el x) } (x :: s) := by
  have h3 := H.three
  rcases hprobe_holds F H x with ⟨i, b, hi, hb, hbx, hp⟩ | ⟨_, k, fd, hp, he, hk, hfd⟩
  · exact absurd hbx (hx b hb)
  · rcases hfd with rfl | ⟨j, hj, rfl, hd⟩
    · refine ⟨{ t with elements := t.elements + 1 }, _, ?_, he, rfl, rfl, rfl, fun _ => rfl, holds_write F H x hx room k _ he rfl hk⟩
      unfold hfindIn
      rw [if_neg (by omega), hp]
      rfl
    · have hlt : hstart hash t.slots.length x j < t.slots.length := (List.getElem?_eq_some_iff.1 hd).1
      refine ⟨{ t with slots := t.slots.set (hstart hash t.slots.length x j) .empty, elements := t.elements + 1 },
        hstart hash t.slots.length x j, ?_, ?_, ?_, rfl, rfl, fun hno => absurd hd (hno _), ?_⟩
      · unfold hfindIn
        rw [if_neg (by omega), hp]
        rfl
      · show (t.slots.set (hstart hash t.slots.length x j) .empty)[hstart hash t.slots.length x j]? = some .empty
        rw [List.getElem?_set, if_pos rfl, if_pos hlt]
      · simp
      · have := holds_write F H x hx room j _ hd rfl (fun i hi => hk i (by omega))
        simpa only [List.set_set] using this

/-! ## Larger tables -/

theorem holds_create (hash : α → UInt32) (eq : α → α → Bool) (n : Nat) :
    ∃ t : HTable α, hcreate α n = some t ∧ n / 2 * 2 + 3 ≤ t.slots.length ∧ Holds hash eq t [] ∧ t.elements = 0 ∧ NoDel t := by
  obtain ⟨p, hp, hpr, hn, _⟩ := higherPrime_spec n
  have hel0 : ∀ m : Nat, (List.replicate m (HSlot.empty : HSlot α)).filterMap hel = [] := by
    intro m; induction m with
    | zero => rfl
    | succ m ih => rw [List.replicate_succ, List.filterMap_cons]; exact ih
  have hu0 : ∀ m : Nat, (List.replicate m (HSlot.empty : HSlot α)).countP hused = 0 := by
    intro m; simp [List.countP_replicate, hused]
  refine ⟨_, by unfold hcreate; rw [hp]; rfl, by simpa using hn, ⟨by simpa using hpr, by simp; omega, ?_, List.Pairwise.nil,
    Nat.le_refl _, ?_, by simp; omega, ?_⟩, rfl, ?_⟩
  · rw [hel0]
  · show (List.replicate p (HSlot.empty : HSlot α)).countP hused ≤ 0
    rw [hu0]
  · intro i a hi
    have := List.mem_of_getElem? hi
    have := (List.mem_replicate.1 this).2
    cases this
  · intro i hi
    have := (List.mem_replicate.1 (List.mem_of_getElem? hi)).2
    cases this

theorem htransfer_holds {hash : α → UInt32} {eq : α → α → Bool} (F : HashesFit hash eq) (rest : List (HSlot α))
    (new : HTable α) (s : List α) (H : Holds hash eq new s)
    (apart : (rest.filterMap hel ++ s).Pairwise fun a b => ¬ eq a b = true) (bound : Nat)
    (hb : 2 * bound + 3 ≤ new.slots.length) (hl : (rest.filterMap hel).length + new.elements ≤ bound) :
    ∃ (t' : HTable α) (s' : List α), htransfer hash eq rest new = some t' ∧ Holds hash eq t' s' ∧
      s'.Perm (rest.filterMap hel ++ s) ∧ t'.slots.length = new.slots.length ∧
      t'.elements = (rest.filterMap hel).length + new.elements ∧ (NoDel new → NoDel t') := by
  induction rest generalizing new s with
  | nil => exact ⟨new, s, rfl, H, List.Perm.refl _, rfl, by simp, fun h => h⟩
  | cons c rest ih =>
    cases c with
    | empty => exact ih new s H apart hb hl
    | deleted => exact ih new s H apart hb hl
    | el a =>
      have e : ((HSlot.el a) :: rest).filterMap hel = a :: rest.filterMap hel := rfl
      rw [e] at apart hl ⊢
      rw [List.cons_append] at apart
      have hap := List.pairwise_cons.1 apart
      have hnot : ∀ b ∈ s, ¬ eq b a = true := fun b hbm he =>
        hap.1 b (List.mem_append_right _ hbm) (F.symm _ _ he)
      rw [List.length_cons] at hl
      obtain ⟨t', i, hf, hem, hlen, hele, _, hnd, hH⟩ := hfindIn_reserve F H a hnot (by omega)
      have hc : hcrowded new = false := by
        unfold hcrowded
        rw [decide_eq_false_iff_not]
        omega
      have hperm : (rest.filterMap hel ++ (a :: s)).Perm (a :: (rest.filterMap hel ++ s)) := List.perm_middle
      obtain ⟨t2, s2, h1, h2, h3, h4, h5, h6⟩ := ih { t' with slots := t'.slots.set i (.el a) } (a :: s) hH
        (hperm.symm.pairwise apart fun {x y} hxy hyx => hxy (F.symm _ _ hyx))
        (by simpa [hlen] using hb) (by show _ + t'.elements ≤ bound; omega)
      refine ⟨t2, s2, ?_, h2, h3.trans hperm, by simpa [hlen] using h4, ?_, fun hno => h6 ?_⟩
      · unfold htransfer
        simp only [hc, hf, hem]
        exact h1
      · rw [h5]; show _ + t'.elements = _; rw [List.length_cons]; omega
      · refine noDel_set ?_ i (.el a) (by simp)
        rw [hnd hno]
        exact hno

theorem Holds.perm {hash : α → UInt32} {eq : α → α → Bool} (F : HashesFit hash eq) {t : HTable α} {s s' : List α}
    (H : Holds hash eq t s) (h : s.Perm s') : Holds hash eq t s' :=
  ⟨H.prime, H.three, H.live.trans h, h.pairwise H.apart fun {x y} hxy hyx => hxy (F.symm _ _ hyx), by rw [← h.length_eq]; exact H.count,
    H.used, H.room, H.chain⟩

/-- After the test for expansion there is room for one more element. -/
theorem hfind_holds {hash : α → UInt32} {eq : α → α → Bool} (F : HashesFit hash eq) {t : HTable α} {s : List α}
    (H : Holds hash eq t s) : ∃ t' : HTable α, Holds hash eq t' s ∧ t'.elements + 1 < t'.slots.length ∧
      (t.elements = s.length + t.deleted → t'.elements = s.length + t'.deleted) ∧ (NoDel t → NoDel t') ∧
      ∀ x reserve, hfind hash eq t x reserve = hfindIn hash eq t' x reserve := by
  by_cases hc : hcrowded t = true
  · obtain ⟨new, hn, hlen, hH, h0, hnd⟩ := holds_create hash eq (t.elements * 2)
    have hl : (t.slots.filterMap hel).length ≤ t.elements := by
      have := H.count
      rw [H.live.length_eq]; omega
    obtain ⟨t', s', h1, h2, h3, h4, h5, h6⟩ := htransfer_holds F t.slots new [] hH
      (by rw [List.append_nil]; exact H.live.symm.pairwise H.apart fun {x y} hxy hyx => hxy (F.symm _ _ hyx))
      t.elements (by omega) (by omega)
    rw [List.append_nil] at h3
    refine ⟨t', h2.perm F (h3.trans H.live), by omega, fun _ => ?_, fun _ => h6 hnd, fun x reserve => ?_⟩
    · have := (h2.perm F (h3.trans H.live)).count
      rw [H.live.length_eq] at h5
      omega
    unfold hfind hexpand
    rw [if_pos hc, hn]
    simp only [h1]
  · refine ⟨t, H, ?_, fun h => h, fun h => h, fun x reserve => by unfold hfind; rw [if_neg hc]⟩
    unfold hcrowded at hc
    rw [decide_eq_true_eq] at hc
    omega

end Xmq.Yaep
