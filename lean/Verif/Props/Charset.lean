import Verif.Model.Charset
import Verif.Spec.Charset
import Verif.Props.LineCol
/-!
# C29, C47, C48: Unicode categories and character sets
-/
namespace Xmq.Props
open Xmq.Spec

theorem hasCodeLoop_correct (code : Int) (cat : List Int) (hs : NonDecreasing cat) :
    ∀ fuel start stop, stop < start + fuel → start ≤ stop → stop < cat.length →
      (∀ j, cat[j]? = some code → start ≤ j ∧ j ≤ stop ∨ ∃ k, start ≤ k ∧ k ≤ stop ∧ cat[k]? = some code) →
      hasCodeLoop code cat fuel start stop = some (decide (code ∈ cat)) := by
  intro fuel
  induction fuel with
  | zero => intro start stop h1 h2; omega
  | succ fuel ih =>
    intro start stop h1 h2 h3 h4
    have key : code ∈ cat ↔ ∃ k, start ≤ k ∧ k ≤ stop ∧ cat[k]? = some code := by
      constructor
      · intro h
        obtain ⟨j, hj⟩ := List.mem_iff_getElem?.1 h
        rcases h4 j hj with ⟨a, b⟩ | h
        · exact ⟨j, a, b, hj⟩
        · exact h
      · rintro ⟨k, _, _, hk⟩
        exact List.mem_iff_getElem?.2 ⟨k, hk⟩
    have ea : cat[start]? = some (cat[start]'(by omega)) := List.getElem?_eq_getElem _
    have eb : cat[stop]? = some (cat[stop]'h3) := List.getElem?_eq_getElem _
    unfold hasCodeLoop
    rw [ea, eb]
    dsimp only
    by_cases c1 : start = stop
    · subst c1
      rw [if_pos rfl]
      congr 1
      have : code ∈ cat ↔ cat[start]'(by omega) = code := by
        rw [key]
        constructor
        · rintro ⟨k, k1, k2, k3⟩
          obtain rfl : k = start := by omega
          rw [ea] at k3; simpa using k3
        · intro h; exact ⟨start, by omega, by omega, by rw [ea, h]⟩
      simp only [this]
      by_cases hq : cat[start] = code <;> simp [hq]
    · rw [if_neg c1]
      by_cases c2 : start + 1 = stop
      · subst c2
        rw [if_pos rfl]
        congr 1
        have : code ∈ cat ↔ (cat[start]'(by omega) = code ∨ cat[start + 1]'h3 = code) := by
          rw [key]
          constructor
          · rintro ⟨k, k1, k2, k3⟩
            have : k = start ∨ k = start + 1 := by omega
            rcases this with rfl | rfl
            · rw [ea] at k3; left; simpa using k3
            · rw [eb] at k3; right; simpa using k3
          · rintro (h | h)
            · exact ⟨start, by omega, by omega, by rw [ea, h]⟩
            · exact ⟨start + 1, by omega, by omega, by rw [eb, h]⟩
        simp only [this]
        by_cases hq : cat[start] = code <;> by_cases hr : cat[start + 1] = code <;> simp [hq, hr]
      · rw [if_neg c2]
        have hi : start + (stop - start) / 2 < cat.length := by omega
        have ei : cat[start + (stop - start) / 2]? = some (cat[start + (stop - start) / 2]'hi) := List.getElem?_eq_getElem _
        rw [ei]
        dsimp only
        by_cases hx : cat[start + (stop - start) / 2]'hi = code
        · rw [if_pos hx]
          have : code ∈ cat := List.mem_iff_getElem?.2 ⟨_, by rw [ei, hx]⟩
          simp [this]
        · rw [if_neg hx]
          by_cases hl : cat[start + (stop - start) / 2]'hi < code
          · rw [if_pos hl]
            apply ih
            · omega
            · omega
            · exact h3
            · intro j hj
              obtain ⟨k, k1, k2, k3⟩ := key.1 (List.mem_iff_getElem?.2 ⟨j, hj⟩)
              right
              refine ⟨k, ?_, k2, k3⟩
              by_cases hk : k ≤ start + (stop - start) / 2
              · have := hs k _ _ _ hk k3 ei
                omega
              · omega
          · rw [if_neg hl]
            apply ih
            · omega
            · omega
            · omega
            · intro j hj
              obtain ⟨k, k1, k2, k3⟩ := key.1 (List.mem_iff_getElem?.2 ⟨j, hj⟩)
              right
              refine ⟨k, k1, ?_, k3⟩
              by_cases hk : start + (stop - start) / 2 ≤ k
              · have h5 := hs _ k _ _ hk ei k3
                omega
              · omega

/-- In a table that never decreases a code is found exactly if it is there; the search ends and stays inside the table. -/
theorem C29_lookup_is_membership (code : Int) (cat : List Int) (hs : NonDecreasing cat) :
    categoryHasCode code cat = some (decide (code ∈ cat)) := by
  unfold categoryHasCode
  by_cases h0 : cat.length = 0
  · rw [if_pos h0]
    have : cat = [] := List.length_eq_zero_iff.1 h0
    subst this; simp
  · rw [if_neg h0]
    by_cases h1 : cat.length = 1
    · rw [if_pos h1]
      obtain ⟨a, rfl⟩ := List.length_eq_one_iff.1 h1
      by_cases ha : a = code
      · simp [ha]
      · simp [ha, Ne.symm ha]
    · rw [if_neg h1]
      apply hasCodeLoop_correct code cat hs
      · omega
      · omega
      · omega
      · intro j hj
        left
        have : j < cat.length := by
          rcases Nat.lt_or_ge j cat.length with h | h
          · exact h
          · rw [List.getElem?_eq_none h] at hj; cases hj
        omega

example : categoryHasCode 7 [1, 3, 7, 7, 9, 12] = some true ∧ categoryHasCode 8 [1, 3, 7, 7, 9, 12] = some false := by decide

/-- The last entry of a run. -/
def runLast (r : Int × Nat × Nat) : Int := r.1 + (r.2.2 : Int) * ((r.2.1 - 1 : Nat) : Int)

/-- Runs that are not empty and do not overlap. -/
def sortedRuns : List (Int × Nat × Nat) → Bool
  | [] => true
  | [r] => decide (0 < r.2.1)
  | r :: q :: t => decide (0 < r.2.1) && decide (runLast r ≤ q.1) && sortedRuns (q :: t)

theorem expandRun_bounds (r : Int × Nat × Nat) : ∀ x ∈ expandRun r, r.1 ≤ x ∧ x ≤ runLast r := by
  intro x hx
  unfold expandRun at hx
  obtain ⟨k, hk, rfl⟩ := List.mem_map.1 hx
  have hk := List.mem_range.1 hk
  unfold runLast
  constructor
  · have : (0 : Int) ≤ (r.2.2 : Int) * (k : Int) := Int.mul_nonneg (by omega) (by omega)
    omega
  · have : (r.2.2 : Int) * (k : Int) ≤ (r.2.2 : Int) * ((r.2.1 - 1 : Nat) : Int) := Int.mul_le_mul_of_nonneg_left (by omega) (by omega)
    omega

theorem expandRun_pairwise (r : Int × Nat × Nat) : (expandRun r).Pairwise (· ≤ ·) := by
  unfold expandRun
  rw [List.pairwise_map]
  apply List.Pairwise.imp _ (List.pairwise_lt_range)
  intro a b hab
  have : (r.2.2 : Int) * (a : Int) ≤ (r.2.2 : Int) * (b : Int) := Int.mul_le_mul_of_nonneg_left (by omega) (by omega)
  omega

theorem expandRuns_ge (rs : List (Int × Nat × Nat)) (h : sortedRuns rs = true) : ∀ r t, rs = r :: t → ∀ x ∈ expandRuns rs, r.1 ≤ x := by
  induction rs with
  | nil => intro r t e; cases e
  | cons q u ih =>
    intro r t e x hx
    cases e
    unfold expandRuns at hx
    rw [List.flatMap_cons, List.mem_append] at hx
    rcases hx with hx | hx
    · exact (expandRun_bounds _ x hx).1
    · cases u with
      | nil => simp at hx
      | cons w v =>
        simp [sortedRuns] at h
        have h1 := ih h.2 w v rfl x hx
        have h2 : q.1 ≤ runLast q := by
          unfold runLast
          have : (0 : Int) ≤ (q.2.2 : Int) * ((q.2.1 - 1 : Nat) : Int) := Int.mul_nonneg (by omega) (by omega)
          omega
        omega

theorem expandRuns_pairwise (rs : List (Int × Nat × Nat)) (h : sortedRuns rs = true) : (expandRuns rs).Pairwise (· ≤ ·) := by
  induction rs with
  | nil => exact List.Pairwise.nil
  | cons q u ih =>
    unfold expandRuns
    rw [List.flatMap_cons, List.pairwise_append]
    cases u with
    | nil => exact ⟨expandRun_pairwise q, List.Pairwise.nil, by simp⟩
    | cons w v =>
      simp [sortedRuns] at h
      refine ⟨expandRun_pairwise q, ih h.2, ?_⟩
      intro a ha b hb
      have h1 := (expandRun_bounds q a ha).2
      have h2 := expandRuns_ge (w :: v) h.2 w v rfl b hb
      omega

theorem nonDecreasing_of_pairwise {t : List Int} (h : t.Pairwise (· ≤ ·)) : NonDecreasing t := by
  intro i j a b hij ha hb
  rcases Nat.lt_or_ge i j with hlt | hge
  · obtain ⟨hi, rfl⟩ := List.getElem?_eq_some_iff.1 ha
    obtain ⟨hj, rfl⟩ := List.getElem?_eq_some_iff.1 hb
    exact List.pairwise_iff_getElem.1 h i j hi hj hlt
  · obtain rfl : i = j := by omega
    rw [ha] at hb; cases hb; exact Int.le_refl _

theorem all_tables_sorted : ∀ n rs, categoryRuns n = some rs → sortedRuns rs = true := by
  intro n rs h
  unfold categoryRuns at h
  split at h <;> first
    | (cases h; decide +kernel)
    | cases h

/-- Every table of the library never decreases, so the lookup of a code in a category is membership in the table. -/
theorem C29_every_category (name : String) (t : List Int) (h : categoryPart name = some t) (code : Int) :
    NonDecreasing t ∧ categoryHasCode code t = some (decide (code ∈ t)) := by
  unfold categoryPart at h
  cases hr : categoryRuns name with
  | none => rw [hr] at h; cases h
  | some rs =>
    rw [hr] at h
    simp at h
    subst h
    have := nonDecreasing_of_pairwise (expandRuns_pairwise rs (all_tables_sorted name rs hr))
    exact ⟨this, C29_lookup_is_membership code _ this⟩

/-- The general categories of Unicode are disjoint; the tables are not: U+1040 (a digit) is also found to be an uppercase letter. -/
theorem C29_categories_overlap : ∃ lu nd, categoryPart "Lu" = some lu ∧ categoryPart "Nd" = some nd ∧
    categoryHasCode 0x1040 lu = some true ∧ categoryHasCode 0x1040 nd = some true := by
  refine ⟨_, _, rfl, rfl, ?_, ?_⟩
  · rw [(C29_every_category "Lu" _ rfl _).2]; decide +kernel
  · rw [(C29_every_category "Nd" _ rfl _).2]; decide +kernel

/-- The general categories of Unicode. -/
def generalCategories : List String :=
  ["Lu", "Ll", "Lt", "Lm", "Lo", "Mn", "Mc", "Me", "Nd", "Nl", "No", "Pc", "Pd", "Ps", "Pe", "Pi", "Pf", "Po", "Sm", "Sc", "Sk", "So",
   "Zs", "Zl", "Zp", "Cc", "Cf", "Cs", "Co", "Cn"]

/-- The categories a name stands for: a letter for those that begin with it, `LC` for three of them, otherwise the name for itself. -/
def standsFor (name : String) : List String :=
  if name = "LC" then ["Lu", "Ll", "Lt"]
  else if name.length = 1 then generalCategories.filter fun n => n.toList.head? = name.toList.head?
  else generalCategories.filter fun n => n = name

theorem mapM_tables (c : Int) : ∀ {ps : List String} {ts : List (List Int)}, ps.mapM categoryPart = some ts →
    ((∃ t ∈ ts, c ∈ t) ↔ ∃ n ∈ ps, ∃ t, categoryPart n = some t ∧ c ∈ t)
  | [], ts, h => by simp at h; subst h; simp
  | p :: ps, ts, h => by
    rw [List.mapM_cons] at h
    cases e : categoryPart p with
    | none => simp [e] at h
    | some t =>
      cases e2 : ps.mapM categoryPart with
      | none => simp [e, e2] at h
      | some us =>
        simp [e, e2] at h
        subst h
        have := mapM_tables c e2
        simp only [List.mem_cons, exists_eq_or_imp, this, e, Option.some.injEq, exists_eq_left']

theorem category_names : ∀ name ∈ categoryNames, ((categoryParts name).map fun ps => (ps == standsFor name, (ps.mapM categoryRuns).isSome)) = some (true, true) := by
  decide +kernel

/-- **C29**: a category name in a set stands for its general categories, a single letter for all that begin with it. -/
theorem C29_names_stand_for (name : String) (h : name ∈ categoryNames) : ∃ ts, partTables name = some ts ∧
    ∀ c : Int, (∃ t ∈ ts, c ∈ t) ↔ ∃ n ∈ standsFor name, ∃ t, categoryPart n = some t ∧ c ∈ t := by
  have hn := category_names name h
  cases e : categoryParts name with
  | none => rw [e] at hn; cases hn
  | some ps =>
    rw [e] at hn
    simp only [Option.map_some, Option.some.injEq, Prod.mk.injEq, beq_iff_eq] at hn
    obtain ⟨rfl, hk⟩ := hn
    have hk2 : ∀ {ps : List String}, (ps.mapM categoryRuns).isSome = true → ∃ ts, ps.mapM categoryPart = some ts := by
      intro ps
      induction ps with
      | nil => intro _; exact ⟨[], rfl⟩
      | cons p ps ih =>
        intro hk
        rw [List.mapM_cons] at hk
        cases e1 : categoryRuns p with
        | none => simp [e1] at hk
        | some r =>
          cases e2 : ps.mapM categoryRuns with
          | none => simp [e1, e2] at hk
          | some rs =>
            obtain ⟨ts, ht⟩ := ih (by rw [e2]; rfl)
            exact ⟨expandRuns r :: ts, by rw [List.mapM_cons]; simp [categoryPart, e1, ht]⟩
    obtain ⟨ts, ht⟩ := hk2 hk
    exact ⟨ts, by unfold partTables; rw [e]; exact ht, fun c => mapM_tables c ht⟩

example : standsFor "M" = ["Mn", "Mc", "Me"] ∧ "M" ∈ categoryNames := by decide +kernel

theorem all_tables_bmp : ∀ n rs, categoryRuns n = some rs → rs.all (fun r => decide (runLast r ≤ 0xffff)) = true := by
  intro n rs h
  unfold categoryRuns at h
  split at h <;> first
    | (cases h; decide +kernel)
    | cases h

/-- The tables hold only four hexadecimal digits of a code: no code point above U+FFFF is found in any category. -/
theorem C29_supplementary_missed (name : String) (t : List Int) (h : categoryPart name = some t) (code : Int) (hc : 0xffff < code) :
    categoryHasCode code t = some false := by
  rw [(C29_every_category name t h code).2]
  congr 1
  rw [decide_eq_false_iff_not]
  intro hm
  unfold categoryPart at h
  cases hr : categoryRuns name with
  | none => rw [hr] at h; cases h
  | some rs =>
    rw [hr] at h
    simp at h
    subst h
    unfold expandRuns at hm
    obtain ⟨r, hr1, hr2⟩ := List.mem_flatMap.1 hm
    have := (expandRun_bounds r code hr2).2
    have h2 := List.all_eq_true.1 (all_tables_bmp name rs hr) r hr1
    have h3 : runLast r ≤ 0xffff := by simpa using h2
    omega

/-! ## Including and excluding -/

theorem partTables_parts {n : String} {ts : List (List Int)} (h : partTables n = some ts) : ∀ t ∈ ts, ∃ m, categoryPart m = some t := by
  unfold partTables at h
  split at h
  · cases h
  · rename_i ps _
    rename_i h0; clear h0
    induction ps generalizing ts with
    | nil => simp at h; subst h; simp
    | cons p q ih =>
      rw [List.mapM_cons] at h
      cases hp : categoryPart p with
      | none => rw [hp] at h; simp at h
      | some t0 =>
        rw [hp] at h
        cases hq : List.mapM categoryPart q with
        | none => rw [hq] at h; simp at h
        | some tq =>
          rw [hq] at h
          simp at h
          subst h
          intro t ht
          rcases List.mem_cons.1 ht with rfl | ht
          · exact ⟨p, hp⟩
          · exact ih hq t ht

theorem inTables_eq (c : Int) (ts : List (List Int)) (h : ∀ t ∈ ts, ∃ m, categoryPart m = some t) :
    inTables c ts = some (ts.any fun t => decide (c ∈ t)) := by
  induction ts with
  | nil => rfl
  | cons t u ih =>
    obtain ⟨m, hm⟩ := h t (by simp)
    unfold inTables
    rw [(C29_every_category m t hm c).2]
    by_cases hc : c ∈ t
    · simp [hc]
    · simp only [hc, decide_false, List.any_cons, Bool.false_or]
      exact ih (fun t ht => h t (by simp [ht]))

/-- The characters a part of a set stands for. -/
def partMeans (p : CharsetPart) (c : Nat) : Prop :=
  match p with
  | .range a b => a ≤ (c : Int) ∧ (c : Int) ≤ b
  | .category n => ∃ ts, partTables n = some ts ∧ ∃ t ∈ ts, (c : Int) ∈ t

/-- A part whose category is known, as the grammar parser has checked (parts/ixml.c 668-674). -/
def PartKnown (p : CharsetPart) : Prop :=
  match p with
  | .range _ _ => True
  | .category n => partTables n ≠ none

theorem includePart_mem (used : Nat → Bool) (p : CharsetPart) (hk : PartKnown p) :
    ∃ l, includePart used p = some l ∧ ∀ c, c ∈ l ↔ c < 0x110000 ∧ used c = true ∧ partMeans p c := by
  cases p with
  | range a b =>
    refine ⟨_, rfl, ?_⟩
    intro c
    unfold rangeCodes partMeans
    rw [List.mem_filter, List.mem_range]
    simp only [Bool.and_eq_true, decide_eq_true_eq]
    constructor
    · rintro ⟨h1, ⟨h2, h3⟩, h4⟩; exact ⟨h1, h4, h2, h3⟩
    · rintro ⟨h1, h4, h2, h3⟩; exact ⟨h1, ⟨h2, h3⟩, h4⟩
  | category n =>
    unfold PartKnown at hk
    dsimp only at hk
    cases ht : partTables n with
    | none => exact absurd ht hk
    | some ts =>
      refine ⟨_, by unfold includePart; dsimp only; rw [ht], ?_⟩
      intro c
      unfold partMeans
      dsimp only
      rw [List.mem_flatMap]
      constructor
      · rintro ⟨t, h1, h2⟩
        obtain ⟨x, hx, rfl⟩ := List.mem_map.1 h2
        rw [List.mem_filter] at hx
        simp only [Bool.and_eq_true, decide_eq_true_eq] at hx
        obtain ⟨hx1, ⟨hx2, hx3⟩, hx4⟩ := hx
        have e : ((x.toNat : Nat) : Int) = x := Int.toNat_of_nonneg hx2
        refine ⟨by omega, hx4, ts, ht, t, h1, by rw [e]; exact hx1⟩
      · rintro ⟨h1, h2, ts', h3, t, h4, h5⟩
        rw [ht] at h3; cases h3
        refine ⟨t, h4, List.mem_map.2 ⟨(c : Int), List.mem_filter.2 ⟨h5, ?_⟩, by simp⟩⟩
        simp only [Bool.and_eq_true, decide_eq_true_eq]
        exact ⟨⟨by omega, by omega⟩, by simpa using h2⟩

theorem includeCodes_mem (used : Nat → Bool) (cs : List CharsetPart) (hk : ∀ p ∈ cs, PartKnown p) :
    ∃ l, includeCodes used cs = some l ∧ ∀ c, c ∈ l ↔ c < 0x110000 ∧ used c = true ∧ ∃ p ∈ cs, partMeans p c := by
  have : ∃ l, cs.mapM (includePart used) = some l ∧ ∀ c, c ∈ l.flatten ↔ c < 0x110000 ∧ used c = true ∧ ∃ p ∈ cs, partMeans p c := by
    induction cs with
    | nil => exact ⟨[], rfl, by simp⟩
    | cons p q ih =>
      obtain ⟨l, hl, hm⟩ := ih (fun p hp => hk p (by simp [hp]))
      obtain ⟨l0, hl0, hm0⟩ := includePart_mem used p (hk p (by simp))
      refine ⟨l0 :: l, by rw [List.mapM_cons, hl0, hl]; rfl, ?_⟩
      intro c
      rw [List.flatten_cons, List.mem_append, hm0, hm]
      constructor
      · rintro (⟨h1, h2, h3⟩ | ⟨h1, h2, p', h3, h4⟩)
        · exact ⟨h1, h2, p, by simp, h3⟩
        · exact ⟨h1, h2, p', by simp [h3], h4⟩
      · rintro ⟨h1, h2, p', h3, h4⟩
        rcases List.mem_cons.1 h3 with rfl | h3
        · exact .inl ⟨h1, h2, h4⟩
        · exact .inr ⟨h1, h2, p', h3, h4⟩
  obtain ⟨l, hl, hm⟩ := this
  exact ⟨l.flatten, by unfold includeCodes; rw [hl], hm⟩

theorem partExcludes_iff (c : Nat) (p : CharsetPart) (hk : PartKnown p) : ∃ b, partExcludes c p = some b ∧ (b = true ↔ partMeans p c) := by
  cases p with
  | range a b => exact ⟨_, rfl, by simp [partMeans]⟩
  | category n =>
    unfold PartKnown at hk
    dsimp only at hk
    cases ht : partTables n with
    | none => exact absurd ht hk
    | some ts =>
      refine ⟨_, by unfold partExcludes; dsimp only; rw [ht]; exact inTables_eq c ts (partTables_parts ht), ?_⟩
      simp only [partMeans, ht, List.any_eq_true, decide_eq_true_eq]
      constructor
      · rintro ⟨t, h1, h2⟩; exact ⟨ts, rfl, t, h1, h2⟩
      · rintro ⟨ts', h0, t, h1, h2⟩; cases h0; exact ⟨t, h1, h2⟩

theorem excluded_iff (c : Nat) (cs : List CharsetPart) (hk : ∀ p ∈ cs, PartKnown p) :
    ∃ b, excluded c cs = some b ∧ (b = true ↔ ∃ p ∈ cs, partMeans p c) := by
  induction cs with
  | nil => exact ⟨false, rfl, by simp⟩
  | cons p q ih =>
    obtain ⟨b, hb, hm⟩ := ih (fun p hp => hk p (by simp [hp]))
    obtain ⟨b0, hb0, hm0⟩ := partExcludes_iff c p (hk p (by simp))
    refine ⟨b0 || b, by unfold excluded; rw [hb0, hb], ?_⟩
    simp only [Bool.or_eq_true, hm, hm0, List.mem_cons, exists_eq_or_imp]

theorem excludeCodes_mem (used : Nat → Bool) (cs : List CharsetPart) (hk : ∀ p ∈ cs, PartKnown p) :
    ∃ l, excludeCodes used cs = some l ∧ l.Nodup ∧ ∀ c, c ∈ l ↔ c < 0x110000 ∧ used c = true ∧ ¬ ∃ p ∈ cs, partMeans p c := by
  have key : ∀ cands : List Nat, ∃ l, cands.mapM (fun c => (excluded c cs).map fun b => (c, b)) = some l ∧
      ((l.filter fun p => !p.2).map (·.1)).Sublist cands ∧
      ∀ c, c ∈ (l.filter fun p => !p.2).map (·.1) ↔ c ∈ cands ∧ ¬ ∃ p ∈ cs, partMeans p c := by
    intro cands
    induction cands with
    | nil => exact ⟨[], rfl, by simp, by simp⟩
    | cons x t ih =>
      obtain ⟨l, hl, hs, hm⟩ := ih
      obtain ⟨b, hb, hbm⟩ := excluded_iff x cs hk
      refine ⟨(x, b) :: l, by rw [List.mapM_cons, hb, hl]; rfl, ?_, ?_⟩
      · cases b with
        | true => simpa using hs.cons x
        | false => simpa using hs
      · intro c
        cases b with
        | true =>
          have hx := hbm.1 rfl
          simp only [List.filter_cons, Bool.not_true, Bool.false_eq_true, if_false, hm, List.mem_cons]
          constructor
          · rintro ⟨h1, h2⟩; exact ⟨.inr h1, h2⟩
          · rintro ⟨h1 | h1, h2⟩
            · subst h1; exact absurd hx h2
            · exact ⟨h1, h2⟩
        | false =>
          have hx : ¬ ∃ p ∈ cs, partMeans p x := fun h => by have := hbm.2 h; cases this
          simp only [List.filter_cons, Bool.not_false, if_true, List.map_cons, List.mem_cons, hm]
          constructor
          · rintro (rfl | ⟨h1, h2⟩)
            · exact ⟨.inl rfl, hx⟩
            · exact ⟨.inr h1, h2⟩
          · rintro ⟨h1 | h1, h2⟩
            · exact .inl h1
            · exact .inr ⟨h1, h2⟩
  obtain ⟨l, hl, hs, hm⟩ := key ((List.range 0x110000).filter used)
  refine ⟨_, by unfold excludeCodes; rw [hl]; rfl, hs.nodup (List.nodup_range.filter _), ?_⟩
  intro c
  rw [hm, List.mem_filter, List.mem_range, and_assoc]

/-- A set and its complement: of the characters used in the content, exactly those included by a set are not included by its
    complement.  Neither set includes a character that is not used. -/
theorem C47_complement (used : Nat → Bool) (cs : List CharsetPart) (hk : ∀ p ∈ cs, PartKnown p) :
    ∃ inc exc, includeCodes used cs = some inc ∧ excludeCodes used cs = some exc ∧
      (∀ c, c < 0x110000 → used c = true → (c ∈ inc ↔ c ∉ exc)) ∧
      (∀ c, c ∈ inc ∨ c ∈ exc → c < 0x110000 ∧ used c = true) := by
  obtain ⟨inc, h1, h2⟩ := includeCodes_mem used cs hk
  obtain ⟨exc, h3, _, h4⟩ := excludeCodes_mem used cs hk
  refine ⟨inc, exc, h1, h3, ?_, ?_⟩
  · intro c hc hu
    rw [h2, h4]
    simp [hc, hu]
  · rintro c (h | h)
    · have := (h2 c).1 h; exact ⟨this.1, this.2.1⟩
    · have := (h4 c).1 h; exact ⟨this.1, this.2.1⟩

/-- What a set includes: the used characters in one of its ranges or in a table of one of its categories. -/
theorem C47_includes (used : Nat → Bool) (cs : List CharsetPart) (hk : ∀ p ∈ cs, PartKnown p) :
    ∃ inc, includeCodes used cs = some inc ∧ ∀ c, c ∈ inc ↔ c < 0x110000 ∧ used c = true ∧ ∃ p ∈ cs, partMeans p c :=
  includeCodes_mem used cs hk

/-- Every category name that the grammar parser accepts has all its parts. -/
theorem C47_categories_known (n : String) (h : categoryParts n ≠ none) : PartKnown (.category n) := by
  have key : ∀ ps, categoryParts n = some ps → (ps.mapM categoryPart).isSome = true := by
    intro ps hp
    unfold categoryParts at hp
    split at hp <;> first
      | (cases hp; decide +kernel)
      | cases hp
  unfold PartKnown partTables
  dsimp only
  cases hp : categoryParts n with
  | none => exact absurd hp h
  | some ps =>
    have := key ps hp
    dsimp only
    intro h0
    rw [h0] at this
    cases this

/-- A set may include a character several times, and then the grammar has several rules for it: `["aa"]` is ambiguous. -/
theorem C47_no_repetition_false : ¬ ∀ (used : Nat → Bool) (cs : List CharsetPart) l, includeCodes used cs = some l → l.Nodup := by
  intro h
  obtain ⟨l, hl, _⟩ := includeCodes_mem (fun c => c == 97) [.range 97 97, .range 97 97] (by simp [PartKnown])
  obtain ⟨l0, hl0, hm0⟩ := includePart_mem (fun c => c == 97) (.range 97 97) trivial
  have hn := h _ _ _ hl
  unfold includeCodes at hl
  have e : [CharsetPart.range 97 97, .range 97 97].mapM (includePart fun c => c == 97) = some [l0, l0] := by
    rw [List.mapM_cons, hl0, List.mapM_cons, hl0]; rfl
  rw [e] at hl
  simp at hl
  subst hl
  have ha : 97 ∈ l0 := (hm0 97).2 ⟨by omega, rfl, by simp [partMeans]⟩
  rw [List.nodup_append] at hn
  exact hn.2.2 97 ha 97 ha rfl

/-- The complement includes no character twice. -/
theorem C47_complement_once (used : Nat → Bool) (cs : List CharsetPart) (hk : ∀ p ∈ cs, PartKnown p) :
    ∃ l, excludeCodes used cs = some l ∧ l.Nodup := by
  obtain ⟨l, h1, h2, _⟩ := excludeCodes_mem used cs hk
  exact ⟨l, h1, h2⟩

/-! ## Scanning the content -/

/-- The full claim: scanning never writes outside the table of used characters. -/
def ScanStaysInside : Prop := ∀ s c, scanContent s ≠ .outside c

/-- It does: the four bytes F7 BF BF BF are accepted as the code point 0x1FFFFF. -/
theorem C48_false : ¬ ScanStaysInside := by
  intro h
  exact h [0xf7, 0xbf, 0xbf, 0xbf] 0x1fffff (by decide +kernel)

theorem scanLoop_eq (cps : List Nat) (h : ∀ c ∈ cps, c < 0x110000) : ∀ fuel acc, (utf8Text cps).length < fuel →
    scanLoop fuel (utf8Text cps) acc = .used (acc.reverse ++ cps) := by
  induction cps with
  | nil =>
    intro fuel acc hf
    cases fuel with
    | zero => simp at hf
    | succ n => simp [scanLoop, utf8Text]
  | cons c t ih =>
    intro fuel acc hf
    cases fuel with
    | zero => simp at hf
    | succ n =>
      have hlen : (utf8Text t).length < n := by
        rw [utf8Text_cons, List.length_append, List.length_map] at hf
        have := List.length_pos_iff.2 (rfc3629_ne_nil c)
        omega
      have hc := h c (by simp)
      unfold scanLoop
      rw [if_neg (utf8Text_cons_ne c t), utf8Text_cons, decode_rfc3629 c hc]
      dsimp only
      rw [if_neg (by simp), if_neg (by omega), drop_rfc3629, ih (fun x hx => h x (by simp [hx])) n _ hlen]
      simp

/-- Scanning a text in UTF-8 stays inside the table and finds exactly the characters of the text. -/
theorem C48_scan_partial (cps : List Nat) (h : ∀ c ∈ cps, c < 0x110000) : scanContent (utf8Text cps) = .used cps := by
  unfold scanContent
  rw [scanLoop_eq cps h _ _ (by omega)]
  rfl

/-- The only way to leave the table is a four byte sequence whose first byte is at least F4. -/
theorem C48_outside_cause (s : List Byte) (c : Nat) (h : scanContent s = .outside c) :
    ∃ a b d : List Byte, ∃ x : Byte, s = a ++ x :: (b ++ d) ∧ 0xf4 ≤ x ∧ x ≤ 0xf7 ∧ b.length = 3 := by
  have key : ∀ fuel s acc, scanLoop fuel s acc = .outside c →
      ∃ a b d : List Byte, ∃ x : Byte, s = a ++ x :: (b ++ d) ∧ 0xf4 ≤ x ∧ x ≤ 0xf7 ∧ b.length = 3 := by
    intro fuel
    induction fuel with
    | zero => intro s acc h; simp [scanLoop] at h
    | succ n ih =>
      intro s acc h
      unfold scanLoop at h
      by_cases hs : s = []
      · rw [if_pos hs] at h; cases h
      · rw [if_neg hs] at h
        dsimp only at h
        by_cases hok : (decodeUtf8 s).ok = false
        · rw [if_pos hok] at h; cases h
        · rw [if_neg hok] at h
          by_cases hc : (decodeUtf8 s).char ≥ 0x110000
          · clear h ih
            rcases decode_ok_cases s hs (by simpa using hok) with ⟨x, t, rfl, hx⟩ | ⟨x, y, t, rfl, hx, hy⟩ | ⟨x, y, z, t, rfl, hx, hy, hz⟩ | ⟨x, y, z, w, t, rfl, hx, hy, hz, hw⟩
            · rw [decode_one x t hx] at hc; simp at hc; omega
            · rw [decode_two x y t hx hy] at hc; simp at hc; omega
            · rw [decode_three x y z t hx hy hz] at hc; simp at hc; omega
            · rw [decode_four x y z w t hx hy hz hw] at hc
              simp at hc
              refine ⟨[], [y, z, w], t, x, rfl, ?_, ?_, rfl⟩
              · rw [UInt8.le_iff_toNat_le]; simp; omega
              · rw [UInt8.le_iff_toNat_le]; simp; omega
          · rw [if_neg hc] at h
            obtain ⟨a, b, d, x, e, r⟩ := ih _ _ h
            refine ⟨s.take (decodeUtf8 s).len ++ a, b, d, x, ?_, r⟩
            rw [List.append_assoc, ← e, List.take_append_drop]
  exact key _ _ _ h

end Xmq.Props
