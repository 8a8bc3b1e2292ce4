import Verif.Model.Lexer
import Verif.Spec.Runs
/-!
# Scanning of quotes
-/
namespace Xmq
open Spec

theorem replicate_infix_iff (q : Byte) (d : Nat) (s : List Byte) :
    List.replicate d q <:+: s ↔ ∃ j, j + d ≤ s.length ∧ ∀ i, i < d → s[j + i]? = some q := by
  constructor
  · rintro ⟨a, b, rfl⟩
    refine ⟨a.length, by simp, fun i hi => ?_⟩
    simp [List.getElem?_append, hi]
  · rintro ⟨j, hj, h⟩
    refine ⟨s.take j, s.drop (j + d), ?_⟩
    apply List.ext_getElem?
    intro i
    simp only [List.getElem?_append, List.length_take, List.length_append, List.length_replicate,
      List.getElem?_replicate, List.getElem?_take, List.getElem?_drop]
    rw [Nat.min_eq_left (by omega)]
    split
    · split
      · rfl
      · rw [if_pos (by omega), ← h (i - j) (by omega)]; congr 1; omega
    · congr 1; omega

theorem noRun_cons {q c : Byte} {d : Nat} {s : List Byte} (hd : 0 < d) (hc : c ≠ q) :
    NoRun q d (c :: s) ↔ NoRun q d s := by
  unfold NoRun
  refine not_congr ?_
  rw [replicate_infix_iff, replicate_infix_iff]
  constructor
  · rintro ⟨j, hj, h⟩
    cases j with
    | zero => have := h 0 hd; simp at this; exact absurd this hc
    | succ j =>
      refine ⟨j, by simpa [Nat.add_right_comm] using hj, fun i hi => ?_⟩
      have := h i hi
      rwa [Nat.add_right_comm, List.getElem?_cons_succ] at this
  · rintro ⟨j, hj, h⟩
    refine ⟨j + 1, by simp; omega, fun i hi => ?_⟩
    rw [Nat.add_right_comm, List.getElem?_cons_succ]; exact h i hi

theorem noRun_run {q : Byte} {d k : Nat} {s : List Byte} (hk : k < d) (hs : s.head? ≠ some q) :
    NoRun q d (List.replicate k q ++ s) ↔ NoRun q d s := by
  unfold NoRun
  refine not_congr ?_
  rw [replicate_infix_iff, replicate_infix_iff]
  constructor
  · rintro ⟨j, hj, h⟩
    by_cases hjk : j ≤ k
    · have := h (k - j) (by omega)
      rw [show j + (k - j) = k by omega] at this
      simp [List.getElem?_append] at this
      cases s <;> simp_all
    · refine ⟨j - k, by simp at hj; omega, fun i hi => ?_⟩
      have := h i hi
      rw [List.getElem?_append_right (by simp; omega)] at this
      rw [← this]; congr 1; simp; omega
  · rintro ⟨j, hj, h⟩
    refine ⟨k + j, by simp; omega, fun i hi => ?_⟩
    rw [List.getElem?_append_right (by simp; omega), ← h i hi]
    congr 1; simp; omega

theorem noRun_nil {q : Byte} {d : Nat} (hd : 0 < d) : NoRun q d [] := by
  simp only [NoRun, List.infix_nil, List.replicate_eq_nil_iff]; omega

/-- The leading run of `q` splits off. -/
theorem takeRun (q : Byte) (s : List Byte) :
    ∃ k t, s = List.replicate k q ++ t ∧ t.head? ≠ some q ∧ (s.takeWhile (· == q)).length = k ∧
      s.dropWhile (· == q) = t := by
  refine ⟨(s.takeWhile (· == q)).length, s.dropWhile (· == q), ?_, ?_, rfl, rfl⟩
  · conv => lhs; rw [← List.takeWhile_append_dropWhile (p := (· == q)) (l := s)]
    congr 1
    rw [List.eq_replicate_iff]
    refine ⟨rfl, fun b hb => ?_⟩
    simpa using (List.all_eq_true.1 (List.all_takeWhile (p := (· == q)) (l := s))) b hb
  · intro h
    have := List.head?_dropWhile_not (· == q) s
    rw [h] at this; simp at this

theorem takeWhile_run {q : Byte} {k : Nat} {t : List Byte} (ht : t.head? ≠ some q) :
    ((List.replicate k q ++ t).takeWhile (· == q)) = List.replicate k q := by
  have : t.takeWhile (· == q) = [] := by
    cases t with
    | nil => rfl
    | cons a t => simp at ht; simp [ht]
  rw [List.takeWhile_append_of_pos (by simp), this]; simp

theorem dropWhile_run {q : Byte} {k : Nat} {t : List Byte} (ht : t.head? ≠ some q) :
    ((List.replicate k q ++ t).dropWhile (· == q)) = t := by
  rw [List.dropWhile_append_of_pos (by simp)]
  cases t with
  | nil => rfl
  | cons a t => simp at ht; simp [ht]

theorem countXmqQuotes_run {k : Nat} {t : List Byte} (ht : t.head? ≠ some 39) :
    countXmqQuotes (List.replicate k 39 ++ t) = k := by
  unfold countXmqQuotes; rw [takeWhile_run ht]; simp

/-- Skipping shifts the result. -/
def Scan.shift (k : Nat) : Scan → Scan
  | .closed n => .closed (n + k)
  | s => s

theorem Scan.succ_shift (k : Nat) (s : Scan) : (s.shift k).succ = s.shift (k + 1) := by
  cases s <;> simp [Scan.shift, Scan.succ, Nat.add_assoc]

theorem quoteScan_skip (d k : Nat) (s t : List Byte) (hs : s.length = k) :
    quoteScan d k (s ++ t) = (quoteScan d 0 t).shift k := by
  induction k generalizing s with
  | zero =>
    cases s with
    | nil => cases h : quoteScan d 0 t <;> simp [h, Scan.shift]
    | cons _ _ => simp at hs
  | succ k ih =>
    cases s with
    | nil => simp at hs
    | cons c s =>
      simp only [List.cons_append, quoteScan]
      rw [ih s (by simpa using hs), Scan.succ_shift]

theorem quoteScan_ne (d : Nat) (c : Byte) (s : List Byte) (hc : c ≠ 39) :
    quoteScan d 0 (c :: s) = (quoteScan d 0 s).shift 1 := by
  rw [quoteScan, if_pos (by simp [hc])]; cases quoteScan d 0 s <;> rfl

theorem quoteScan_run (d k : Nat) (t : List Byte) (hk : 0 < k) (ht : t.head? ≠ some 39) :
    quoteScan d 0 (List.replicate k 39 ++ t) =
      if k > d then .tooMany else if k < d then (quoteScan d 0 t).shift k else .closed 0 := by
  obtain ⟨k, rfl⟩ : ∃ j, k = j + 1 := ⟨k - 1, by omega⟩
  have hc : countXmqQuotes (39 :: (List.replicate k 39 ++ t)) = k + 1 := by
    rw [← List.cons_append, ← List.replicate_succ]; exact countXmqQuotes_run ht
  rw [List.replicate_succ, List.cons_append, quoteScan]
  simp only [hc]
  rw [if_neg (by simp)]
  split
  · rfl
  · split
    · rw [Nat.add_sub_cancel, quoteScan_skip d k _ t (by simp), Scan.succ_shift]
    · rfl

/-- Exactly the well delimited texts are scanned to their end. -/
theorem quoteScan_closed_iff (d n : Nat) (hd : 0 < d) (s : List Byte) :
    quoteScan d 0 s = .closed n ↔
      ∃ body rest, s = body ++ (List.replicate d 39 ++ rest) ∧ body.length = n ∧ rest.head? ≠ some 39 ∧
        NoRun 39 d body ∧ body.getLast? ≠ some 39 := by
  induction hlen : s.length using Nat.strongRecOn generalizing s n with
  | _ len ih =>
  subst hlen
  cases s with
  | nil =>
    simp only [quoteScan, reduceCtorEq, false_iff]
    rintro ⟨body, rest, h, -⟩
    have := congrArg List.length h
    simp at this; omega
  | cons c s =>
    by_cases hc : c = 39
    · subst hc
      obtain ⟨k, t, hs, ht, -, -⟩ := takeRun 39 (39 :: s)
      have hk : 0 < k := by
        rcases Nat.eq_zero_or_pos k with rfl | h
        · simp at hs; subst hs; simp at ht
        · exact h
      rw [hs, quoteScan_run d k t hk ht]
      constructor
      · intro h
        split at h
        · cases h
        · split at h
          · rename_i hkd
            cases hq : quoteScan d 0 t with
            | closed m =>
              rw [hq] at h; simp [Scan.shift] at h
              obtain ⟨body, rest, rfl, hb, hr, hn, hl⟩ := (ih t.length (by rw [hs]; simp; omega) m t rfl).1 hq
              have hbody : body ≠ [] := by
                rintro rfl
                obtain ⟨d, rfl⟩ : ∃ j, d = j + 1 := ⟨d - 1, by omega⟩
                simp [List.replicate_succ] at ht
              have hb0 : body.head? ≠ some 39 := by
                cases body with
                | nil => simp
                | cons a l => simpa using ht
              refine ⟨List.replicate k 39 ++ body, rest, by simp, by simp; omega, hr, ?_, ?_⟩
              · exact (noRun_run hkd hb0).2 hn
              · cases hgl : body.getLast? with
                | none => simp at hgl; exact absurd hgl hbody
                | some x => simp [hgl] at hl ⊢; exact hl
            | notClosed => rw [hq] at h; cases h
            | tooMany => rw [hq] at h; cases h
          · have hkd : k = d := by omega
            simp at h
            exact ⟨[], t, by simp [hkd], by simp [h], ht, noRun_nil hd, by simp⟩
      · rintro ⟨body, rest, h, hb, hr, hn, hl⟩
        by_cases hbe : body = []
        · subst hbe
          simp only [List.nil_append] at h
          have e : k = d := by
            have h1 := congrArg countXmqQuotes h
            rwa [countXmqQuotes_run ht, countXmqQuotes_run hr] at h1
          simp at hb
          rw [if_neg (by omega), if_neg (by omega), ← hb]
        · obtain ⟨k', t', hs', ht', -, -⟩ := takeRun 39 body
          have ht0 : t' ≠ [] := by
            rintro rfl
            simp at hs'
            subst hs'
            rcases Nat.eq_zero_or_pos k' with rfl | hk'
            · simp at hbe
            · apply hl
              obtain ⟨j, rfl⟩ : ∃ j, k' = j + 1 := ⟨k' - 1, by omega⟩
              rw [List.replicate_succ']; simp
          have hh : (t' ++ (List.replicate d 39 ++ rest)).head? ≠ some 39 := by
            cases t' with
            | nil => exact absurd rfl ht0
            | cons a l => simpa using ht'
          rw [hs', List.append_assoc] at h
          have hkk : k = k' := by
            have h1 := congrArg countXmqQuotes h
            rwa [countXmqQuotes_run ht, countXmqQuotes_run hh] at h1
          subst hkk
          have hteq : t = t' ++ (List.replicate d 39 ++ rest) := List.append_cancel_left h
          have hkd : k < d := by
            rcases Nat.lt_or_ge k d with h' | h'
            · exact h'
            · exfalso
              apply hn
              rw [hs']
              refine ⟨[], List.replicate (k - d) 39 ++ t', ?_⟩
              rw [List.nil_append, ← List.append_assoc, List.replicate_append_replicate]
              congr 2; omega
          rw [if_neg (by omega), if_pos hkd]
          have hl' : t'.getLast? ≠ some 39 := by
            cases hgl : t'.getLast? with
            | none => simp
            | some x => rw [hs'] at hl; simp [hgl] at hl ⊢; exact hl
          have := (ih t.length (by rw [hs]; simp; omega) t'.length t rfl).2
            ⟨t', rest, hteq, rfl, hr, (noRun_run hkd ht').1 (hs' ▸ hn), hl'⟩
          rw [this]
          simp only [Scan.shift, Scan.closed.injEq]
          rw [← hb, hs']; simp; omega
    · rw [quoteScan_ne d c s hc]
      constructor
      · intro h
        cases hq : quoteScan d 0 s with
        | closed m =>
          rw [hq] at h; simp [Scan.shift] at h
          obtain ⟨body, rest, rfl, hb, hr, hn, hl⟩ := (ih s.length (by simp) m s rfl).1 hq
          refine ⟨c :: body, rest, by simp, by simp; omega, hr, (noRun_cons hd hc).2 hn, ?_⟩
          cases body with
          | nil => simpa using hc
          | cons a l => simpa [List.getLast?_cons_cons] using hl
        | notClosed => rw [hq] at h; cases h
        | tooMany => rw [hq] at h; cases h
      · rintro ⟨body, rest, h, hb, hr, hn, hl⟩
        cases body with
        | nil =>
          obtain ⟨d, rfl⟩ : ∃ j, d = j + 1 := ⟨d - 1, by omega⟩
          simp [List.replicate_succ] at h; exact absurd h.1 hc
        | cons a body =>
          simp at h
          obtain ⟨rfl, h⟩ := h
          have := (ih s.length (by simp) body.length s rfl).2
            ⟨body, rest, by simpa using h, rfl, hr, (noRun_cons hd hc).1 hn, by
              cases body with
              | nil => simp
              | cons a l => simpa [List.getLast?_cons_cons] using hl⟩
          rw [this]; simp [Scan.shift] at hb ⊢; omega

end Xmq
