import Verif.Lemmas.Quote
/-!
# Scanning of comments
-/
namespace Xmq
open Spec

theorem countXmqSlashes_run {k : Nat} {t : List Byte} (ht : t.head? ≠ some 47) :
    countXmqSlashes (List.replicate k 47 ++ t) = (k, peek t == 42) := by
  unfold countXmqSlashes; rw [takeWhile_run ht, dropWhile_run ht]; simp

theorem star_prefix {n : Nat} {cc c : Byte} {b : List Byte} (hn : 0 < n) (h : ¬ (cc = 42 ∧ c = 47)) :
    (42 :: List.replicate n 47) <:+: (cc :: c :: b) ↔ (42 :: List.replicate n 47) <:+: (c :: b) := by
  rw [List.infix_cons_iff]
  constructor
  · rintro (hp | hp)
    · exfalso; apply h
      obtain ⟨n, rfl⟩ : ∃ j, n = j + 1 := ⟨n - 1, by omega⟩
      simp [List.replicate_succ, List.cons_prefix_cons] at hp
      exact ⟨hp.1.symm, hp.2.1.symm⟩
    · exact hp
  · exact Or.inr

theorem commentScan_closed_iff (n m : Nat) (hn : 0 < n) (cc : Byte) (s : List Byte) :
    commentScan n cc s = .closed m ↔
      ∃ body rest, s = body ++ (List.replicate n 47 ++ rest) ∧ body.length = m ∧ rest.head? ≠ some 47 ∧
        (cc :: body).getLast? = some 42 ∧ ¬ (42 :: List.replicate n 47) <:+: (cc :: body) := by
  induction s generalizing cc m with
  | nil =>
    simp only [commentScan, reduceCtorEq, false_iff]
    rintro ⟨body, rest, h, -⟩
    have := congrArg List.length h
    simp at this; omega
  | cons c t ih =>
    have step : ∀ (hq : ∀ body rest, c :: t = body ++ (List.replicate n 47 ++ rest) → rest.head? ≠ some 47 →
          (cc :: body).getLast? = some 42 → body ≠ []) 
        (hi : ∀ b rest, t = b ++ (List.replicate n 47 ++ rest) → rest.head? ≠ some 47 → (c :: b).getLast? = some 42 →
         ((42 :: List.replicate n 47) <:+: (cc :: c :: b) ↔ (42 :: List.replicate n 47) <:+: (c :: b))),
        ((commentScan n c t).succ = .closed m ↔
      ∃ body rest, c :: t = body ++ (List.replicate n 47 ++ rest) ∧ body.length = m ∧ rest.head? ≠ some 47 ∧
        (cc :: body).getLast? = some 42 ∧ ¬ (42 :: List.replicate n 47) <:+: (cc :: body)) := by
      intro hq hi
      constructor
      · intro h
        cases hs : commentScan n c t with
        | closed m' =>
          rw [hs] at h; simp [Scan.succ] at h
          obtain ⟨body, rest, he, hb, hr, hl, hp⟩ := (ih m' c).1 hs
          refine ⟨c :: body, rest, by simp [he], by simp; omega, hr, ?_, ?_⟩
          · rw [List.getLast?_cons_cons]; exact hl
          · rw [hi body rest he hr hl]; exact hp
        | notClosed => rw [hs] at h; cases h
        | tooMany => rw [hs] at h; cases h
      · rintro ⟨body, rest, he, hb, hr, hl, hp⟩
        have hne := hq body rest he hr hl
        cases body with
        | nil => exact absurd rfl hne
        | cons a body =>
          simp at he
          obtain ⟨rfl, he⟩ := he
          rw [List.getLast?_cons_cons] at hl
          have he' : t = body ++ (List.replicate n 47 ++ rest) := by simpa using he
          have := (ih body.length c).2 ⟨body, rest, he', rfl, hr, hl, by rwa [hi body rest he' hr hl] at hp⟩
          rw [this]; simp [Scan.succ] at hb ⊢; omega
    by_cases hcc : cc = 42 ∧ c = 47
    · obtain ⟨rfl, rfl⟩ := hcc
      rw [commentScan, if_neg (by simp)]
      obtain ⟨k, u, hs, hu, -, -⟩ := takeRun 47 (47 :: t)
      have hcnt : (countXmqSlashes (47 :: t)).1 = k := by rw [hs, countXmqSlashes_run hu]
      simp only [hcnt]
      -- a longer run than n cannot be split
      have key : ∀ body rest, 47 :: t = body ++ (List.replicate n 47 ++ rest) → rest.head? ≠ some 47 →
          (42 :: body).getLast? = some 42 → n ≤ k → body ≠ [] → (42 :: List.replicate n 47) <:+: (42 :: body) := by
        intro body rest he hr hl hk hne
        by_cases hb : n ≤ body.length
        · refine ⟨[], body.drop n, ?_⟩
          rw [hs] at he
          have := congrArg (List.take n) he
          rw [List.take_append_of_le_length (by simp; omega), List.take_append_of_le_length hb] at this
          rw [List.take_replicate, Nat.min_eq_left hk] at this
          simp only [List.nil_append, List.cons_append, this, List.take_append_drop]
        · exfalso
          rw [hs] at he
          have := congrArg (List.take body.length) he
          rw [List.take_append_of_le_length (by simp; omega), List.take_left, List.take_replicate,
            Nat.min_eq_left (by omega)] at this
          have hpos : 0 < body.length := List.length_pos_iff.2 hne
          obtain ⟨j, hj⟩ : ∃ j, body.length = j + 1 := ⟨body.length - 1, by omega⟩
          rw [hj, List.replicate_succ'] at this
          rw [← this] at hl
          have h2 : (42 :: (List.replicate j 47 ++ [47]) : List Byte).getLast? = some 47 := by
            rw [← List.cons_append, List.getLast?_append]; rfl
          rw [h2] at hl; simp at hl
      have nilrun : ∀ rest, 47 :: t = [] ++ (List.replicate n 47 ++ rest) → rest.head? ≠ some 47 → k = n := by
        intro rest he hr
        rw [List.nil_append] at he
        rw [he, countXmqSlashes_run hr] at hcnt
        exact hcnt.symm
      split
      · rename_i hkn
        refine step ?_ ?_
        · rintro body rest he hr hl rfl
          have := nilrun rest he hr; omega
        · intro b rest he hr hl
          rw [List.infix_cons_iff]
          constructor
          · rintro (hp | hp)
            · exfalso
              -- then the run would have at least n slashes
              rw [List.cons_prefix_cons] at hp
              obtain ⟨x, hx⟩ := hp.2
              have h1 : (47 :: t : List Byte) = List.replicate n 47 ++ (x ++ (List.replicate n 47 ++ rest)) := by
                rw [he, ← List.cons_append, ← hx]; simp
              have h2 : n ≤ ((47 :: t : List Byte).takeWhile (· == 47)).length := by
                rw [h1, List.takeWhile_append_of_pos (by simp)]; simp
              have : ((47 :: t : List Byte).takeWhile (· == 47)).length = k := hcnt
              omega
            · exact hp
          · exact Or.inr
      · split
        · rename_i hkn
          simp only [reduceCtorEq, false_iff]
          rintro ⟨body, rest, he, hb, hr, hl, hp⟩
          by_cases hbe : body = []
          · subst hbe
            have := nilrun rest he hr; omega
          · exact hp (key body rest he hr hl (by omega) hbe)
        · have hkn : k = n := by omega
          constructor
          · intro h
            simp at h
            refine ⟨[], u, by rw [hs, hkn]; rfl, by simp [h], hu, rfl, ?_⟩
            intro hp
            have := hp.length_le
            simp at this; omega
          · rintro ⟨body, rest, he, hb, hr, hl, hp⟩
            by_cases hbe : body = []
            · subst hbe; simp at hb; rw [← hb]
            · exact absurd (key body rest he hr hl (by omega) hbe) hp
    · rw [commentScan, if_pos (by simp; grind)]
      refine step ?_ ?_
      · rintro body rest he hr hl rfl
        apply hcc
        obtain ⟨n, rfl⟩ : ∃ j, n = j + 1 := ⟨n - 1, by omega⟩
        simp [List.replicate_succ] at he
        simp at hl
        exact ⟨hl, he.1⟩
      · intro b rest _ _ _
        exact star_prefix hn hcc

end Xmq
