import Verif.Lemmas.Walk
import Verif.Lemmas.Comment
/-!
# What each `eat_*` function consumes
-/
namespace Xmq
open Spec

theorem nameByte_iff (c : Byte) : isXmqTextName c = true ↔ NameByte c := by
  revert c
  apply forall_byte (P := fun c => isXmqTextName c = true ↔ NameByte c)
  unfold NameByte; decide +kernel

theorem lowerHex_iff (c : Byte) : isLowercaseHex c = true ↔ LowerHexByte c := by
  revert c
  apply forall_byte (P := fun c => isLowercaseHex c = true ↔ LowerHexByte c)
  unfold LowerHexByte; decide +kernel

theorem nameByte_walk (c : Byte) (h : NameByte c) : isCont c = false ∧ c ≠ 10 := by
  rw [← nameByte_iff] at h
  revert h; revert c
  apply forall_byte (P := fun c => isXmqTextName c = true → isCont c = false ∧ c ≠ 10)
  decide +kernel

theorem walk_name (p : Nat × Nat) (s : List Byte) (h : ∀ b ∈ s, NameByte b) : walk p s = (p.1, p.2 + s.length) := by
  induction s generalizing p with
  | nil => rfl
  | cons c s ih =>
    have hc := nameByte_walk c (h c (by simp))
    rw [walk_cons, ih _ (fun b hb => h b (by simp [hb]))]
    simp [incPos, hc.1, hc.2]; omega

theorem peek_eq_head? (s : List Byte) (c : Byte) (hc : c ≠ 0) : peek s = c ↔ s.head? = some c := by
  cases s with
  | nil => simp; exact Ne.symm hc
  | cons a s => simp

/-- Split a list at the first element that does not satisfy `p`. -/
theorem span_spec {α : Type _} (p : α → Bool) (s : List α) :
    ∃ a b, s = a ++ b ∧ s.takeWhile p = a ∧ s.dropWhile p = b ∧ (∀ x ∈ a, p x = true) ∧
      (∀ x, b.head? = some x → p x = false) := by
  refine ⟨s.takeWhile p, s.dropWhile p, by simp, rfl, rfl, ?_, ?_⟩
  · intro x hx
    exact (List.all_eq_true.1 (List.all_takeWhile (p := p) (l := s))) x hx
  · intro x hx
    have := List.head?_dropWhile_not p s
    rw [hx] at this; simpa using this

theorem eatXmqQuote_spec (st : St) (hp : peek st.rest = 39) (st' : St) (n : Nat)
    (h : eatXmqQuote st = .ok (st', n)) :
    0 < n ∧ n ≤ st.rest.length ∧ st' = st.moved n ∧ QuoteText (st.rest.take n) := by
  obtain ⟨d, t, hs, ht, hd, -⟩ := takeRun 39 st.rest
  have hdep : countXmqQuotes st.rest = d := hd
  have hpos : 0 < d := by
    rcases Nat.eq_zero_or_pos d with rfl | h
    · simp at hs; rw [hs] at hp; rw [peek_eq_head? _ _ (by decide)] at hp; exact absurd hp ht
    · exact h
  unfold eatXmqQuote at h
  simp only [hdep] at h
  split at h
  · rename_i h2
    simp only [Except.ok.injEq, Prod.mk.injEq] at h
    obtain ⟨rfl, rfl⟩ := h
    have hle : 2 ≤ st.rest.length := by rw [hs]; simp; omega
    refine ⟨by omega, hle, advance_eq _ _ hle, ?_⟩
    rw [hs, h2]; exact .empty
  · rename_i h2
    split at h
    · cases h
    · cases h
    · rename_i m hscan
      simp only [Except.ok.injEq, Prod.mk.injEq] at h
      obtain ⟨rfl, rfl⟩ := h
      rw [quoteScan_closed_iff d m hpos] at hscan
      obtain ⟨body, rest, he, hb, hr, hn, hl⟩ := hscan
      have htd : st.rest.drop d = t := by rw [hs]; simp [List.drop_left']
      rw [htd] at he
      have hle : d + m + d ≤ st.rest.length := by rw [hs, he]; simp; omega
      refine ⟨by omega, hle, advance_eq _ _ hle, ?_⟩
      have htake : st.rest.take (d + m + d) = List.replicate d 39 ++ (body ++ List.replicate d 39) := by
        rw [hs, he, show List.replicate d 39 ++ (body ++ (List.replicate d 39 ++ rest)) =
          (List.replicate d 39 ++ (body ++ List.replicate d 39)) ++ rest by simp]
        exact List.take_left' (by simp; omega)
      rw [htake]
      have hbne : body ≠ [] := by
        rintro rfl
        obtain ⟨j, rfl⟩ : ∃ j, d = j + 1 := ⟨d - 1, by omega⟩
        rw [he] at ht; simp [List.replicate_succ] at ht
      refine .full d body hpos h2 hbne ?_ hl hn
      rw [he] at ht
      cases body with
      | nil => exact absurd rfl hbne
      | cons a b => simpa using ht

theorem eatXmqEntity_spec (st : St) (hp : peek st.rest = 38) (st' : St) (n : Nat)
    (h : eatXmqEntity st = .ok (st', n)) :
    0 < n ∧ n ≤ st.rest.length ∧ st' = st.moved n ∧ EntityText (st.rest.take n) := by
  obtain ⟨t, hs⟩ : ∃ t, st.rest = 38 :: t := by
    cases hr : st.rest with
    | nil => rw [hr] at hp; simp at hp
    | cons a t => rw [hr] at hp; simp at hp; exact ⟨t, by rw [hp]⟩
  obtain ⟨a, b, ht, h1, h2, ha, -⟩ := span_spec isXmqTextName t
  unfold eatXmqEntity at h
  simp only [hs, List.drop_succ_cons, List.drop_zero, h1, h2] at h
  rw [hs, ht]
  split at h
  · rename_i hsemi
    simp only [Except.ok.injEq, Prod.mk.injEq] at h
    obtain ⟨rfl, rfl⟩ := h
    simp only [beq_iff_eq] at hsemi
    obtain ⟨u, rfl⟩ : ∃ u, b = 59 :: u := by
      cases b with
      | nil => simp at hsemi
      | cons a v => simp at hsemi; exact ⟨v, by rw [hsemi]⟩
    have hle : 1 + a.length + 1 ≤ st.rest.length := by
      rw [hs, ht]; simp; omega
    refine ⟨by omega, by simp; omega, advance_eq _ _ hle, ?_⟩
    rw [show (38 :: (a ++ 59 :: u) : List Byte) = (38 :: (a ++ [59])) ++ u by simp,
      List.take_left' (by simp; omega)]
    exact .closed _ (fun b hb => (nameByte_iff b).1 (ha b hb))
  · split at h
    · cases h
    · rename_i hh
      simp only [Except.ok.injEq, Prod.mk.injEq] at h
      obtain ⟨rfl, rfl⟩ := h
      have hle : 1 + a.length ≤ st.rest.length := by
        rw [hs, ht]; simp; omega
      refine ⟨by omega, by simp; omega, advance_eq _ _ hle, ?_⟩
      rw [← List.cons_append, List.take_left' (by simp; omega)]
      refine .bare _ (fun b hb => ?_)
      rw [← lowerHex_iff]
      simp only [Bool.not_eq_true, List.any_eq_false] at hh
      simpa using hh b hb

theorem head_dropWhile_left {p : Byte → Bool} {a b : List Byte} {c : Byte} (h : (a.dropWhile p).head? = some c) :
    ((a ++ b).dropWhile p).head? = some c := by
  induction a with
  | nil => cases h
  | cons x a ih =>
    rw [List.cons_append, List.dropWhile_cons]
    rw [List.dropWhile_cons] at h
    split
    · rename_i hx
      rw [if_pos hx] at h
      exact ih h
    · rename_i hx
      rw [if_neg hx] at h
      exact h

theorem eatXmqCommentToEol_spec (st : St) (t : List Byte) (hs : st.rest = 47 :: 47 :: t) (hc : (countXmqSlashes st.rest).2 = false) :
    let n := (eatXmqCommentToEol st).2
    0 < n ∧ n ≤ st.rest.length ∧ (eatXmqCommentToEol st).1 = st.moved n ∧ CommentText (st.rest.take n) := by
  obtain ⟨a, b, ht, h1, h2, ha, -⟩ := span_spec (· != (10 : Byte)) t
  have hno : 10 ∉ a := by
    intro hb; have := ha 10 hb; simp at this
  have hstar : (a.dropWhile (· == 47)).head? ≠ some 42 := by
    intro h
    have h := head_dropWhile_left (b := b) h
    rw [← ht] at h
    rw [hs] at hc
    simp only [countXmqSlashes, List.dropWhile_cons, beq_self_eq_true, if_true] at hc
    cases hd : t.dropWhile (· == 47) with
    | nil => rw [hd] at h; cases h
    | cons x u =>
      rw [hd] at h hc
      simp only [List.head?_cons, Option.some.injEq] at h
      subst h
      simp at hc
  unfold eatXmqCommentToEol
  simp only [hs, List.drop_succ_cons, List.drop_zero, h1, h2]
  rw [ht]
  by_cases hnl : peek b = 10
  · obtain ⟨u, rfl⟩ : ∃ u, b = 10 :: u := by
      cases b with
      | nil => simp at hnl
      | cons a v => simp at hnl; exact ⟨v, by rw [hnl]⟩
    simp only [peek_cons, beq_self_eq_true, if_true]
    have hle : 2 + a.length + 1 ≤ st.rest.length := by
      rw [hs, ht]; simp; omega
    refine ⟨by omega, by simp; omega, advance_eq _ _ hle, ?_⟩
    rw [show (47 :: 47 :: (a ++ 10 :: u) : List Byte) = (47 :: 47 :: (a ++ [10])) ++ u by simp,
      List.take_left' (by simp; omega)]
    exact .lineNl _ hno hstar
  · have hnl' : (peek b == 10) = false := by simpa using hnl
    simp only [hnl', Nat.add_zero, Bool.false_eq_true, if_false]
    have hle : 2 + a.length ≤ st.rest.length := by
      rw [hs, ht]; simp; omega
    refine ⟨by omega, by simp; omega, advance_eq _ _ hle, ?_⟩
    rw [← List.cons_append, ← List.cons_append, List.take_left' (by simp; omega)]
    exact .line _ hno hstar

theorem eatXmqCommentToEol_end (st : St) (t : List Byte) (hs : st.rest = 47 :: 47 :: t) :
    EndsAt .comment (st.rest.take (eatXmqCommentToEol st).2) (st.rest.drop (eatXmqCommentToEol st).2) := by
  obtain ⟨a, b, ht, h1, h2, ha, hb⟩ := span_spec (· != (10 : Byte)) t
  unfold eatXmqCommentToEol
  simp only [hs, List.drop_succ_cons, List.drop_zero, h1, h2]
  intro body h hno _
  cases b with
  | nil =>
    rw [ht]
    simp
    omega
  | cons x u =>
    have hx : x = 10 := by simpa using hb x rfl
    subst hx
    exfalso
    apply hno
    rw [ht] at h
    simp only [peek_cons, beq_self_eq_true, if_true] at h
    rw [show (47 :: 47 :: (a ++ 10 :: u) : List Byte) = (47 :: 47 :: (a ++ [10])) ++ u by simp,
      List.take_left' (by simp; omega)] at h
    have := (List.cons.inj (List.cons.inj h).2).2
    rw [← this]; simp

theorem commentScan_body {n m : Nat} {s : List Byte} (hn : 0 < n) (h : commentScan n 0 s = .closed m) :
    ∃ body rest, s = body ++ 42 :: (List.replicate n 47 ++ rest) ∧ body.length + 1 = m ∧ rest.head? ≠ some 47 ∧
      ¬ (42 :: List.replicate n 47) <:+: body := by
  obtain ⟨b, rest, he, hb, hr, hl, hp⟩ := (commentScan_closed_iff n m hn 0 s).1 h
  obtain ⟨body, rfl⟩ : ∃ body, b = body ++ [42] := by
    cases b with
    | nil => simp at hl
    | cons a b =>
      rw [List.getLast?_cons_cons, List.getLast?_eq_some_iff] at hl
      obtain ⟨ys, hy⟩ := hl
      exact ⟨ys, hy⟩
  refine ⟨body, rest, by simp [he], by simpa using hb, hr, fun hh => hp ?_⟩
  exact hh.trans ⟨[0], [42], by simp⟩

theorem commentText_block_end (st : St) (k : Nat) (hk : 0 < k) (t : List Byte)
    (hs : st.rest = List.replicate k 47 ++ 42 :: t) (st' : St) (n : Nat) (f : Bool)
    (h : eatXmqCommentToClose st k = .ok (st', n, f)) (r : List Byte) : EndsAt .comment (st.rest.take n) r := by
  have hp : peek st.rest = 47 := by
    rw [hs]; obtain ⟨j, rfl⟩ : ∃ j, k = j + 1 := ⟨k - 1, by omega⟩; simp [List.replicate_succ]
  have hn : k < n := by
    unfold eatXmqCommentToClose at h
    simp only [hp, beq_self_eq_true, if_true] at h
    split at h
    · cases h
    · cases h
    · simp only [Except.ok.injEq, Prod.mk.injEq] at h
      omega
  intro body hb _ h42
  exfalso
  obtain ⟨m, rfl⟩ : ∃ m, n = k + (m + 1) := ⟨n - k - 1, by omega⟩
  rw [hs, List.take_append, List.take_of_length_le (by simp), List.length_replicate, Nat.add_sub_cancel_left, List.take_succ_cons] at hb
  obtain ⟨j, rfl⟩ : ∃ j, k = j + 1 := ⟨k - 1, by omega⟩
  cases j with
  | zero => simp [List.replicate_succ] at hb
  | succ j =>
    simp only [List.replicate_succ, List.cons_append, List.cons.injEq, true_and] at hb
    apply h42
    rw [← hb, List.dropWhile_append_of_pos (by intro x hx; simp [List.eq_of_mem_replicate hx])]
    simp

theorem eatXmqCommentToClose_open_spec (st : St) (k : Nat) (hk : 0 < k) (t : List Byte)
    (hs : st.rest = List.replicate k 47 ++ 42 :: t) (st' : St) (n : Nat) (f : Bool)
    (h : eatXmqCommentToClose st k = .ok (st', n, f)) :
    0 < n ∧ n ≤ st.rest.length ∧ st' = st.moved n ∧ CommentText (st.rest.take n) ∧
      (f = true → ∃ u, st'.rest = 42 :: u) := by
  have hp : peek st.rest = 47 := by
    rw [hs]; obtain ⟨j, rfl⟩ : ∃ j, k = j + 1 := ⟨k - 1, by omega⟩; simp [List.replicate_succ]
  have hd : st.rest.drop (k + 1) = t := by rw [hs, List.drop_append]; simp
  unfold eatXmqCommentToClose at h
  simp only [hp, beq_self_eq_true, if_true, hd] at h
  split at h
  · cases h
  · cases h
  · rename_i m hscan
    simp only [Except.ok.injEq, Prod.mk.injEq] at h
    obtain ⟨rfl, rfl, rfl⟩ := h
    obtain ⟨body, rest, he, hb, hr, hno⟩ := commentScan_body hk hscan
    have hle : k + 1 + m + k ≤ st.rest.length := by rw [hs, he]; simp; omega
    refine ⟨by omega, hle, advance_eq _ _ hle, ?_, ?_⟩
    · have e : st.rest = (List.replicate k 47 ++ 42 :: (body ++ 42 :: List.replicate k 47)) ++ rest := by
        rw [hs, he]; simp
      rw [e, List.take_left' (by simp; omega)]
      exact .block k body hk hno
    · intro hf
      rw [advance_eq _ _ hle, moved_rest]
      have hm : t.drop m = List.replicate k 47 ++ rest := by
        rw [he, show body ++ 42 :: (List.replicate k 47 ++ rest) = (body ++ [42]) ++ (List.replicate k 47 ++ rest) by simp]
        exact List.drop_left' (by simpa using hb)
      rw [hm, countXmqSlashes_run hr] at hf
      have e : st.rest = (List.replicate k 47 ++ 42 :: (body ++ 42 :: List.replicate k 47)) ++ rest := by
        rw [hs, he]; simp
      rw [e, List.drop_left' (by simp; omega)]
      cases rest with
      | nil => simp at hf
      | cons a r => simp at hf; exact ⟨r, by rw [hf]⟩

theorem eatXmqCommentToClose_cont_spec (st : St) (k : Nat) (hk : 0 < k) (t : List Byte)
    (hs : st.rest = 42 :: t) (st' : St) (n : Nat) (f : Bool)
    (h : eatXmqCommentToClose st k = .ok (st', n, f)) :
    0 < n ∧ n ≤ st.rest.length ∧ st' = st.moved n ∧ CommentContinuationText (st.rest.take n) ∧
      (f = true → ∃ u, st'.rest = 42 :: u) := by
  unfold eatXmqCommentToClose at h
  simp only [hs, peek_cons, show ((42 : Byte) == 47) = false by decide, Bool.false_eq_true, if_false, Nat.zero_add,
    List.drop_succ_cons, List.drop_zero] at h
  split at h
  · cases h
  · cases h
  · rename_i m hscan
    simp only [Except.ok.injEq, Prod.mk.injEq] at h
    obtain ⟨rfl, rfl, rfl⟩ := h
    obtain ⟨body, rest, he, hb, hr, hno⟩ := commentScan_body hk hscan
    have hle : 1 + m + k ≤ st.rest.length := by rw [hs, he]; simp; omega
    have e : st.rest = (42 :: (body ++ 42 :: List.replicate k 47)) ++ rest := by
      rw [hs, he]; simp
    refine ⟨by omega, hle, advance_eq _ _ hle, ?_, ?_⟩
    · rw [e, List.take_left' (by simp; omega)]
      exact .mk k body hk hno
    · intro hf
      rw [advance_eq _ _ hle, moved_rest]
      have hm : t.drop m = List.replicate k 47 ++ rest := by
        rw [he, show body ++ 42 :: (List.replicate k 47 ++ rest) = (body ++ [42]) ++ (List.replicate k 47 ++ rest) by simp]
        exact List.drop_left' (by simpa using hb)
      rw [hm, countXmqSlashes_run hr] at hf
      rw [e, List.drop_left' (by simp; omega)]
      cases rest with
      | nil => simp at hf
      | cons a r => simp at hf; exact ⟨r, by rw [hf]⟩

theorem isSafeValueChar_plain (s : List Byte) (c : Byte) (t : List Byte) (hs : s = c :: t)
    (h : isSafeValueChar s = true) : PlainByte c := by
  subst hs
  have hw : isXmlWhitespace c = true → countWhitespace (c :: t) = 1 := by
    intro hc
    rw [isXmlWhitespace_iff] at hc
    simp [countWhitespace]; grind
  have h1 : isXmlWhitespace c = false := by
    cases hc : isXmlWhitespace c
    · rfl
    · simp [isSafeValueChar, hw hc] at h
  simp [isXmlWhitespace] at h1
  simp [isSafeValueChar] at h
  unfold PlainByte; grind

theorem safeValueLen_spec (s : List Byte) :
    safeValueLen s ≤ s.length ∧ ∀ b ∈ s.take (safeValueLen s), PlainByte b := by
  induction s with
  | nil => simp [safeValueLen]
  | cons c t ih =>
    unfold safeValueLen
    split
    · rename_i h
      refine ⟨by simpa using ih.1, ?_⟩
      intro b hb
      simp only [List.take_succ_cons, List.mem_cons] at hb
      rcases hb with rfl | hb
      · exact isSafeValueChar_plain _ _ _ rfl h
      · exact ih.2 b hb
    · simp

theorem isSafeValueChar_end {c : Byte} {t : List Byte} (h : isSafeValueChar (c :: t) = false) : EndsAt.ValueEnds (c :: t) := by
  rcases countWhitespace_cases (c :: t) with h' | ⟨x, u, e, hx, h'⟩ | ⟨u, e, h'⟩ | ⟨x, u, e, hx, h'⟩
  · refine Or.inr (Or.inl ⟨c, t, rfl, fun hp => ?_⟩)
    unfold PlainByte at hp
    simp only [isSafeValueChar, h'] at h
    simp [hp] at h
  · cases e
    refine Or.inr (Or.inl ⟨c, t, rfl, fun hp => ?_⟩)
    unfold PlainByte at hp
    rw [isXmlWhitespace_iff] at hx
    grind
  · exact Or.inr (Or.inr ⟨[0xc2, 0xa0], u, e, by simp, .two [] .nil⟩)
  · exact Or.inr (Or.inr ⟨[0xe2, 0x80, x], u, e, by simp, .three x [] hx .nil⟩)

theorem safeValueLen_end (s : List Byte) : EndsAt.ValueEnds (s.drop (safeValueLen s)) := by
  induction s with
  | nil => exact Or.inl (by simp)
  | cons c t ih =>
    unfold safeValueLen
    split
    · simpa using ih
    · rename_i h
      exact isSafeValueChar_end (by simpa using h)

theorem takeWhile_nameEnds (s : List Byte) : EndsAt.NameEnds (s.drop (s.takeWhile isXmqTextName).length) := by
  obtain ⟨a, b, ht, h1, h2, ha, hb⟩ := span_spec isXmqTextName s
  intro c hc hn
  rw [h1, ht, List.drop_left' rfl] at hc
  have := hb c hc
  rw [(nameByte_iff c).2 hn] at this
  cases this

/-- Split a name at its last colon. -/
theorem lastColon_spec (name : List Byte) (h : name.any (· == 58) = true) :
    name.take (name.length - (name.reverse.takeWhile (· != 58)).reverse.length - 1) ++
      58 :: (name.reverse.takeWhile (· != 58)).reverse = name := by
  obtain ⟨a, b, ht, h1, h2, ha, hb⟩ := span_spec (· != (58 : Byte)) name.reverse
  have hname : name = b.reverse ++ a.reverse := by
    have := congrArg List.reverse ht; simpa using this
  obtain ⟨u, rfl⟩ : ∃ u, b = 58 :: u := by
    cases b with
    | nil =>
      exfalso
      simp only [List.any_eq_true, beq_iff_eq] at h
      obtain ⟨x, hx, rfl⟩ := h
      have := ha 58 (by rw [hname] at hx; simpa using hx)
      simp at this
    | cons c u => have := hb c rfl; simp at this; exact ⟨u, by rw [this]⟩
  rw [h1]
  have h3 : name.length - a.reverse.length - 1 = u.reverse.length := by rw [hname]; simp; omega
  rw [h3, hname]; simp

/-- The name and its optional namespace prefix are exactly the longest run of name bytes. -/
theorem eatXmqTextName_spec (st : St) :
    ∃ n, n = (st.rest.takeWhile isXmqTextName).length ∧
    (eatXmqTextName st).1 = st.moved n ∧ n ≤ st.rest.length ∧
    (match (eatXmqTextName st).2.1 with
     | none => (eatXmqTextName st).2.2 = st.rest.take n
     | some ns => ns ++ 58 :: (eatXmqTextName st).2.2 = st.rest.take n) ∧
    ∀ b ∈ st.rest.take n, NameByte b := by
  obtain ⟨a, b, ht, h1, h2, ha, -⟩ := span_spec isXmqTextName st.rest
  have hle : a.length ≤ st.rest.length := by rw [ht]; simp
  have htk : st.rest.take a.length = a := by rw [ht]; simp
  refine ⟨a.length, by rw [h1], ?_⟩
  simp only [htk]
  have hnb : ∀ b ∈ a, NameByte b := fun b hb => (nameByte_iff b).1 (ha b hb)
  unfold eatXmqTextName
  simp only [h1]
  by_cases hany : (a.any fun x => x == 58) = true
  · simp only [hany, if_true]
    exact ⟨advance_eq _ _ hle, hle, lastColon_spec a hany, hnb⟩
  · simp only [hany, Bool.false_eq_true, if_false]
    exact ⟨advance_eq _ _ hle, hle, trivial, hnb⟩

theorem eatXmqDoctypeOrPi_spec (st : St) (c : Byte) (t : List Byte) (hs : st.rest = c :: t) :
    ∃ n, 0 < n ∧ (eatXmqDoctypeOrPi st) = (st.moved n, st.rest.take n) ∧ n ≤ st.rest.length ∧
    st.rest.take n = c :: t.takeWhile isXmqTextName ∧
    ∀ b ∈ t.takeWhile isXmqTextName, NameByte b := by
  obtain ⟨a, b, ht, h1, h2, ha, -⟩ := span_spec isXmqTextName t
  have hle : a.length + 1 ≤ st.rest.length := by rw [hs, ht]; simp
  have htk : st.rest.take (a.length + 1) = c :: a := by rw [hs, ht]; simp
  refine ⟨a.length + 1, by omega, ?_, hle, by rw [htk, h1], fun b hb => (nameByte_iff b).1 (ha b (by rwa [h1] at hb))⟩
  unfold eatXmqDoctypeOrPi
  have h3 : st.rest.take 1 ++ (st.rest.drop 1).takeWhile isXmqTextName = c :: a := by rw [hs]; simp [h1]
  simp only [h3, htk]
  rw [show (c :: a).length = a.length + 1 by simp, advance_eq _ _ hle]

theorem eatXmqDoctypeOrPi_end (st : St) (c : Byte) (t : List Byte) (n : Nat) (hs : st.rest = c :: t)
    (hn : st.rest.take n = c :: t.takeWhile isXmqTextName) : EndsAt.NameEnds (st.rest.drop n) := by
  have e : st.rest.drop n = t.dropWhile isXmqTextName := by
    have h1 : st.rest = (c :: t.takeWhile isXmqTextName) ++ t.dropWhile isXmqTextName := by rw [hs]; simp
    have h2 := List.take_append_drop n st.rest
    rw [hn] at h2
    exact List.append_cancel_left (h2.trans h1)
  rw [e]
  obtain ⟨a, b, ht, h1, h2, ha, hb⟩ := span_spec isXmqTextName t
  intro x hx hn
  rw [h2] at hx
  have := hb x hx
  rw [(nameByte_iff x).2 hn] at this
  cases this

end Xmq
