import Verif.Model.Delimiters
import Verif.Lemmas.LexStep
import Verif.Model.Parser
/-!
# Runs of delimiter bytes and the delimiters chosen for them
-/
namespace Xmq
open Spec

theorem replicate_infix_mono {q : Byte} {d e : Nat} {s : List Byte} (hde : e ≤ d)
    (h : List.replicate d q <:+: s) : List.replicate e q <:+: s := by
  refine List.IsInfix.trans ?_ h
  refine ⟨[], List.replicate (d - e) q, ?_⟩
  rw [List.nil_append, List.replicate_append_replicate]; congr 1; omega

theorem quotesLoop_max (s : List Byte) (max curr : Nat) (safe : Bool) (hc : curr ≤ max) (d : Nat) (hd : 0 < d) :
    d ≤ (quotesLoop s max curr safe).1 ↔ d ≤ max ∨ List.replicate d 39 <:+: (List.replicate curr 39 ++ s) := by
  induction s generalizing max curr safe with
  | nil =>
    simp only [quotesLoop, List.append_nil]
    constructor
    · exact Or.inl
    · rintro (h | h)
      · exact h
      · have := h.length_le; simp at this; omega
  | cons c t ih =>
    rw [quotesLoop]
    by_cases hq : c = 39
    · subst hq
      rw [if_pos (by simp), ih _ _ _ (by split <;> omega), List.replicate_succ', List.append_assoc, List.singleton_append]
      constructor
      · rintro (h | h)
        · split at h
          · by_cases h1 : d ≤ max
            · exact Or.inl h1
            · refine Or.inr ⟨[], List.replicate (curr + 1 - d) 39 ++ t, ?_⟩
              rw [List.nil_append, ← List.append_assoc, List.replicate_append_replicate,
                show d + (curr + 1 - d) = curr + 1 by omega, List.replicate_succ']; simp
          · exact Or.inl h
        · exact Or.inr h
      · rintro (h | h)
        · left; split <;> omega
        · exact Or.inr h
    · rw [if_neg (by simpa using hq), ih _ _ _ (by omega)]
      simp only [List.replicate_zero, List.nil_append]
      constructor
      · rintro (h | h)
        · exact Or.inl h
        · exact Or.inr (h.trans ⟨List.replicate curr 39 ++ [c], [], by simp⟩)
      · rintro (h | h)
        · exact Or.inl h
        · by_cases hdc : d ≤ curr
          · left; omega
          · right
            refine Classical.byContradiction fun hno => ?_
            exact (noRun_run (by omega) (by simpa using hq)).2 ((noRun_cons hd hq).2 hno) h

/-- `max` of the loop is the length of the longest run. -/
theorem quotesLoop_iff (s : List Byte) (safe : Bool) (d : Nat) (hd : 0 < d) :
    d ≤ (quotesLoop s 0 0 safe).1 ↔ List.replicate d 39 <:+: s := by
  rw [quotesLoop_max s 0 0 safe (Nat.le_refl _) d hd]; simp; omega

theorem quotesLoop_safe (s : List Byte) (max curr : Nat) (safe : Bool) (h : 39 ∉ s) :
    (quotesLoop s max curr safe).2 = (safe && allSafeValueChars s) := by
  induction s generalizing max curr safe with
  | nil => simp [quotesLoop, allSafeValueChars]
  | cons c t ih =>
    simp at h
    rw [quotesLoop, if_neg (by simp; exact fun e => h.1 e.symm), ih _ _ _ h.2, allSafeValueChars, Bool.and_assoc]

theorem replicate_one_infix (q : Byte) (s : List Byte) : List.replicate 1 q <:+: s ↔ q ∈ s := by
  constructor
  · intro h; exact h.subset (by simp)
  · intro h
    obtain ⟨a, b, rfl⟩ := List.append_of_mem h
    exact ⟨a, b, by simp⟩

theorem quotesLoop_pos (s : List Byte) (safe : Bool) : (quotesLoop s 0 0 safe).1 = 0 ↔ 39 ∉ s := by
  rw [← replicate_one_infix, ← quotesLoop_iff s safe 1 (by omega)]; omega

/-- What the chosen number of quotes guarantees. -/
theorem countNecessaryQuotes_spec (s : List Byte) :
    (countNecessaryQuotes s = 0 ↔ isXmqTextValue s = true ∧ 39 ∉ s) ∧ countNecessaryQuotes s ≠ 2 ∧
    (0 < countNecessaryQuotes s → NoRun 39 (countNecessaryQuotes s) s) ∧
    (∀ d, 0 < d → d < countNecessaryQuotes s → d = 2 ∨ List.replicate d 39 <:+: s) := by
  have hmax := quotesLoop_iff s (!unsafeValueStart (peek s) (peek s.tail))
  have hpos := quotesLoop_pos s (!unsafeValueStart (peek s) (peek s.tail))
  have hsafe : 39 ∉ s → (quotesLoop s 0 0 (!unsafeValueStart (peek s) (peek s.tail))).2 = isXmqTextValue s := by
    intro h
    rw [quotesLoop_safe _ _ _ _ h]
    unfold isXmqTextValue
    cases unsafeValueStart (peek s) (peek s.tail) <;> simp
  unfold countNecessaryQuotes
  generalize quotesLoop s 0 0 (!unsafeValueStart (peek s) (peek s.tail)) = r at *
  obtain ⟨m, f⟩ := r
  dsimp only at *
  rcases Nat.eq_zero_or_pos m with rfl | hm
  · have h39 := hpos.1 rfl
    have hf := hsafe h39
    have no : ∀ d, 0 < d → ¬ List.replicate d 39 <:+: s := fun d hd h => by
      have := (hmax d hd).2 h; omega
    have no1 := no 1 (by omega)
    cases f
    · simp [← hf, NoRun] at no1 ⊢
      exact ⟨no1, by omega⟩
    · simp [← hf, h39]
  · have h39 : ¬ (39 ∉ s) := fun h => by have := hpos.2 h; omega
    have hne : ¬ (m + 1 = 0) := by omega
    simp only [hm, if_true, hne, false_and, if_false]
    refine ⟨?_, ?_, ?_, ?_⟩
    · constructor
      · intro h; split at h <;> omega
      · rintro ⟨-, h⟩; exact absurd h h39
    · split <;> omega
    · intro _ h
      split at h
      · have := (hmax 3 (by omega)).2 h; omega
      · have := (hmax (m + 1) (by omega)).2 h; omega
    · intro d hd hlt
      by_cases hdm : d ≤ m
      · exact Or.inr ((hmax d hd).1 hdm)
      · left; split at hlt <;> omega

theorem slashesLoop_max (s : List Byte) (max curr : Nat) (counting : Bool) (hc : counting = true → curr ≤ max)
    (d : Nat) :
    d ≤ slashesLoop s max curr counting ↔
      d ≤ max ∨ (42 :: List.replicate d 47) <:+: ((if counting then 42 :: List.replicate curr 47 else []) ++ s) := by
  have fresh : ∀ (l : List Byte), (∀ b ∈ l, b ≠ 42) → ∀ s, (42 :: List.replicate d 47) <:+: (l ++ s) →
      (42 :: List.replicate d 47) <:+: s := by
    intro l hl s h
    induction l with
    | nil => exact h
    | cons a l ih =>
      rw [List.cons_append, List.infix_cons_iff] at h
      rcases h with h | h
      · obtain ⟨r, hr⟩ := h
        simp at hr
        exact absurd hr.1.symm (hl a (by simp))
      · exact ih (fun b hb => hl b (by simp [hb])) h
  induction s generalizing max curr counting with
  | nil =>
    simp only [slashesLoop, List.append_nil]
    constructor
    · exact Or.inl
    · rintro (h | h)
      · exact h
      · have := h.length_le
        cases counting
        · simp at this
        · simp at this; have := hc rfl; omega
  | cons c t ih =>
    rw [slashesLoop]
    by_cases h1 : counting = true ∧ c = 47
    · obtain ⟨rfl, rfl⟩ := h1
      have := hc rfl
      rw [if_pos (by simp)]
      refine (ih _ _ true (by intro _; split <;> omega)).trans ?_
      simp only [if_true]
      have e : (42 :: List.replicate (curr + 1) 47) ++ t = (42 :: List.replicate curr 47) ++ 47 :: t := by
        rw [List.replicate_succ']; simp
      rw [e]
      constructor
      · rintro (h | h)
        · split at h
          · by_cases h1 : d ≤ max
            · exact Or.inl h1
            · refine Or.inr ⟨[], List.replicate (curr + 1 - d) 47 ++ t, ?_⟩
              rw [← e, List.nil_append, List.cons_append, ← List.append_assoc, List.replicate_append_replicate,
                show d + (curr + 1 - d) = curr + 1 by omega]; simp
          · exact Or.inl h
        · exact Or.inr h
      · rintro (h | h)
        · left; split <;> omega
        · exact Or.inr h
    · rw [if_neg (by simpa using h1)]
      -- the pending asterisk cannot be used any more
      have drop : (42 :: List.replicate d 47) <:+: ((if counting then 42 :: List.replicate curr 47 else []) ++ c :: t) →
          d ≤ max ∨ (42 :: List.replicate d 47) <:+: (c :: t) := by
        intro h
        cases counting with
        | false => right; simpa using h
        | true =>
          have hc := hc rfl
          simp only [if_true, List.cons_append] at h
          rw [List.infix_cons_iff] at h
          rcases h with h | h
          · left
            obtain ⟨r, hr⟩ := h
            simp at hr
            refine Classical.byContradiction fun hno => h1 ⟨rfl, ?_⟩
            have := congrArg (fun l => l[curr]?) hr
            simp [List.getElem?_append, List.getElem?_replicate] at this
            rw [if_pos (by omega)] at this
            simp at this; exact this.2.symm
          · right
            exact fresh _ (by intro b hb; rw [List.mem_replicate] at hb; rw [hb.2]; decide) _ h
      split
      · rename_i hs
        have hs : c = 42 := by simpa using hs
        subst hs
        refine (ih max 0 true (by intro _; omega)).trans ?_
        simp only [if_true, List.replicate_zero, List.singleton_append]
        constructor
        · rintro (h | h)
          · exact Or.inl h
          · exact Or.inr (h.trans ⟨_, [], by simp; rfl⟩)
        · rintro (h | h)
          · exact Or.inl h
          · exact drop h
      · rename_i hs
        have hs : c ≠ 42 := by simpa using hs
        refine (ih max curr false (by simp)).trans ?_
        simp only [Bool.false_eq_true, if_false, List.nil_append]
        constructor
        · rintro (h | h)
          · exact Or.inl h
          · refine Or.inr (h.trans ⟨(if counting then 42 :: List.replicate curr 47 else []) ++ [c], [], by simp⟩)
        · rintro (h | h)
          · exact Or.inl h
          · rcases drop h with h | h
            · exact Or.inl h
            · exact Or.inr (fresh [c] (by simpa using hs) t h)

/-- What the chosen number of slashes guarantees. -/
theorem countNecessarySlashes_spec (s : List Byte) :
    0 < countNecessarySlashes s ∧ ¬ (42 :: List.replicate (countNecessarySlashes s) 47) <:+: s ∧
    ∀ d, 0 < d → d < countNecessarySlashes s → (42 :: List.replicate d 47) <:+: s := by
  have h := slashesLoop_max s 0 0 false (by simp)
  unfold countNecessarySlashes
  refine ⟨by omega, fun hi => ?_, fun d hd hlt => ?_⟩
  · have := (h (slashesLoop s 0 0 false + 1)).2 (Or.inr (by simpa using hi)); omega
  · have := (h d).1 (by omega)
    rcases this with h | h
    · omega
    · simpa using h

theorem stripCount_spec (q : Byte) (d : Nat) (body : List Byte) (hb : body.head? ≠ some q)
    (hd : body = [] → d % 2 = 0) (k j : Nat) (hj : j ≤ if body = [] then d / 2 else d)
    (hk : (if body = [] then d / 2 else d) < k + j) :
    let s := if body = [] then List.replicate d q else List.replicate d q ++ (body ++ List.replicate d q)
    stripCount q s k j = if body = [] then d / 2 else d := by
  induction k generalizing j with
  | zero => omega
  | succ k ih =>
    simp only at ih ⊢
    by_cases he : body = []
    · subst he
      have hd := hd rfl
      simp only [if_true] at hj hk ih ⊢
      rw [stripCount]
      by_cases hlt : j < d / 2
      · rw [if_pos]
        · exact ih (j + 1) (by omega) (by omega)
        · simp only [List.getElem?_replicate, List.length_replicate]
          rw [if_pos (by omega), if_pos (by omega)]; exact ⟨rfl, rfl, by omega⟩
      · have : j = d / 2 := by omega
        rw [if_neg (by rintro ⟨-, -, h⟩; simp at h; omega)]; omega
    · simp only [he, if_false] at hj hk ih ⊢
      rw [stripCount]
      by_cases hlt : j < d
      · rw [if_pos]
        · exact ih (j + 1) (by omega) (by omega)
        · refine ⟨?_, ?_, ?_⟩
          · simp [List.getElem?_append, hlt]
          · rw [← List.append_assoc, List.getElem?_append_right (by simp; omega), List.getElem?_replicate, if_pos (by simp; omega)]
          · simp; omega
      · have : j = d := by omega
        subst this
        rw [if_neg]
        rintro ⟨h, -⟩
        rw [List.getElem?_append_right (by simp)] at h
        cases body with
        | nil => exact he rfl
        | cons a l => simp at h hb; exact hb h

/-- Stripping removes exactly the delimiters of a complete quote. -/
theorem stripDelims_full (q : Byte) (d : Nat) (body : List Byte) (h0 : body ≠ []) (hb : body.head? ≠ some q) :
    stripDelims q (List.replicate d q ++ (body ++ List.replicate d q)) = (d, body) := by
  have hlen : 0 < body.length := List.length_pos_iff.2 h0
  have := stripCount_spec q d body hb (fun h => absurd h h0)
    (List.replicate d q ++ (body ++ List.replicate d q)).length 0 (by simp) (by simp [h0]; omega)
  simp only [h0, if_false] at this
  unfold stripDelims
  rw [this]
  simp only [Prod.mk.injEq, true_and]
  rw [List.drop_left' (by simp), List.take_left' (by simp)]

theorem stripDelims_empty (q : Byte) : stripDelims q [q, q] = (1, []) := by
  have := stripCount_spec q 2 [] (by simp) (by simp) 2 0 (by simp) (by simp)
  simp at this
  unfold stripDelims
  simp [this]

/-- Token of the next `text.length` bytes. -/
def St.took (st : St) (kind : Kind) (text : List Byte) : St :=
  (st.moved text.length).emit kind st.line st.col text

@[simp] theorem took_rest (st : St) (k : Kind) (text follow : List Byte) (h : st.rest = text ++ follow) :
    (st.took k text).rest = follow := by simp [St.took, St.emit, h]

theorem emitSpan_took (st : St) (k : Kind) (text follow : List Byte) (h : st.rest = text ++ follow) :
    (st.advance text.length).emitSpan st k text.length = st.took k text := by
  rw [advance_eq _ _ (by simp [h]), St.emitSpan, St.took, h]; simp

theorem parseXmqQuote_full (st : St) (level : Level) (d : Nat) (body follow : List Byte) (hd : 0 < d) (hd2 : d ≠ 2)
    (hb : body ≠ []) (hh : body.head? ≠ some 39) (hl : body.getLast? ≠ some 39) (hn : NoRun 39 d body)
    (hf : follow.head? ≠ some 39)
    (hr : st.rest = List.replicate d 39 ++ (body ++ List.replicate d 39) ++ follow) :
    parseXmqQuote st level = .ok (st.took (quoteKind level) (List.replicate d 39 ++ (body ++ List.replicate d 39))) := by
  have hc : countXmqQuotes st.rest = d := by
    rw [hr, List.append_assoc]; apply countXmqQuotes_run
    cases body with
    | nil => exact absurd rfl hb
    | cons a l => simpa using hh
  have hs : quoteScan d 0 (st.rest.drop d) = .closed body.length := by
    rw [hr, List.append_assoc, List.drop_left' (by simp)]
    rw [quoteScan_closed_iff d _ hd]
    exact ⟨body, follow, by simp, rfl, hf, hn, hl⟩
  have hlen : d + body.length + d = (List.replicate d (39 : Byte) ++ (body ++ List.replicate d 39)).length := by
    simp; omega
  unfold parseXmqQuote eatXmqQuote
  rw [hc]
  simp only [hd2, if_false, hs]
  rw [hlen, emitSpan_took _ _ _ _ hr]

theorem parseXmqQuote_empty (st : St) (level : Level) (follow : List Byte)
    (hf : follow.head? ≠ some 39) (hr : st.rest = [39, 39] ++ follow) :
    parseXmqQuote st level = .ok (st.took (quoteKind level) [39, 39]) := by
  have hc : countXmqQuotes st.rest = 2 := by
    rw [hr]; exact countXmqQuotes_run (k := 2) hf
  unfold parseXmqQuote eatXmqQuote
  rw [hc]
  simp only [if_true]
  exact congrArg Res.ok (emitSpan_took st _ [39, 39] _ hr)

theorem star_infix_snoc {n : Nat} (hn : 0 < n) (body : List Byte)
    (h : (42 :: List.replicate n 47) <:+: (body ++ [42])) : (42 :: List.replicate n 47) <:+: body := by
  obtain ⟨a, b, h⟩ := h
  rcases List.eq_nil_or_concat b with rfl | ⟨b', x, rfl⟩
  · obtain ⟨n, rfl⟩ : ∃ j, n = j + 1 := ⟨n - 1, by omega⟩
    rw [List.append_nil, List.replicate_succ', ← List.cons_append, ← List.append_assoc] at h
    have := (List.append_inj' h rfl).2
    simp at this
  · rw [List.concat_eq_append, ← List.append_assoc] at h
    exact ⟨a, b', (List.append_inj' h rfl).1⟩

theorem commentScan_text (n : Nat) (hn : 0 < n) (body follow : List Byte)
    (hb : ¬ (42 :: List.replicate n 47) <:+: body) (hf : follow.head? ≠ some 47) :
    commentScan n 0 (body ++ 42 :: List.replicate n 47 ++ follow) = .closed (body.length + 1) := by
  rw [commentScan_closed_iff n _ hn]
  refine ⟨body ++ [42], follow, by simp, by simp, hf, by rw [← List.cons_append]; exact List.getLast?_concat, fun h => hb ?_⟩
  rw [← List.cons_append] at h
  have h := star_infix_snoc hn _ h
  rw [List.infix_cons_iff] at h
  rcases h with ⟨r, h⟩ | h
  · simp at h
  · exact h

theorem commentToClose_open (st : St) (n : Nat) (hn : 0 < n) (body follow : List Byte)
    (hb : ¬ (42 :: List.replicate n 47) <:+: body) (hf : follow.head? ≠ some 47)
    (hr : st.rest = (List.replicate n 47 ++ 42 :: (body ++ 42 :: List.replicate n 47)) ++ follow) :
    let text := List.replicate n 47 ++ 42 :: (body ++ 42 :: List.replicate n 47)
    eatXmqCommentToClose st n = .ok (st.advance text.length, text.length, peek follow == 42) := by
  have hp : peek st.rest = 47 := by
    obtain ⟨n, rfl⟩ : ∃ j, n = j + 1 := ⟨n - 1, by omega⟩
    rw [hr, List.replicate_succ]; rfl
  have hdrop : st.rest.drop (n + 1) = body ++ 42 :: List.replicate n 47 ++ follow := by
    rw [hr, List.append_assoc, ← List.drop_drop, List.drop_left' (by simp)]; rfl
  have hd2 : (body ++ 42 :: List.replicate n 47 ++ follow).drop (body.length + 1) = List.replicate n 47 ++ follow := by
    rw [List.append_assoc, ← List.drop_drop, List.drop_left' (by simp)]; simp
  unfold eatXmqCommentToClose
  simp only [hp, beq_self_eq_true, if_true, hdrop, commentScan_text n hn body follow hb hf, hd2, countXmqSlashes_run hf]
  have e : n + 1 + (body.length + 1) + n = (List.replicate n (47 : Byte) ++ 42 :: (body ++ 42 :: List.replicate n 47)).length := by
    simp; omega
  rw [e]

theorem commentToClose_cont (st : St) (n : Nat) (hn : 0 < n) (body follow : List Byte)
    (hb : ¬ (42 :: List.replicate n 47) <:+: body) (hf : follow.head? ≠ some 47)
    (hr : st.rest = (42 :: (body ++ 42 :: List.replicate n 47)) ++ follow) :
    let text := 42 :: (body ++ 42 :: List.replicate n 47)
    eatXmqCommentToClose st n = .ok (st.advance text.length, text.length, peek follow == 42) := by
  have hp : (peek st.rest == 47) = false := by rw [hr]; rfl
  have hdrop : st.rest.drop (0 + 1) = body ++ 42 :: List.replicate n 47 ++ follow := by
    rw [hr]; simp
  have hd2 : (body ++ 42 :: List.replicate n 47 ++ follow).drop (body.length + 1) = List.replicate n 47 ++ follow := by
    rw [List.append_assoc, ← List.drop_drop, List.drop_left' (by simp)]; simp
  unfold eatXmqCommentToClose
  simp only [hp, Bool.false_eq_true, if_false, hdrop, commentScan_text n hn body follow hb hf, hd2, countXmqSlashes_run hf]
  have e : 0 + 1 + (body.length + 1) + n = (42 :: (body ++ 42 :: List.replicate n (47 : Byte))).length := by
    simp; omega
  rw [e]

/-- Deliver several tokens in a row. -/
def St.tookAll (st : St) : List (Kind × List Byte) → St
  | [] => st
  | (k, t) :: l => (st.took k t).tookAll l

/-- Source text of comment continuations. -/
def contText (n : Nat) (ts : List (List Byte)) : List Byte :=
  (ts.map fun t => 42 :: (t ++ 42 :: List.replicate n 47)).flatten

theorem contText_head (n : Nat) (ts : List (List Byte)) (follow : List Byte)
    (hf : follow.head? ≠ some 47) : (contText n ts ++ follow).head? ≠ some 47 := by
  cases ts with
  | nil => simpa [contText] using hf
  | cons a l => simp [contText]

theorem commentContinuations_text (n : Nat) (hn : 0 < n) (ts : List (List Byte)) (follow : List Byte)
    (hb : ∀ t ∈ ts, ¬ (42 :: List.replicate n 47) <:+: t) (hf : follow.head? ≠ some 47) (hf2 : follow.head? ≠ some 42)
    (st : St) (fuel : Nat) (hfuel : ts.length ≤ fuel) (hr : st.rest = contText n ts ++ follow) :
    commentContinuations n fuel st (peek st.rest == 42) =
      .ok (st.tookAll (ts.map fun t => (.comment_continuation, 42 :: (t ++ 42 :: List.replicate n 47)))) := by
  induction ts generalizing st fuel with
  | nil =>
    have : (peek st.rest == 42) = false := by
      rw [hr]; simp only [contText, List.map_nil, List.flatten_nil, List.nil_append]
      rw [Bool.eq_false_iff]; intro h
      exact hf2 ((peek_eq_head? _ 42 (by decide)).1 (by simpa using h))
    rw [this]
    cases fuel <;> rfl
  | cons t ts ih =>
    have hr' : st.rest = (42 :: (t ++ 42 :: List.replicate n 47)) ++ (contText n ts ++ follow) := by
      rw [hr]; simp [contText]
    have : (peek st.rest == 42) = true := by rw [hr']; rfl
    rw [this]
    obtain ⟨fuel, rfl⟩ : ∃ j, fuel = j + 1 := ⟨fuel - 1, by simp at hfuel; omega⟩
    rw [commentContinuations]
    rw [commentToClose_cont st n hn t _ (hb t (by simp)) (contText_head n ts follow hf) hr']
    dsimp only
    rw [emitSpan_took _ _ _ _ hr']
    have hr2 := took_rest st .comment_continuation _ _ hr'
    have := ih (fun t ht => hb t (by simp [ht])) (st.took .comment_continuation (42 :: (t ++ 42 :: List.replicate n 47)))
      fuel (by simp at hfuel; omega) hr2
    rw [hr2] at this
    exact this

/-- A comment in the form the compact printer writes is read as one comment token per line. -/
theorem parseXmqComment_block (n : Nat) (hn : 0 < n) (t : List Byte) (ts : List (List Byte)) (follow : List Byte)
    (hb : ∀ x ∈ t :: ts, ¬ (42 :: List.replicate n 47) <:+: x) (hf : follow.head? ≠ some 47)
    (hf2 : follow.head? ≠ some 42) (st : St) (fuel : Nat) (hfuel : ts.length ≤ fuel)
    (hr : st.rest = (List.replicate n 47 ++ 42 :: (t ++ 42 :: List.replicate n 47)) ++ (contText n ts ++ follow)) :
    parseXmqComment fuel st =
      .ok (st.tookAll ((.comment, List.replicate n 47 ++ 42 :: (t ++ 42 :: List.replicate n 47)) ::
        ts.map fun t => (.comment_continuation, 42 :: (t ++ 42 :: List.replicate n 47)))) := by
  have hc : countXmqSlashes st.rest = (n, true) := by
    rw [hr, List.append_assoc, countXmqSlashes_run (by simp)]; simp
  unfold parseXmqComment
  rw [hc]
  simp only [Bool.not_true, Bool.false_eq_true, if_false]
  rw [commentToClose_open st n hn t _ (hb t (by simp)) (contText_head n ts follow hf) hr]
  dsimp only
  rw [emitSpan_took _ _ _ _ hr]
  have hr2 := took_rest st .comment _ _ hr
  have := commentContinuations_text n hn ts follow (fun t ht => hb t (by simp [ht])) hf hf2
    (st.took .comment (List.replicate n 47 ++ 42 :: (t ++ 42 :: List.replicate n 47))) fuel hfuel hr2
  rw [hr2] at this
  exact this

theorem allSafe_iff (s : List Byte) : allSafeValueChars s = true ↔ safeValueLen s = s.length := by
  have le : ∀ s : List Byte, safeValueLen s ≤ s.length := by
    intro s; induction s with
    | nil => simp [safeValueLen]
    | cons c t ih => rw [safeValueLen]; split <;> simp <;> omega
  induction s with
  | nil => simp [allSafeValueChars, safeValueLen]
  | cons c t ih =>
    rw [allSafeValueChars, safeValueLen]
    by_cases h : isSafeValueChar (c :: t) = true
    · simp [h, ih]
    · simp [h]

/-- Followers that end a value written without quotes: nothing, whitespace, or one of `'"(){}`. -/
def EndsValue (follow : List Byte) : Prop := follow = [] ∨ isSafeValueChar follow = false

theorem endsValue_head (f : Byte) (r : List Byte) (h : isSafeValueChar (f :: r) = false) :
    isCont f = false := by
  have key : ∀ f : Byte, (f = 10 ∨ f = 40 ∨ f = 41 ∨ f = 39 ∨ f = 34 ∨ f = 123 ∨ f = 125 ∨ f = 9 ∨ f = 13 ∨ f = 32 ∨
      f = 0xc2 ∨ f = 0xe2) → isCont f = false := by
    apply forall_byte (P := fun f => (f = 10 ∨ f = 40 ∨ f = 41 ∨ f = 39 ∨ f = 34 ∨ f = 123 ∨ f = 125 ∨ f = 9 ∨
      f = 13 ∨ f = 32 ∨ f = 0xc2 ∨ f = 0xe2) → isCont f = false)
    decide +kernel
  apply key
  rcases countWhitespace_cases (f :: r) with h0 | ⟨c, t, h1, h2, h3⟩ | ⟨t, h1, h2⟩ | ⟨c, t, h1, h2, h3⟩
  · simp [isSafeValueChar, h0] at h; grind
  · simp at h1; rw [isXmlWhitespace_iff] at h2; grind
  · simp at h1; grind
  · simp at h1; grind

theorem isSafeValueChar_append (s follow : List Byte) (hs : s ≠ []) (hf : EndsValue follow)
    (h : isSafeValueChar s = true) : isSafeValueChar (s ++ follow) = true := by
  have hp : peek (s ++ follow) = peek s := by cases s <;> simp_all
  have hw : countWhitespace s = 0 := by simp [isSafeValueChar] at h; exact h.1.1.1.1.1.1.1.1.1
  have hcont : ∀ f r, follow = f :: r → isCont f = false := by
    rintro f r rfl
    rcases hf with hf | hf
    · cases hf
    · exact endsValue_head f r hf
  suffices hw' : countWhitespace (s ++ follow) = 0 by
    unfold isSafeValueChar at h ⊢
    rw [hw', hp]; rw [hw] at h; exact h
  have c1 : isCont 0xa0 = true := by decide
  have c2 : isCont 0x80 = true := by decide
  have c3 : ∀ x : Byte, x = 0x80 ∨ x = 0x81 ∨ x = 0x82 ∨ x = 0x83 → isCont x = true := by
    rintro x (rfl | rfl | rfl | rfl) <;> decide
  rcases countWhitespace_cases (s ++ follow) with h0 | ⟨c, t, h1, h2, h3⟩ | ⟨t, h1, h2⟩ | ⟨x, t, h1, h2, h3⟩
  · exact h0
  · exfalso
    cases s with
    | nil => exact hs rfl
    | cons a s =>
      simp at h1
      rw [h1.1] at hw
      rw [isXmlWhitespace_iff] at h2
      simp [countWhitespace] at hw; grind
  · exfalso
    match s, hs with
    | [a], _ =>
      simp at h1
      have := hcont _ _ h1.2
      simp [c1] at this
    | a :: b :: s, _ =>
      simp at h1
      rw [h1.1, h1.2.1] at hw
      simp [countWhitespace] at hw
  · exfalso
    match s, hs with
    | [a], _ =>
      simp at h1
      have := hcont _ _ h1.2
      simp [c2] at this
    | [a, b], _ =>
      simp at h1
      have := hcont _ _ h1.2.2
      simp [c3 x h2] at this
    | a :: b :: c :: s, _ =>
      simp at h1
      rw [h1.1, h1.2.1, h1.2.2.1] at hw
      rcases h2 with rfl | rfl | rfl | rfl <;> simp [countWhitespace] at hw

theorem safeValueLen_append (s follow : List Byte) (hf : EndsValue follow) (h : allSafeValueChars s = true) :
    safeValueLen (s ++ follow) = s.length := by
  induction s with
  | nil =>
    cases follow with
    | nil => rfl
    | cons a l =>
      rcases hf with hf | hf
      · cases hf
      · simp [safeValueLen, hf]
  | cons c t ih =>
    simp only [allSafeValueChars, Bool.and_eq_true] at h
    have := isSafeValueChar_append (c :: t) follow (by simp) hf h.1
    simp only [List.cons_append] at this ⊢
    rw [safeValueLen, if_pos this, ih h.2]; rfl

/-- A value that the printer leaves without quotes is read back as a text value. -/
theorem parseXmqValue_text (fuel : Nat) (st : St) (level : Level) (s follow : List Byte) (hs : s ≠ [])
    (hv : isXmqTextValue s = true) (hf : EndsValue follow) (hr : st.rest = s ++ follow) :
    parseXmqValue fuel st level =
      .ok (st.took (if level = .attrValue then .attr_value_text else .element_value_text) s) := by
  cases s with
  | nil => exact absurd rfl hs
  | cons c t =>
    unfold isXmqTextValue at hv
    have hu : unsafeValueStart (peek (c :: t)) (peek t) = false := by
      cases h : unsafeValueStart (peek (c :: t)) (peek t)
      · rfl
      · rw [List.tail_cons, if_pos h] at hv; exact hv.symm
    rw [List.tail_cons, hu] at hv
    simp only [Bool.false_eq_true, if_false] at hv
    have hsafe : isSafeValueChar (c :: t) = true := by
      rw [allSafeValueChars] at hv; simp at hv; exact hv.1
    have hplain := isSafeValueChar_plain _ c t rfl hsafe
    have hnw : isXmlWhitespace c = false := by
      cases h : isXmlWhitespace c
      · rfl
      · rw [isXmlWhitespace_iff] at h; unfold PlainByte at hplain; grind
    have hsk : skipWs st = st := by unfold skipWs; rw [hr]; simp [hnw]
    have hu2 : unsafeValueStart c (peek (t ++ follow)) = false := by
      cases t with
      | cons a t => simpa using hu
      | nil =>
        simp only [peek_cons, peek_nil, List.nil_append] at hu ⊢
        simp only [unsafeValueStart, Bool.or_eq_false_iff, Bool.and_eq_false_iff] at hu ⊢
        refine ⟨hu.1, Or.inr ?_⟩
        cases follow with
        | nil => exact ⟨rfl, rfl⟩
        | cons f r =>
          rcases hf with hf | hf
          · cases hf
          · rcases countWhitespace_cases (f :: r) with h0 | ⟨c, t, h1, h2, h3⟩ | ⟨t, h1, h2⟩ | ⟨c, t, h1, h2, h3⟩
            · simp [isSafeValueChar, h0] at hf; simp; grind
            · simp at h1; rw [isXmlWhitespace_iff] at h2; simp; grind
            · simp at h1; simp; grind
            · simp at h1; simp; grind
    unfold parseXmqValue
    simp only [hsk]
    unfold PlainByte at hplain
    have hp : peek st.rest = c := by rw [hr]; rfl
    have hr2 : st.rest = c :: (t ++ follow) := by rw [hr]; rfl
    simp only [hp]
    have hamp : c ≠ 38 := by
      simp only [unsafeValueStart, Bool.or_eq_false_iff, peek_cons] at hu; simpa using hu.1.2
    rw [if_neg (by simp; grind), if_neg (by simpa using hamp), if_neg (by simp; grind)]
    rw [hr2]
    simp only [hu2, Bool.false_eq_true, if_false]
    unfold parseXmqTextValue eatXmqTextValue
    rw [hr, safeValueLen_append _ _ hf hv]
    exact congrArg Res.ok (emitSpan_took st _ (c :: t) follow hr)

end Xmq
