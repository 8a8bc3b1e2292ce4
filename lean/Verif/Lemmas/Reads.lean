import Verif.Lemmas.Hang
/-!
# Where the parser reads outside its buffer
-/
namespace Xmq
open Spec

/-- Starting at `st`, the remaining text ends with an equals sign and whitespace. -/
def ValueMissing (st : St) : Prop := ∃ p w, st.rest = p ++ 61 :: w ∧ WhitespaceText w

/-- The parser is at the very beginning of the buffer, in front of a brace, a parenthesis or an equals sign. -/
def NothingBefore (st : St) : Prop := st.before = [] ∧ (peek st.rest = 123 ∨ peek st.rest = 40 ∨ peek st.rest = 61)

def Outside (st : St) : Prop := ValueMissing st ∨ NothingBefore st

theorem ValueMissing.after {s t : St} (h : Step s t) (k : ValueMissing t) : ValueMissing s := by
  obtain ⟨toks, hs⟩ := h
  obtain ⟨p, w, hr, hw⟩ := k
  exact ⟨textOf toks ++ p, w, by rw [hs.rest, hr, List.append_assoc], hw⟩

theorem Outside.after {s t : St} (h : Step s t) (k : Outside t) : Outside s := by
  rcases k with k | ⟨hb, hp⟩
  · exact .inl (k.after h)
  · obtain ⟨toks, hs⟩ := h
    have h1 := hs.before
    rw [hb] at h1
    have h2 : (textOf toks).reverse = [] ∧ s.before = [] := by
      have := h1.symm; simpa using this
    have h3 : textOf toks = [] := by simpa using h2.1
    refine .inr ⟨h2.2, ?_⟩
    rw [hs.rest, h3]; exact hp

theorem Res.bind_ub_iff {r : Res} {f : St → Res} :
    r.bind f = .ub ↔ r = .ub ∨ ∃ s, r = .ok s ∧ f s = .ub := by
  cases r <;> simp

theorem quote_ne_ub (st : St) (level : Level) : parseXmqQuote st level ≠ .ub := by
  unfold parseXmqQuote; split <;> simp

theorem entity_ne_ub (st : St) (level : Level) : parseXmqEntity st level ≠ .ub := by
  unfold parseXmqEntity; split <;> simp

theorem commentContinuations_ne_ub (k fuel : Nat) (st : St) (f : Bool) : commentContinuations k fuel st f ≠ .ub := by
  induction fuel generalizing st f with
  | zero => cases f <;> simp [commentContinuations]
  | succ fuel ih =>
    cases f with
    | false => simp [commentContinuations]
    | true =>
      simp only [commentContinuations]
      split
      · simp
      · exact ih _ _

theorem comment_ne_ub (fuel : Nat) (st : St) : parseXmqComment fuel st ≠ .ub := by
  unfold parseXmqComment
  simp only
  split
  · simp
  · split
    · simp
    · exact commentContinuations_ne_ub _ _ _ _

theorem compoundChildren_ne_ub (fuel : Nat) (st : St) (level : Level) : parseXmqCompoundChildren fuel st level ≠ .ub := by
  induction fuel generalizing st with
  | zero => simp [parseXmqCompoundChildren]
  | succ fuel ih =>
    unfold parseXmqCompoundChildren
    split
    · simp
    · split
      · exact ih _
      split
      · simp
      split
      · intro h
        rcases Res.bind_ub_iff.1 h with h | ⟨s, -, h⟩
        · exact quote_ne_ub _ _ h
        · exact ih _ h
      split
      · intro h
        rcases Res.bind_ub_iff.1 h with h | ⟨s, -, h⟩
        · exact entity_ne_ub _ _ h
        · exact ih _ h
      · simp

theorem compound_ne_ub (fuel : Nat) (st : St) (level : Level) : parseXmqCompound fuel st level ≠ .ub := by
  unfold parseXmqCompound
  intro h
  rcases Res.bind_ub_iff.1 h with h | ⟨s, -, h⟩
  · exact compoundChildren_ne_ub _ _ _ h
  · simp only at h; split at h <;> cases h

/-- A missing value: what is left of the buffer is whitespace. -/
theorem value_ub (fuel : Nat) (st : St) (level : Level) (h : parseXmqValue fuel st level = .ub) : WhitespaceText st.rest := by
  unfold parseXmqValue at h
  simp only at h
  split at h
  · exact absurd h (quote_ne_ub _ _)
  split at h
  · exact absurd h (entity_ne_ub _ _)
  split at h
  · exact absurd h (compound_ne_ub _ _ _)
  split at h
  · rename_i hr
    unfold skipWs at hr
    split at hr
    · obtain ⟨n, hn, he, hw⟩ := tokenWhitespace_spec st
      unfold parseXmqWhitespace at hr
      simp only [he, St.emitSpan, St.emit, moved_rest] at hr
      have : st.rest = st.rest.take n := by
        have := List.take_append_drop n st.rest
        rw [hr, List.append_nil] at this
        exact this.symm
      rw [this]; exact hw
    · rw [hr]; exact .nil
  split at h
  · cases h
  · simp [parseXmqTextValue] at h

theorem equals_value_ub (fuel : Nat) (st : St) (level : Level) (hp : peek st.rest = 61)
    (h : parseXmqValue fuel (parseOne st .equals) level = .ub) : ValueMissing st := by
  have hw := value_ub _ _ _ h
  have hs := (stepBy_parseOne st .equals 61 hp (by decide) rfl (fun _ => trivial)).rest
  exact ⟨[], (parseOne st .equals).rest, by simpa using hs, hw⟩

theorem attribute_ub (fuel : Nat) (st : St) (h : parseXmqAttribute fuel st = .ub) : ValueMissing st := by
  have hm := (moves_attrName st).trans (moves_skipWs _)
  rw [parseXmqAttribute_eq] at h
  split at h
  · rename_i hp
    exact (equals_value_ub _ _ _ (by simpa using hp) h).after hm.step
  · cases h

theorem attributes_ub (fuel : Nat) (st : St) (h : parseXmqAttributes fuel st = .ub) : ValueMissing st := by
  induction fuel generalizing st with
  | zero => simp [parseXmqAttributes] at h
  | succ fuel ih =>
    unfold parseXmqAttributes at h
    split at h
    · cases h
    · split at h
      · exact (ih _ h).after (moves_whitespace st).step
      split at h
      · cases h
      split at h
      · rcases Res.bind_ub_iff.1 h with h | ⟨s, h1, h⟩
        · exact attribute_ub _ _ h
        · exact (ih _ h).after (good_ok (good_attribute fuel st) h1).step
      · cases h

theorem elementAttributes_ub (fuel : Nat) (st : St) (h : parseElementAttributes fuel st = .ub) : ValueMissing st := by
  unfold parseElementAttributes at h
  simp only at h
  refine ValueMissing.after (moves_skipWs st).step ?_
  split at h
  · rename_i hp
    have hstep := stepBy_parseOne (skipWs st) .apar_left 40 (by simpa using hp) (by decide) rfl (fun _ => trivial)
    rcases Res.bind_ub_iff.1 h with h | ⟨s, h1, h⟩
    · exact (attributes_ub _ _ h).after ⟨_, hstep⟩
    · split at h <;> cases h
  · cases h

theorem element_ub (fuel : Nat) (body : St → Res) (st : St) (kind : ElemKind)
    (hk : kind = .element ∨ ∃ t, st.rest = 33 :: t ∨ st.rest = 63 :: t)
    (hb : ∀ s : St, body s = .ub → Outside s)
    (ho : parseXmqElementInternal fuel body st kind = .ub) : Outside st := by
  have hm := moves_elementName st kind hk
  refine Outside.after hm.step ?_
  unfold parseXmqElementInternal at ho
  rcases Res.bind_ub_iff.1 ho with h1 | ⟨s, h1, h2⟩
  · exact .inl (elementAttributes_ub _ _ h1)
  · have hs := good_ok (good_elementAttributes fuel _) h1
    refine Outside.after (hs.trans (moves_skipWs s)).step ?_
    unfold parseElementBody at h2
    simp only at h2
    split at h2
    · rename_i hp
      exact .inl (equals_value_ub _ _ _ (by simpa using hp) h2)
    split at h2
    · rename_i hp
      have hp : peek (skipWs s).rest = 123 := by simpa using hp
      rcases Res.bind_ub_iff.1 h2 with h3 | ⟨u, h3, h4⟩
      · exact (hb _ h3).after ⟨_, stepBy_parseOne (skipWs s) .brace_left 123 hp (by decide) rfl (fun _ => trivial)⟩
      · split at h4 <;> cases h4
    · cases h2

theorem possiblyLost_none (st : St) (h : possiblyLostContentAfterEquals st = none) : NothingBefore st := by
  unfold possiblyLostContentAfterEquals at h
  dsimp only at h
  split at h
  · cases h
  · rename_i hc
    split at h
    · rename_i hb
      refine ⟨hb, ?_⟩
      simp at hc
      by_cases h1 : peek st.rest = 123
      · exact .inl h1
      · by_cases h2 : peek st.rest = 40
        · exact .inr (.inl h2)
        · exact .inr (.inr (hc h1 h2))
    · split at h
      · split at h <;> cases h
      · cases h

theorem xmq_ub (fuel : Nat) (st : St) (ho : parseXmq fuel st = .ub) : Outside st := by
  induction fuel generalizing st with
  | zero => simp [parseXmq] at ho
  | succ fuel ih =>
    cases hr : st.rest with
    | nil => simp [parseXmq, hr] at ho
    | cons c t =>
      have elem : ∀ kind, (kind = .element ∨ ∃ t, st.rest = 33 :: t ∨ st.rest = 63 :: t) →
          (parseXmqElementInternal fuel (parseXmq fuel) st kind).bind (parseXmq fuel) = .ub → Outside st := by
        intro kind hk ho
        rcases Res.bind_ub_iff.1 ho with h1 | ⟨s, h1, h2⟩
        · exact element_ub fuel _ st kind hk ih h1
        · exact Outside.after (good_ok (good_element fuel _ (good_xmq fuel) st kind hk) h1).step (ih s h2)
      simp only [parseXmq, hr] at ho
      generalize hcc : (if (c == b#'/' || c == b#'(') = true then peek t else 0) = cc at ho
      split at ho
      · exact Outside.after (moves_whitespace st).step (ih _ ho)
      split at ho
      · rename_i hq
        have hp : peek st.rest = 39 := by simp [hr]; simpa using hq
        rcases Res.bind_ub_iff.1 ho with h1 | ⟨s, h1, h2⟩
        · exact absurd h1 (quote_ne_ub _ _)
        · exact Outside.after (good_ok (good_quote st .xmq hp) h1).step (ih _ h2)
      split at ho
      · rename_i hq
        have hp : peek st.rest = 38 := by simp [hr]; simpa using hq
        rcases Res.bind_ub_iff.1 ho with h1 | ⟨s, h1, h2⟩
        · exact absurd h1 (entity_ne_ub _ _)
        · exact Outside.after (good_ok (good_entity st .xmq hp) h1).step (ih _ h2)
      split at ho
      · rename_i hq
        obtain ⟨u, rfl⟩ : ∃ u, t = cc :: u := by
          have hc : c = 47 ∧ (cc = 47 ∨ cc = 42) := by simpa [isXmqCommentStart] using hq
          obtain ⟨rfl, h2⟩ := hc
          simp at hcc
          cases t with
          | nil => simp at hcc; subst hcc; simp at h2
          | cons a u => simp at hcc; exact ⟨u, by rw [hcc]⟩
        rcases Res.bind_ub_iff.1 ho with h1 | ⟨s, h1, h2⟩
        · exact absurd h1 (comment_ne_ub fuel st)
        · exact Outside.after (good_ok (good_comment fuel st c cc u hr hq) h1).step (ih _ h2)
      split at ho
      · exact elem .element (Or.inl rfl) ho
      split at ho
      · rename_i hq
        have := isXmqDoctypeStart_head c t hq
        exact elem .doctype (Or.inr ⟨t, Or.inl (by rw [hr, this])⟩) ho
      split at ho
      · rename_i hq
        have : c = 63 := by simp [isXmqPiStart] at hq; exact hq.1
        exact elem .pi (Or.inr ⟨t, Or.inr (by rw [hr, this])⟩) ho
      split at ho
      · cases ho
      split at ho
      · rename_i hp; exact .inr (possiblyLost_none st hp)
      · cases ho
      · split at ho <;> cases ho

end Xmq
