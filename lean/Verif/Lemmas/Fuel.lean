import Verif.Lemmas.ParserStep
/-!
# Fuel: more fuel never changes an answer, and the length of the input is always enough fuel

If a loop iteration of the parser consumes nothing, the loop never ends.  Otherwise each iteration
consumes at least one byte.
-/
namespace Xmq
open Spec

/-- `r'` is `r`, or `r` ran out of fuel. -/
def Res.le (r r' : Res) : Prop := r = .outOfFuel ∨ r = r'

theorem Res.le_refl (r : Res) : r.le r := Or.inr rfl
theorem Res.fuel_le (r : Res) : Res.outOfFuel.le r := Or.inl rfl
theorem Res.le_trans {a b c : Res} (h : a.le b) (k : b.le c) : a.le c := by
  rcases h with rfl | rfl
  · exact Or.inl rfl
  · exact k

theorem Res.bind_le {r r' : Res} {f f' : St → Res} (h : r.le r') (hf : ∀ s, (f s).le (f' s)) :
    (r.bind f).le (r'.bind f') := by
  rcases h with rfl | rfl
  · exact Or.inl rfl
  · cases r
    · exact hf _
    · exact Or.inr rfl
    · exact Or.inr rfl
    · exact Or.inr rfl

theorem le_commentContinuations (k fuel : Nat) (st : St) (f : Bool) :
    (commentContinuations k fuel st f).le (commentContinuations k (fuel + 1) st f) := by
  induction fuel generalizing st f with
  | zero =>
    cases f
    · simp [commentContinuations, Res.le]
    · exact Or.inl rfl
  | succ fuel ih =>
    cases f with
    | false => simp [commentContinuations, Res.le]
    | true =>
      unfold commentContinuations
      cases eatXmqCommentToClose st k with
      | error e => exact Res.le_refl _
      | ok p => exact ih _ _

theorem le_comment (fuel : Nat) (st : St) : (parseXmqComment fuel st).le (parseXmqComment (fuel + 1) st) := by
  unfold parseXmqComment
  rcases countXmqSlashes st.rest with ⟨n, f⟩
  simp only
  split
  · exact Res.le_refl _
  · cases eatXmqCommentToClose st n with
    | error e => exact Res.le_refl _
    | ok p => exact le_commentContinuations _ _ _ _

theorem le_compoundChildren (fuel : Nat) (st : St) (level : Level) :
    (parseXmqCompoundChildren fuel st level).le (parseXmqCompoundChildren (fuel + 1) st level) := by
  induction fuel generalizing st with
  | zero => exact Or.inl rfl
  | succ fuel ih =>
    unfold parseXmqCompoundChildren
    split
    · exact Res.le_refl _
    · split
      · exact ih _
      split
      · exact Res.le_refl _
      split
      · exact Res.bind_le (Res.le_refl _) (fun s => ih s)
      split
      · exact Res.bind_le (Res.le_refl _) (fun s => ih s)
      · exact Res.le_refl _

theorem le_value (fuel : Nat) (st : St) (level : Level) :
    (parseXmqValue fuel st level).le (parseXmqValue (fuel + 1) st level) := by
  unfold parseXmqValue
  simp only
  split
  · exact Res.le_refl _
  split
  · exact Res.le_refl _
  split
  · exact Res.bind_le (le_compoundChildren _ _ _) (fun s => Res.le_refl _)
  · exact Res.le_refl _

theorem le_attribute (fuel : Nat) (st : St) : (parseXmqAttribute fuel st).le (parseXmqAttribute (fuel + 1) st) := by
  rw [parseXmqAttribute_eq, parseXmqAttribute_eq]
  split
  · exact le_value _ _ _
  · exact Res.le_refl _

theorem le_attributes (fuel : Nat) (st : St) : (parseXmqAttributes fuel st).le (parseXmqAttributes (fuel + 1) st) := by
  induction fuel generalizing st with
  | zero => exact Or.inl rfl
  | succ fuel ih =>
    unfold parseXmqAttributes
    split
    · exact Res.le_refl _
    · split
      · exact ih _
      split
      · exact Res.le_refl _
      split
      · exact Res.bind_le (le_attribute _ _) (fun s => ih s)
      · exact Res.le_refl _

theorem le_element (fuel : Nat) (body body' : St → Res) (hb : ∀ s, (body s).le (body' s)) (st : St) (kind : ElemKind) :
    (parseXmqElementInternal fuel body st kind).le (parseXmqElementInternal (fuel + 1) body' st kind) := by
  unfold parseXmqElementInternal
  refine Res.bind_le ?_ (fun s => ?_)
  · unfold parseElementAttributes
    simp only
    split
    · exact Res.bind_le (le_attributes _ _) (fun s => Res.le_refl _)
    · exact Res.le_refl _
  · unfold parseElementBody
    simp only
    split
    · exact le_value _ _ _
    split
    · exact Res.bind_le (hb _) (fun s => Res.le_refl _)
    · exact Res.le_refl _

theorem le_xmq (fuel : Nat) (st : St) : (parseXmq fuel st).le (parseXmq (fuel + 1) st) := by
  induction fuel generalizing st with
  | zero => exact Or.inl rfl
  | succ fuel ih =>
    unfold parseXmq
    split
    · exact Res.le_refl _
    rename_i c t hr
    simp only
    generalize (if (c == b#'/' || c == b#'(') = true then peek t else 0) = cc
    split
    · exact ih _
    split
    · exact Res.bind_le (Res.le_refl _) (fun s => ih s)
    split
    · exact Res.bind_le (Res.le_refl _) (fun s => ih s)
    split
    · exact Res.bind_le (le_comment _ _) (fun s => ih s)
    split
    · exact Res.bind_le (le_element _ _ _ ih _ _) (fun s => ih s)
    split
    · exact Res.bind_le (le_element _ _ _ ih _ _) (fun s => ih s)
    split
    · exact Res.bind_le (le_element _ _ _ ih _ _) (fun s => ih s)
    · exact Res.le_refl _

theorem le_buffer (fuel : Nat) (input : List Byte) : (parseBuffer fuel input).le (parseBuffer (fuel + 1) input) :=
  Res.bind_le (le_xmq _ _) (fun _ => Res.le_refl _)

theorem le_buffer_of_le {fuel fuel' : Nat} (h : fuel ≤ fuel') (input : List Byte) :
    (parseBuffer fuel input).le (parseBuffer fuel' input) := by
  induction h with
  | refl => exact Res.le_refl _
  | step _ ih => exact Res.le_trans ih (le_buffer _ _)

/-! ## Progress -/

theorem Good.len {st st' : St} {r : Res} (h : Good st r) (hr : r = .ok st') : st'.rest.length ≤ st.rest.length := by
  subst hr; exact Moves.len h

theorem rest_emitSpan (st' st : St) (k : Kind) (n : Nat) : (st'.emitSpan st k n).rest = st'.rest := rfl

theorem quote_len {st st' : St} {level : Level} (hp : peek st.rest = 39) (h : parseXmqQuote st level = .ok st') :
    st'.rest.length < st.rest.length := by
  unfold parseXmqQuote at h
  split at h
  · cases h
  · rename_i s n hq
    obtain ⟨h0, hle, rfl, _⟩ := eatXmqQuote_spec st hp s n hq
    cases h
    simp [rest_emitSpan]; omega

theorem entity_len {st st' : St} {level : Level} (hp : peek st.rest = 38) (h : parseXmqEntity st level = .ok st') :
    st'.rest.length < st.rest.length := by
  unfold parseXmqEntity at h
  split at h
  · cases h
  · rename_i s n hq
    obtain ⟨h0, hle, rfl, _⟩ := eatXmqEntity_spec st hp s n hq
    cases h
    simp [rest_emitSpan]; omega

theorem parseOne_len {st : St} {kind : Kind} (h : st.rest ≠ []) : (parseOne st kind).rest.length < st.rest.length := by
  cases hr : st.rest with
  | nil => exact absurd hr h
  | cons a t =>
    unfold parseOne
    rw [advance_eq _ _ (by rw [hr]; simp)]
    simp [rest_emitSpan, hr]

theorem ne_nil_of_peek {s : List Byte} {c : Byte} (hc : c ≠ 0) (h : peek s = c) : s ≠ [] := by
  rintro rfl; exact hc h.symm

theorem skipWs_len (st : St) : (skipWs st).rest.length ≤ st.rest.length := (moves_skipWs st).len

/-! ## Enough fuel -/

theorem stable_commentContinuations (k : Nat) (hk : 0 < k) (fuel fuel' : Nat) (st : St) (f : Bool)
    (hf : f = true → ∃ u, st.rest = 42 :: u) (h : st.rest.length < fuel) (h' : st.rest.length < fuel') :
    commentContinuations k fuel st f = commentContinuations k fuel' st f := by
  induction hl : st.rest.length using Nat.strongRecOn generalizing fuel fuel' st f with
  | _ len ih =>
    obtain ⟨fuel, rfl⟩ : ∃ j, fuel = j + 1 := ⟨fuel - 1, by omega⟩
    obtain ⟨fuel', rfl⟩ : ∃ j, fuel' = j + 1 := ⟨fuel' - 1, by omega⟩
    cases f with
    | false => simp [commentContinuations]
    | true =>
      simp only [commentContinuations]
      obtain ⟨u, hu⟩ := hf rfl
      cases hq : eatXmqCommentToClose st k with
      | error e => rfl
      | ok p =>
        rcases p with ⟨s, n, found⟩
        obtain ⟨h0, hle, rfl, _, hfound⟩ := eatXmqCommentToClose_cont_spec st k hk u hu s n found hq
        simp only
        have hlt : ((st.moved n).emitSpan st .comment_continuation n).rest.length < st.rest.length := by
          simp [rest_emitSpan]; omega
        exact ih _ (by omega) _ _ _ _ hfound (by omega) (by omega) rfl

theorem comment_spec {st : St} {c cc : Byte} {t : List Byte} (hs : st.rest = c :: cc :: t)
    (hc : isXmqCommentStart c cc = true) :
    (∃ (st' : St) (n : Nat), (∀ fuel, parseXmqComment fuel st = .ok (st'.emitSpan st .comment n)) ∧ st'.rest.length < st.rest.length) ∨
    (∃ e, ∀ fuel, parseXmqComment fuel st = .err e st) ∨
    (∃ (st' : St) (n k : Nat) (f : Bool), 0 < k ∧ (f = true → ∃ u, st'.rest = 42 :: u) ∧ st'.rest.length < st.rest.length ∧
      ∀ fuel, parseXmqComment fuel st = commentContinuations k fuel (st'.emitSpan st .comment n) f) := by
  simp [isXmqCommentStart] at hc
  obtain ⟨rfl, hcc⟩ := hc
  obtain ⟨k, u, hku, hu, -, -⟩ := takeRun 47 st.rest
  have hk : 0 < k := by
    rcases Nat.eq_zero_or_pos k with rfl | h
    · simp at hku; rw [← hku, hs] at hu; simp at hu
    · exact h
  have hcnt : countXmqSlashes st.rest = (k, peek u == 42) := by rw [hku, countXmqSlashes_run hu]
  unfold parseXmqComment
  simp only [hcnt]
  by_cases hne : (!(peek u == 42)) = true
  · left
    have hcc' : cc = 47 := by
      rcases hcc with h | h
      · exact h
      · exfalso
        subst h
        have : k = 1 := by
          rw [hs] at hcnt
          have h2 := congrArg Prod.fst hcnt
          simp [countXmqSlashes] at h2
          exact h2.symm
        subst this
        rw [hs] at hku; simp [List.replicate_succ] at hku
        rw [← hku] at hne; simp at hne
    subst hcc'
    obtain ⟨h0, hle, he, _⟩ := eatXmqCommentToEol_spec st t hs (by rw [hcnt]; simpa using hne)
    refine ⟨(eatXmqCommentToEol st).1, (eatXmqCommentToEol st).2, fun fuel => by rw [if_pos hne], ?_⟩
    rw [he]; simp; omega
  · right
    simp only [hne, Bool.false_eq_true, if_false]
    simp at hne
    obtain ⟨v, rfl⟩ : ∃ v, u = 42 :: v := by
      cases u with
      | nil => simp at hne
      | cons a v => simp at hne; exact ⟨v, by rw [hne]⟩
    cases hq : eatXmqCommentToClose st k with
    | error e => left; exact ⟨e, fun _ => rfl⟩
    | ok p =>
      right
      rcases p with ⟨s, n, found⟩
      obtain ⟨h0, hle, rfl, _, hfound⟩ := eatXmqCommentToClose_open_spec st k hk v hku s n found hq
      exact ⟨st.moved n, n, k, found, hk, hfound, by simp; omega, fun _ => rfl⟩

theorem stable_comment (fuel fuel' : Nat) (st : St) (c cc : Byte) (t : List Byte) (hs : st.rest = c :: cc :: t)
    (hc : isXmqCommentStart c cc = true) (h : st.rest.length ≤ fuel) (h' : st.rest.length ≤ fuel') :
    parseXmqComment fuel st = parseXmqComment fuel' st := by
  rcases comment_spec hs hc with ⟨s, n, he, _⟩ | ⟨e, he⟩ | ⟨s, n, k, f, hk, hf, hl, he⟩
  · rw [he, he]
  · rw [he, he]
  · rw [he, he]
    exact stable_commentContinuations k hk _ _ _ _ hf (by rw [rest_emitSpan]; omega) (by rw [rest_emitSpan]; omega)

theorem comment_len (fuel : Nat) (st st' : St) (c cc : Byte) (t : List Byte) (hs : st.rest = c :: cc :: t)
    (hc : isXmqCommentStart c cc = true) (h : parseXmqComment fuel st = .ok st') :
    st'.rest.length < st.rest.length := by
  rcases comment_spec hs hc with ⟨s, n, he, hl⟩ | ⟨e, he⟩ | ⟨s, n, k, f, hk, hf, hl, he⟩
  · rw [he] at h; cases h; exact hl
  · rw [he] at h; cases h
  · rw [he] at h
    have := Good.len (good_commentContinuations k hk fuel (s.emitSpan st .comment n) f hf) h
    rw [rest_emitSpan] at this; omega

theorem whitespace_tab (st : St) (t : List Byte) (h : st.rest = 9 :: t) : (parseXmqWhitespace st).rest = 9 :: t := by
  unfold parseXmqWhitespace eatXmqTokenWhitespace
  simp only [rest_emitSpan]
  rw [show st.rest.length = t.length + 1 by simp [h]]
  simp only [tokenWhitespaceLoop]
  rw [if_neg (by simp [h]), if_neg (by simp [h, countWhitespace]), if_pos (by simp [h, countWhitespace]), h]

theorem compound_tab (fuel : Nat) (st : St) (level : Level) (t : List Byte) (h : st.rest = 9 :: t) :
    parseXmqCompoundChildren fuel st level = .outOfFuel := by
  induction fuel generalizing st with
  | zero => rfl
  | succ fuel ih =>
    unfold parseXmqCompoundChildren
    simp only [h]
    rw [if_pos (by decide)]
    exact ih _ (whitespace_tab st t h)

theorem Res.bind_congr {r : Res} {f g : St → Res} (h : ∀ s, r = .ok s → f s = g s) : r.bind f = r.bind g := by
  cases r with
  | ok s => exact h s rfl
  | err => rfl
  | ub => rfl
  | outOfFuel => rfl

theorem stable_compoundChildren (fuel fuel' : Nat) (st : St) (level : Level)
    (h : st.rest.length < fuel) (h' : st.rest.length < fuel') :
    parseXmqCompoundChildren fuel st level = parseXmqCompoundChildren fuel' st level := by
  induction hl : st.rest.length using Nat.strongRecOn generalizing fuel fuel' st with
  | _ len ih =>
    cases hr : st.rest with
    | nil =>
      obtain ⟨fuel, rfl⟩ : ∃ j, fuel = j + 1 := ⟨fuel - 1, by omega⟩
      obtain ⟨fuel', rfl⟩ : ∃ j, fuel' = j + 1 := ⟨fuel' - 1, by omega⟩
      simp [parseXmqCompoundChildren, hr]
    | cons c t =>
      by_cases htab : c = 9
      · subst htab; rw [compound_tab _ _ _ t hr, compound_tab _ _ _ t hr]
      · obtain ⟨fuel, rfl⟩ : ∃ j, fuel = j + 1 := ⟨fuel - 1, by omega⟩
        obtain ⟨fuel', rfl⟩ : ∃ j, fuel' = j + 1 := ⟨fuel' - 1, by omega⟩
        simp only [parseXmqCompoundChildren, hr]
        split
        · rename_i hw
          have := moves_whitespace_pos st c t hr hw htab
          exact ih _ (by omega) _ _ _ (by omega) (by omega) rfl
        split
        · rfl
        split
        · rename_i hq
          refine Res.bind_congr (fun s hs => ?_)
          have := quote_len (by simp [hr]; simpa using hq) hs
          exact ih _ (by omega) _ _ _ (by omega) (by omega) rfl
        split
        · rename_i hq
          refine Res.bind_congr (fun s hs => ?_)
          have := entity_len (by simp [hr]; simpa using hq) hs
          exact ih _ (by omega) _ _ _ (by omega) (by omega) rfl
        · rfl

theorem stable_value (fuel fuel' : Nat) (st : St) (level : Level)
    (h : st.rest.length ≤ fuel) (h' : st.rest.length ≤ fuel') :
    parseXmqValue fuel st level = parseXmqValue fuel' st level := by
  have hsk := skipWs_len st
  unfold parseXmqValue
  simp only
  split
  · rfl
  split
  · rfl
  split
  · rename_i hp
    have hne : (skipWs st).rest ≠ [] := ne_nil_of_peek (c := 40) (by decide) (by simpa using hp)
    have := parseOne_len (kind := .cpar_left) hne
    unfold parseXmqCompound
    rw [stable_compoundChildren fuel fuel' _ _ (by omega) (by omega)]
  · rfl

theorem stable_attribute (fuel fuel' : Nat) (st : St)
    (h : st.rest.length ≤ fuel) (h' : st.rest.length ≤ fuel') :
    parseXmqAttribute fuel st = parseXmqAttribute fuel' st := by
  have hsk := ((moves_attrName st).trans (moves_skipWs _)).len
  rw [parseXmqAttribute_eq, parseXmqAttribute_eq]
  split
  · rename_i hp
    have := parseOne_len (st := skipWs (attributeName st)) (kind := .equals)
      (ne_nil_of_peek (c := 61) (by decide) (by simpa using hp))
    exact stable_value _ _ _ _ (by omega) (by omega)
  · rfl

/-- Bytes at which the attribute loop calls `parse_xmq_attribute` although they cannot be part of a name. -/
def attrStuck (c : Byte) : Bool := !isXmlWhitespace c && isXmqAttributeKeyStart c && !isXmqTextName c

theorem attributeName_stuck (st : St) (c : Byte) (t : List Byte) (hr : st.rest = c :: t) (hc : isXmqTextName c = false) :
    (attributeName st).rest = c :: t := by
  rw [attributeName_rest]
  obtain ⟨n, hn, he, _⟩ := eatXmqTextName_spec st
  rw [he, moved_rest, hn, hr]
  simp [hc]

theorem attributes_stuck (fuel : Nat) (st : St) (c : Byte) (t : List Byte) (hr : st.rest = c :: t)
    (hc : attrStuck c = true) : parseXmqAttributes fuel st = .outOfFuel := by
  induction fuel generalizing st with
  | zero => rfl
  | succ fuel ih =>
    simp only [attrStuck, Bool.and_eq_true, Bool.not_eq_true'] at hc
    obtain ⟨⟨h1, h2⟩, h3⟩ := hc
    have hne : c ≠ 41 ∧ c ≠ 61 := by
      simp [isXmqAttributeKeyStart] at h2; grind
    have hname := attributeName_stuck st c t hr h3
    have hsk : skipWs (attributeName st) = attributeName st := by
      unfold skipWs; rw [hname]; simp [h1]
    unfold parseXmqAttributes
    simp only [hr]
    rw [if_neg (by simp [h1]), if_neg (by simp [hne.1]), if_pos h2, parseXmqAttribute_eq, hsk, hname,
      if_neg (by simp [hne.2]), Res.bind_ok]
    exact ih _ hname

theorem attributes_tab (fuel : Nat) (st : St) (t : List Byte) (h : st.rest = 9 :: t) :
    parseXmqAttributes fuel st = .outOfFuel := by
  induction fuel generalizing st with
  | zero => rfl
  | succ fuel ih =>
    unfold parseXmqAttributes
    simp only [h]
    rw [if_pos (by decide)]
    exact ih _ (whitespace_tab st t h)

theorem attributeName_len (st : St) (c : Byte) (t : List Byte) (hr : st.rest = c :: t) (hc : isXmqTextName c = true) :
    (attributeName st).rest.length < st.rest.length := by
  rw [attributeName_rest]
  obtain ⟨n, hn, he, _⟩ := eatXmqTextName_spec st
  have : 0 < n := by rw [hn, hr]; simp [hc]
  rw [he, moved_rest, List.length_drop, hr]; simp; omega

theorem attribute_len (fuel : Nat) (st st' : St) (c : Byte) (t : List Byte) (hr : st.rest = c :: t)
    (hc : isXmqTextName c = true) (h : parseXmqAttribute fuel st = .ok st') : st'.rest.length < st.rest.length := by
  have h1 := attributeName_len st c t hr hc
  have h2 := skipWs_len (attributeName st)
  rw [parseXmqAttribute_eq] at h
  split at h
  · rename_i hp
    have := parseOne_len (st := skipWs (attributeName st)) (kind := .equals)
      (ne_nil_of_peek (c := 61) (by decide) (by simpa using hp))
    have := Good.len (good_value _ _ _) h
    omega
  · cases h; omega

theorem stable_attributes (fuel fuel' : Nat) (st : St)
    (h : st.rest.length < fuel) (h' : st.rest.length < fuel') :
    parseXmqAttributes fuel st = parseXmqAttributes fuel' st := by
  induction hl : st.rest.length using Nat.strongRecOn generalizing fuel fuel' st with
  | _ len ih =>
    cases hr : st.rest with
    | nil =>
      obtain ⟨fuel, rfl⟩ : ∃ j, fuel = j + 1 := ⟨fuel - 1, by omega⟩
      obtain ⟨fuel', rfl⟩ : ∃ j, fuel' = j + 1 := ⟨fuel' - 1, by omega⟩
      simp [parseXmqAttributes, hr]
    | cons c t =>
      by_cases htab : c = 9
      · subst htab; rw [attributes_tab _ _ t hr, attributes_tab _ _ t hr]
      · by_cases hst : attrStuck c = true
        · rw [attributes_stuck _ _ c t hr hst, attributes_stuck _ _ c t hr hst]
        · obtain ⟨fuel, rfl⟩ : ∃ j, fuel = j + 1 := ⟨fuel - 1, by omega⟩
          obtain ⟨fuel', rfl⟩ : ∃ j, fuel' = j + 1 := ⟨fuel' - 1, by omega⟩
          simp only [parseXmqAttributes, hr]
          split
          · rename_i hw
            have := moves_whitespace_pos st c t hr hw htab
            exact ih _ (by omega) _ _ _ (by omega) (by omega) rfl
          split
          · rfl
          split
          · rename_i hw _ hk
            rw [stable_attribute fuel fuel' st (by omega) (by omega)]
            refine Res.bind_congr (fun s hs => ?_)
            have hname : isXmqTextName c = true := by
              simp [attrStuck, hk] at hst; exact hst (by simpa using hw)
            have := attribute_len _ _ _ c t hr hname hs
            exact ih _ (by omega) _ _ _ (by omega) (by omega) rfl
          · rfl

theorem stable_elementAttributes (fuel fuel' : Nat) (st : St)
    (h : st.rest.length ≤ fuel) (h' : st.rest.length ≤ fuel') :
    parseElementAttributes fuel st = parseElementAttributes fuel' st := by
  have hsk := skipWs_len st
  unfold parseElementAttributes
  simp only
  split
  · rename_i hp
    have := parseOne_len (st := skipWs st) (kind := .apar_left)
      (ne_nil_of_peek (c := 40) (by decide) (by simpa using hp))
    rw [stable_attributes fuel fuel' _ (by omega) (by omega)]
  · rfl

theorem stable_elementBody (fuel fuel' : Nat) (body body' : St → Res) (st : St)
    (h : st.rest.length ≤ fuel) (h' : st.rest.length ≤ fuel')
    (hb : ∀ s : St, s.rest.length < st.rest.length → body s = body' s) :
    parseElementBody fuel body st = parseElementBody fuel' body' st := by
  have hsk := skipWs_len st
  unfold parseElementBody
  simp only
  split
  · rename_i hp
    have := parseOne_len (st := skipWs st) (kind := .equals)
      (ne_nil_of_peek (c := 61) (by decide) (by simpa using hp))
    exact stable_value _ _ _ _ (by omega) (by omega)
  split
  · rename_i hp
    have := parseOne_len (st := skipWs st) (kind := .brace_left)
      (ne_nil_of_peek (c := 123) (by decide) (by simpa using hp))
    rw [hb _ (by omega)]
  · rfl

theorem elementName_len (st : St) (kind : ElemKind) (c : Byte) (t : List Byte) (hr : st.rest = c :: t)
    (hk : kind = .element ∧ isXmqTextName c = true ∨ kind ≠ .element) :
    (parseElementName st kind).rest.length < st.rest.length := by
  have other : (eatXmqDoctypeOrPi st).1.rest.length < st.rest.length := by
    obtain ⟨n, h0, he, hle, _⟩ := eatXmqDoctypeOrPi_spec st c t hr
    rw [he]; simp; omega
  cases kind with
  | element =>
    simp at hk
    unfold parseElementName
    simp only [emitName_rest]
    obtain ⟨n, hn, he, _⟩ := eatXmqTextName_spec st
    have : 0 < n := by rw [hn, hr]; simp [hk]
    rw [he, moved_rest, List.length_drop, hr]; simp; omega
  | doctype => exact other
  | pi => exact other

theorem stable_element (fuel fuel' : Nat) (body body' : St → Res) (st : St) (kind : ElemKind)
    (h : st.rest.length ≤ fuel) (h' : st.rest.length ≤ fuel')
    (hn : (parseElementName st kind).rest.length < st.rest.length)
    (hb : ∀ s : St, s.rest.length < st.rest.length → body s = body' s) :
    parseXmqElementInternal fuel body st kind = parseXmqElementInternal fuel' body' st kind := by
  unfold parseXmqElementInternal
  rw [stable_elementAttributes fuel fuel' _ (by omega) (by omega)]
  refine Res.bind_congr (fun s hs => ?_)
  have := Good.len (good_elementAttributes fuel' _) hs
  exact stable_elementBody _ _ _ _ _ (by omega) (by omega) (fun s hs => hb s (by omega))

theorem element_len (fuel : Nat) (body : St → Res) (st st' : St) (kind : ElemKind)
    (hn : (parseElementName st kind).rest.length < st.rest.length) (hb : ∀ st, Good st (body st))
    (h : parseXmqElementInternal fuel body st kind = .ok st') : st'.rest.length < st.rest.length := by
  have := Good.len (Good.bind (good_elementAttributes fuel (parseElementName st kind))
    (fun s _ => good_elementBody fuel body hb s)) h
  omega

theorem elementStart_name (c : Byte) : isXmqElementStart c = true → isXmqTextName c = true := by
  revert c
  apply forall_byte (P := fun c => isXmqElementStart c = true → isXmqTextName c = true)
  decide +kernel

theorem tokenWs_xmlWs (c : Byte) (h : isXmqTokenWhitespace c = true) : isXmlWhitespace c = true ∧ c ≠ 9 := by
  simp [isXmqTokenWhitespace] at h
  rw [isXmlWhitespace_iff]; grind

theorem stable_xmq (fuel fuel' : Nat) (st : St) (h : st.rest.length < fuel) (h' : st.rest.length < fuel') :
    parseXmq fuel st = parseXmq fuel' st := by
  induction hl : st.rest.length using Nat.strongRecOn generalizing fuel fuel' st with
  | _ len ih =>
    obtain ⟨fuel, rfl⟩ : ∃ j, fuel = j + 1 := ⟨fuel - 1, by omega⟩
    obtain ⟨fuel', rfl⟩ : ∃ j, fuel' = j + 1 := ⟨fuel' - 1, by omega⟩
    cases hr : st.rest with
    | nil => simp [parseXmq, hr]
    | cons c t =>
      have again : ∀ s : St, s.rest.length < st.rest.length → parseXmq fuel s = parseXmq fuel' s :=
        fun s hs => ih _ (by omega) _ _ s (by omega) (by omega) rfl
      have elem : ∀ kind, (parseElementName st kind).rest.length < st.rest.length →
          (parseXmqElementInternal fuel (parseXmq fuel) st kind).bind (parseXmq fuel) =
          (parseXmqElementInternal fuel' (parseXmq fuel') st kind).bind (parseXmq fuel') := by
        intro kind hn
        rw [stable_element fuel fuel' (parseXmq fuel) (parseXmq fuel') st kind (by omega) (by omega) hn again]
        refine Res.bind_congr (fun s hs => again s ?_)
        exact element_len fuel' (parseXmq fuel') st s kind hn (good_xmq fuel') hs
      simp only [parseXmq, hr]
      generalize hcc : (if (c == b#'/' || c == b#'(') = true then peek t else 0) = cc
      split
      · rename_i hw
        obtain ⟨h1, h2⟩ := tokenWs_xmlWs c hw
        exact again _ (moves_whitespace_pos st c t hr h1 h2)
      split
      · rename_i hq
        exact Res.bind_congr (fun s hs => again s (quote_len (by simp [hr]; simpa using hq) hs))
      split
      · rename_i hq
        exact Res.bind_congr (fun s hs => again s (entity_len (by simp [hr]; simpa using hq) hs))
      split
      · rename_i hq
        obtain ⟨u, rfl⟩ : ∃ u, t = cc :: u := by
          have hc : c = 47 ∧ (cc = 47 ∨ cc = 42) := by simpa [isXmqCommentStart] using hq
          obtain ⟨rfl, h2⟩ := hc
          simp at hcc
          cases t with
          | nil => simp at hcc; subst hcc; simp at h2
          | cons a u => simp at hcc; exact ⟨u, by rw [hcc]⟩
        rw [stable_comment fuel fuel' st c cc u hr hq (by omega) (by omega)]
        exact Res.bind_congr (fun s hs => again s (comment_len _ st s c cc u hr hq hs))
      split
      · rename_i hq
        exact elem .element (elementName_len st _ c t hr (Or.inl ⟨rfl, elementStart_name c hq⟩))
      split
      · exact elem .doctype (elementName_len st _ c t hr (Or.inr (by simp)))
      split
      · exact elem .pi (elementName_len st _ c t hr (Or.inr (by simp)))
      · rfl

/-- The length of the input is enough fuel. -/
theorem stable_buffer (fuel : Nat) (input : List Byte) (h : input.length < fuel) :
    parseBuffer fuel input = parseBuffer (input.length + 1) input := by
  unfold parseBuffer
  rw [stable_xmq fuel (input.length + 1) (initSt input) h (Nat.lt_succ_self _)]

end Xmq
