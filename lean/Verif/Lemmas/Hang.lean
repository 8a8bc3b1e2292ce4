import Verif.Lemmas.Fuel
/-!
# Where the parser can loop forever
-/
namespace Xmq
open Spec

/-- The parser reaches, by well nested tokens, a stuck byte. -/
def HangIn (st : St) : Prop :=
  ∃ toks s c t, StepBy toks st s ∧ WellNested (kinds toks) ∧ s.rest = c :: t ∧ StuckByte c

/-- The parser reaches a stuck byte inside a parenthesis opened on the way. -/
def Hang (st : St) : Prop :=
  ∃ toks s c t, StepBy toks st s ∧ ParenOpen (kinds toks) ∧ s.rest = c :: t ∧ StuckByte c

theorem Hang.after {s t : St} (h : Moves s t) (k : Hang t) : Hang s := by
  obtain ⟨a, ha, _⟩ := h
  obtain ⟨toks, u, c, r, hs, ⟨x, y, z, he, hy, hz⟩, hr, hc⟩ := k
  exact ⟨a ++ toks, u, c, r, ha.trans hs, ⟨kinds a ++ x, y, z, by simp [he], hy, hz⟩, hr, hc⟩

theorem HangIn.after {s t : St} (h : Moves s t) (k : HangIn t) : HangIn s := by
  obtain ⟨a, ha, na⟩ := h
  obtain ⟨toks, u, c, r, hs, hn, hr, hc⟩ := k
  exact ⟨a ++ toks, u, c, r, ha.trans hs, by rw [kinds_append]; exact .append _ _ na hn, hr, hc⟩

theorem Hang.afterOne {st s : St} {tok : Tok} (h : StepBy [tok] st s) (k : Hang s) : Hang st := by
  obtain ⟨toks, u, c, r, hs, ⟨x, y, z, he, hy, hz⟩, hr, hc⟩ := k
  exact ⟨[tok] ++ toks, u, c, r, h.trans hs, ⟨tok.kind :: x, y, z, by simp [he], hy, hz⟩, hr, hc⟩

theorem HangIn.open {st s : St} {tok : Tok} (h : StepBy [tok] st s) (hk : tok.kind = .apar_left ∨ tok.kind = .cpar_left)
    (k : HangIn s) : Hang st := by
  obtain ⟨toks, u, c, r, hs, hn, hr, hc⟩ := k
  exact ⟨[tok] ++ toks, u, c, r, h.trans hs, ⟨[], tok.kind, kinds toks, by simp, hk, hn⟩, hr, hc⟩

theorem Res.bind_fuel_iff {r : Res} {f : St → Res} :
    r.bind f = .outOfFuel ↔ r = .outOfFuel ∨ ∃ s, r = .ok s ∧ f s = .outOfFuel := by
  cases r <;> simp

theorem stuck_iff (c : Byte) : StuckByte c ↔ (c = 9 ∨ attrStuck c = true) := by
  revert c
  apply forall_byte (P := fun c => StuckByte c ↔ (c = 9 ∨ attrStuck c = true))
  unfold StuckByte NameByte
  decide +kernel

theorem hangIn_here {st : St} {c : Byte} {t : List Byte} (hr : st.rest = c :: t) (hc : StuckByte c) : HangIn st :=
  ⟨[], st, c, t, .refl st, .nil, hr, hc⟩

theorem quote_ne_fuel (st : St) (level : Level) : parseXmqQuote st level ≠ .outOfFuel := by
  unfold parseXmqQuote; split <;> simp

theorem entity_ne_fuel (st : St) (level : Level) : parseXmqEntity st level ≠ .outOfFuel := by
  unfold parseXmqEntity; split <;> simp

theorem good_ok {st s : St} {r : Res} (h : Good st r) (hr : r = .ok s) : Moves st s := by subst hr; exact h

theorem hang_commentContinuations (k : Nat) (hk : 0 < k) (fuel : Nat) (st : St) (f : Bool)
    (hf : f = true → ∃ u, st.rest = 42 :: u) (h : st.rest.length < fuel) :
    commentContinuations k fuel st f ≠ .outOfFuel := by
  induction fuel generalizing st f with
  | zero => omega
  | succ fuel ih =>
    cases f with
    | false => simp [commentContinuations]
    | true =>
      simp only [commentContinuations]
      obtain ⟨u, hu⟩ := hf rfl
      split
      · simp
      · rename_i s n found hq
        obtain ⟨h0, hle, rfl, _, hfound⟩ := eatXmqCommentToClose_cont_spec st k hk u hu s n found hq
        refine ih _ _ hfound ?_
        simp [rest_emitSpan]; omega

theorem hang_comment (fuel : Nat) (st : St) (c cc : Byte) (t : List Byte) (hs : st.rest = c :: cc :: t)
    (hc : isXmqCommentStart c cc = true) (h : st.rest.length ≤ fuel) : parseXmqComment fuel st ≠ .outOfFuel := by
  rcases comment_spec hs hc with ⟨s, n, he, _⟩ | ⟨e, he⟩ | ⟨s, n, k, f, hk, hf, hl, he⟩
  · rw [he]; simp
  · rw [he]; simp
  · rw [he]
    exact hang_commentContinuations k hk _ _ _ hf (by rw [rest_emitSpan]; omega)

theorem hang_compoundChildren (fuel : Nat) (st : St) (level : Level) (h : st.rest.length < fuel)
    (ho : parseXmqCompoundChildren fuel st level = .outOfFuel) : HangIn st := by
  induction fuel generalizing st with
  | zero => omega
  | succ fuel ih =>
    unfold parseXmqCompoundChildren at ho
    cases hr : st.rest with
    | nil => simp [hr] at ho
    | cons c t =>
      by_cases htab : c = 9
      · exact hangIn_here hr (Or.inl htab)
      · simp only [hr] at ho
        split at ho
        · rename_i hw
          have := moves_whitespace_pos st c t hr hw htab
          exact HangIn.after (moves_whitespace st) (ih _ (by omega) ho)
        split at ho
        · cases ho
        split at ho
        · rename_i hq
          have hp : peek st.rest = 39 := by simp [hr]; simpa using hq
          rcases Res.bind_fuel_iff.1 ho with h1 | ⟨s, h1, h2⟩
          · exact absurd h1 (quote_ne_fuel _ _)
          · have := quote_len hp h1
            exact HangIn.after (good_ok (good_quote st level hp) h1) (ih _ (by omega) h2)
        split at ho
        · rename_i hq
          have hp : peek st.rest = 38 := by simp [hr]; simpa using hq
          rcases Res.bind_fuel_iff.1 ho with h1 | ⟨s, h1, h2⟩
          · exact absurd h1 (entity_ne_fuel _ _)
          · have := entity_len hp h1
            exact HangIn.after (good_ok (good_entity st level hp) h1) (ih _ (by omega) h2)
        · cases ho

theorem hang_value (fuel : Nat) (st : St) (level : Level) (h : st.rest.length ≤ fuel)
    (ho : parseXmqValue fuel st level = .outOfFuel) : Hang st := by
  have hsk := skipWs_len st
  refine Hang.after (moves_skipWs st) ?_
  unfold parseXmqValue at ho
  simp only at ho
  split at ho
  · exact absurd ho (quote_ne_fuel _ _)
  split at ho
  · exact absurd ho (entity_ne_fuel _ _)
  split at ho
  · rename_i hp
    have hp : peek (skipWs st).rest = 40 := by simpa using hp
    have := parseOne_len (st := skipWs st) (kind := .cpar_left) (ne_nil_of_peek (by decide) hp)
    unfold parseXmqCompound at ho
    rcases Res.bind_fuel_iff.1 ho with h1 | ⟨s, h1, h2⟩
    · exact HangIn.open (stepBy_parseOne (skipWs st) .cpar_left 40 hp (by decide) rfl (fun _ => trivial)) (Or.inr rfl)
        (hang_compoundChildren _ _ _ (by omega) h1)
    · simp only at h2; split at h2 <;> cases h2
  split at ho
  · cases ho
  split at ho
  · cases ho
  · simp [parseXmqTextValue] at ho

theorem hang_attribute (fuel : Nat) (st : St) (h : st.rest.length ≤ fuel)
    (ho : parseXmqAttribute fuel st = .outOfFuel) : Hang st := by
  have hm := (moves_attrName st).trans (moves_skipWs _)
  have hsk := hm.len
  rw [parseXmqAttribute_eq] at ho
  split at ho
  · rename_i hp
    have hp : peek (skipWs (attributeName st)).rest = 61 := by simpa using hp
    have := parseOne_len (st := skipWs (attributeName st)) (kind := .equals) (ne_nil_of_peek (by decide) hp)
    exact Hang.after (hm.trans (moves_equals _ hp)) (hang_value _ _ _ (by omega) ho)
  · cases ho

theorem hang_attributes (fuel : Nat) (st : St) (h : st.rest.length < fuel)
    (ho : parseXmqAttributes fuel st = .outOfFuel) : HangIn st ∨ Hang st := by
  induction fuel generalizing st with
  | zero => omega
  | succ fuel ih =>
    have next : ∀ s, Moves st s → s.rest.length < fuel → parseXmqAttributes fuel s = .outOfFuel → HangIn st ∨ Hang st := by
      intro s hm hl hs
      rcases ih s hl hs with h | h
      · exact Or.inl (h.after hm)
      · exact Or.inr (h.after hm)
    unfold parseXmqAttributes at ho
    cases hr : st.rest with
    | nil => simp [hr] at ho
    | cons c t =>
      by_cases hst : StuckByte c
      · exact Or.inl (hangIn_here hr hst)
      · rw [stuck_iff] at hst
        have htab : c ≠ 9 := fun e => hst (Or.inl e)
        have hst : attrStuck c ≠ true := fun e => hst (Or.inr e)
        simp only [hr] at ho
        split at ho
        · rename_i hw
          have := moves_whitespace_pos st c t hr hw htab
          exact next _ (moves_whitespace st) (by omega) ho
        split at ho
        · cases ho
        split at ho
        · rename_i hw _ hk
          have hname : isXmqTextName c = true := by
            simp [attrStuck, hk] at hst; exact hst (by simpa using hw)
          rcases Res.bind_fuel_iff.1 ho with h1 | ⟨s, h1, h2⟩
          · exact Or.inr (hang_attribute _ _ (by omega) h1)
          · have := attribute_len _ _ _ c t hr hname h1
            exact next s (good_ok (good_attribute fuel st) h1) (by omega) h2
        · cases ho

theorem hang_elementAttributes (fuel : Nat) (st : St) (h : st.rest.length ≤ fuel)
    (ho : parseElementAttributes fuel st = .outOfFuel) : Hang st := by
  have hsk := skipWs_len st
  refine Hang.after (moves_skipWs st) ?_
  unfold parseElementAttributes at ho
  simp only at ho
  split at ho
  · rename_i hp
    have hp : peek (skipWs st).rest = 40 := by simpa using hp
    have := parseOne_len (st := skipWs st) (kind := .apar_left) (ne_nil_of_peek (by decide) hp)
    have hstep := stepBy_parseOne (skipWs st) .apar_left 40 hp (by decide) rfl (fun _ => trivial)
    rcases Res.bind_fuel_iff.1 ho with h1 | ⟨s, h1, h2⟩
    · rcases hang_attributes _ _ (by omega) h1 with hh | hh
      · exact HangIn.open hstep (Or.inl rfl) hh
      · exact Hang.afterOne hstep hh
    · split at h2 <;> cases h2
  · cases ho

theorem hang_element (fuel : Nat) (body : St → Res) (st : St) (kind : ElemKind)
    (hk : kind = .element ∨ ∃ t, st.rest = 33 :: t ∨ st.rest = 63 :: t)
    (hn : (parseElementName st kind).rest.length < st.rest.length)
    (h : st.rest.length ≤ fuel)
    (hb : ∀ s : St, s.rest.length < st.rest.length → body s = .outOfFuel → Hang s)
    (ho : parseXmqElementInternal fuel body st kind = .outOfFuel) : Hang st := by
  have hm := moves_elementName st kind hk
  refine Hang.after hm ?_
  unfold parseXmqElementInternal at ho
  rcases Res.bind_fuel_iff.1 ho with h1 | ⟨s, h1, h2⟩
  · exact hang_elementAttributes _ _ (by omega) h1
  · have hs := good_ok (good_elementAttributes fuel _) h1
    have hsl := hs.len
    refine Hang.after (hs.trans (moves_skipWs s)) ?_
    have hsk := skipWs_len s
    unfold parseElementBody at h2
    simp only at h2
    split at h2
    · rename_i hp
      have hp : peek (skipWs s).rest = 61 := by simpa using hp
      have := parseOne_len (st := skipWs s) (kind := .equals) (ne_nil_of_peek (by decide) hp)
      exact Hang.after (moves_equals _ hp) (hang_value _ _ _ (by omega) h2)
    split at h2
    · rename_i hp
      have hp : peek (skipWs s).rest = 123 := by simpa using hp
      have := parseOne_len (st := skipWs s) (kind := .brace_left) (ne_nil_of_peek (by decide) hp)
      rcases Res.bind_fuel_iff.1 h2 with h3 | ⟨u, h3, h4⟩
      · exact Hang.afterOne (stepBy_parseOne (skipWs s) .brace_left 123 hp (by decide) rfl (fun _ => trivial)) (hb _ (by omega) h3)
      · split at h4 <;> cases h4
    · cases h2

theorem hang_xmq (fuel : Nat) (st : St) (h : st.rest.length < fuel) (ho : parseXmq fuel st = .outOfFuel) : Hang st := by
  induction fuel generalizing st with
  | zero => omega
  | succ fuel ih =>
    cases hr : st.rest with
    | nil => simp [parseXmq, hr] at ho
    | cons c t =>
      have elem : ∀ kind, (kind = .element ∨ ∃ t, st.rest = 33 :: t ∨ st.rest = 63 :: t) →
          (parseElementName st kind).rest.length < st.rest.length →
          (parseXmqElementInternal fuel (parseXmq fuel) st kind).bind (parseXmq fuel) = .outOfFuel → Hang st := by
        intro kind hk hn ho
        rcases Res.bind_fuel_iff.1 ho with h1 | ⟨s, h1, h2⟩
        · exact hang_element fuel _ st kind hk hn (by omega) (fun s hs hso => ih s (by omega) hso) h1
        · have := element_len fuel _ st s kind hn (good_xmq fuel) h1
          exact Hang.after (good_ok (good_element fuel _ (good_xmq fuel) st kind hk) h1) (ih s (by omega) h2)
      simp only [parseXmq, hr] at ho
      generalize hcc : (if (c == b#'/' || c == b#'(') = true then peek t else 0) = cc at ho
      split at ho
      · rename_i hw
        obtain ⟨h1, h2⟩ := tokenWs_xmlWs c hw
        have := moves_whitespace_pos st c t hr h1 h2
        exact Hang.after (moves_whitespace st) (ih _ (by omega) ho)
      split at ho
      · rename_i hq
        have hp : peek st.rest = 39 := by simp [hr]; simpa using hq
        rcases Res.bind_fuel_iff.1 ho with h1 | ⟨s, h1, h2⟩
        · exact absurd h1 (quote_ne_fuel _ _)
        · have := quote_len hp h1
          exact Hang.after (good_ok (good_quote st .xmq hp) h1) (ih _ (by omega) h2)
      split at ho
      · rename_i hq
        have hp : peek st.rest = 38 := by simp [hr]; simpa using hq
        rcases Res.bind_fuel_iff.1 ho with h1 | ⟨s, h1, h2⟩
        · exact absurd h1 (entity_ne_fuel _ _)
        · have := entity_len hp h1
          exact Hang.after (good_ok (good_entity st .xmq hp) h1) (ih _ (by omega) h2)
      split at ho
      · rename_i hq
        obtain ⟨u, rfl⟩ : ∃ u, t = cc :: u := by
          have hc : c = 47 ∧ (cc = 47 ∨ cc = 42) := by simpa [isXmqCommentStart] using hq
          obtain ⟨rfl, h2⟩ := hc
          simp at hcc
          cases t with
          | nil => simp at hcc; subst hcc; simp at h2
          | cons a u => simp at hcc; exact ⟨u, by rw [hcc]⟩
        rcases Res.bind_fuel_iff.1 ho with h1 | ⟨s, h1, h2⟩
        · exact absurd h1 (hang_comment fuel st c cc u hr hq (by omega))
        · have := comment_len _ st s c cc u hr hq h1
          exact Hang.after (good_ok (good_comment fuel st c cc u hr hq) h1) (ih _ (by omega) h2)
      split at ho
      · rename_i hq
        exact elem .element (Or.inl rfl) (elementName_len st _ c t hr (Or.inl ⟨rfl, elementStart_name c hq⟩)) ho
      split at ho
      · rename_i hq
        have := isXmqDoctypeStart_head c t hq
        exact elem .doctype (Or.inr ⟨t, Or.inl (by rw [hr, this])⟩) (elementName_len st _ c t hr (Or.inr (by simp))) ho
      split at ho
      · rename_i hq
        have : c = 63 := by simp [isXmqPiStart] at hq; exact hq.1
        exact elem .pi (Or.inr ⟨t, Or.inr (by rw [hr, this])⟩) (elementName_len st _ c t hr (Or.inr (by simp))) ho
      split at ho
      · cases ho
      split at ho
      · cases ho
      · cases ho
      · split at ho <;> cases ho

end Xmq
