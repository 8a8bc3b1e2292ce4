import Verif.Lemmas.ParserStep
import Verif.Spec.ErrorMessage
/-!
# Where the parser stands when it reports an error
-/
namespace Xmq
open Spec

/-- What is known of the state in which an error is reported. -/
def ErrAt : Err → St → Prop
  | .bodyNotClosed, st => ∃ post t pre, st.out = post ++ t :: pre ∧ t.kind = .brace_left ∧ WellNested (kinds post.reverse)
  | .attributesNotClosed, st => ∃ post t pre, st.out = post ++ t :: pre ∧ t.kind = .apar_left ∧ (∀ u ∈ post, u.kind ≠ .apar_left) ∧
      WellNested (kinds post.reverse)
  | .expectedContentAfterEquals, _ => True
  | e, st => Fits e st.rest

/-- An error is reported in such a state. -/
def Tells (r : Res) : Prop := ∀ e st, r = .err e st → ErrAt e st

theorem Tells.bind {r : Res} {f : St → Res} (h : Tells r) (hf : ∀ st, r = .ok st → Tells (f st)) : Tells (r.bind f) := by
  intro e st he
  cases hr : r with
  | ok s => rw [hr, Res.bind_ok] at he; exact hf s hr e st he
  | err e' s => rw [hr] at he; exact h e st (by rw [hr]; exact he)
  | ub => rw [hr] at he; cases he
  | outOfFuel => rw [hr] at he; cases he

theorem tells_ok (st : St) : Tells (.ok st) := fun _ _ h => by cases h
theorem tells_fuel : Tells .outOfFuel := fun _ _ h => by cases h
theorem tells_ub : Tells .ub := fun _ _ h => by cases h
theorem tells_err {e : Err} {st : St} (h : ErrAt e st) : Tells (.err e st) := fun _ _ he => by cases he; exact h

theorem head_of_peek {r : List Byte} {c : Byte} (h : peek r = c) (hc : c ≠ 0) : r.head? = some c := (peek_eq_head? r c hc).1 h

theorem tells_quote (st : St) (level : Level) (hp : peek st.rest = 39) : Tells (parseXmqQuote st level) := by
  unfold parseXmqQuote
  split
  · rename_i e he
    refine tells_err ?_
    unfold eatXmqQuote at he
    simp only at he
    split at he
    · cases he
    · split at he <;> cases he
      · exact head_of_peek hp (by decide)
      · exact head_of_peek hp (by decide)
  · exact tells_ok _

theorem tells_entity (st : St) (level : Level) (hp : peek st.rest = 38) : Tells (parseXmqEntity st level) := by
  unfold parseXmqEntity
  split
  · rename_i e he
    refine tells_err ?_
    unfold eatXmqEntity at he
    simp only at he
    split at he
    · cases he
    · split at he <;> cases he
      exact head_of_peek hp (by decide)
  · exact tells_ok _

theorem commentClose_err {st : St} {k : Nat} {e : Err} (h : eatXmqCommentToClose st k = .error e) :
    e = .commentNotClosed ∨ e = .commentClosedWithTooManySlashes := by
  unfold eatXmqCommentToClose at h
  simp only at h
  split at h <;> cases h
  · exact Or.inr rfl
  · exact Or.inl rfl

theorem tells_commentContinuations (k : Nat) (hk : 0 < k) (fuel : Nat) (st : St) (f : Bool)
    (hf : f = true → ∃ u, st.rest = 42 :: u) : Tells (commentContinuations k fuel st f) := by
  induction fuel generalizing st f with
  | zero => cases f <;> simp [commentContinuations, tells_ok, tells_fuel]
  | succ fuel ih =>
    cases f with
    | false => simp [commentContinuations, tells_ok]
    | true =>
      simp only [commentContinuations]
      obtain ⟨u, hu⟩ := hf rfl
      split
      · rename_i e he
        refine tells_err ?_
        rcases commentClose_err he with rfl | rfl <;> exact Or.inr (by rw [hu]; rfl)
      · rename_i st' len found h
        obtain ⟨_, _, rfl, hq, hfound⟩ := eatXmqCommentToClose_cont_spec st k hk u hu st' len found h
        exact ih _ _ hfound

theorem tells_comment (fuel : Nat) (st : St) (c cc : Byte) (t : List Byte) (hs : st.rest = c :: cc :: t)
    (hc : isXmqCommentStart c cc = true) : Tells (parseXmqComment fuel st) := by
  simp [isXmqCommentStart] at hc
  obtain ⟨rfl, hcc⟩ := hc
  obtain ⟨k, u, hku, hu, -, -⟩ := takeRun 47 st.rest
  have hk : 0 < k := by
    rcases Nat.eq_zero_or_pos k with rfl | h
    · simp at hku; rw [← hku, hs] at hu; simp at hu
    · exact h
  have hcnt : countXmqSlashes st.rest = (k, peek u == 42) := by rw [hku, countXmqSlashes_run hu]
  unfold parseXmqComment
  simp only [hcnt]
  split
  · exact tells_ok _
  · rename_i hne
    simp at hne
    obtain ⟨v, rfl⟩ : ∃ v, u = 42 :: v := by
      cases u with
      | nil => simp at hne
      | cons a v => simp at hne; exact ⟨v, by rw [hne]⟩
    split
    · rename_i e he
      refine tells_err ?_
      rcases commentClose_err he with rfl | rfl <;> exact Or.inl (by rw [hs]; rfl)
    · rename_i st' len found h
      obtain ⟨_, _, rfl, hq, hfound⟩ := eatXmqCommentToClose_open_spec st k hk v hku st' len found h
      exact tells_commentContinuations k hk fuel _ _ hfound

theorem tells_compoundChildren (fuel : Nat) (st : St) (level : Level) : Tells (parseXmqCompoundChildren fuel st level) := by
  induction fuel generalizing st with
  | zero => exact tells_fuel
  | succ fuel ih =>
    unfold parseXmqCompoundChildren
    split
    · exact tells_ok _
    · rename_i c t hr
      split
      · exact ih _
      split
      · exact tells_ok _
      rename_i h1
      split
      · rename_i h
        exact Tells.bind (tells_quote st level (by simp [hr]; simpa using h)) (fun _ _ => ih _)
      rename_i h2
      split
      · rename_i h
        exact Tells.bind (tells_entity st level (by simp [hr]; simpa using h)) (fun _ _ => ih _)
      rename_i h3
      refine tells_err ?_
      exact ⟨c, by rw [hr]; rfl, by simpa using h2, by simpa using h3, by simpa using h1⟩

theorem tells_compound (fuel : Nat) (st : St) (level : Level) : Tells (parseXmqCompound fuel st level) := by
  unfold parseXmqCompound
  refine Tells.bind (tells_compoundChildren _ _ _) (fun s _ => ?_)
  simp only
  split
  · rename_i h
    refine tells_err ?_
    simp only [ErrAt, Fits]
    intro h0
    rw [← peek_eq_head? _ _ (by decide)] at h0
    simp [h0] at h
  · exact tells_ok _

theorem tells_value (fuel : Nat) (st : St) (level : Level) : Tells (parseXmqValue fuel st level) := by
  unfold parseXmqValue
  simp only
  split
  · rename_i h; exact tells_quote _ _ (by simpa using h)
  split
  · rename_i h; exact tells_entity _ _ (by simpa using h)
  rename_i hamp
  split
  · exact tells_compound _ _ _
  split
  · exact tells_ub
  rename_i c t hr
  split
  · rename_i h
    refine tells_err ?_
    simp only [ErrAt, Fits]
    rw [hr] at h hamp ⊢
    simp [unsafeValueStart] at h hamp
    rcases h with (h | h) | ⟨h, h'⟩
    · left; simp [h]
    · exact absurd h hamp
    · right
      cases t with
      | nil => simp at h'
      | cons d t => simp at h'; rcases h' with h' | h' <;> simp [h, h']
  · exact tells_ok _

theorem tells_attribute (fuel : Nat) (st : St) : Tells (parseXmqAttribute fuel st) := by
  rw [parseXmqAttribute_eq]
  split
  · exact tells_value _ _ _
  · exact tells_ok _

theorem tells_attributes (fuel : Nat) (st : St) : Tells (parseXmqAttributes fuel st) := by
  induction fuel generalizing st with
  | zero => exact tells_fuel
  | succ fuel ih =>
    unfold parseXmqAttributes
    split
    · exact tells_ok _
    · split
      · exact ih _
      split
      · exact tells_ok _
      split
      · exact Tells.bind (tells_attribute _ _) (fun _ _ => ih _)
      · exact tells_ok _

/-! ## Between the parentheses of attributes there are no others -/

/-- No attribute list is opened. -/
def Quiet (st : St) (r : Res) : Prop := ∀ st', r = .ok st' → ∃ toks, st'.out = toks ++ st.out ∧ ∀ t ∈ toks, t.kind ≠ .apar_left

theorem Quiet.bind {st : St} {r : Res} {f : St → Res} (h : Quiet st r) (hf : ∀ s, r = .ok s → Quiet s (f s)) :
    Quiet st (r.bind f) := by
  intro st' he
  cases hr : r with
  | ok s =>
    rw [hr, Res.bind_ok] at he
    obtain ⟨a, ha, ha'⟩ := h s hr
    obtain ⟨b, hb, hb'⟩ := hf s hr st' he
    exact ⟨b ++ a, by rw [hb, ha]; simp, fun t ht => (List.mem_append.1 ht).elim (hb' t) (ha' t)⟩
  | err e' s => rw [hr] at he; cases he
  | ub => rw [hr] at he; cases he
  | outOfFuel => rw [hr] at he; cases he

theorem quiet_none {st : St} {r : Res} (h : ∀ s, r ≠ .ok s) : Quiet st r := fun s hs => absurd hs (h s)
theorem quiet_refl (st : St) : Quiet st (.ok st) := fun s hs => by cases hs; exact ⟨[], rfl, by simp⟩

theorem Quiet.after {s t : St} {r : Res} (h : Quiet s (.ok t)) (k : Quiet t r) : Quiet s r := by
  have := Quiet.bind (f := fun _ => r) h (fun u hu => by cases hu; exact k)
  exact this

theorem quiet_of_moves {st st' : St} (h : ∃ toks, st'.out = toks ++ st.out ∧ ∀ t ∈ toks, t.kind ≠ Kind.apar_left) : Quiet st (.ok st') :=
  fun s hs => by cases hs; exact h

theorem quiet_whitespace (st : St) : Quiet st (.ok (parseXmqWhitespace st)) := by
  obtain ⟨n, hn, he, hw⟩ := tokenWhitespace_spec st
  refine quiet_of_moves ⟨[⟨.whitespace, st.line, st.col, st.rest.take n⟩], ?_, by simp⟩
  unfold parseXmqWhitespace
  simp only [he]
  have : st.rest.length - (st.moved n).rest.length = n := by simp; omega
  rw [this]
  simp [St.emitSpan, St.emit]

theorem quiet_skipWs (st : St) : Quiet st (.ok (skipWs st)) := by
  unfold skipWs; split
  · exact quiet_whitespace st
  · exact quiet_refl st

theorem quiet_parseOne (st : St) (k : Kind) (hk : k ≠ .apar_left) : Quiet st (.ok (parseOne st k)) := by
  refine quiet_of_moves ⟨[⟨k, st.line, st.col, st.rest.take 1⟩], ?_, by simpa using hk⟩
  simp [parseOne, St.emitSpan, St.emit, St.advance, St.increment]

theorem quiet_quote (st : St) (level : Level) (hp : peek st.rest = 39) : Quiet st (parseXmqQuote st level) := by
  unfold parseXmqQuote
  split
  · exact quiet_none (fun _ h => by cases h)
  · rename_i st' n h
    obtain ⟨_, _, rfl, hq⟩ := eatXmqQuote_spec st hp st' n h
    exact quiet_of_moves ⟨[⟨quoteKind level, st.line, st.col, st.rest.take n⟩], by simp [St.emitSpan, St.emit],
      by cases level <;> simp [quoteKind]⟩

theorem quiet_entity (st : St) (level : Level) (hp : peek st.rest = 38) : Quiet st (parseXmqEntity st level) := by
  unfold parseXmqEntity
  split
  · exact quiet_none (fun _ h => by cases h)
  · rename_i st' n h
    obtain ⟨_, _, rfl, hq⟩ := eatXmqEntity_spec st hp st' n h
    exact quiet_of_moves ⟨[⟨entityKind level, st.line, st.col, st.rest.take n⟩], by simp [St.emitSpan, St.emit],
      by cases level <;> simp [entityKind]⟩

theorem quiet_compoundChildren (fuel : Nat) (st : St) (level : Level) : Quiet st (parseXmqCompoundChildren fuel st level) := by
  induction fuel generalizing st with
  | zero => exact quiet_none (fun _ h => by cases h)
  | succ fuel ih =>
    unfold parseXmqCompoundChildren
    split
    · exact quiet_refl st
    · rename_i c t hr
      split
      · exact Quiet.after (quiet_whitespace st) (ih _)
      split
      · exact quiet_refl st
      split
      · rename_i h
        exact Quiet.bind (quiet_quote st level (by simp [hr]; simpa using h)) (fun _ _ => ih _)
      split
      · rename_i h
        exact Quiet.bind (quiet_entity st level (by simp [hr]; simpa using h)) (fun _ _ => ih _)
      · exact quiet_none (fun _ h => by cases h)

theorem quiet_value (fuel : Nat) (st : St) (level : Level) : Quiet st (parseXmqValue fuel st level) := by
  unfold parseXmqValue
  refine Quiet.after (quiet_skipWs st) ?_
  simp only
  split
  · rename_i h; exact quiet_quote _ _ (by simpa using h)
  split
  · rename_i h; exact quiet_entity _ _ (by simpa using h)
  split
  · unfold parseXmqCompound
    refine Quiet.after (quiet_parseOne _ .cpar_left (by simp)) ?_
    refine Quiet.bind (quiet_compoundChildren _ _ _) (fun s _ => ?_)
    refine Quiet.after (quiet_skipWs s) ?_
    simp only
    split
    · exact quiet_none (fun _ h => by cases h)
    · exact quiet_parseOne _ _ (by simp)
  split
  · exact quiet_none (fun _ h => by cases h)
  split
  · exact quiet_none (fun _ h => by cases h)
  · obtain ⟨hle, hp⟩ := safeValueLen_spec (skipWs st).rest
    simp only [parseXmqTextValue, eatXmqTextValue, advance_eq _ _ hle]
    refine quiet_of_moves ⟨[⟨_, _, _, _⟩], by simp only [St.emitSpan, St.emit]; rfl, ?_⟩
    simp only [List.mem_singleton, forall_eq]
    split <;> simp

theorem quiet_emitName (st st' : St) (ns : Option (List Byte)) (name : List Byte) (k1 k2 : Kind) (h1 : k1 ≠ .apar_left)
    (h2 : k2 ≠ .apar_left) (ho : st'.out = st.out) : Quiet st (.ok (emitName st st' ns name k1 k2)) := by
  refine quiet_of_moves ?_
  cases ns with
  | none => exact ⟨[⟨k2, st.line, st.col, name⟩], by simp [emitName, St.emit, ho], by simpa using h2⟩
  | some ns =>
    exact ⟨[⟨k2, st.line, st.col + ns.length + 1, name⟩, ⟨.ns_colon, st.line, st.col + ns.length, [58]⟩, ⟨k1, st.line, st.col, ns⟩],
      by simp [emitName, St.emit, ho], by simp [h1, h2]⟩

theorem advance_out (st : St) (n : Nat) : (st.advance n).out = st.out := by
  induction n generalizing st with
  | zero => rfl
  | succ n ih => rw [St.advance, ih]; rfl

theorem eatXmqTextName_out (st : St) : (eatXmqTextName st).1.out = st.out := by
  unfold eatXmqTextName
  simp only
  split <;> exact advance_out _ _

theorem quiet_attribute (fuel : Nat) (st : St) : Quiet st (parseXmqAttribute fuel st) := by
  rw [parseXmqAttribute_eq]
  have h1 : Quiet st (.ok (attributeName st)) := by
    unfold attributeName
    split <;> split <;> exact quiet_emitName _ _ _ _ _ _ (by simp) (by simp) (eatXmqTextName_out st)
  have h2 := Quiet.after h1 (quiet_skipWs _)
  split
  · exact Quiet.after (h2.after (quiet_parseOne _ .equals (by simp))) (quiet_value _ _ _)
  · exact h2

theorem quiet_attributes (fuel : Nat) (st : St) : Quiet st (parseXmqAttributes fuel st) := by
  induction fuel generalizing st with
  | zero => exact quiet_none (fun _ h => by cases h)
  | succ fuel ih =>
    unfold parseXmqAttributes
    split
    · exact quiet_refl st
    · split
      · exact Quiet.after (quiet_whitespace st) (ih _)
      split
      · exact quiet_refl st
      split
      · exact Quiet.bind (quiet_attribute _ _) (fun _ _ => ih _)
      · exact quiet_refl st

theorem tells_elementAttributes (fuel : Nat) (st : St) : Tells (parseElementAttributes fuel st) := by
  unfold parseElementAttributes
  simp only
  split
  · rename_i hp
    refine Tells.bind (tells_attributes _ _) (fun s hs => ?_)
    split
    · refine tells_err ?_
      have hg := good_attributes fuel (parseOne (skipWs st) .apar_left)
      rw [hs] at hg
      obtain ⟨toks, h2, hn⟩ := Moves.trans hg (moves_skipWs s)
      obtain ⟨post, h3, h4⟩ := Quiet.after (r := .ok (skipWs s)) (fun u hu => quiet_attributes fuel (parseOne (skipWs st) .apar_left) u (by rw [hs]; exact hu)) (quiet_skipWs s) _ rfl
      have h1 := stepBy_parseOne (skipWs st) .apar_left 40 (by simpa using hp) (by decide) rfl (fun _ => trivial)
      refine ⟨post, ⟨.apar_left, (skipWs st).line, (skipWs st).col, [40]⟩, (skipWs st).out, ?_, rfl, h4, ?_⟩
      · rw [h3, h1.out]; simp
      · have : post = toks.reverse := by
          have := h2.out
          rw [h3] at this
          exact List.append_cancel_right this
        rw [this, List.reverse_reverse]; exact hn
    · exact tells_ok _
  · exact tells_ok _

theorem tells_elementBody (fuel : Nat) (body : St → Res) (hb : ∀ st, Good st (body st)) (ht : ∀ st, Tells (body st)) (st : St) :
    Tells (parseElementBody fuel body st) := by
  unfold parseElementBody
  simp only
  split
  · exact tells_value _ _ _
  split
  · rename_i hp
    refine Tells.bind (ht _) (fun s hs => ?_)
    split
    · refine tells_err ?_
      have hg := hb (parseOne (skipWs st) .brace_left)
      rw [hs] at hg
      obtain ⟨toks, h2, hn⟩ := Moves.trans hg (moves_skipWs s)
      have h1 := stepBy_parseOne (skipWs st) .brace_left 123 (by simpa using hp) (by decide) rfl (fun _ => trivial)
      refine ⟨toks.reverse, ⟨.brace_left, (skipWs st).line, (skipWs st).col, [123]⟩, (skipWs st).out, ?_, rfl, ?_⟩
      · rw [h2.out, h1.out]; simp
      · rw [List.reverse_reverse]; exact hn
    · exact tells_ok _
  · exact tells_ok _

theorem tells_element (fuel : Nat) (body : St → Res) (hb : ∀ st, Good st (body st)) (ht : ∀ st, Tells (body st)) (st : St)
    (kind : ElemKind) : Tells (parseXmqElementInternal fuel body st kind) :=
  Tells.bind (tells_elementAttributes _ _) (fun _ _ => tells_elementBody fuel body hb ht _)

theorem elementStart_iff (c : Byte) : isXmqElementStart c = false → ¬ (97 ≤ c.toNat ∧ c.toNat ≤ 122) ∧ ¬ (65 ≤ c.toNat ∧ c.toNat ≤ 90) ∧ c ≠ 95 := by
  revert c
  apply forall_byte (P := fun c => isXmqElementStart c = false → ¬ (97 ≤ c.toNat ∧ c.toNat ≤ 122) ∧ ¬ (65 ≤ c.toNat ∧ c.toNat ≤ 90) ∧ c ≠ 95)
  decide +kernel

theorem tells_xmq (fuel : Nat) (st : St) : Tells (parseXmq fuel st) := by
  induction fuel generalizing st with
  | zero => exact tells_fuel
  | succ fuel ih =>
    unfold parseXmq
    split
    · exact tells_ok st
    rename_i c t hr
    simp only
    generalize hcc : (if (c == b#'/' || c == b#'(') = true then peek t else 0) = cc
    split
    · exact ih _
    rename_i n1
    split
    · rename_i h; exact Tells.bind (tells_quote st _ (by simp [hr]; simpa using h)) (fun _ _ => ih _)
    rename_i n2
    split
    · rename_i h; exact Tells.bind (tells_entity st _ (by simp [hr]; simpa using h)) (fun _ _ => ih _)
    rename_i n3
    split
    · rename_i h
      obtain ⟨u, rfl⟩ : ∃ u, t = cc :: u := by
        have hc : c = 47 ∧ (cc = 47 ∨ cc = 42) := by simpa [isXmqCommentStart] using h
        obtain ⟨rfl, h2⟩ := hc
        simp at hcc
        cases t with
        | nil => simp at hcc; subst hcc; simp at h2
        | cons a u => simp at hcc; exact ⟨u, by rw [hcc]⟩
      exact Tells.bind (tells_comment fuel st c cc u hr h) (fun _ _ => ih _)
    split
    · exact Tells.bind (tells_element fuel _ (good_xmq fuel) ih st _) (fun _ _ => ih _)
    rename_i n4
    split
    · exact Tells.bind (tells_element fuel _ (good_xmq fuel) ih st _) (fun _ _ => ih _)
    split
    · exact Tells.bind (tells_element fuel _ (good_xmq fuel) ih st _) (fun _ _ => ih _)
    split
    · exact tells_ok st
    rename_i n5
    split
    · exact tells_ub
    · exact tells_err trivial
    · split
      · rename_i h
        refine tells_err ?_
        simp only [ErrAt, Fits, hr]
        simpa using h
      · rename_i n6
        refine tells_err ?_
        have := elementStart_iff c (by simpa using n4)
        refine ⟨c, by rw [hr]; rfl, this.1, this.2.1, ?_⟩
        simp [isXmqTokenWhitespace] at n1 n2 n3 n5 n6
        simp [n1, n2, n3, n5, n6, this.2.2]

theorem bind_ok_inv {r : Res} {f : St → Res} {st : St} (h : r.bind f = .ok st) : ∃ s, r = .ok s ∧ f s = .ok st := by
  cases r with
  | ok s => exact ⟨s, rfl, h⟩
  | err e s => cases h
  | ub => cases h
  | outOfFuel => cases h

/-- `parse_xmq` returns at the end or at a brace. -/
theorem xmq_ends (fuel : Nat) (st st' : St) (h : parseXmq fuel st = .ok st') : st'.rest = [] ∨ st'.rest.head? = some 125 := by
  induction fuel generalizing st with
  | zero => cases h
  | succ fuel ih =>
    unfold parseXmq at h
    split at h
    · rename_i hr; cases h; exact Or.inl hr
    rename_i c t hr
    simp only at h
    generalize (if (c == b#'/' || c == b#'(') = true then peek t else 0) = cc at h
    split at h
    · exact ih _ h
    split at h
    · obtain ⟨s, _, h⟩ := bind_ok_inv h; exact ih _ h
    split at h
    · obtain ⟨s, _, h⟩ := bind_ok_inv h; exact ih _ h
    split at h
    · obtain ⟨s, _, h⟩ := bind_ok_inv h; exact ih _ h
    split at h
    · obtain ⟨s, _, h⟩ := bind_ok_inv h; exact ih _ h
    split at h
    · obtain ⟨s, _, h⟩ := bind_ok_inv h; exact ih _ h
    split at h
    · obtain ⟨s, _, h⟩ := bind_ok_inv h; exact ih _ h
    split at h
    · rename_i h5; cases h; right; rw [hr]; simpa using h5
    split at h
    · cases h
    · cases h
    · split at h <;> cases h

/-- The state in which the parser reports an error. -/
theorem tells_buffer (fuel : Nat) (s : List Byte) (e : Err) (st : St) (h : parseBuffer fuel s = .err e st) :
    ErrAt e st := by
  unfold parseBuffer at h
  refine Tells.bind (tells_xmq fuel (initSt s)) (fun st' hs => ?_) e st h
  split
  · exact tells_ok _
  · rename_i hne
    refine tells_err ?_
    rcases xmq_ends fuel _ _ hs with h1 | h1
    · rw [h1] at hne; simp at hne
    · exact h1

end Xmq
