import Verif.Lemmas.LexStep
/-!
# Every parser function delivers tokens that cover what it consumes

`Good st r`: if the result `r` is a success, the parser moved from `st` delivering well nested tokens;
if it is an error, the tokens delivered so far cover the bytes consumed so far.
-/
namespace Xmq
open Spec

def kinds (toks : List Tok) : List Kind := toks.map Tok.kind

@[simp] theorem kinds_nil : kinds [] = [] := rfl
@[simp] theorem kinds_cons (a b) : kinds (a :: b) = a.kind :: kinds b := rfl
@[simp] theorem kinds_append (a b) : kinds (a ++ b) = kinds a ++ kinds b := by simp [kinds]

/-- Success of a parser function: moved, with well nested tokens. -/
def Moves (st st' : St) : Prop := ∃ toks, StepBy toks st st' ∧ WellNested (kinds toks)

theorem Moves.refl (st : St) : Moves st st := ⟨[], .refl st, .nil⟩
theorem Moves.trans {s t u : St} (h : Moves s t) (k : Moves t u) : Moves s u := by
  obtain ⟨a, ha, na⟩ := h; obtain ⟨b, hb, nb⟩ := k
  exact ⟨a ++ b, ha.trans hb, by rw [kinds_append]; exact .append _ _ na nb⟩
theorem Moves.step {s t : St} (h : Moves s t) : Step s t := by obtain ⟨a, ha, _⟩ := h; exact ⟨a, ha⟩
theorem Moves.len {s t : St} (h : Moves s t) : t.rest.length ≤ s.rest.length := h.step.len

def Good (st : St) : Res → Prop
  | .ok st' => Moves st st'
  | .err _ st' => Step st st'
  | .ub => True
  | .outOfFuel => True

theorem Good.bind {st : St} {r : Res} {f : St → Res} (h : Good st r)
    (hf : ∀ st', r = .ok st' → Good st' (f st')) : Good st (r.bind f) := by
  cases r with
  | ok st' =>
    have := hf st' rfl
    simp only [Res.bind_ok]
    cases hr : f st' with
    | ok s => rw [hr] at this; exact Moves.trans h this
    | err e s => rw [hr] at this; exact Step.trans (Moves.step h) this
    | ub => trivial
    | outOfFuel => trivial
  | err e st' => exact h
  | ub => trivial
  | outOfFuel => trivial

theorem Good.after {s t : St} {r : Res} (h : Moves s t) (k : Good t r) : Good s r := by
  cases r with
  | ok u => exact h.trans k
  | err e u => exact h.step.trans k
  | ub => trivial
  | outOfFuel => trivial

theorem Good.afterStep {s t : St} {e : Err} (h : Moves s t) : Good s (.err e t) := h.step

/-- One token that is not a bracket. -/
theorem moves_one (st : St) (n : Nat) (kind : Kind) (hk : ¬ IsBracket kind)
    (hs : TokenText kind (st.rest.take n)) (he : EndsAt kind (st.rest.take n) (st.rest.drop n)) :
    Moves st ((st.moved n).emitSpan st kind n) :=
  ⟨_, stepBy_one st n kind hs he, by simpa using WellNested.plain kind hk⟩

theorem moves_whitespace (st : St) : Moves st (parseXmqWhitespace st) := by
  obtain ⟨n, hn, he, hw⟩ := tokenWhitespace_spec st
  unfold parseXmqWhitespace
  simp only [he]
  have : st.rest.length - (st.moved n).rest.length = n := by simp; omega
  rw [this]
  exact moves_one st n .whitespace (by simp [IsBracket]) hw (tokenWhitespace_end st n he)

theorem moves_whitespace_pos (st : St) (c : Byte) (t : List Byte) (hr : st.rest = c :: t)
    (hc : isXmlWhitespace c = true) (ht : c ≠ 9) : (parseXmqWhitespace st).rest.length < st.rest.length := by
  obtain ⟨n, hn, hn', he, hw⟩ := tokenWhitespace_pos st c t hr hc ht
  unfold parseXmqWhitespace
  simp only [he, St.emitSpan, St.emit, moved_rest, List.length_drop]
  omega

theorem moves_skipWs (st : St) : Moves st (skipWs st) := by
  unfold skipWs; split
  · exact moves_whitespace st
  · exact .refl st

theorem good_quote (st : St) (level : Level) (hp : peek st.rest = 39) : Good st (parseXmqQuote st level) := by
  unfold parseXmqQuote
  split
  · exact Step.refl st
  · rename_i st' n h
    obtain ⟨_, _, rfl, hq⟩ := eatXmqQuote_spec st hp st' n h
    exact moves_one st n _ (by cases level <;> simp [quoteKind, IsBracket])
      (by cases level <;> simpa [quoteKind, TokenText] using hq)
      (by cases level <;> exact trivial)

theorem good_entity (st : St) (level : Level) (hp : peek st.rest = 38) : Good st (parseXmqEntity st level) := by
  unfold parseXmqEntity
  split
  · exact Step.refl st
  · rename_i st' n h
    obtain ⟨_, _, rfl, hq⟩ := eatXmqEntity_spec st hp st' n h
    exact moves_one st n _ (by cases level <;> simp [entityKind, IsBracket])
      (by cases level <;> simpa [entityKind, TokenText] using hq)
      (by cases level <;> exact trivial)

theorem good_commentContinuations (k : Nat) (hk : 0 < k) (fuel : Nat) (st : St) (f : Bool)
    (hf : f = true → ∃ u, st.rest = 42 :: u) : Good st (commentContinuations k fuel st f) := by
  induction fuel generalizing st f with
  | zero => cases f <;> simp [commentContinuations, Good, Moves.refl]
  | succ fuel ih =>
    cases f with
    | false => simp [commentContinuations, Good, Moves.refl]
    | true =>
      simp only [commentContinuations]
      obtain ⟨u, hu⟩ := hf rfl
      split
      · exact Step.refl st
      · rename_i st' len found h
        obtain ⟨_, _, rfl, hq, hfound⟩ := eatXmqCommentToClose_cont_spec st k hk u hu st' len found h
        refine Good.after (moves_one st len .comment_continuation (by simp [IsBracket]) hq trivial) (ih _ _ ?_)
        intro hf; exact hfound hf

theorem good_comment (fuel : Nat) (st : St) (c cc : Byte) (t : List Byte) (hs : st.rest = c :: cc :: t)
    (hc : isXmqCommentStart c cc = true) : Good st (parseXmqComment fuel st) := by
  simp [isXmqCommentStart] at hc
  obtain ⟨rfl, hcc⟩ := hc
  obtain ⟨k, u, hku, hu, -, -⟩ := takeRun 47 st.rest
  have hk : 0 < k := by
    rcases Nat.eq_zero_or_pos k with rfl | h
    · simp at hku; rw [← hku, hs] at hu; simp at hu
    · exact h
  have hcnt : countXmqSlashes st.rest = (k, peek u == 42) := by rw [hku, countXmqSlashes_run hu]
  unfold parseXmqComment
  simp only [hcnt]
  split
  · rename_i hne
    have hcc' : cc = 47 := by
      rcases hcc with h | h
      · exact h
      · exfalso
        subst h
        have : k = 1 := by
          rw [hs] at hcnt
          have h2 := congrArg Prod.fst hcnt
          simp [countXmqSlashes] at h2
          exact h2.symm
        subst this
        rw [hs] at hku; simp [List.replicate_succ] at hku
        rw [← hku] at hne; simp at hne
    subst hcc'
    obtain ⟨_, _, he, hq⟩ := eatXmqCommentToEol_spec st t hs (by rw [hcnt]; simpa using hne)
    simp only [Good]
    rw [he]
    exact moves_one st _ .comment (by simp [IsBracket]) hq (eatXmqCommentToEol_end st t hs)
  · rename_i hne
    simp at hne
    obtain ⟨v, rfl⟩ : ∃ v, u = 42 :: v := by
      cases u with
      | nil => simp at hne
      | cons a v => simp at hne; exact ⟨v, by rw [hne]⟩
    split
    · exact Step.refl st
    · rename_i st' len found h
      obtain ⟨_, _, rfl, hq, hfound⟩ := eatXmqCommentToClose_open_spec st k hk v hku st' len found h
      exact Good.after (moves_one st len .comment (by simp [IsBracket]) hq (commentText_block_end st k hk v hku _ _ _ h _))
        (good_commentContinuations k hk fuel _ _ hfound)

theorem good_textValue (st : St) (level : Level) : Good st (parseXmqTextValue st level) := by
  obtain ⟨hle, hp⟩ := safeValueLen_spec st.rest
  simp only [parseXmqTextValue, eatXmqTextValue, advance_eq _ _ hle, Good]
  have hv := safeValueLen_end st.rest
  refine moves_one st _ _ ?_ ?_ ?_ <;> split <;> simp [IsBracket, TokenText, EndsAt] <;> first | exact hp | exact hv

theorem good_compoundChildren (fuel : Nat) (st : St) (level : Level) :
    Good st (parseXmqCompoundChildren fuel st level) := by
  induction fuel generalizing st with
  | zero => trivial
  | succ fuel ih =>
    unfold parseXmqCompoundChildren
    split
    · exact Moves.refl st
    · rename_i c t hr
      split
      · exact Good.after (moves_whitespace st) (ih _)
      split
      · exact Moves.refl st
      split
      · rename_i h
        exact Good.bind (good_quote st level (by simp [hr]; simpa using h)) (fun _ _ => ih _)
      split
      · rename_i h
        exact Good.bind (good_entity st level (by simp [hr]; simpa using h)) (fun _ _ => ih _)
      · exact Step.refl st

/-- A byte delivered as a bracket or other one byte token. -/
theorem stepBy_parseOne (st : St) (kind : Kind) (c : Byte) (hc : peek st.rest = c) (hc0 : c ≠ 0)
    (hs : TokenText kind [c]) (he : ∀ r, EndsAt kind [c] r) : StepBy [⟨kind, st.line, st.col, [c]⟩] st (parseOne st kind) := by
  obtain ⟨t, hr⟩ : ∃ t, st.rest = c :: t := by
    cases hr : st.rest with
    | nil => rw [hr] at hc; simp at hc; exact absurd hc.symm hc0
    | cons a t => rw [hr] at hc; simp at hc; exact ⟨t, by rw [hc]⟩
  have h1 : st.rest.take 1 = [c] := by rw [hr]; rfl
  have := stepBy_one st 1 kind (by rw [h1]; exact hs) (by rw [h1]; exact he _)
  unfold parseOne
  rw [advance_eq _ _ (by rw [hr]; simp)]
  rwa [h1] at this

theorem moves_equals (st : St) (hc : peek st.rest = 61) : Moves st (parseOne st .equals) :=
  ⟨_, stepBy_parseOne st .equals 61 hc (by decide) rfl (fun _ => trivial), by simpa using WellNested.plain .equals (by simp [IsBracket])⟩

/-- Something between brackets. -/
theorem good_bracket (st : St) (lk rk : Kind) (lc rc : Byte) (f : St → Res) (e : Err)
    (hl : peek st.rest = lc) (hl0 : lc ≠ 0) (hr0 : rc ≠ 0) (hlt : TokenText lk [lc]) (hrt : TokenText rk [rc])
    (hle : ∀ r, EndsAt lk [lc] r) (hre : ∀ r, EndsAt rk [rc] r)
    (hn : ∀ l, WellNested l → WellNested (lk :: (l ++ [rk])))
    (hf : Good (parseOne st lk) (f (parseOne st lk))) :
    Good st ((f (parseOne st lk)).bind fun st =>
      if peek (skipWs st).rest != rc then .err e (skipWs st) else .ok (parseOne (skipWs st) rk)) := by
  have h1 := stepBy_parseOne st lk lc hl hl0 hlt hle
  cases hr : f (parseOne st lk) with
  | ok s =>
    rw [hr] at hf
    obtain ⟨toks, h2, hn2⟩ := Moves.trans hf (moves_skipWs s)
    simp only [Res.bind_ok]
    split
    · exact ⟨_, h1.trans h2⟩
    · rename_i hrc
      have h3 := stepBy_parseOne (skipWs s) rk rc (by simpa using hrc) hr0 hrt hre
      refine ⟨_, (h1.trans h2).trans h3, ?_⟩
      simpa using hn _ hn2
  | err e s =>
    rw [hr] at hf
    exact Step.trans ⟨_, h1⟩ hf
  | ub => trivial
  | outOfFuel => trivial

theorem good_compound (fuel : Nat) (st : St) (level : Level) (hp : peek st.rest = 40) :
    Good st (parseXmqCompound fuel st level) := by
  exact good_bracket st .cpar_left .cpar_right 40 41 (fun s => parseXmqCompoundChildren fuel s (enterCompoundLevel level))
    .compoundNotClosed hp (by decide) (by decide) rfl rfl (fun _ => trivial) (fun _ => trivial) WellNested.compound (good_compoundChildren fuel _ _)

theorem good_value (fuel : Nat) (st : St) (level : Level) : Good st (parseXmqValue fuel st level) := by
  unfold parseXmqValue
  refine Good.after (moves_skipWs st) ?_
  simp only
  split
  · rename_i h; exact good_quote _ _ (by simpa using h)
  split
  · rename_i h; exact good_entity _ _ (by simpa using h)
  split
  · rename_i h; exact good_compound _ _ _ (by simpa using h)
  split
  · trivial
  split
  · exact Step.refl _
  · exact good_textValue _ _

/-- Tokens of a name. -/
theorem moves_emitName (st : St) (n : Nat) (ns : Option (List Byte)) (name : List Byte)
    (nsKind nameKind : Kind) (hb1 : ¬ IsBracket nsKind) (hb2 : ¬ IsBracket nameKind)
    (hname : match ns with
      | none => name = st.rest.take n
      | some ns => ns ++ 58 :: name = st.rest.take n)
    (hnb : ns ≠ none → ∀ b ∈ st.rest.take n, NameByte b)
    (h1 : ∀ s, (∀ b ∈ s, NameByte b) → TokenText nsKind s)
    (h2 : TokenText nameKind name) (hend : EndsAt.NameEnds (st.rest.drop n))
    (he1 : ∀ s r, r.head? = some 58 → EndsAt nsKind s r) (he2 : ∀ s r, EndsAt.NameEnds r → EndsAt nameKind s r) :
    Moves st (emitName st (st.moved n) ns name nsKind nameKind) := by
  cases ns with
  | none =>
    simp only at hname
    subst hname
    exact moves_one st n nameKind hb2 h2 (he2 _ _ hend)
  | some ns =>
    simp only at hname
    have hnb := hnb (by simp)
    have hns : ∀ b ∈ ns, NameByte b := fun b hb => hnb b (by rw [← hname]; simp [hb])
    refine ⟨[⟨nsKind, st.line, st.col, ns⟩, ⟨.ns_colon, st.line, st.col + ns.length, [58]⟩,
      ⟨nameKind, st.line, st.col + ns.length + 1, name⟩], ⟨?_, ?_, ?_, ?_, ?_, ?_, ?_⟩, ?_⟩
    · simp [emitName, St.emit]
    · simp only [emitName, St.emit, textOf_cons, textOf_nil, moved_rest, List.append_nil, List.singleton_append]
      rw [hname]; simp
    · simp only [emitName, St.emit, textOf_cons, textOf_nil, List.append_nil, List.singleton_append]
      rw [hname]; rfl
    · simp only [emitName, St.emit, textOf_cons, textOf_nil, List.append_nil, List.singleton_append]
      rw [hname]; rfl
    · have hw := walk_name (st.line, st.col) ns hns
      have h58 : incPos 58 st.line (st.col + ns.length) = (st.line, st.col + ns.length + 1) := by
        simp [incPos, show isCont 58 = false by decide]
      simp only [Placed, hw, walk_cons, walk_nil, h58, and_true]
    · intro t ht
      simp only [List.mem_cons, List.not_mem_nil, or_false] at ht
      rcases ht with rfl | rfl | rfl
      · exact h1 ns hns
      · rfl
      · exact h2
    · refine ⟨he1 _ _ (by simp), trivial, he2 _ _ ?_, trivial⟩
      simpa [emitName, St.emit] using hend
    · simp only [kinds_cons, kinds_nil]
      exact .append [nsKind] _ (.plain _ hb1) (.append [Kind.ns_colon] _ (.plain _ (by simp [IsBracket])) (.plain _ hb2))

theorem eatXmqTextName_name (st : St) :
    ∀ b ∈ (eatXmqTextName st).2.2, NameByte b := by
  obtain ⟨n, -, -, -, h, hnb⟩ := eatXmqTextName_spec st
  split at h
  · rw [h]; exact hnb
  · intro b hb; exact hnb b (by rw [← h]; simp [hb])

theorem moves_attributeName (st : St) (k1 k2 : Kind) (hb1 : ¬ IsBracket k1) (hb2 : ¬ IsBracket k2)
    (h1 : ∀ s, (∀ b ∈ s, NameByte b) → TokenText k1 s) (h2 : ∀ s, (∀ b ∈ s, NameByte b) → TokenText k2 s)
    (he1 : ∀ s r, r.head? = some 58 → EndsAt k1 s r) (he2 : ∀ s r, EndsAt.NameEnds r → EndsAt k2 s r) :
    Moves st (emitName st (eatXmqTextName st).1 (eatXmqTextName st).2.1 (eatXmqTextName st).2.2 k1 k2) := by
  have hx := eatXmqTextName_name st
  obtain ⟨n, hn, he, hle, h, hnb⟩ := eatXmqTextName_spec st
  rw [he]
  exact moves_emitName st n _ _ k1 k2 hb1 hb2 h (fun _ => hnb) h1 (h2 _ hx) (by rw [hn]; exact takeWhile_nameEnds _) he1 he2

/-- The state of `parse_xmq_attribute` behind the name. -/
def attributeName (st : St) : St :=
  match (eatXmqTextName st).2.1 with
  | none =>
    if (eatXmqTextName st).2.2 = b#"xmlns" then
      emitName st (eatXmqTextName st).1 (eatXmqTextName st).2.1 (eatXmqTextName st).2.2 .attr_ns .ns_declaration
    else emitName st (eatXmqTextName st).1 (eatXmqTextName st).2.1 (eatXmqTextName st).2.2 .attr_ns .attr_key
  | some p =>
    if p = b#"xmlns" then
      emitName st (eatXmqTextName st).1 (eatXmqTextName st).2.1 (eatXmqTextName st).2.2 .ns_declaration .attr_ns
    else emitName st (eatXmqTextName st).1 (eatXmqTextName st).2.1 (eatXmqTextName st).2.2 .attr_ns .attr_key

theorem parseXmqAttribute_eq (fuel : Nat) (st : St) :
    parseXmqAttribute fuel st =
      if peek (skipWs (attributeName st)).rest == b#'=' then
        parseXmqValue fuel (parseOne (skipWs (attributeName st)) .equals) .attrValue
      else .ok (skipWs (attributeName st)) := by
  unfold parseXmqAttribute attributeName
  rcases eatXmqTextName st with ⟨st', ns, name⟩
  cases ns <;> rfl

theorem moves_attrName (st : St) : Moves st (attributeName st) := by
  unfold attributeName
  split <;> split <;> exact moves_attributeName st _ _ (by simp [IsBracket]) (by simp [IsBracket])
    (fun _ h => h) (fun _ h => h) (fun _ _ h => by simp [EndsAt, h]) (fun _ _ h => by simp [EndsAt, h])

theorem emitName_rest (st st' : St) (ns name k1 k2) : (emitName st st' ns name k1 k2).rest = st'.rest := by
  cases ns <;> rfl

theorem attributeName_rest (st : St) : (attributeName st).rest = (eatXmqTextName st).1.rest := by
  unfold attributeName
  split <;> split <;> exact emitName_rest _ _ _ _ _ _

theorem good_attribute (fuel : Nat) (st : St) : Good st (parseXmqAttribute fuel st) := by
  rw [parseXmqAttribute_eq]
  have h1 := (moves_attrName st).trans (moves_skipWs _)
  split
  · rename_i h
    exact Good.after (h1.trans (moves_equals _ (by simpa using h))) (good_value _ _ _)
  · exact h1

theorem good_attributes (fuel : Nat) (st : St) : Good st (parseXmqAttributes fuel st) := by
  induction fuel generalizing st with
  | zero => trivial
  | succ fuel ih =>
    unfold parseXmqAttributes
    split
    · exact Moves.refl st
    · split
      · exact Good.after (moves_whitespace st) (ih _)
      split
      · exact Moves.refl st
      split
      · exact Good.bind (good_attribute _ _) (fun _ _ => ih _)
      · exact Moves.refl st

theorem good_elementAttributes (fuel : Nat) (st : St) : Good st (parseElementAttributes fuel st) := by
  unfold parseElementAttributes
  refine Good.after (moves_skipWs st) ?_
  simp only
  split
  · rename_i h
    exact good_bracket (skipWs st) .apar_left .apar_right 40 41 (parseXmqAttributes fuel) .attributesNotClosed
      (by simpa using h) (by decide) (by decide) rfl rfl (fun _ => trivial) (fun _ => trivial) WellNested.attributes (good_attributes fuel _)
  · exact Moves.refl _

theorem good_elementBody (fuel : Nat) (body : St → Res) (hb : ∀ st, Good st (body st)) (st : St) :
    Good st (parseElementBody fuel body st) := by
  unfold parseElementBody
  refine Good.after (moves_skipWs st) ?_
  simp only
  split
  · rename_i h
    exact Good.after (moves_equals _ (by simpa using h)) (good_value _ _ _)
  split
  · rename_i h
    exact good_bracket (skipWs st) .brace_left .brace_right 123 125 body .bodyNotClosed
      (by simpa using h) (by decide) (by decide) rfl rfl (fun _ => trivial) (fun _ => trivial) WellNested.braces (hb _)
  · exact Moves.refl _

theorem moves_elementName (st : St) (kind : ElemKind)
    (hk : kind = .element ∨ ∃ t, st.rest = 33 :: t ∨ st.rest = 63 :: t) :
    Moves st (parseElementName st kind) := by
  have key : ∀ (b : Bool) (s : List Byte), TokenText (if b = true then Kind.element_key else Kind.element_name) s =
      ((∀ b ∈ s, NameByte b) ∨ ∃ t, (s = 33 :: t ∨ s = 63 :: t) ∧ ∀ b ∈ t, NameByte b) := by
    intro b s; cases b <;> rfl
  have ends : ∀ (b : Bool) (s r : List Byte), EndsAt.NameEnds r → EndsAt (if b = true then Kind.element_key else Kind.element_name) s r := by
    intro b s r h; cases b <;> exact h
  have nb : ∀ b : Bool, ¬ IsBracket (if b = true then Kind.element_key else Kind.element_name) := by
    intro b; cases b <;> simp [IsBracket]
  have other : ∀ c t, st.rest = c :: t → c = 33 ∨ c = 63 →
      Moves st (emitName st (eatXmqDoctypeOrPi st).1 none (eatXmqDoctypeOrPi st).2 .element_ns
        (if peekXmqNextIsEqual (eatXmqDoctypeOrPi st).1.rest then .element_key else .element_name)) := by
    intro c t hs hc
    obtain ⟨n, _, he, hle, htk, hnb⟩ := eatXmqDoctypeOrPi_spec st c t hs
    rw [he]
    refine moves_emitName st n none _ .element_ns _ (by simp [IsBracket]) (nb _) rfl (by simp) (fun _ h => h) ?_
      (eatXmqDoctypeOrPi_end st c t n hs htk) (fun _ _ h => h) (ends _)
    rw [key, htk]
    exact Or.inr ⟨_, by rcases hc with rfl | rfl <;> simp, hnb⟩
  cases kind with
  | element =>
    exact moves_attributeName st .element_ns (if peekXmqNextIsEqual (eatXmqTextName st).1.rest then .element_key else .element_name)
      (by simp [IsBracket]) (nb _) (fun _ h => h) (fun s h => by rw [key]; exact Or.inl h) (fun _ _ h => h) (ends _)
  | doctype =>
    simp at hk; obtain ⟨t, hs | hs⟩ := hk
    · exact other 33 t hs (Or.inl rfl)
    · exact other 63 t hs (Or.inr rfl)
  | pi =>
    simp at hk; obtain ⟨t, hs | hs⟩ := hk
    · exact other 33 t hs (Or.inl rfl)
    · exact other 63 t hs (Or.inr rfl)

theorem good_element (fuel : Nat) (body : St → Res) (hb : ∀ st, Good st (body st)) (st : St) (kind : ElemKind)
    (hk : kind = .element ∨ ∃ t, st.rest = 33 :: t ∨ st.rest = 63 :: t) :
    Good st (parseXmqElementInternal fuel body st kind) := by
  unfold parseXmqElementInternal
  exact Good.after (moves_elementName st kind hk)
    (Good.bind (good_elementAttributes fuel _) (fun _ _ => good_elementBody fuel body hb _))

theorem isXmqDoctypeStart_head (c : Byte) (t : List Byte) (h : isXmqDoctypeStart (c :: t) = true) : c = 33 := by
  unfold isXmqDoctypeStart at h
  split at h
  · rename_i h1; simp at h1; exact h1.1
  · simp at h

theorem good_xmq (fuel : Nat) (st : St) : Good st (parseXmq fuel st) := by
  induction fuel generalizing st with
  | zero => trivial
  | succ fuel ih =>
    unfold parseXmq
    split
    · exact Moves.refl st
    rename_i c t hr
    simp only
    generalize hcc : (if (c == b#'/' || c == b#'(') = true then peek t else 0) = cc
    split
    · exact Good.after (moves_whitespace st) (ih _)
    split
    · rename_i h; exact Good.bind (good_quote st _ (by simp [hr]; simpa using h)) (fun _ _ => ih _)
    split
    · rename_i h; exact Good.bind (good_entity st _ (by simp [hr]; simpa using h)) (fun _ _ => ih _)
    split
    · rename_i h
      obtain ⟨u, rfl⟩ : ∃ u, t = cc :: u := by
        have hc : c = 47 ∧ (cc = 47 ∨ cc = 42) := by simpa [isXmqCommentStart] using h
        obtain ⟨rfl, h2⟩ := hc
        simp at hcc
        cases t with
        | nil => simp at hcc; subst hcc; simp at h2
        | cons a u => simp at hcc; exact ⟨u, by rw [hcc]⟩
      exact Good.bind (good_comment fuel st c cc u hr h) (fun _ _ => ih _)
    split
    · exact Good.bind (good_element fuel _ ih st _ (Or.inl rfl)) (fun _ _ => ih _)
    split
    · rename_i h
      have := isXmqDoctypeStart_head c t h
      exact Good.bind (good_element fuel _ ih st _ (Or.inr ⟨t, Or.inl (by rw [hr, this])⟩)) (fun _ _ => ih _)
    split
    · rename_i h
      have : c = 63 := by simp [isXmqPiStart] at h; exact h.1
      exact Good.bind (good_element fuel _ ih st _ (Or.inr ⟨t, Or.inr (by rw [hr, this])⟩)) (fun _ _ => ih _)
    split
    · exact Moves.refl st
    split
    · trivial
    · exact Step.refl st
    · split <;> exact Step.refl st

end Xmq
