import Verif.Lemmas.ParserStep
import Verif.Spec.Syntax
/-!
# The parser delivers the tokens of a document
-/
namespace Xmq
open Spec

/-- If the result is a success, the tokens delivered, without white space, satisfy `P` when they evaluate. -/
def Writes (st : St) (r : Res) (P : List Tok → Prop) : Prop :=
  ∀ st', r = .ok st' → ∃ ts, st'.out = ts.reverse ++ st.out ∧ ((∀ t ∈ ts, Evaluates t) → P (noWs ts))

/-- The same for functions that cannot fail. -/
def Puts (st st' : St) (P : List Tok → Prop) : Prop :=
  ∃ ts, st'.out = ts.reverse ++ st.out ∧ ((∀ t ∈ ts, Evaluates t) → P (noWs ts))

theorem noWs_append (a b : List Tok) : noWs (a ++ b) = noWs a ++ noWs b := List.filter_append ..

theorem Puts.writes {s t : St} {P : List Tok → Prop} (h : Puts s t P) : Writes s (.ok t) P := by
  intro u hu; cases hu; exact h

theorem Writes.puts {s t : St} {r : Res} {P : List Tok → Prop} (h : Writes s r P) (hr : r = .ok t) : Puts s t P := h t hr

theorem Puts.trans {s t u : St} {P Q R : List Tok → Prop} (h : Puts s t P) (k : Puts t u Q)
    (hR : ∀ a b, P a → Q b → R (a ++ b)) : Puts s u R := by
  obtain ⟨a, ha, pa⟩ := h
  obtain ⟨b, hb, pb⟩ := k
  refine ⟨a ++ b, by rw [hb, ha]; simp, fun he => ?_⟩
  rw [noWs_append]
  exact hR _ _ (pa fun t ht => he t (by simp [ht])) (pb fun t ht => he t (by simp [ht]))

theorem Puts.mono {s t : St} {P Q : List Tok → Prop} (h : Puts s t P) (hQ : ∀ a, P a → Q a) : Puts s t Q := by
  obtain ⟨a, ha, pa⟩ := h
  exact ⟨a, ha, fun he => hQ _ (pa he)⟩

theorem Puts.refl (s : St) : Puts s s (· = []) := ⟨[], rfl, fun _ => rfl⟩

theorem Writes.after {s t : St} {r : Res} {P Q R : List Tok → Prop} (h : Puts s t P) (k : Writes t r Q)
    (hR : ∀ a b, P a → Q b → R (a ++ b)) : Writes s r R := fun u hu => Puts.trans h (k u hu) hR

theorem Writes.mono {s : St} {r : Res} {P Q : List Tok → Prop} (h : Writes s r P) (hQ : ∀ a, P a → Q a) : Writes s r Q :=
  fun u hu => Puts.mono (h u hu) hQ

theorem Writes.bind {s : St} {r : Res} {f : St → Res} {P Q R : List Tok → Prop} (h : Writes s r P)
    (k : ∀ t, r = .ok t → Writes t (f t) Q) (hR : ∀ a b, P a → Q b → R (a ++ b)) : Writes s (r.bind f) R := by
  intro u hu
  cases hr : r with
  | ok t => rw [hr] at hu; exact Puts.trans (h t hr) (k t hr u hu) hR
  | err e t => rw [hr] at hu; cases hu
  | ub => rw [hr] at hu; cases hu
  | outOfFuel => rw [hr] at hu; cases hu

theorem Writes.err {s t : St} {e : Err} {P : List Tok → Prop} : Writes s (.err e t) P := by intro u hu; cases hu
theorem Writes.ub {s : St} {P : List Tok → Prop} : Writes s .ub P := by intro u hu; cases hu
theorem Writes.fuel {s : St} {P : List Tok → Prop} : Writes s .outOfFuel P := by intro u hu; cases hu

/-- One token that is not white space. -/
theorem Puts.one {st st' : St} (t : Tok) (P : List Tok → Prop) (h : st'.out = t :: st.out) (hk : t.kind ≠ .whitespace)
    (hP : Evaluates t → P [t]) : Puts st st' P :=
  ⟨[t], by simp [h], fun he => by simpa [noWs, hk] using hP (he t (by simp))⟩

theorem puts_ws (st : St) : Puts st (parseXmqWhitespace st) (· = []) := by
  obtain ⟨n, hn, he, hw⟩ := tokenWhitespace_spec st
  refine ⟨[⟨.whitespace, st.line, st.col, st.rest.take (st.rest.length - (st.moved n).rest.length)⟩], ?_, fun _ => rfl⟩
  unfold parseXmqWhitespace
  simp only [he]
  rfl

theorem puts_skipWs (st : St) : Puts st (skipWs st) (· = []) := by
  unfold skipWs
  split
  · exact puts_ws st
  · exact .refl st

theorem Puts.thenWs {s t : St} {P : List Tok → Prop} (h : Puts s t P) : Puts s (skipWs t) P :=
  h.trans (puts_skipWs t) fun a b ha hb => by subst hb; simpa using ha

theorem Writes.afterWs {s : St} {r : Res} {P : List Tok → Prop} (h : Writes (skipWs s) r P) : Writes s r P :=
  Writes.after (puts_skipWs s) h fun a b ha hb => by subst ha; simpa using hb

theorem puts_parseOne (st : St) (kind : Kind) (hk : kind ≠ .whitespace) (hr : st.rest ≠ []) :
    Puts st (parseOne st kind) (fun ts => ∃ t, ts = [t] ∧ t.kind = kind) := by
  refine Puts.one ⟨kind, st.line, st.col, st.rest.take 1⟩ _ ?_ hk fun _ => ⟨_, rfl, rfl⟩
  unfold parseOne
  rw [advance_eq _ _ (by cases h : st.rest with | nil => exact absurd h hr | cons a t => simp)]
  rfl

theorem rest_ne_of_peek {st : St} {c : Byte} (h : peek st.rest = c) (hc : c ≠ 0) : st.rest ≠ [] := by
  intro hr; rw [hr] at h; exact hc h.symm

theorem writes_quote (st : St) (level : Level) (hp : peek st.rest = 39) :
    Writes st (parseXmqQuote st level) (fun ts => ∃ t s, ts = [t] ∧ t.kind = quoteKind level ∧
      quoteVal t.col t.text = some (.text s)) := by
  unfold parseXmqQuote
  split
  · exact .err
  · rename_i st' n h
    obtain ⟨_, _, rfl, hq⟩ := eatXmqQuote_spec st hp st' n h
    refine Puts.writes (Puts.one ⟨quoteKind level, st.line, st.col, st.rest.take n⟩ _ rfl
      (by cases level <;> simp [quoteKind]) fun he => ?_)
    have he : (quoteVal st.col (st.rest.take n)).isSome := by cases level <;> exact he
    unfold quoteVal at he
    cases hu : unQuote (st.col - 1) b#' ' 0 (st.rest.take n) true with
    | none => rw [hu] at he; simp at he
    | some s => exact ⟨_, s, rfl, rfl, by simp only [quoteVal]; rw [hu]; rfl⟩

theorem writes_entity (st : St) (level : Level) (hp : peek st.rest = 38) :
    Writes st (parseXmqEntity st level) (fun ts => ∃ t v, ts = [t] ∧ t.kind = entityKind level ∧ entityVal t.text = some v) := by
  unfold parseXmqEntity
  split
  · exact .err
  · rename_i st' n h
    obtain ⟨_, _, rfl, hq⟩ := eatXmqEntity_spec st hp st' n h
    refine Puts.writes (Puts.one ⟨entityKind level, st.line, st.col, st.rest.take n⟩ _ rfl
      (by cases level <;> simp [entityKind]) fun he => ?_)
    have he : (entityVal (st.rest.take n)).isSome := by cases level <;> exact he
    obtain ⟨v, hv⟩ := Option.isSome_iff_exists.1 he
    exact ⟨_, v, rfl, rfl, hv⟩

theorem writes_continuations (k : Nat) (hk : 0 < k) (fuel : Nat) (st : St) (f : Bool)
    (hf : f = true → ∃ u, st.rest = 42 :: u) :
    Writes st (commentContinuations k fuel st f) (fun ts => ∃ ss, Continuations ts ss) := by
  induction fuel generalizing st f with
  | zero =>
    cases f with
    | false => exact Puts.writes ((Puts.refl st).mono fun a ha => by subst ha; exact ⟨[], .nil⟩)
    | true => exact .fuel
  | succ fuel ih =>
    cases f with
    | false => exact Puts.writes ((Puts.refl st).mono fun a ha => by subst ha; exact ⟨[], .nil⟩)
    | true =>
      simp only [commentContinuations]
      obtain ⟨u, hu⟩ := hf rfl
      split
      · exact .err
      · rename_i st' len found h
        obtain ⟨_, _, rfl, hq, hfound⟩ := eatXmqCommentToClose_cont_spec st k hk u hu st' len found h
        refine Writes.after (Puts.one ⟨.comment_continuation, st.line, st.col, st.rest.take len⟩
          (fun ts => ∃ t s, ts = [t] ∧ t.kind = .comment_continuation ∧ continuationVal t = some s) rfl (by simp) fun he => ?_)
          (ih _ _ fun hf => hfound hf) ?_
        · obtain ⟨s, hs⟩ := Option.isSome_iff_exists.1 he
          exact ⟨_, s, rfl, rfl, hs⟩
        · rintro a b ⟨t, s, rfl, hk, hs⟩ ⟨ss, hss⟩
          exact ⟨s :: ss, .cons t s b ss hk hs hss⟩

/-- A comment with its continuations. -/
def CommentToks (ts : List Tok) : Prop :=
  ∃ t c cs ss, ts = t :: cs ∧ t.kind = .comment ∧ commentVal t = some c ∧ Continuations cs ss

theorem writes_comment (fuel : Nat) (st : St) (c cc : Byte) (t : List Byte) (hs : st.rest = c :: cc :: t)
    (hc : isXmqCommentStart c cc = true) : Writes st (parseXmqComment fuel st) CommentToks := by
  simp [isXmqCommentStart] at hc
  obtain ⟨rfl, hcc⟩ := hc
  obtain ⟨k, u, hku, hu, -, -⟩ := takeRun 47 st.rest
  have hk : 0 < k := by
    rcases Nat.eq_zero_or_pos k with rfl | h
    · simp at hku; rw [← hku, hs] at hu; simp at hu
    · exact h
  have hcnt : countXmqSlashes st.rest = (k, peek u == 42) := by rw [hku, countXmqSlashes_run hu]
  have one : ∀ n, Puts st ((st.moved n).emitSpan st .comment n)
      (fun ts => ∃ t c, ts = [t] ∧ t.kind = .comment ∧ commentVal t = some c) := by
    intro n
    refine Puts.one ⟨.comment, st.line, st.col, st.rest.take n⟩ _ rfl (by simp) fun he => ?_
    obtain ⟨s, hs⟩ := Option.isSome_iff_exists.1 he
    exact ⟨_, s, rfl, rfl, hs⟩
  unfold parseXmqComment
  simp only [hcnt]
  split
  · rename_i hne
    have hcc' : cc = 47 := by
      rcases hcc with h | h
      · exact h
      · exfalso
        subst h
        have : k = 1 := by
          rw [hs] at hcnt
          have h2 := congrArg Prod.fst hcnt
          simp [countXmqSlashes] at h2
          exact h2.symm
        subst this
        rw [hs] at hku; simp [List.replicate_succ] at hku
        rw [← hku] at hne; simp at hne
    subst hcc'
    obtain ⟨_, _, he, hq⟩ := eatXmqCommentToEol_spec st t hs (by rw [hcnt]; simpa using hne)
    rw [he]
    refine Puts.writes ((one _).mono ?_)
    rintro a ⟨t, c, rfl, hk, hc⟩
    exact ⟨t, c, [], [], rfl, hk, hc, .nil⟩
  · rename_i hne
    simp at hne
    obtain ⟨v, rfl⟩ : ∃ v, u = 42 :: v := by
      cases u with
      | nil => simp at hne
      | cons a v => simp at hne; exact ⟨v, by rw [hne]⟩
    split
    · exact .err
    · rename_i st' len found h
      obtain ⟨_, _, rfl, hq, hfound⟩ := eatXmqCommentToClose_open_spec st k hk v hku st' len found h
      refine Writes.after (one len) (writes_continuations k hk fuel _ _ hfound) ?_
      rintro a b ⟨t, c, rfl, hk, hc⟩ ⟨ss, hss⟩
      exact ⟨t, c, b, ss, rfl, hk, hc, hss⟩

/-- The level of the values of elements or of attributes. -/
def valueLevel (attr : Bool) : Level := if attr then .attrValue else .elementValue

theorem writes_compoundChildren (attr : Bool) (fuel : Nat) (st : St) :
    Writes st (parseXmqCompoundChildren fuel st (enterCompoundLevel (valueLevel attr))) (fun ts => ∃ vs, Compound attr ts vs) := by
  have nil : ∀ st, Puts st st (fun ts => ∃ vs, Compound attr ts vs) := fun st =>
    (Puts.refl st).mono fun a ha => by subst ha; exact ⟨[], .nil⟩
  induction fuel generalizing st with
  | zero => exact .fuel
  | succ fuel ih =>
    unfold parseXmqCompoundChildren
    split
    · exact (nil st).writes
    · rename_i c t hr
      split
      · exact Writes.after (puts_ws st) (ih _) fun a b ha hb => by subst ha; simpa using hb
      split
      · exact (nil st).writes
      split
      · rename_i h
        refine Writes.bind (writes_quote st _ (by simp [hr]; simpa using h)) (fun _ _ => ih _) ?_
        rintro a b ⟨t, s, rfl, hk, hs⟩ ⟨vs, hvs⟩
        exact ⟨_, .quote t _ b vs (by rw [hk]; cases attr <;> rfl) hs hvs⟩
      split
      · rename_i h
        refine Writes.bind (writes_entity st _ (by simp [hr]; simpa using h)) (fun _ _ => ih _) ?_
        rintro a b ⟨t, v, rfl, hk, hv⟩ ⟨vs, hvs⟩
        exact ⟨_, .entity t v b vs (by rw [hk]; cases attr <;> rfl) hv hvs⟩
      · exact .err

/-- Something between brackets. -/
theorem writes_bracket (st : St) (lk rk : Kind) (lc rc : Byte) (f : St → Res) (e : Err) (P Q : List Tok → Prop)
    (hl : peek st.rest = lc) (hl0 : lc ≠ 0) (hr0 : rc ≠ 0) (hlk : lk ≠ .whitespace) (hrk : rk ≠ .whitespace)
    (hf : Writes (parseOne st lk) (f (parseOne st lk)) P)
    (hQ : ∀ l r ts, l.kind = lk → r.kind = rk → P ts → Q (l :: (ts ++ [r]))) :
    Writes st ((f (parseOne st lk)).bind fun st =>
      if peek (skipWs st).rest != rc then .err e (skipWs st) else .ok (parseOne (skipWs st) rk)) Q := by
  refine Writes.after (R := Q) (Q := fun ts => ∃ a r, ts = a ++ [r] ∧ P a ∧ r.kind = rk)
    (puts_parseOne st lk hlk (rest_ne_of_peek hl hl0))
    (Writes.bind hf (Q := fun ts => ∃ r, ts = [r] ∧ r.kind = rk) (fun t _ => ?_) ?_) ?_
  · split
    · exact .err
    · rename_i hrc
      exact Writes.afterWs (Puts.writes (puts_parseOne (skipWs t) rk hrk (rest_ne_of_peek (by simpa using hrc) hr0)))
  · rintro a b ha ⟨r, rfl, hr⟩
    exact ⟨a, r, rfl, ha, hr⟩
  · rintro a b ⟨l, rfl, hl⟩ ⟨c, r, rfl, hc, hr⟩
    exact hQ l r c hl hr hc

theorem writes_value (attr : Bool) (fuel : Nat) (st : St) :
    Writes st (parseXmqValue fuel st (valueLevel attr)) (fun ts => ∃ v, Value attr ts v) := by
  unfold parseXmqValue
  refine Writes.afterWs ?_
  simp only
  split
  · rename_i h
    refine (writes_quote _ _ (by simpa using h)).mono ?_
    rintro a ⟨t, s, rfl, hk, hs⟩
    exact ⟨_, .quoted t s (by rw [hk]; cases attr <;> rfl) hs⟩
  split
  · rename_i h
    refine (writes_entity _ _ (by simpa using h)).mono ?_
    rintro a ⟨t, v, rfl, hk, hv⟩
    exact ⟨_, .ref t v (by rw [hk]; cases attr <;> rfl) hv⟩
  split
  · rename_i h
    refine writes_bracket (skipWs st) .cpar_left .cpar_right 40 41
      (fun s => parseXmqCompoundChildren fuel s (enterCompoundLevel (valueLevel attr))) .compoundNotClosed _ _
      (by simpa using h) (by decide) (by decide) (by simp) (by simp) (writes_compoundChildren attr fuel _) ?_
    rintro l r ts hl hr ⟨vs, hvs⟩
    exact ⟨_, .many l r ts vs hl hr hvs⟩
  split
  · exact .ub
  split
  · exact .err
  · obtain ⟨hle, hp⟩ := safeValueLen_spec (skipWs st).rest
    simp only [parseXmqTextValue, eatXmqTextValue, advance_eq _ _ hle]
    refine Puts.writes (Puts.one ⟨if valueLevel attr = .attrValue then .attr_value_text else .element_value_text,
      (skipWs st).line, (skipWs st).col, _⟩ _ rfl (by cases attr <;> simp [valueLevel]) fun _ => ?_)
    exact ⟨_, .plain _ (by cases attr <;> rfl)⟩

theorem puts_equals (st : St) (h : peek st.rest = 61) : Puts st (parseOne st .equals) (fun ts => ∃ t, ts = [t] ∧ t.kind = .equals) :=
  puts_parseOne st .equals (by simp) (rest_ne_of_peek h (by decide))

/-- An equal sign and a value. -/
theorem writes_equals_value (attr : Bool) (fuel : Nat) (st : St) (h : peek st.rest = 61) :
    Writes st (parseXmqValue fuel (parseOne st .equals) (valueLevel attr)) (fun ts => ∃ v, MaybeValue attr ts v) := by
  refine Writes.after (puts_equals st h) (writes_value attr fuel _) ?_
  rintro a b ⟨e, rfl, he⟩ ⟨v, hv⟩
  exact ⟨_, .some e b v he hv⟩

theorem puts_noValue (attr : Bool) (st : St) : Puts st st (fun ts => ∃ v, MaybeValue attr ts v) :=
  (Puts.refl st).mono fun a ha => by subst ha; exact ⟨_, .none⟩

theorem puts_emitName (st st' : St) (ns : Option (List Byte)) (name : List Byte) (k1 k2 : Kind) (ho : st'.out = st.out)
    (h1 : k1 ≠ .whitespace) (h2 : k2 ≠ .whitespace) :
    Puts st (emitName st st' ns name k1 k2) (fun ts =>
      match ns with
      | none => ∃ k, ts = [k] ∧ k.kind = k2 ∧ k.text = name
      | some p => ∃ q c k, ts = [q, c, k] ∧ q.kind = k1 ∧ q.text = p ∧ c.kind = .ns_colon ∧ k.kind = k2 ∧ k.text = name) := by
  cases ns with
  | none => exact Puts.one ⟨k2, st.line, st.col, name⟩ _ (by simp [emitName, St.emit, ho]) h2 fun _ => ⟨_, rfl, rfl, rfl⟩
  | some p =>
    refine ⟨[⟨k1, st.line, st.col, p⟩, ⟨.ns_colon, st.line, st.col + p.length, [58]⟩,
      ⟨k2, st.line, st.col + p.length + 1, name⟩], by simp [emitName, St.emit, ho], fun _ => ?_⟩
    exact ⟨⟨k1, st.line, st.col, p⟩, ⟨.ns_colon, st.line, st.col + p.length, [58]⟩, ⟨k2, st.line, st.col + p.length + 1, name⟩,
      by simp [noWs, h1, h2], rfl, rfl, rfl, rfl, rfl⟩

theorem eatXmqTextName_out (st : St) : (eatXmqTextName st).1.out = st.out := by
  obtain ⟨n, -, he, -⟩ := eatXmqTextName_spec st
  rw [he]; rfl

/-- The tokens of the name of an attribute or declaration, to be followed by those of a value. -/
def AttrNameToks (ts : List Tok) : Prop :=
  ∀ us v, MaybeValue true us v → ∃ a, Attribute (ts ++ us) a

theorem puts_attributeName (st : St) : Puts st (attributeName st) AttrNameToks := by
  have ho := eatXmqTextName_out st
  unfold attributeName
  split
  · rename_i hn
    split
    · refine (puts_emitName st _ _ _ .attr_ns .ns_declaration ho (by simp) (by simp)).mono ?_
      rw [hn]
      rintro a ⟨k, rfl, hk, -⟩ us v hv
      exact ⟨_, .declDefault k us v hk hv⟩
    · refine (puts_emitName st _ _ _ .attr_ns .attr_key ho (by simp) (by simp)).mono ?_
      rw [hn]
      rintro a ⟨k, rfl, hk, -⟩ us v hv
      exact ⟨_, .plain k us v hk hv⟩
  · rename_i p hn
    split
    · refine (puts_emitName st _ _ _ .ns_declaration .attr_ns ho (by simp) (by simp)).mono ?_
      rw [hn]
      rintro a ⟨q, c, k, rfl, hq, -, hc, hk, -⟩ us v hv
      exact ⟨_, .declPrefix q c k us v hq hc hk hv⟩
    · refine (puts_emitName st _ _ _ .attr_ns .attr_key ho (by simp) (by simp)).mono ?_
      rw [hn]
      rintro a ⟨q, c, k, rfl, hq, -, hc, hk, -⟩ us v hv
      exact ⟨_, .prefixed q c k us v hq hc hk hv⟩

theorem writes_attribute (fuel : Nat) (st : St) : Writes st (parseXmqAttribute fuel st) (fun ts => ∃ a, Attribute ts a) := by
  rw [parseXmqAttribute_eq]
  have hn := (puts_attributeName st).thenWs
  split
  · rename_i h
    exact Writes.after hn (writes_equals_value true fuel _ (by simpa using h)) fun a b ha ⟨v, hv⟩ => ha b v hv
  · exact Writes.after hn (puts_noValue true _).writes fun a b ha ⟨v, hv⟩ => ha b v hv

theorem writes_attributes (fuel : Nat) (st : St) : Writes st (parseXmqAttributes fuel st) (fun ts => ∃ as, Attributes ts as) := by
  have nil : ∀ st, Puts st st (fun ts => ∃ as, Attributes ts as) := fun st =>
    (Puts.refl st).mono fun a ha => by subst ha; exact ⟨[], .nil⟩
  induction fuel generalizing st with
  | zero => exact .fuel
  | succ fuel ih =>
    unfold parseXmqAttributes
    split
    · exact (nil st).writes
    · split
      · exact Writes.after (puts_ws st) (ih _) fun a b ha hb => by subst ha; simpa using hb
      split
      · exact (nil st).writes
      split
      · exact Writes.bind (writes_attribute _ _) (fun _ _ => ih _)
          fun a b ⟨x, hx⟩ ⟨xs, hxs⟩ => ⟨x :: xs, .cons a b x xs hx hxs⟩
      · exact (nil st).writes

theorem writes_elementAttributes (fuel : Nat) (st : St) :
    Writes st (parseElementAttributes fuel st) (fun ts => ∃ as, MaybeAttributes ts as) := by
  unfold parseElementAttributes
  refine Writes.afterWs ?_
  simp only
  split
  · rename_i h
    refine writes_bracket (skipWs st) .apar_left .apar_right 40 41 (parseXmqAttributes fuel) .attributesNotClosed _ _
      (by simpa using h) (by decide) (by decide) (by simp) (by simp) (writes_attributes fuel _) ?_
    rintro l r ts hl hr ⟨as, has⟩
    exact ⟨_, .some l r ts as hl hr has⟩
  · exact Puts.writes ((Puts.refl _).mono fun a ha => by subst ha; exact ⟨_, .none⟩)

/-- The tokens behind the attributes of an element. -/
def BodyToks (ts : List Tok) : Prop :=
  (∃ v, MaybeValue false ts v) ∨ ∃ l r bs kids, ts = l :: (bs ++ [r]) ∧ l.kind = .brace_left ∧ r.kind = .brace_right ∧ Doc bs kids

theorem writes_elementBody (fuel : Nat) (body : St → Res) (hb : ∀ st, Writes st (body st) (fun ts => ∃ d, Doc ts d)) (st : St) :
    Writes st (parseElementBody fuel body st) BodyToks := by
  unfold parseElementBody
  refine Writes.afterWs ?_
  simp only
  split
  · rename_i h
    exact (writes_equals_value false fuel _ (by simpa using h)).mono fun a ha => Or.inl ha
  split
  · rename_i h
    refine writes_bracket (skipWs st) .brace_left .brace_right 123 125 body .bodyNotClosed _ _
      (by simpa using h) (by decide) (by decide) (by simp) (by simp) (hb _) ?_
    rintro l r ts hl hr ⟨d, hd⟩
    exact Or.inr ⟨l, r, ts, d, rfl, hl, hr, hd⟩
  · exact Puts.writes ((puts_noValue false _).mono fun a ha => Or.inl ha)

theorem puts_elementName (st : St) (kind : ElemKind) (hr : st.rest ≠ []) :
    Puts st (parseElementName st kind) (fun ts => ∃ pre name, ElemNameToks ts pre name) := by
  have nk : ∀ b : Bool, (if b = true then Kind.element_key else Kind.element_name) ≠ .whitespace := by
    intro b; cases b <;> simp
  have nk' : ∀ b : Bool, ∀ k : Tok, k.kind = (if b = true then Kind.element_key else Kind.element_name) →
      k.kind = .element_name ∨ k.kind = .element_key := by
    intro b k h; cases b <;> simp at h <;> simp [h]
  have other : Puts st (emitName st (eatXmqDoctypeOrPi st).1 none (eatXmqDoctypeOrPi st).2 .element_ns
      (if peekXmqNextIsEqual (eatXmqDoctypeOrPi st).1.rest then .element_key else .element_name))
      (fun ts => ∃ pre name, ElemNameToks ts pre name) := by
    obtain ⟨c, t, hs⟩ : ∃ c t, st.rest = c :: t := by
      cases h : st.rest with
      | nil => exact absurd h hr
      | cons c t => exact ⟨c, t, rfl⟩
    obtain ⟨n, _, he, -⟩ := eatXmqDoctypeOrPi_spec st c t hs
    refine (puts_emitName st _ none _ .element_ns _ (by rw [he]; rfl) (by simp) (nk _)).mono ?_
    rintro a ⟨k, rfl, hk, -⟩
    exact ⟨_, _, .plain k (nk' _ k hk)⟩
  cases kind with
  | element =>
    refine (puts_emitName st _ (eatXmqTextName st).2.1 _ .element_ns _ (eatXmqTextName_out st) (by simp) (nk _)).mono ?_
    cases (eatXmqTextName st).2.1 with
    | none => rintro a ⟨k, rfl, hk, -⟩; exact ⟨_, _, .plain k (nk' _ k hk)⟩
    | some p => rintro a ⟨q, c, k, rfl, hq, -, hc, hk, -⟩; exact ⟨_, _, .prefixed q c k hq hc (nk' _ k hk)⟩
  | doctype => exact other
  | pi => exact other

/-- The tokens of an element, to be followed by those of a document. -/
def ElementToks (ts : List Tok) : Prop := ∀ us d, Doc us d → ∃ e, Doc (ts ++ us) (e :: d)

theorem writes_element (fuel : Nat) (body : St → Res) (hb : ∀ st, Writes st (body st) (fun ts => ∃ d, Doc ts d)) (st : St)
    (kind : ElemKind) (hr : st.rest ≠ []) : Writes st (parseXmqElementInternal fuel body st kind) ElementToks := by
  unfold parseXmqElementInternal
  refine Writes.after (puts_elementName st kind hr)
    (Writes.bind (writes_elementAttributes fuel _) (fun _ _ => writes_elementBody fuel body hb _)
      (R := fun ts => ∃ a b as, ts = a ++ b ∧ MaybeAttributes a as ∧ BodyToks b) ?_) ?_
  · rintro a b ⟨as, has⟩ hb
    exact ⟨a, b, as, rfl, has, hb⟩
  · rintro n x ⟨pre, name, hn⟩ ⟨a, b, as, rfl, has, hbody⟩ us d hd
    rcases hbody with ⟨v, hv⟩ | ⟨l, r, bs, kids, rfl, hl, hr, hk⟩
    · exact ⟨_, by simpa using Doc.plain n a b pre name as v us d hn has hv hd⟩
    · exact ⟨_, by simpa using Doc.braces n a pre name as l r bs kids us d hn has hl hr hk hd⟩

theorem writes_xmq (fuel : Nat) (st : St) : Writes st (parseXmq fuel st) (fun ts => ∃ d, Doc ts d) := by
  have nil : ∀ st, Puts st st (fun ts => ∃ d, Doc ts d) := fun st =>
    (Puts.refl st).mono fun a ha => by subst ha; exact ⟨[], .nil⟩
  induction fuel generalizing st with
  | zero => exact .fuel
  | succ fuel ih =>
    have elem : ∀ kind, st.rest ≠ [] → Writes st ((parseXmqElementInternal fuel (parseXmq fuel) st kind).bind (parseXmq fuel))
        (fun ts => ∃ d, Doc ts d) := fun kind hr =>
      Writes.bind (writes_element fuel _ ih st kind hr) (fun _ _ => ih _) fun a b ha ⟨d, hd⟩ =>
        let ⟨e, he⟩ := ha b d hd; ⟨_, he⟩
    unfold parseXmq
    split
    · exact (nil st).writes
    rename_i c t hr
    have hne : st.rest ≠ [] := by rw [hr]; simp
    simp only
    generalize hcc : (if (c == b#'/' || c == b#'(') = true then peek t else 0) = cc
    split
    · exact Writes.after (puts_ws st) (ih _) fun a b ha hb => by subst ha; simpa using hb
    split
    · rename_i h
      refine Writes.bind (writes_quote st _ (by simp [hr]; simpa using h)) (fun _ _ => ih _) ?_
      rintro a b ⟨t, s, rfl, hk, hs⟩ ⟨d, hd⟩
      exact ⟨_, .quote t _ b d hk hs hd⟩
    split
    · rename_i h
      refine Writes.bind (writes_entity st _ (by simp [hr]; simpa using h)) (fun _ _ => ih _) ?_
      rintro a b ⟨t, v, rfl, hk, hv⟩ ⟨d, hd⟩
      exact ⟨_, .entity t v b d hk hv hd⟩
    split
    · rename_i h
      obtain ⟨u, rfl⟩ : ∃ u, t = cc :: u := by
        have hc : c = 47 ∧ (cc = 47 ∨ cc = 42) := by simpa [isXmqCommentStart] using h
        obtain ⟨rfl, h2⟩ := hc
        simp at hcc
        cases t with
        | nil => simp at hcc; subst hcc; simp at h2
        | cons a u => simp at hcc; exact ⟨u, by rw [hcc]⟩
      refine Writes.bind (writes_comment fuel st c cc u hr h) (fun _ _ => ih _) ?_
      rintro a b ⟨t, c, cs, ss, rfl, hk, hc, hss⟩ ⟨d, hd⟩
      exact ⟨_, .comment t c cs ss b d hk hc hss hd⟩
    split
    · exact elem _ hne
    split
    · exact elem _ hne
    split
    · exact elem _ hne
    split
    · exact (nil st).writes
    split
    · exact .ub
    · exact .err
    · split <;> exact .err

/-- The tokens of an accepted buffer are those of a document. -/
theorem tokenizes_doc (input : List Byte) (toks : List Tok) (h : Tokenizes input toks) (he : ∀ t ∈ toks, Evaluates t) :
    ∃ d, Doc (noWs toks) d := by
  obtain ⟨fuel, st, hp, rfl⟩ := h
  unfold parseBuffer at hp
  cases hr : parseXmq fuel (initSt input) with
  | ok s =>
    rw [hr] at hp
    simp only [Res.bind_ok] at hp
    split at hp
    · cases hp
      obtain ⟨ts, hts, hd⟩ := writes_xmq fuel (initSt input) _ hr
      have : st.out.reverse = ts := by rw [hts]; simp [initSt]
      rw [this] at he ⊢
      exact hd he
    · cases hp
  | err e s => rw [hr] at hp; cases hp
  | ub => rw [hr] at hp; cases hp
  | outOfFuel => rw [hr] at hp; cases hp

end Xmq
