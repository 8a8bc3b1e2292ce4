import Verif.Lemmas.JsonString
import Verif.Lemmas.JsonNumber
import Verif.Lemmas.Sem
/-!
# Lemmas about the JSON parser
-/
namespace Xmq
open Spec

/-- The text ends in an opening brace or a comma. -/
def EndsOpen (l : List Byte) : Prop := l.getLast? = some b#'{' ∨ l.getLast? = some b#','

theorem EndsOpen.of_suffix {a b : List Byte} (h : a <:+ b) (he : EndsOpen a) : EndsOpen b := by
  obtain ⟨p, rfl⟩ := h
  unfold EndsOpen at he ⊢
  rw [List.getLast?_append]
  rcases he with h | h <;> simp [h]

/-- The result of a parser function: bytes have been consumed, or the parser hangs at an end of the text as described. -/
def Sane (l : List Byte) : JRes → Prop
  | .ok st' => st'.rest <:+ l ∧ st'.rest.length < l.length
  | .hang => EndsOpen l
  | .outOfFuel => False
  | _ => True

theorem skipJsonWs_suffix (k : Nat) (s : List Byte) : skipJsonWs k s <:+ s := by
  induction k generalizing s with
  | zero => exact List.suffix_refl s
  | succ k ih =>
    rw [skipJsonWs]
    split
    · exact List.suffix_refl s
    · dsimp only
      split
      · exact List.suffix_refl s
      · exact (ih _).trans (List.drop_suffix _ _)

theorem skipWs_suffix (st : JSt) : st.skipWs.rest <:+ st.rest := skipJsonWs_suffix _ _

theorem suffix_len {a b : List Byte} (h : a <:+ b) : a.length ≤ b.length := h.length_le

theorem drop_peek {l : List Byte} {c : Byte} (h : (peek l == c) = true) (h0 : c ≠ 0) : l = c :: l.drop 1 := by
  cases l with
  | nil => simp at h; exact absurd h.symm h0
  | cons d t => simp at h; simp [h]

theorem drop_one_sane {l : List Byte} {c : Byte} (h : (peek l == c) = true) (h0 : c ≠ 0) :
    l.drop 1 <:+ l ∧ (l.drop 1).length < l.length := by
  refine ⟨List.drop_suffix _ _, ?_⟩
  conv => rhs; rw [drop_peek h h0]
  simp

theorem Sane.mono {a b : List Byte} {r : JRes} (h : a <:+ b) (hs : Sane a r) : Sane b r := by
  cases r with
  | ok st => exact ⟨hs.1.trans h, Nat.lt_of_lt_of_le hs.2 (suffix_len h)⟩
  | hang => exact EndsOpen.of_suffix h hs
  | outOfFuel => exact hs
  | err => trivial
  | abort => trivial

theorem eatJsonQuote_suffix (s : List Byte) : ∀ t r, eatJsonQuote s = some (t, r) → r <:+ s := by
  fun_induction eatJsonQuote s with
  | case1 => intro t r h; cases h; exact List.suffix_refl _
  | case2 c hc => intro t r h; cases h; exact List.nil_suffix
  | case3 c _ _ => intro t r h; cases h
  | case4 c _ _ => intro t r h; cases h; exact List.nil_suffix
  | case5 c d t hc => intro _ r h; cases h; exact List.suffix_cons _ _
  | case6 c d t _ _ e he ih =>
    intro x r h
    cases hq : eatJsonQuote t with
    | none => rw [hq] at h; cases h
    | some p =>
      rw [hq] at h; cases h
      exact ((ih _ _ hq).trans (List.suffix_cons _ _)).trans (List.suffix_cons _ _)
  | case7 c d _ _ _ _ h1 h2 h3 h4 t _ u _ ih =>
    intro x r h
    cases hq : eatJsonQuote t with
    | none => rw [hq] at h; cases h
    | some p =>
      rw [hq] at h; cases h
      refine (ih _ _ hq).trans ?_
      exact ⟨[c, d, h1, h2, h3, h4], rfl⟩
  | case8 => intro t r h; cases h
  | case9 => intro t r h; cases h
  | case10 => intro t r h; cases h
  | case11 => intro t r h; cases h
  | case12 c d t _ _ ih =>
    intro x r h
    cases hq : eatJsonQuote (d :: t) with
    | none => rw [hq] at h; cases h
    | some p =>
      rw [hq] at h; cases h
      exact (ih _ _ hq).trans (List.suffix_cons _ _)

theorem jnumLoop_bounds (s : List Byte) : ∀ (st : JNum) (n m : Nat), jnumLoop st n s = some m → n ≤ m ∧ m ≤ n + s.length := by
  induction s with
  | nil =>
    intro st n m h
    rw [jnumLoop] at h
    split at h
    · cases h; simp
    · cases h
  | cons c t ih =>
    intro st n m h
    have step : ∀ st', jnumLoop st' (n + 1) t = some m → n ≤ m ∧ m ≤ n + (c :: t).length := by
      intro st' h
      have := ih st' (n + 1) m h
      simp only [List.length_cons]
      omega
    have stop : some n = some m → n ≤ m ∧ m ≤ n + (c :: t).length := by
      intro h; cases h; simp
    rw [jnumLoop] at h
    dsimp only at h
    repeat' split at h
    all_goals first | exact stop h | exact step _ h | cases h

theorem isJnumber_bounds (s : List Byte) (m : Nat) (h : isJnumber s = some m) : 1 ≤ m ∧ m ≤ s.length := by
  unfold isJnumber at h
  split at h
  · cases h
  · split at h
    · cases h
    · have := jnumLoop_bounds _ _ _ _ h
      simp only [List.length_cons]
      omega

theorem arrayLoop_sane (value : JSt → JRes) (B : Nat) (hv : ∀ st, st.rest.length < B → Sane st.rest (value st)) :
    ∀ (k : Nat) (st : JSt), st.rest.length < B → st.rest.length < k → Sane st.rest (jsonArrayLoop value k st) := by
  intro k
  induction k with
  | zero => intro st _ h; omega
  | succ k ih =>
    intro st hB hk
    rw [jsonArrayLoop]
    by_cases he : st.rest.isEmpty = true
    · rw [if_pos he]; trivial
    rw [if_neg he]
    dsimp only
    have hw := skipWs_suffix st
    have hl := suffix_len hw
    by_cases hp : (peek st.skipWs.rest == b#']') = true
    · rw [if_pos hp]
      have := drop_one_sane hp (by decide)
      exact ⟨this.1.trans hw, by have := this.2; simp only [JSt.emit, JSt.drop]; omega⟩
    rw [if_neg hp]
    have h1 := hv st.skipWs (by omega)
    cases hr : value st.skipWs with
    | ok st' =>
      rw [hr] at h1
      obtain ⟨h1, h2⟩ := h1
      rw [JRes.bind_ok]
      have hs := h1.trans hw
      by_cases hc : (peek st'.rest == b#',') = true
      · rw [if_pos hc]
        have := drop_one_sane hc (by decide)
        exact (ih (st'.drop 1) (by simp only [JSt.drop]; omega) (by simp only [JSt.drop]; omega)).mono (this.1.trans hs)
      rw [if_neg hc]
      by_cases hc : (peek st'.rest == b#']') = true
      · rw [if_pos hc]
        have := drop_one_sane hc (by decide)
        exact ⟨this.1.trans hs, by have := this.2; simp only [JSt.emit, JSt.drop]; omega⟩
      rw [if_neg hc]; trivial
    | err => trivial
    | abort => trivial
    | hang => rw [hr] at h1; exact EndsOpen.of_suffix hw h1
    | outOfFuel => rw [hr] at h1; exact h1.elim

/-- As `Sane`, for the loop over the members of an object, which hangs when it is entered at the end of the text. -/
def Sane' (l : List Byte) (r : JRes) : Prop := (r = .hang ∧ l = []) ∨ Sane l r

theorem objectLoop_sane (value : Option (List Byte) → JSt → JRes) (B : Nat)
    (hv : ∀ key st, st.rest.length < B → Sane st.rest (value key st)) :
    ∀ (k : Nat) (st : JSt), st.rest.length < B → st.rest.length < k → Sane' st.rest (jsonObjectLoop value k st) := by
  intro k
  induction k with
  | zero => intro st _ h; omega
  | succ k ih =>
    intro st hB hk
    rw [jsonObjectLoop]
    by_cases he : st.rest.isEmpty = true
    · rw [if_pos he]; exact .inl ⟨rfl, by simpa using he⟩
    rw [if_neg he]
    right
    dsimp only
    have hw := skipWs_suffix st
    have hl := suffix_len hw
    by_cases hp : (peek st.skipWs.rest == b#'}') = true
    · rw [if_pos hp]
      have := drop_one_sane hp (by decide)
      exact ⟨this.1.trans hw, by have := this.2; simp only [JSt.emit, JSt.drop]; omega⟩
    rw [if_neg hp]
    by_cases hp : (peek st.skipWs.rest != b#'"') = true
    · rw [if_pos hp]; trivial
    rw [if_neg hp]
    have hp' : (peek st.skipWs.rest == b#'"') = true := by simpa using hp
    have hq := drop_one_sane hp' (by decide)
    cases hk' : eatJsonQuote (st.skipWs.rest.drop 1) with
    | none => trivial
    | some p =>
      obtain ⟨key, rest⟩ := p
      dsimp only
      have hs1 := (eatJsonQuote_suffix _ _ _ hk').trans (hq.1.trans hw)
      have hs2 := (skipWs_suffix { st.skipWs with rest := rest }).trans hs1
      generalize hst2 : ({ st.skipWs with rest := rest } : JSt).skipWs = st2 at hs2 ⊢
      by_cases hp : (peek st2.rest != b#':') = true
      · rw [if_pos hp]; trivial
      rw [if_neg hp]
      have hp' : (peek st2.rest == b#':') = true := by simpa using hp
      have hc := drop_one_sane hp' (by decide)
      have hs3 : (st2.drop 1).rest <:+ st.rest := hc.1.trans hs2
      have l3 := suffix_len hs3
      have h1 := hv (some key) (st2.drop 1) (by omega)
      cases hr : value (some key) (st2.drop 1) with
      | ok st' =>
        rw [hr] at h1
        obtain ⟨h1, h2⟩ := h1
        rw [JRes.bind_ok]
        have hs := h1.trans hs3
        by_cases hc : (peek st'.rest == b#',') = true
        · rw [if_pos hc]
          have hd := drop_one_sane hc (by decide)
          rcases ih (st'.drop 1) (by simp only [JSt.drop]; omega) (by simp only [JSt.drop]; omega) with ⟨e, e'⟩ | h
          · rw [e]
            refine EndsOpen.of_suffix hs (.inr ?_)
            rw [drop_peek hc (by decide), show List.drop 1 st'.rest = [] from e']
            rfl
          · exact h.mono (hd.1.trans hs)
        rw [if_neg hc]
        by_cases hc : (peek st'.rest == b#'}') = true
        · rw [if_pos hc]
          have := drop_one_sane hc (by decide)
          exact ⟨this.1.trans hs, by have := this.2; simp only [JSt.emit, JSt.drop]; omega⟩
        rw [if_neg hc]; trivial
      | err => trivial
      | abort => trivial
      | hang => rw [hr] at h1; exact EndsOpen.of_suffix hs3 h1
      | outOfFuel => rw [hr] at h1; exact h1.elim

theorem parseJsonQuote_rest (dtdOk : List Byte → Bool) (key : Option (List Byte)) (content : List Byte) (st : JSt) :
    parseJsonQuote dtdOk key content st = .err ∨ ∃ st', parseJsonQuote dtdOk key content st = .ok st' ∧ st'.rest = st.rest := by
  unfold parseJsonQuote
  dsimp only
  repeat' split
  all_goals first | exact .inl rfl | exact .inr ⟨_, rfl, rfl⟩

/-- With more fuel than bytes the parser never runs out of it. -/
theorem parseJson_sane (dtdOk : List Byte → Bool) : ∀ (fuel : Nat) (key : Option (List Byte)) (st : JSt), st.rest.length < fuel →
    Sane st.rest (parseJson dtdOk fuel key st) := by
  intro fuel
  induction fuel with
  | zero => intro key st h; omega
  | succ fuel ih =>
    intro key st hf
    rw [parseJson]
    have hw := skipWs_suffix st
    have hl := suffix_len hw
    generalize st.skipWs = s1 at hw hl ⊢
    -- it is enough to look at the value itself
    suffices h : Sane s1.rest (parseJsonValue dtdOk (jsonObjectLoop (parseJson dtdOk fuel) fuel)
        (jsonArrayLoop (parseJson dtdOk fuel none) fuel) key s1) by
      cases hr : parseJsonValue dtdOk (jsonObjectLoop (parseJson dtdOk fuel) fuel)
        (jsonArrayLoop (parseJson dtdOk fuel none) fuel) key s1 with
      | ok st' =>
        rw [hr] at h
        have := skipWs_suffix st'
        exact ⟨(this.trans h.1).trans hw, Nat.lt_of_le_of_lt (suffix_len this) (Nat.lt_of_lt_of_le h.2 hl)⟩
      | err => trivial
      | abort => trivial
      | hang => rw [hr] at h; exact EndsOpen.of_suffix hw h
      | outOfFuel => rw [hr] at h; exact h.elim
    have adv : ∀ n out, 1 ≤ n → n ≤ s1.rest.length → Sane s1.rest (.ok ((s1.drop n).emit out)) := by
      intro n out h1 h2
      refine ⟨List.drop_suffix _ _, ?_⟩
      simp only [JSt.emit, JSt.drop, List.length_drop]
      omega
    have lit : ∀ (n : Nat) (w : List Byte) out, w.length = n → 1 ≤ n → (s1.rest.take n == w) = true →
        Sane s1.rest (.ok ((s1.drop n).emit out)) := by
      intro n w out hn h1 h
      refine adv n out h1 ?_
      have h : s1.rest.take n = w := by simpa using h
      have := congrArg List.length h
      rw [List.length_take] at this
      omega
    unfold parseJsonValue
    by_cases hp : (peek s1.rest == b#'"') = true
    · rw [if_pos hp]
      have hq := drop_one_sane hp (by decide)
      cases hk : eatJsonQuote (s1.rest.drop 1) with
      | none => trivial
      | some p =>
        obtain ⟨content, rest⟩ := p
        have hs := eatJsonQuote_suffix _ _ _ hk
        dsimp only
        rcases parseJsonQuote_rest dtdOk key content { s1 with rest := rest } with e | ⟨st', e, e'⟩
        · rw [e]; trivial
        · rw [e]
          refine ⟨by rw [e']; exact hs.trans hq.1, ?_⟩
          rw [e']
          exact Nat.lt_of_le_of_lt (suffix_len hs) hq.2
    rw [if_neg hp]
    by_cases hp : (s1.rest.take 4 == b#"true") = true
    · rw [if_pos hp]; exact lit 4 _ _ rfl (by decide) hp
    rw [if_neg hp]
    by_cases hp : (s1.rest.take 5 == b#"false") = true
    · rw [if_pos hp]; exact lit 5 _ _ rfl (by decide) hp
    rw [if_neg hp]
    by_cases hp : (s1.rest.take 4 == b#"null") = true
    · rw [if_pos hp]; exact lit 4 _ _ rfl (by decide) hp
    rw [if_neg hp]
    cases hn : isJnumber s1.rest with
    | some n =>
      have := isJnumber_bounds _ _ hn
      exact adv n _ this.1 this.2
    | none =>
      dsimp only
      by_cases hp : (peek s1.rest == b#'{') = true
      · rw [if_pos hp]
        have hq := drop_one_sane hp (by decide)
        have h1 : ((s1.drop 1).emit (objectToks key)).rest.length < fuel := by
          have := hq.2; simp only [JSt.emit, JSt.drop]; omega
        rcases objectLoop_sane (parseJson dtdOk fuel) fuel (fun key st h => ih key st h) fuel _ h1 h1 with ⟨e, e'⟩ | h
        · rw [e]
          refine .inl ?_
          rw [drop_peek hp (by decide), show List.drop 1 s1.rest = [] from e']
          rfl
        · exact h.mono hq.1
      rw [if_neg hp]
      by_cases hp : (peek s1.rest == b#'[') = true
      · rw [if_pos hp]
        have hq := drop_one_sane hp (by decide)
        have h1 : ((s1.drop 1).emit (arrayToks key)).rest.length < fuel := by
          have := hq.2; simp only [JSt.emit, JSt.drop]; omega
        exact (arrayLoop_sane (parseJson dtdOk fuel none) fuel (fun st h => ih none st h) fuel _ h1 h1).mono hq.1
      rw [if_neg hp]; trivial

end Xmq
