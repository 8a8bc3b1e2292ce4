import Verif.Model.Json
import Verif.Spec.Json
/-!
# Lemmas about the recognition of JSON numbers
-/
namespace Xmq
open Spec

/-- What ends a number for `is_jnumber`. -/
def NumEnd (rest : List Byte) : Prop := rest = [] ∨ hasNumberEnded (peek rest) = true

theorem isDigit_iff (c : Byte) : isDigit c = true ↔ JDigit c := by
  unfold isDigit JDigit
  simp

theorem digit_facts (c : Byte) : isDigit c = true →
    hasNumberEnded c = false ∧ (c == b#'.') = false ∧ (c == b#'e') = false ∧ (c == b#'E') = false ∧
      (c == b#'+') = false ∧ (c == b#'-') = false :=
  forall_byte (P := fun c => isDigit c = true →
    hasNumberEnded c = false ∧ (c == b#'.') = false ∧ (c == b#'e') = false ∧ (c == b#'E') = false ∧
      (c == b#'+') = false ∧ (c == b#'-') = false) (by decide +kernel) c

theorem ended_facts (c : Byte) : hasNumberEnded c = true →
    (c == b#'.') = false ∧ (c == b#'e') = false ∧ (c == b#'E') = false :=
  forall_byte (P := fun c => hasNumberEnded c = true →
    (c == b#'.') = false ∧ (c == b#'e') = false ∧ (c == b#'E') = false) (by decide +kernel) c

theorem jnum_digit (st : JNum) (n : Nat) (c : Byte) (x : List Byte) (h0 : st.leadingZero = false) (hc : isDigit c = true) :
    jnumLoop st n (c :: x) = jnumLoop { st with foundESign := false, lastIsDigit := true } (n + 1) x := by
  obtain ⟨e, s, z, l, d⟩ := st
  cases h0
  obtain ⟨f1, f2, f3, f4, f5, f6⟩ := digit_facts c hc
  rw [jnumLoop]
  simp only [f1, f2, f3, f4, f5, f6, hc, Bool.false_eq_true, if_false, Bool.or_self, Bool.not_true]
  cases e <;> cases s <;> simp

theorem jnum_digits (ds : List Byte) (hd : JDigits ds) (st : JNum) (n : Nat) (x : List Byte) (h0 : st.leadingZero = false) :
    jnumLoop st n (ds ++ x) = jnumLoop { st with foundESign := false, lastIsDigit := true } (n + ds.length) x := by
  have key : ∀ (ds : List Byte) (st : JNum) (n : Nat), st.leadingZero = false → (∀ c ∈ ds, JDigit c) →
      st.foundESign = false → st.lastIsDigit = true → jnumLoop st n (ds ++ x) = jnumLoop st (n + ds.length) x := by
    intro ds
    induction ds with
    | nil => intros; rfl
    | cons c t ih =>
      intro st n h0 hd hs hl
      rw [List.cons_append, jnum_digit st n c _ h0 ((isDigit_iff c).2 (hd c List.mem_cons_self))]
      have : ({ st with foundESign := false, lastIsDigit := true } : JNum) = st := by
        obtain ⟨e, s, z, l, d⟩ := st; cases hs; cases hl; rfl
      rw [this, ih st (n + 1) h0 (fun x hx => hd x (List.mem_cons_of_mem _ hx)) hs hl]
      congr 1
      simp; omega
  match ds, hd with
  | c :: t, hd =>
    rw [List.cons_append, jnum_digit st n c _ h0 ((isDigit_iff c).2 (hd.2 c List.mem_cons_self)),
      key t { st with foundESign := false, lastIsDigit := true } _ h0 (fun x hx => hd.2 x (List.mem_cons_of_mem _ hx)) rfl rfl]
    congr 1
    simp; omega
  | [], hd => exact absurd rfl hd.1

theorem jnum_end (st : JNum) (n : Nat) (rest : List Byte) (h : NumEnd rest) (hl : st.lastIsDigit = true) :
    jnumLoop st n rest = some n := by
  cases rest with
  | nil => rw [jnumLoop, if_pos hl]
  | cons c t =>
    rcases h with h | h
    · cases h
    rw [peek_cons] at h
    obtain ⟨f1, f2, f3⟩ := ended_facts c h
    obtain ⟨e, s, z, l, d⟩ := st
    rw [jnumLoop]
    simp only [f1, f2, f3, h, Bool.false_eq_true, if_false, Bool.or_self, if_true]
    cases z <;> cases e <;> cases s <;> simp

theorem jnum_dot (st : JNum) (n : Nat) (x : List Byte) (h : st.foundDot = false) :
    jnumLoop st n (b#'.' :: x) = jnumLoop { st with leadingZero := false, lastIsDigit := false, foundDot := true } (n + 1) x := by
  obtain ⟨e, s, z, l, d⟩ := st
  cases h
  rw [jnumLoop]
  cases z
  · simp
  · simp [show hasNumberEnded b#'.' = false from rfl]

theorem jnum_e (st : JNum) (n : Nat) (c : Byte) (hc : c = b#'e' ∨ c = b#'E') (x : List Byte) (h : st.foundE = false)
    (h0 : st.leadingZero = false) :
    jnumLoop st n (c :: x) = jnumLoop { st with lastIsDigit := false, foundE := true } (n + 1) x := by
  obtain ⟨e, s, z, l, d⟩ := st
  cases h
  cases h0
  rw [jnumLoop]
  rcases hc with rfl | rfl <;> simp

theorem jnum_sign (st : JNum) (n : Nat) (c : Byte) (hc : c = b#'+' ∨ c = b#'-') (x : List Byte) (h : st.foundE = true)
    (hs : st.foundESign = false) (h0 : st.leadingZero = false) :
    jnumLoop st n (c :: x) = jnumLoop { st with lastIsDigit := false, foundESign := true } (n + 1) x := by
  obtain ⟨e, s, z, l, d⟩ := st
  cases h
  cases hs
  cases h0
  rw [jnumLoop]
  rcases hc with rfl | rfl <;> simp [hasNumberEnded]

theorem jnum_frac (st : JNum) (n : Nat) (frac x : List Byte) (hf : frac = [] ∨ ∃ ds, frac = b#'.' :: ds ∧ JDigits ds)
    (hd : st.foundDot = false) (hl : st.lastIsDigit = true) (hs : st.foundESign = false) :
    ∃ st', jnumLoop st n (frac ++ x) = jnumLoop st' (n + frac.length) x ∧ st'.foundE = st.foundE ∧ st'.foundESign = false ∧
      st'.lastIsDigit = true ∧ (st'.leadingZero = true → frac = [] ∧ st.leadingZero = true) := by
  rcases hf with rfl | ⟨ds, rfl, hds⟩
  · exact ⟨st, rfl, rfl, hs, hl, fun h => ⟨rfl, h⟩⟩
  · rw [List.cons_append, jnum_dot st n _ hd, jnum_digits ds hds _ _ _ rfl]
    refine ⟨⟨st.foundE, false, false, true, true⟩, ?_, rfl, rfl, rfl, by simp⟩
    rw [List.length_cons, Nat.add_assoc, Nat.add_comm 1]

theorem jnum_exp (st : JNum) (n : Nat) (exp x : List Byte)
    (he : exp = [] ∨ ∃ e sign ds, exp = e :: (sign ++ ds) ∧ (e = b#'e' ∨ e = b#'E') ∧ (sign = [] ∨ sign = [b#'+'] ∨ sign = [b#'-']) ∧ JDigits ds)
    (h1 : st.foundE = false) (hl : st.lastIsDigit = true) (hs : st.foundESign = false) (hz : exp ≠ [] → st.leadingZero = false) :
    ∃ st', jnumLoop st n (exp ++ x) = jnumLoop st' (n + exp.length) x ∧ st'.lastIsDigit = true := by
  rcases he with rfl | ⟨e, sign, ds, rfl, he, hsign, hds⟩
  · exact ⟨st, rfl, hl⟩
  · replace hz := hz (by simp)
    rw [List.cons_append, jnum_e st n e he _ h1 hz]
    rcases hsign with rfl | hsg
    · rw [List.nil_append, jnum_digits ds hds { st with lastIsDigit := false, foundE := true } _ _ hz]
      refine ⟨⟨true, false, st.leadingZero, true, st.foundDot⟩, ?_, rfl⟩
      rw [List.length_cons, Nat.add_assoc, Nat.add_comm 1]
    · have : ∃ c, sign = [c] ∧ (c = b#'+' ∨ c = b#'-') := by
        rcases hsg with rfl | rfl
        · exact ⟨_, rfl, .inl rfl⟩
        · exact ⟨_, rfl, .inr rfl⟩
      obtain ⟨c, rfl, hc⟩ := this
      rw [List.singleton_append, List.cons_append, jnum_sign { st with lastIsDigit := false, foundE := true } _ c hc _ rfl hs hz,
        jnum_digits ds hds { st with lastIsDigit := false, foundE := true, foundESign := true } _ _ hz]
      refine ⟨⟨true, false, st.leadingZero, true, st.foundDot⟩, ?_, rfl⟩
      rw [List.length_cons, List.length_cons]; congr 1; omega

/-- A JSON number is recognised when something that ends it follows, unless it starts with `0e` or `0E`. -/
theorem isJnumber_of (s rest : List Byte) (h : JsonNumber s) (h0 : s.take 2 ≠ b#"0e" ∧ s.take 2 ≠ b#"0E") (hr : NumEnd rest) :
    isJnumber (s ++ rest) = some s.length := by
  obtain ⟨minus, int, frac, exp, rfl, hm, hi, hf, he⟩ := h
  have hdig : JDigits int := by
    rcases hi with rfl | ⟨hi, _⟩
    · exact ⟨by simp, by simp [JDigit]⟩
    · exact hi
  -- what is left behind the integer part
  have tail : ∀ (st : JNum) (n : Nat), st.foundDot = false → st.foundE = false → st.lastIsDigit = true → st.foundESign = false →
      (exp ≠ [] → frac = [] → st.leadingZero = false) →
      jnumLoop st n (frac ++ (exp ++ rest)) = some (n + frac.length + exp.length) := by
    intro st n a1 a2 a3 a4 a5
    obtain ⟨st1, b1, b2, b3, b4, b5⟩ := jnum_frac st n frac (exp ++ rest) hf a1 a3 a4
    obtain ⟨st2, c1, c2⟩ := jnum_exp st1 (n + frac.length) exp rest he (b2.trans a2) b4 b3 (by
      intro hne
      cases hz : st1.leadingZero with
      | false => rfl
      | true =>
        obtain ⟨b6, b7⟩ := b5 hz
        rw [a5 hne b6] at b7; cases b7)
    rw [b1, c1, jnum_end st2 _ rest hr c2]
  rcases hm with rfl | rfl
  · match int, hdig, hi with
    | c :: t, hdig, hi =>
      have hc := (isDigit_iff c).2 (hdig.2 c List.mem_cons_self)
      obtain ⟨_, _, _, _, _, f6⟩ := digit_facts c hc
      simp only [List.nil_append, List.cons_append, List.append_assoc]
      unfold isJnumber
      dsimp only
      rw [hc, Bool.not_true, Bool.false_and, if_neg (by simp)]
      simp only [bne, f6, Bool.not_false]
      cases hz : (c == b#'0') with
      | true =>
        have hc0 : c = b#'0' := by simpa using hz
        have ht : t = [] := by
          rcases hi with e | ⟨_, hi⟩
          · injection e
          · rw [hc0] at hi; exact absurd rfl hi
        subst ht hc0
        rw [List.nil_append, tail _ _ rfl rfl rfl rfl (by
          intro hne hfr
          subst hfr
          rcases he with rfl | ⟨e, sign, ds, rfl, he, _⟩
          · exact absurd rfl hne
          · exfalso
            rcases he with rfl | rfl
            · exact h0.1 rfl
            · exact h0.2 rfl)]
        simp; omega
      | false =>
        by_cases ht : t = []
        · subst ht
          rw [List.nil_append, tail _ _ rfl rfl rfl rfl (fun _ _ => rfl)]
          simp; omega
        · rw [jnum_digits t ⟨ht, fun x hx => hdig.2 x (List.mem_cons_of_mem _ hx)⟩ _ _ _ rfl,
            tail _ _ rfl rfl rfl rfl (fun _ _ => rfl)]
          simp; omega
    | [], hdig, _ => exact absurd rfl hdig.1
  · simp only [List.cons_append, List.nil_append, List.append_assoc]
    unfold isJnumber
    dsimp only
    rw [if_neg (by decide), show ((b#'-' : Byte) == b#'0') = false from rfl, show ((b#'-' : Byte) != b#'-') = false from rfl,
      jnum_digits int hdig _ _ _ rfl, tail _ _ rfl rfl rfl rfl (fun _ _ => rfl)]
    simp; omega

/-- A text of digits and dots that is accepted to its end: digits, and possibly a dot and digits. -/
theorem jnum_plain (s : List Byte) : ∀ (st : JNum) (n : Nat), st.foundE = false → (∀ c ∈ s, JDigit c ∨ c = b#'.') →
    jnumLoop st n s = some (n + s.length) →
    if st.leadingZero then (s = [] ∨ ∃ ds, s = b#'.' :: ds ∧ (ds = [] → False) ∧ ∀ c ∈ ds, JDigit c)
    else if st.foundDot then (∀ c ∈ s, JDigit c) ∧ (s = [] → st.lastIsDigit = true)
    else ∃ ds fr, s = ds ++ fr ∧ (∀ c ∈ ds, JDigit c) ∧ (fr = [] → s = [] → st.lastIsDigit = true) ∧
      (fr = [] ∨ ∃ f, fr = b#'.' :: f ∧ JDigits f) := by
  induction s with
  | nil =>
    intro st n h1 h2 h3
    rw [jnumLoop] at h3
    have hl : st.lastIsDigit = true := by
      cases h : st.lastIsDigit with
      | true => rfl
      | false => rw [h] at h3; cases h3
    split
    · exact .inl rfl
    · split
      · exact ⟨by simp, fun _ => hl⟩
      · exact ⟨[], [], rfl, by simp, fun _ _ => hl, .inl rfl⟩
  | cons c t ih =>
    intro st n h1 h2 h3
    have ht : ∀ c ∈ t, JDigit c ∨ c = b#'.' := fun x hx => h2 x (List.mem_cons_of_mem _ hx)
    rcases h2 c List.mem_cons_self with hc | rfl
    · have hc' := (isDigit_iff c).2 hc
      obtain ⟨f1, f2, f3, f4, f5, f6⟩ := digit_facts c hc'
      cases hz : st.leadingZero with
      | true =>
        exfalso
        rw [jnumLoop] at h3
        simp [hz, f1, bne, f2] at h3
      | false =>
        rw [jnum_digit st n c t hz hc'] at h3
        have := ih _ (n + 1) (by exact h1) ht (h3.trans (by rw [List.length_cons]; congr 1; omega))
        simp only [hz, Bool.false_eq_true, if_false] at this ⊢
        cases hd : st.foundDot with
        | true =>
          rw [hd, if_pos rfl] at this
          rw [if_pos rfl]
          refine ⟨?_, by simp⟩
          intro x hx
          rcases List.mem_cons.1 hx with rfl | hx
          · exact hc
          · exact this.1 x hx
        | false =>
          rw [hd, if_neg (by simp)] at this
          rw [if_neg (by simp)]
          obtain ⟨ds, fr, e, g1, g2, g3⟩ := this
          refine ⟨c :: ds, fr, by rw [e]; rfl, ?_, by simp, g3⟩
          intro x hx
          rcases List.mem_cons.1 hx with rfl | hx
          · exact hc
          · exact g1 x hx
    · cases hd : st.foundDot with
      | true =>
        cases hz : st.leadingZero with
        | true =>
          -- not a reachable state, but the loop goes on all the same
          rw [if_pos rfl]
          right
          have e : jnumLoop st n (b#'.' :: t) = jnumLoop { st with leadingZero := false, lastIsDigit := false, foundDot := true } (n + 1) t := by
            rw [jnumLoop]; simp [hz, hasNumberEnded]
          rw [e] at h3
          have := ih _ (n + 1) (by exact h1) ht (h3.trans (by rw [List.length_cons]; congr 1; omega))
          simp only [Bool.false_eq_true, if_false, if_true] at this
          exact ⟨t, rfl, fun e => by simpa using this.2 e, this.1⟩
        | false =>
          exfalso
          rw [jnumLoop] at h3
          simp [hz, hd] at h3
      | false =>
        rw [jnum_dot st n t hd] at h3
        have := ih _ (n + 1) (by exact h1) ht (h3.trans (by rw [List.length_cons]; congr 1; omega))
        simp only [Bool.false_eq_true, if_false, if_true] at this
        have hne : t = [] → False := fun e => by simpa using this.2 e
        cases hz : st.leadingZero with
        | true =>
          rw [if_pos rfl]
          exact .inr ⟨t, rfl, hne, this.1⟩
        | false =>
          rw [if_neg (by simp), if_neg (by simp)]
          exact ⟨[], b#'.' :: t, rfl, by simp, by simp, .inr ⟨t, rfl, hne, this.1⟩⟩

end Xmq
