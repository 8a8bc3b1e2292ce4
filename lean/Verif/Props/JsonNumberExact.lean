import Verif.Props.JsonNumbers
/-!
# Exact condition for C27: the texts taken for JSON numbers
-/
namespace Xmq.Spec

/-- `+` or `-`. -/
def JSign (c : Byte) : Prop := c = b#'+' ∨ c = b#'-'

/-- `e` or `E`. -/
def JE (c : Byte) : Prop := c = b#'e' ∨ c = b#'E'

/-- The texts that `is_jnumber` takes for numbers: a digit or a minus, then digits, at most one dot, at most one `e`, and behind
    the `e` signs with digits between them; the last byte is a digit, and behind a leading zero is a dot or nothing. -/
structure TakenForNumber (s : List Byte) : Prop where
  first : ∃ c t, s = c :: t ∧ (JDigit c ∨ c = b#'-') ∧ (c = b#'0' → t ≠ [] → t.head? = some b#'.')
  bytes : ∀ c ∈ s.tail, JDigit c ∨ c = b#'.' ∨ JE c ∨ JSign c
  last : ∃ a c, s = a ++ [c] ∧ JDigit c
  dot : ∀ a m b, s.tail ≠ a ++ b#'.' :: (m ++ b#'.' :: b)
  exponent : ∀ a x m y b, s.tail = a ++ x :: (m ++ y :: b) → ¬ (JE x ∧ JE y)
  sign : ∀ a x b, s.tail = a ++ x :: b → JSign x → ∃ c ∈ a, JE c
  signs : ∀ a x m y b, s.tail = a ++ x :: (m ++ y :: b) → JSign x → JSign y → ∃ c ∈ m, JDigit c

end Xmq.Spec

namespace Xmq
open Spec

theorem splits_cons {α : Type} (P : List α → α → Prop) (c : α) (s : List α) :
    (∀ a x b, c :: s = a ++ x :: b → P a x) ↔ P [] c ∧ ∀ a x b, s = a ++ x :: b → P (c :: a) x := by
  constructor
  · intro h
    exact ⟨h [] c s rfl, fun a x b e => h (c :: a) x b (by rw [e]; rfl)⟩
  · rintro ⟨h1, h2⟩ a x b e
    cases a with
    | nil => cases e; exact h1
    | cons y a => cases e; exact h2 a x b rfl

theorem splits2_cons {α : Type} (P : α → List α → α → Prop) (c : α) (s : List α) :
    (∀ a x m y b, c :: s = a ++ x :: (m ++ y :: b) → P x m y) ↔
      (∀ m y b, s = m ++ y :: b → P c m y) ∧ ∀ a x m y b, s = a ++ x :: (m ++ y :: b) → P x m y := by
  constructor
  · intro h
    exact ⟨fun m y b e => h [] c m y b (by rw [e]; rfl), fun a x m y b e => h (c :: a) x m y b (by rw [e]; rfl)⟩
  · rintro ⟨h1, h2⟩ a x m y b e
    cases a with
    | nil => cases e; exact h1 m y b rfl
    | cons z a => cases e; exact h2 a x m y b rfl

/-- What the loop takes to the end from a given state. -/
structure JTakes (st : JNum) (s : List Byte) : Prop where
  bytes : ∀ c ∈ s, JDigit c ∨ c = b#'.' ∨ JE c ∨ JSign c
  last : (s = [] ∧ st.lastIsDigit = true) ∨ ∃ a c, s = a ++ [c] ∧ JDigit c
  dot : st.foundDot = true → ∀ c ∈ s, c ≠ b#'.'
  dots : ∀ a x m y b, s = a ++ x :: (m ++ y :: b) → ¬ (x = b#'.' ∧ y = b#'.')
  exp : st.foundE = true → ∀ c ∈ s, ¬ JE c
  exps : ∀ a x m y b, s = a ++ x :: (m ++ y :: b) → ¬ (JE x ∧ JE y)
  sign : ∀ a x b, s = a ++ x :: b → JSign x → (st.foundE = true ∨ ∃ c ∈ a, JE c)
  between : st.foundESign = true → ∀ a x b, s = a ++ x :: b → JSign x → ∃ c ∈ a, JDigit c
  signs : ∀ a x m y b, s = a ++ x :: (m ++ y :: b) → JSign x → JSign y → ∃ c ∈ m, JDigit c

theorem not_split {α : Type} (s : List α) (p : α → Prop) : (∀ a x b, s = a ++ x :: b → ¬ p x) ↔ ∀ c ∈ s, ¬ p c := by
  constructor
  · intro h c hc
    obtain ⟨a, b, e⟩ := List.append_of_mem hc
    exact h a c b e
  · intro h a x b e
    exact h x (by rw [e]; simp)

theorem last_cons (c : Byte) (t : List Byte) (p : Byte → Prop) :
    (∃ a x, c :: t = a ++ [x] ∧ p x) ↔ (t = [] ∧ p c) ∨ ∃ a x, t = a ++ [x] ∧ p x := by
  constructor
  · rintro ⟨a, x, e, h⟩
    cases a with
    | nil => cases e; exact .inl ⟨rfl, h⟩
    | cons y a => cases e; exact .inr ⟨a, x, rfl, h⟩
  · rintro (⟨rfl, h⟩ | ⟨a, x, rfl, h⟩)
    · exact ⟨[], c, rfl, h⟩
    · exact ⟨c :: a, x, rfl, h⟩

/-- The kinds of bytes. -/
theorem jbyte_cases (c : Byte) :
    (JDigit c ∧ isDigit c = true ∧ c ≠ b#'.' ∧ ¬ JE c ∧ ¬ JSign c ∧ hasNumberEnded c = false) ∨
    (c = b#'.' ∧ ¬ JDigit c ∧ ¬ JE c ∧ ¬ JSign c) ∨
    (JE c ∧ c ≠ b#'.' ∧ ¬ JDigit c ∧ ¬ JSign c) ∨
    (JSign c ∧ ¬ JDigit c ∧ ¬ JE c ∧ c ≠ b#'.' ∧ isDigit c = false ∧ hasNumberEnded c = false) ∨
    (¬ JDigit c ∧ isDigit c = false ∧ c ≠ b#'.' ∧ ¬ JE c ∧ ¬ JSign c) := by
  unfold JDigit JE JSign
  exact forall_byte (P := fun c =>
    ((b#'0' ≤ c ∧ c ≤ b#'9') ∧ isDigit c = true ∧ c ≠ b#'.' ∧ ¬ (c = b#'e' ∨ c = b#'E') ∧ ¬ (c = b#'+' ∨ c = b#'-') ∧ hasNumberEnded c = false) ∨
    (c = b#'.' ∧ ¬ (b#'0' ≤ c ∧ c ≤ b#'9') ∧ ¬ (c = b#'e' ∨ c = b#'E') ∧ ¬ (c = b#'+' ∨ c = b#'-')) ∨
    ((c = b#'e' ∨ c = b#'E') ∧ c ≠ b#'.' ∧ ¬ (b#'0' ≤ c ∧ c ≤ b#'9') ∧ ¬ (c = b#'+' ∨ c = b#'-')) ∨
    ((c = b#'+' ∨ c = b#'-') ∧ ¬ (b#'0' ≤ c ∧ c ≤ b#'9') ∧ ¬ (c = b#'e' ∨ c = b#'E') ∧ c ≠ b#'.' ∧ isDigit c = false ∧ hasNumberEnded c = false) ∨
    (¬ (b#'0' ≤ c ∧ c ≤ b#'9') ∧ isDigit c = false ∧ c ≠ b#'.' ∧ ¬ (c = b#'e' ∨ c = b#'E') ∧ ¬ (c = b#'+' ∨ c = b#'-')))
    (by decide +kernel) c

theorem jtakes_cons (st : JNum) (c : Byte) (t : List Byte) : JTakes st (c :: t) ↔
    (JDigit c ∨ c = b#'.' ∨ JE c ∨ JSign c) ∧ (st.foundDot = true → c ≠ b#'.') ∧ (st.foundE = true → ¬ JE c) ∧
    (JSign c → st.foundE = true ∧ st.foundESign = false) ∧
    JTakes ⟨st.foundE || (c == b#'e' || c == b#'E'), (st.foundESign && !isDigit c) || (c == b#'+' || c == b#'-'), false, isDigit c, st.foundDot || c == b#'.'⟩ t := by
  have hd := isDigit_iff c
  have he : (c == b#'e' || c == b#'E') = true ↔ JE c := by simp [JE]
  have hs : (c == b#'+' || c == b#'-') = true ↔ JSign c := by simp [JSign]
  constructor
  · rintro ⟨h1, h2, h3, h4, h5, h6, h7, h8, h9⟩
    rw [splits2_cons (fun x _ y => ¬ (x = b#'.' ∧ y = b#'.'))] at h4
    rw [splits2_cons (fun x _ y => ¬ (JE x ∧ JE y))] at h6
    rw [splits2_cons (fun x m y => JSign x → JSign y → ∃ c ∈ m, JDigit c)] at h9
    rw [splits_cons (fun a x => JSign x → (st.foundE = true ∨ ∃ c ∈ a, JE c))] at h7
    refine ⟨h1 c List.mem_cons_self, fun h => h3 h c List.mem_cons_self, fun h => h5 h c List.mem_cons_self, fun h => ⟨?_, ?_⟩, ?_⟩
    · rcases h7.1 h with h | ⟨_, h, _⟩
      · exact h
      · cases h
    · cases hz : st.foundESign with
      | false => rfl
      | true => obtain ⟨_, h, _⟩ := h8 hz [] c t rfl h; cases h
    · refine ⟨fun x hx => h1 x (List.mem_cons_of_mem _ hx), ?_, ?_, h4.2, ?_, h6.2, ?_, ?_, h9.2⟩
      · rcases h2 with ⟨h, _⟩ | h
        · cases h
        · rcases (last_cons c t JDigit).1 h with ⟨e, h⟩ | h
          · exact .inl ⟨e, hd.2 h⟩
          · exact .inr h
      · intro h x hx
        simp only [Bool.or_eq_true, beq_iff_eq] at h
        rcases h with h | h
        · exact h3 h x (List.mem_cons_of_mem _ hx)
        · exact (not_split t (fun x => x = b#'.')).1 (fun a x b e e' => h4.1 a x b e ⟨h, e'⟩) x hx
      · intro h x hx
        rw [Bool.or_eq_true, he] at h
        rcases h with h | h
        · exact h5 h x (List.mem_cons_of_mem _ hx)
        · exact (not_split t JE).1 (fun a x b e e' => h6.1 a x b e ⟨h, e'⟩) x hx
      · intro a x b e hx
        simp only [Bool.or_eq_true (st.foundE), he]
        rcases h7.2 a x b e hx with h | ⟨z, hz, h⟩
        · exact .inl (.inl h)
        · rcases List.mem_cons.1 hz with rfl | hz
          · exact .inl (.inr h)
          · exact .inr ⟨z, hz, h⟩
      · intro h a x b e hx
        rw [Bool.or_eq_true, Bool.and_eq_true, hs] at h
        rcases h with ⟨h, hn⟩ | h
        · obtain ⟨z, hz, hzd⟩ := h8 h (c :: a) x b (by rw [e]; rfl) hx
          rcases List.mem_cons.1 hz with rfl | hz
          · rw [hd.2 hzd] at hn; cases hn
          · exact ⟨z, hz, hzd⟩
        · exact h9.1 a x b e h hx
  · rintro ⟨g1, g2, g3, g4, h1, h2, h3, h4, h5, h6, h7, h8, h9⟩
    simp only [Bool.or_eq_true, Bool.and_eq_true, beq_iff_eq] at h3 h5 h7 h8
    refine ⟨?_, ?_, ?_, ?_, ?_, ?_, ?_, ?_, ?_⟩
    · intro x hx
      rcases List.mem_cons.1 hx with rfl | hx
      · exact g1
      · exact h1 x hx
    · right
      rw [last_cons c t JDigit]
      rcases h2 with ⟨e, h⟩ | h
      · exact .inl ⟨e, hd.1 h⟩
      · exact .inr h
    · intro h x hx
      rcases List.mem_cons.1 hx with rfl | hx
      · exact g2 h
      · exact h3 (.inl h) x hx
    · rw [splits2_cons (fun x _ y => ¬ (x = b#'.' ∧ y = b#'.'))]
      refine ⟨?_, h4⟩
      rintro m y b e ⟨hc, hy⟩
      exact h3 (.inr hc) y (by rw [e]; simp) hy
    · intro h x hx
      rcases List.mem_cons.1 hx with rfl | hx
      · exact g3 h
      · exact h5 (.inl h) x hx
    · rw [splits2_cons (fun x _ y => ¬ (JE x ∧ JE y))]
      refine ⟨?_, h6⟩
      rintro m y b e ⟨hc, hy⟩
      exact h5 (.inr hc) y (by rw [e]; simp) hy
    · rw [splits_cons (fun a x => JSign x → (st.foundE = true ∨ ∃ c ∈ a, JE c))]
      refine ⟨fun h => .inl (g4 h).1, fun a x b e hx => ?_⟩
      rcases h7 a x b e hx with (h | h) | ⟨z, hz, h⟩
      · exact .inl h
      · exact .inr ⟨c, List.mem_cons_self, h⟩
      · exact .inr ⟨z, List.mem_cons_of_mem _ hz, h⟩
    · intro h
      rw [splits_cons (fun a x => JSign x → ∃ c ∈ a, JDigit c)]
      refine ⟨fun hx => ?_, fun a x b e hx => ?_⟩
      · have := (g4 hx).2; rw [h] at this; cases this
      · by_cases hc : isDigit c = true
        · exact ⟨c, List.mem_cons_self, hd.1 hc⟩
        · obtain ⟨z, hz, hzd⟩ := h8 (.inl ⟨h, by simpa using hc⟩) a x b e hx
          exact ⟨z, List.mem_cons_of_mem _ hz, hzd⟩
    · rw [splits2_cons (fun x m y => JSign x → JSign y → ∃ c ∈ m, JDigit c)]
      exact ⟨fun m y b e hc hy => h8 (.inr hc) m y b e hy, h9⟩

theorem jnumLoop_iff (s : List Byte) : ∀ (st : JNum) (n : Nat), st.leadingZero = false →
    (jnumLoop st n s = some (n + s.length) ↔ JTakes st s) := by
  induction s with
  | nil =>
    intro st n h0
    rw [jnumLoop]
    constructor
    · intro h
      have hl : st.lastIsDigit = true := by
        cases hz : st.lastIsDigit with
        | true => rfl
        | false => rw [hz] at h; cases h
      exact ⟨by simp, .inl ⟨rfl, hl⟩, by simp, by simp, by simp, by simp, by simp, by simp, by simp⟩
    · intro h
      rcases h.last with ⟨_, h⟩ | ⟨a, c, e, _⟩
      · rw [h]; rfl
      · simp at e
  | cons c t ih =>
    intro st n h0
    obtain ⟨fE, fS, lz, ld, fd⟩ := st
    cases h0
    rw [jtakes_cons]
    have hlen : n + (c :: t).length = n + 1 + t.length := by rw [List.length_cons]; omega
    have hne : ¬ (some n = some (n + 1 + t.length)) := by intro h; have := Option.some.inj h; omega
    rw [hlen, jnumLoop]
    simp only [Bool.false_eq_true, if_false]
    have sgn : (JSign c ↔ (c == b#'+' || c == b#'-') = true) := by simp [JSign]
    have exn : (JE c ↔ (c == b#'e' || c == b#'E') = true) := by simp [JE]
    rcases jbyte_cases c with ⟨k1, k2, k3, k4, k5, k6⟩ | ⟨rfl, k2, k3, k4⟩ | ⟨k1, k2, k3, k4⟩ | ⟨k1, k2, k3, k4, k5, k6⟩ | ⟨k1, k2, k3, k4, k5⟩
    · have e1 : (c == b#'.') = false := by simpa using k3
      have e2 : (c == b#'e' || c == b#'E') = false := by rw [exn] at k4; simpa using k4
      have e3 : (c == b#'+' || c == b#'-') = false := by rw [sgn] at k5; simpa using k5
      simp only [e1, e2, e3, k6, k2, Bool.false_eq_true, if_false, Bool.not_true, Bool.or_false, Bool.and_false]
      have r : (JDigit c ∨ c = b#'.' ∨ JE c ∨ JSign c) := .inl k1
      have r2 : (fd = true → c ≠ b#'.') := fun _ => k3
      have r3 : (fE = true → ¬ JE c) := fun _ => k4
      have r4 : (JSign c → fE = true ∧ fS = false) := fun h => absurd h k5
      by_cases hb : (fE && !fS) = true
      · rw [if_pos hb, ih _ _ rfl]
        have : fS = false := by
          cases fS with
          | false => rfl
          | true => simp at hb
        subst this
        exact ⟨fun h => ⟨r, r2, r3, r4, h⟩, fun h => h.2.2.2.2⟩
      · rw [if_neg hb, ih _ _ rfl]
        exact ⟨fun h => ⟨r, r2, r3, r4, h⟩, fun h => h.2.2.2.2⟩
    · rw [if_pos (by decide)]
      cases fd with
      | true =>
        rw [if_pos rfl]
        exact ⟨fun h => (by cases h), fun h => absurd rfl (h.2.1 rfl)⟩
      | false =>
        rw [if_neg (by simp), ih _ _ rfl]
        have e : (⟨fE || ((b#'.' : Byte) == b#'e' || (b#'.' : Byte) == b#'E'), (fS && !isDigit b#'.') || ((b#'.' : Byte) == b#'+' || (b#'.' : Byte) == b#'-'),
            false, isDigit b#'.', false || (b#'.' : Byte) == b#'.'⟩ : JNum) = ⟨fE, fS, false, false, true⟩ := by
          cases fE <;> cases fS <;> decide
        rw [e]
        exact ⟨fun h => ⟨.inr (.inl rfl), by simp, fun _ => k3, fun h => absurd h k4, h⟩, fun h => h.2.2.2.2⟩
    · have e1 : (c == b#'.') = false := by simpa using k2
      have e2 : (c == b#'e' || c == b#'E') = true := exn.1 k1
      have e3 : (c == b#'+' || c == b#'-') = false := by rw [sgn] at k4; simpa using k4
      have e4 : isDigit c = false := by
        cases h : isDigit c with
        | false => rfl
        | true => exact absurd ((isDigit_iff c).1 h) k3
      simp only [e1, e2, e3, e4, Bool.false_eq_true, if_false, if_true, Bool.or_true, Bool.or_false, Bool.not_false, Bool.and_true]
      cases fE with
      | true =>
        rw [if_pos rfl]
        exact ⟨fun h => (by cases h), fun h => absurd k1 (h.2.2.1 rfl)⟩
      | false =>
        rw [if_neg (by simp), ih _ _ rfl]
        exact ⟨fun h => ⟨.inr (.inr (.inl k1)), fun _ => k2, by simp, fun h => absurd h k4, h⟩, fun h => h.2.2.2.2⟩
    · have e1 : (c == b#'.') = false := by simpa using k4
      have e2 : (c == b#'e' || c == b#'E') = false := by rw [exn] at k3; simpa using k3
      have e3 : (c == b#'+' || c == b#'-') = true := sgn.1 k1
      simp only [e1, e2, e3, k5, k6, Bool.false_eq_true, if_false, if_true, Bool.or_false, Bool.or_true, Bool.not_false]
      by_cases hb : (fE && !fS) = true
      · rw [if_pos hb, ih _ _ rfl]
        simp only [Bool.and_eq_true, Bool.not_eq_true'] at hb
        obtain ⟨rfl, rfl⟩ := hb
        exact ⟨fun h => ⟨.inr (.inr (.inr k1)), fun _ => k4, fun _ => k3, fun _ => ⟨rfl, rfl⟩, h⟩, fun h => h.2.2.2.2⟩
      · rw [if_neg hb]
        constructor
        · intro h; cases h
        · intro h
          obtain ⟨rfl, rfl⟩ := h.2.2.2.1 k1
          exact absurd rfl hb
    · have e1 : (c == b#'.') = false := by simpa using k3
      have e2 : (c == b#'e' || c == b#'E') = false := by rw [exn] at k4; simpa using k4
      have e3 : (c == b#'+' || c == b#'-') = false := by rw [sgn] at k5; simpa using k5
      simp only [e1, e2, e3, k2, Bool.false_eq_true, if_false, Bool.not_false, if_true, ite_self]
      constructor
      · intro h
        exfalso
        split at h
        · exact hne h
        · cases h
      · intro h
        exfalso
        rcases h.1 with h | h | h | h
        · exact k1 h
        · exact k3 h
        · exact k4 h
        · exact k5 h

theorem isJnumber_iff (c : Byte) (t : List Byte) : jsonIsNumber (c :: t) = true ↔
    (JDigit c ∨ c = b#'-') ∧ (c = b#'0' → t ≠ [] → t.head? = some b#'.') ∧ JTakes ⟨false, false, false, c != b#'-', false⟩ t := by
  unfold jsonIsNumber isJnumber
  simp only [beq_iff_eq]
  have hlen : (c :: t).length = 1 + t.length := by rw [List.length_cons]; omega
  by_cases hc : (!isDigit c && c != b#'-') = true
  · rw [if_pos hc]
    constructor
    · intro h; cases h
    · rintro ⟨h, _⟩
      simp only [Bool.and_eq_true, Bool.not_eq_true', bne_iff_ne] at hc
      rcases h with h | h
      · rw [(isDigit_iff c).2 h] at hc; cases hc.1
      · exact absurd h hc.2
  · rw [if_neg hc, hlen]
    have h1 : JDigit c ∨ c = b#'-' := by
      simp only [Bool.and_eq_true, Bool.not_eq_true', bne_iff_ne, not_and, ne_eq, Decidable.not_not] at hc
      cases h : isDigit c with
      | true => exact .inl ((isDigit_iff c).1 h)
      | false => exact .inr (hc h)
    by_cases h0 : c = b#'0'
    · subst h0
      cases t with
      | nil =>
        refine ⟨fun _ => ⟨h1, by simp, ?_⟩, fun _ => by decide⟩
        exact ⟨by simp, .inl ⟨rfl, by decide⟩, by simp, by simp, by simp, by simp, by simp, by simp, by simp⟩
      | cons d t =>
        have hl : 1 + (d :: t).length = 2 + t.length := by rw [List.length_cons]; omega
        rw [jnumLoop, hl]
        dsimp only
        rw [if_pos (by decide)]
        by_cases hd : d = b#'.'
        · subst hd
          rw [if_neg (by decide), if_neg (by decide), jnumLoop_iff _ _ _ rfl, jtakes_cons]
          refine ⟨fun h => ⟨h1, by simp, .inr (.inl rfl), by simp, by simp, by simp [JSign], h⟩, fun h => h.2.2.2.2.2.2⟩
        · constructor
          · intro h
            exfalso
            split at h
            · have := Option.some.inj h; omega
            · rw [if_pos (by simpa using hd)] at h; cases h
          · intro h
            exact absurd (by simpa using h.2.1 rfl) hd
    · have e : (c == b#'0') = false := by simpa using h0
      rw [e, jnumLoop_iff _ _ _ rfl]
      exact ⟨fun h => ⟨h1, fun h => absurd h h0, h⟩, fun h => h.2.2⟩

namespace Props

/-- Exactly these texts are taken for JSON numbers. -/
theorem C27_exact (s : List Byte) : jsonIsNumber s = true ↔ TakenForNumber s := by
  cases s with
  | nil =>
    constructor
    · intro h; exact absurd h (by decide)
    · rintro ⟨⟨c, t, e, _⟩⟩; cases e
  | cons c t =>
    rw [isJnumber_iff]
    constructor
    · rintro ⟨h1, h2, g1, g2, g3, g4, g5, g6, g7, g8, g9⟩
      refine ⟨⟨c, t, rfl, h1, h2⟩, g1, ?_, ?_, g6, ?_, g9⟩
      · rw [last_cons c t JDigit]
        rcases g2 with ⟨e, g2⟩ | g2
        · refine .inl ⟨e, ?_⟩
          simp only [bne_iff_ne] at g2
          rcases h1 with h1 | h1
          · exact h1
          · exact absurd h1 g2
        · exact .inr g2
      · intro a m b e
        exact g4 a _ m _ b e ⟨rfl, rfl⟩
      · intro a x b e hx
        rcases g7 a x b e hx with h | h
        · cases h
        · exact h
    · rintro ⟨⟨c', t', e, h1, h2⟩, g1, g2, g4, g6, g7, g9⟩
      cases e
      refine ⟨h1, h2, g1, ?_, by simp, ?_, by simp, g6, fun a x b e hx => .inr (g7 a x b e hx), by simp, g9⟩
      · rw [last_cons c t JDigit] at g2
        rcases g2 with ⟨e, g2⟩ | g2
        · refine .inl ⟨e, ?_⟩
          simp only [bne_iff_ne]
          rintro rfl
          revert g2
          unfold JDigit
          decide
        · exact .inr g2
      · rintro a x m y b e ⟨rfl, rfl⟩
        exact g4 a m b e

/-- Signs after the exponent, a dot in the exponent and a missing whole part are taken as well. -/
example : jsonIsNumber b#"1e+5-3.2" = true ∧ jsonIsNumber b#"-.5" = true ∧ jsonIsNumber b#"1e+-5" = false ∧
    jsonIsNumber b#"0.1e5" = true ∧ jsonIsNumber b#"1e" = false ∧ jsonIsNumber b#"1+2" = false ∧ jsonIsNumber b#"e" = false := by decide +kernel

end Props
end Xmq
