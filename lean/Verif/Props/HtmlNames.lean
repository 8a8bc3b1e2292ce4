import Verif.Model.HtmlNames
import Verif.Spec.HtmlNames
import Verif.Props.Listing
import Verif.Props.CharRef
/-!
# C95: characters written by name in HTMQ
-/
namespace Xmq.Props

open Xmq Xmq.Spec

/-- All entries of the tables. -/
theorem htmlTable : ∀ e ∈ htmlGreek ++ htmlMath ++ htmlMisc, (e.1, e.2) ∈ html4 ∧ e.2.length ≤ 29 ∧
    (∀ c ∈ e.2, c < 128) ∧ entityVal (b#"&" ++ e.2 ++ b#";") = some (.entity e.2) := by
  decide +kernel

theorem toHtmlEntity_mem {uc : Nat} {name : List Byte} (h : toHtmlEntity uc = some name) :
    (uc, name) ∈ htmlGreek ++ htmlMath ++ htmlMisc := by
  unfold toHtmlEntity at h
  obtain ⟨e, he, rfl⟩ := Option.map_eq_some_iff.1 h
  have h1 := List.find?_some he
  have h2 := List.mem_of_find?_eq_some he
  have : e.1 = uc := by simpa using h1
  rw [← this]
  exact h2

theorem charEntity_fits (uc : Nat) (h : uc ≤ 0x10FFFF) : buf32 (charEntity uc) = charEntity uc := by
  unfold buf32
  apply List.take_of_length_le
  have := decDigits_short (uc + 1) uc 7 (by omega) (by omega)
  simp [charEntity]
  omega

theorem charRef_cases (e h : Bool) (uc : Nat) (hu : uc ≤ 0x10FFFF) :
    (∃ name, toHtmlEntity uc = some name ∧ e = true ∧ h = true ∧ charRef e h uc = b#"&" ++ name ++ b#";") ∨
    ((toHtmlEntity uc = none ∨ e = false ∨ h = false) ∧ charRef e h uc = charEntity uc) := by
  unfold charRef
  cases he : (e && h) with
  | false =>
    right
    refine ⟨?_, by simpa using charEntity_fits uc hu⟩
    cases e with
    | false => exact Or.inr (Or.inl rfl)
    | true => exact Or.inr (Or.inr (by simpa using he))
  | true =>
    rw [Bool.and_eq_true] at he
    cases ht : toHtmlEntity uc with
    | none => exact Or.inr ⟨Or.inl rfl, by simpa using charEntity_fits uc hu⟩
    | some name =>
      left
      refine ⟨name, rfl, he.1, he.2, ?_⟩
      have := (htmlTable _ (toHtmlEntity_mem ht)).2.1
      simp only [if_true]
      unfold buf32
      apply List.take_of_length_le
      simp only [List.length_append, List.length_cons, List.length_nil]
      dsimp only at this
      omega

/-- **C95.** However a character is written, by name or by number, the reference stands for that character in HTML. -/
theorem C95_reference (e h : Bool) (uc : Nat) (hu : uc ≤ 0x10FFFF) : HtmlReference (charRef e h uc) uc := by
  rcases charRef_cases e h uc hu with ⟨name, ht, _, _, hc⟩ | ⟨_, hc⟩
  · rw [hc]
    exact .name name uc (htmlTable _ (toHtmlEntity_mem ht)).1
  · rw [hc]
    obtain ⟨h1, h2, h3⟩ := isDecimal_digits uc
    exact .number _ uc h1 (decDigits_digit _ _) h3

theorem html4_names : ∀ e ∈ html4, e.2.head? ≠ some b#'#' := by decide +kernel

theorem html4_unique : html4.Pairwise fun a b => a.2 ≠ b.2 := by decide +kernel

theorem pairwise_name {l : List (Nat × List Byte)} (h : l.Pairwise fun a b => a.2 ≠ b.2) {a b : Nat × List Byte} (ha : a ∈ l) (hb : b ∈ l)
    (e : a.2 = b.2) : a = b := by
  induction h with
  | nil => cases ha
  | cons hx _ ih =>
    rcases List.mem_cons.1 ha with ha' | ha' <;> rcases List.mem_cons.1 hb with hb' | hb'
    · rw [ha', hb']
    · subst ha'; exact absurd e (hx _ hb')
    · subst hb'; exact absurd e.symm (hx _ ha')
    · exact ih ha' hb'

/-- **C95.** And for no other: different characters are written differently. -/
theorem C95_means {t : List Byte} {u v : Nat} (hu : HtmlReference t u) (hv : HtmlReference t v) : u = v := by
  cases hu with
  | name n uc h =>
    generalize ht : b#"&" ++ n ++ b#";" = t' at hv
    cases hv with
    | name n' uc' h' =>
      have : n = n' := List.append_cancel_right (List.cons.inj ht).2
      exact (Prod.mk.inj (pairwise_name html4_unique h h' this)).1
    | number ds uc' hne hd hval =>
      have e := (List.cons.inj ht).2
      exfalso
      refine html4_names _ h ?_
      cases n with
      | nil => exact absurd (List.cons.inj e).1 (by decide)
      | cons c n => rw [(List.cons.inj e).1]; rfl
  | number ds uc hne hd hval =>
    generalize ht : b#"&#" ++ ds ++ b#";" = t' at hv
    cases hv with
    | name n' uc' h' =>
      have e := (List.cons.inj ht).2
      exfalso
      refine html4_names _ h' ?_
      cases n' with
      | nil => exact absurd (List.cons.inj e).1 (by decide)
      | cons c n => rw [← (List.cons.inj e).1]; rfl
    | number ds' uc' hne' hd' hval' =>
      have : ds = ds' := List.append_cancel_right (List.cons.inj (List.cons.inj ht).2).2
      rw [← hval, ← hval', this]

/-- **C95.** The reference is written in ASCII. -/
theorem C95_ascii (e h : Bool) (uc : Nat) (hu : uc ≤ 0x10FFFF) : ∀ c ∈ charRef e h uc, c < 128 := by
  intro c hc
  rcases charRef_cases e h uc hu with ⟨name, ht, _, _, hr⟩ | ⟨_, hr⟩
  · rw [hr] at hc
    simp only [List.mem_append, List.mem_singleton] at hc
    rcases hc with (hc | hc) | hc
    · rw [hc]; decide
    · exact (htmlTable _ (toHtmlEntity_mem ht)).2.2.1 c hc
    · rw [hc]; decide
  · rw [hr] at hc
    simp only [charEntity, List.mem_append] at hc
    rcases hc with (hc | hc) | hc
    · exact (show ∀ c ∈ b#"&#", c < 128 by decide) c hc
    · have := (decDigits_digit _ _ c hc).2
      exact UInt8.lt_iff_toNat_lt.2 (by show c.toNat < 128; omega)
    · exact (show ∀ c ∈ b#";", c < 128 by decide) c hc

/-- What is written is read again as the character. -/
def NamesReadBack : Prop := ∀ (e h : Bool) (uc : Nat) (bs : List Byte), uc ≠ 0 → uc ≤ 0x10FFFF → encodeUtf8 uc = some bs → entityVal (charRef e h uc) = some (.text bs)

/-- A name is read as a reference, not as the character. -/
theorem C95_read_false : ¬ NamesReadBack := fun h =>
  absurd (h true true 945 [0xce, 0xb1] (by decide) (by decide) (by decide +kernel)) (by decide +kernel)

/-- **C95.** Exactly the characters without a name, or all if not both options are set, are read as they were. -/
theorem C95_read_iff (e h : Bool) (uc : Nat) (bs : List Byte) (h0 : uc ≠ 0) (hu : uc ≤ 0x10FFFF) (hb : encodeUtf8 uc = some bs) :
    entityVal (charRef e h uc) = some (.text bs) ↔ ¬ (e = true ∧ h = true ∧ ∃ name, toHtmlEntity uc = some name) := by
  rcases charRef_cases e h uc hu with ⟨name, ht, he, hh, hr⟩ | ⟨hn, hr⟩
  · rw [hr, (htmlTable _ (toHtmlEntity_mem ht)).2.2.2]
    constructor
    · intro hc
      simp at hc
    · intro hc
      exact absurd ⟨he, hh, name, ht⟩ hc
  · rw [hr, entityVal_charEntity uc h0 bs hb]
    simp only [true_iff]
    rintro ⟨he, hh, name, ht⟩
    rcases hn with hn | hn | hn
    · rw [ht] at hn; cases hn
    · rw [he] at hn; cases hn
    · rw [hh] at hn; cases hn

/-- **C95.** Without names the printer writes what its model has. -/
theorem C95_plain (e h : Bool) (uc : Nat) (hu : uc ≤ 0x10FFFF) (hne : e = false ∨ h = false) : charRef e h uc = charEntity uc := by
  rcases charRef_cases e h uc hu with ⟨name, ht, he, hh, hr⟩ | ⟨hn, hr⟩
  · rcases hne with hne | hne
    · rw [he] at hne; cases hne
    · rw [hh] at hne; cases hne
  · exact hr

example : charRef true true 8364 = b#"&euro;" ∧ charRef true true 229 = b#"&#229;" ∧ charRef true false 8364 = b#"&#8364;" := by decide +kernel
example : HtmlReference b#"&euro;" 8364 := .name b#"euro" 8364 (by decide +kernel)

end Xmq.Props
