import Verif.Lemmas.IxmlNames
import Verif.Lemmas.IxmlGrammar
/-!
# What the reader of ixml grammars builds represents the expression
-/
namespace Xmq.Ixml
open Xmq.Spec Xmq.Spec.Ixml Xmq.Props

/-! ## Names of the new rules -/

theorem comp_gen (nm : List Byte) (mk : Byte) (r : Rx) (g : Nat) (mark : Byte) : g ≤ (comp nm mk r g mark).gen := by
  induction r generalizing nm mk g mark with
  | lit m cs =>
    match cs with
    | [] => exact Nat.le_refl _
    | [c] => exact Nat.le_refl _
    | c :: d :: cs => simp [comp]
  | set => exact Nat.le_refl _
  | ref => exact Nat.le_refl _
  | ins => exact Nat.le_refl _
  | eps => exact Nat.le_refl _
  | group r ih =>
    by_cases h : r = .eps
    · subst h; exact Nat.le_refl _
    · rw [comp_group h]
      have := ih (genName g) b#'-' (g + 1) mark
      simp only
      omega
  | opt f ih => have := ih nm mk g mark; simp only [comp]; omega
  | plus f ih => have := ih nm mk g mark; simp only [comp]; omega
  | star f ih => have := ih nm mk g mark; simp only [comp]; omega
  | plusSep f s ih1 ih2 =>
    have := ih1 nm mk g mark
    have := ih2 nm mk (comp nm mk f g mark).gen (comp nm mk f g mark).mark
    simp only [comp]; omega
  | starSep f s ih1 ih2 =>
    have := ih1 nm mk g mark
    have := ih2 nm mk (comp nm mk f g mark).gen (comp nm mk f g mark).mark
    simp only [comp]; omega
  | seq f s ih1 ih2 =>
    have := ih1 nm mk g mark
    have := ih2 nm mk (comp nm mk f g mark).gen (comp nm mk f g mark).mark
    simp only [comp]; omega
  | alt f s ih1 ih2 =>
    have := ih1 nm mk g mark
    have := ih2 nm mk (comp nm mk f g mark).gen (comp nm mk f g mark).mark
    simp only [comp]; omega

theorem comp_mark (nm : List Byte) (mk : Byte) (r : Rx) (g : Nat) (mark : Byte) : (comp nm mk r g mark).mark = markAfter r mark := by
  have hn : numeric = Member.number := by funext m; cases m <;> rfl
  induction r generalizing nm mk g mark with
  | lit m cs =>
    match cs with
    | [] => rfl
    | [c] => rfl
    | c :: d :: cs => rfl
  | set => simp [comp, markAfter, hn]
  | ref => rfl
  | ins => rfl
  | eps => rfl
  | group r ih =>
    by_cases h : r = .eps
    · subst h; rfl
    · rw [comp_group h, markAfter]; exact ih _ _ _ _
  | opt f ih => exact ih _ _ _ _
  | plus f ih => exact ih _ _ _ _
  | star f ih => exact ih _ _ _ _
  | plusSep f s ih1 ih2 => simp only [comp, markAfter, ih2, ih1]
  | starSep f s ih1 ih2 => rfl
  | seq f s ih1 ih2 => simp only [comp, markAfter, ih2, ih1]
  | alt f s ih1 ih2 => simp only [comp, markAfter, ih2, ih1]

/-- What a new rule may be. -/
def NewRule (r : Rx) (nm : List Byte) (a b : Nat) (ρ : Rule) : Prop :=
  ρ.name = nm ∨ (∃ k, a ≤ k ∧ k < b ∧ ρ.name = genName k) ∨ (Inserts r ∧ ∃ x, ρ = ⟨b#"|+" ++ x, none, b#' ', []⟩)

theorem NewRule.mono {r s : Rx} {nm : List Byte} {a b a' b' : Nat} {ρ : Rule} (h : NewRule r nm a b ρ) (h1 : a' ≤ a) (h2 : b ≤ b') (h3 : Inserts r → Inserts s) : NewRule s nm a' b' ρ := by
  rcases h with h | ⟨k, hk1, hk2, h⟩ | ⟨h, h'⟩
  · exact .inl h
  · exact .inr (.inl ⟨k, by omega, by omega, h⟩)
  · exact .inr (.inr ⟨h3 h, h'⟩)

theorem comp_names (nm : List Byte) (mk : Byte) (r : Rx) (g : Nat) (mark : Byte) :
    ∀ ρ ∈ (comp nm mk r g mark).new, NewRule r nm g (comp nm mk r g mark).gen ρ := by
  induction r generalizing nm mk g mark with
  | lit m cs =>
    intro ρ h
    match cs with
    | [] => cases h
    | [c] => cases h
    | c :: d :: cs =>
      obtain rfl := List.mem_singleton.1 h
      exact .inr (.inl ⟨g, Nat.le_refl _, Nat.lt_succ_self _, rfl⟩)
  | set => intro ρ h; cases h
  | ref => intro ρ h; cases h
  | ins cs =>
    intro ρ h
    obtain rfl := List.mem_singleton.1 h
    exact .inr (.inr ⟨trivial, _, rfl⟩)
  | eps => intro ρ h; cases h
  | group r ih =>
    by_cases h : r = .eps
    · subst h; intro ρ h; cases h
    · rw [comp_group h]
      have hg := comp_gen (genName g) b#'-' r (g + 1) mark
      intro ρ hρ
      rcases List.mem_cons.1 hρ with rfl | hρ
      · exact .inr (.inl ⟨g, Nat.le_refl _, by simp only; omega, rfl⟩)
      · rcases ih (genName g) b#'-' (g + 1) mark ρ hρ with h | ⟨k, hk1, hk2, h⟩ | ⟨h, h'⟩
        · exact .inr (.inl ⟨g, Nat.le_refl _, by simp only; omega, h⟩)
        · exact .inr (.inl ⟨k, by omega, hk2, h⟩)
        · exact .inr (.inr ⟨h, h'⟩)
  | opt f ih =>
    intro ρ h
    have hg := comp_gen nm mk f g mark
    simp only [comp, List.mem_append, List.mem_cons, List.not_mem_nil, or_false] at h ⊢
    rcases h with h | rfl | rfl
    · exact (ih nm mk g mark ρ h).mono (Nat.le_refl _) (by omega) id
    · exact .inr (.inl ⟨_, hg, Nat.lt_succ_self _, rfl⟩)
    · exact .inr (.inl ⟨_, hg, Nat.lt_succ_self _, rfl⟩)
  | plus f ih =>
    intro ρ h
    have hg := comp_gen nm mk f g mark
    simp only [comp, List.mem_append, List.mem_cons, List.not_mem_nil, or_false] at h ⊢
    rcases h with h | rfl | rfl
    · exact (ih nm mk g mark ρ h).mono (Nat.le_refl _) (by omega) id
    · exact .inr (.inl ⟨_, hg, Nat.lt_succ_self _, rfl⟩)
    · exact .inr (.inl ⟨_, hg, Nat.lt_succ_self _, rfl⟩)
  | star f ih =>
    intro ρ h
    have hg := comp_gen nm mk f g mark
    simp only [comp, List.mem_append, List.mem_cons, List.not_mem_nil, or_false] at h ⊢
    rcases h with h | rfl | rfl
    · exact (ih nm mk g mark ρ h).mono (Nat.le_refl _) (by omega) id
    · exact .inr (.inl ⟨_, hg, Nat.lt_succ_self _, rfl⟩)
    · exact .inr (.inl ⟨_, hg, Nat.lt_succ_self _, rfl⟩)
  | plusSep f s ih1 ih2 =>
    intro ρ h
    have hg := comp_gen nm mk f g mark
    have hg2 := comp_gen nm mk s (comp nm mk f g mark).gen (comp nm mk f g mark).mark
    simp only [comp, List.mem_append, List.mem_cons, List.not_mem_nil, or_false] at h ⊢
    rcases h with (h | h) | rfl | rfl
    · exact (ih1 nm mk g mark ρ h).mono (Nat.le_refl _) (by omega) .inl
    · exact (ih2 _ _ _ _ ρ h).mono hg (by omega) .inr
    · exact .inr (.inl ⟨_, by omega, Nat.lt_succ_self _, rfl⟩)
    · exact .inr (.inl ⟨_, by omega, Nat.lt_succ_self _, rfl⟩)
  | starSep f s ih1 ih2 =>
    intro ρ h
    have hg := comp_gen nm mk f g mark
    have hg2 := comp_gen nm mk s (comp nm mk f g mark).gen (comp nm mk f g mark).mark
    simp only [comp, List.mem_append, List.mem_cons, List.not_mem_nil, or_false] at h ⊢
    rcases h with ((h | h) | rfl | rfl) | rfl | rfl
    · exact (ih1 nm mk g mark ρ h).mono (Nat.le_refl _) (by omega) .inl
    · exact (ih2 _ _ _ _ ρ h).mono hg (by omega) .inr
    · exact .inr (.inl ⟨(comp nm mk s (comp nm mk f g mark).gen (comp nm mk f g mark).mark).gen, by omega, by omega, rfl⟩)
    · exact .inr (.inl ⟨(comp nm mk s (comp nm mk f g mark).gen (comp nm mk f g mark).mark).gen, by omega, by omega, rfl⟩)
    · exact .inr (.inl ⟨(comp nm mk s (comp nm mk f g mark).gen (comp nm mk f g mark).mark).gen + 1, by omega, by omega, rfl⟩)
    · exact .inr (.inl ⟨(comp nm mk s (comp nm mk f g mark).gen (comp nm mk f g mark).mark).gen + 1, by omega, by omega, rfl⟩)
  | seq f s ih1 ih2 =>
    intro ρ h
    have hg := comp_gen nm mk f g mark
    have hg2 := comp_gen nm mk s (comp nm mk f g mark).gen (comp nm mk f g mark).mark
    simp only [comp, List.mem_append] at h ⊢
    rcases h with h | h
    · exact (ih1 nm mk g mark ρ h).mono (Nat.le_refl _) (by omega) .inl
    · exact (ih2 _ _ _ _ ρ h).mono hg (by omega) .inr
  | alt f s ih1 ih2 =>
    intro ρ h
    have hg := comp_gen nm mk f g mark
    have hg2 := comp_gen nm mk s (comp nm mk f g mark).gen (comp nm mk f g mark).mark
    simp only [comp, List.mem_append, List.mem_cons] at h ⊢
    rcases h with h | rfl | h
    · exact (ih1 nm mk g mark ρ h).mono (Nat.le_refl _) (by omega) .inl
    · exact .inl rfl
    · exact (ih2 _ _ _ _ ρ h).mono hg (by omega) .inr

/-! ## Alternatives -/

/-- The right hand sides of the alternatives after the first. -/
def altsTail (nm : List Byte) (mk : Byte) : Rx → Nat → Byte → List (List Term)
  | .alt a b, g, mark =>
    (comp nm mk b (comp nm mk a g mark).gen (comp nm mk a g mark).mark).ts :: altsTail nm mk b (comp nm mk a g mark).gen (comp nm mk a g mark).mark
  | _, _, _ => []

/-- A name that is not made by the reader later on. -/
def Fresh (nm : List Byte) (g : Nat) : Prop := nm.take 2 ≠ b#"|+" ∧ ∀ k, g ≤ k → nm ≠ genName k

theorem Fresh.mono {nm : List Byte} {a b : Nat} (h : Fresh nm a) (hab : a ≤ b) : Fresh nm b := ⟨h.1, fun k hk => h.2 k (by omega)⟩

theorem fresh_gen (g : Nat) : Fresh (genName g) (g + 1) := ⟨genName_take g, fun k hk e => by have := genName_inj e; omega⟩

theorem fresh_name {n : List Byte} (h : IsName n) (g : Nat) : Fresh n g := ⟨isName_take h, fun k _ e => genName_not_name k (e ▸ h)⟩

theorem take_ins (x : List Byte) : (b#"|+" ++ x).take 2 = b#"|+" := rfl

/-- A rule is not in the part of the rules made for another expression. -/
theorem not_new {nm : List Byte} {mk : Byte} {r : Rx} {g : Nat} {mark : Byte} {k : Nat} {ρ : Rule} (hf : Fresh nm k) (hk : k < g ∨ (comp nm mk r g mark).gen ≤ k)
    (h : ρ.name = genName k) : ρ ∉ (comp nm mk r g mark).new := by
  intro hρ
  rcases comp_names nm mk r g mark ρ hρ with e | ⟨j, h1, h2, e⟩ | ⟨-, x, e⟩
  · exact hf.2 k (Nat.le_refl _) (e.symm.trans h)
  · have := genName_inj (e.symm.trans h); omega
  · rw [e] at h
    have : (genName k).take 2 = b#"|+" := by rw [← h]; rfl
    exact genName_take k this

theorem not_alt {cls : Cls} {r : Rx} {t : List Byte} (h : W true cls r t) (hc : cls ≠ .alts) : ∀ a b, r ≠ .alt a b := by
  cases h with
  | one f t h => cases h <;> (intro a b e; cases e)
  | last f t h =>
    cases h with
    | one f t h => cases h <;> (intro a b e; cases e)
    | opt => intro a b e; cases e
    | plus => intro a b e; cases e
    | star => intro a b e; cases e
    | plusSep => intro a b e; cases e
    | starSep => intro a b e; cases e
  | alone => exact absurd rfl hc
  | alt => exact absurd rfl hc
  | _ => intro a b e; cases e

theorem altsTail_nil {r : Rx} (h : ∀ a b, r ≠ .alt a b) (nm : List Byte) (mk : Byte) (g : Nat) (mark : Byte) : altsTail nm mk r g mark = [] := by
  cases r <;> first | rfl | exact absurd rfl (h _ _)

/-- The new rules with the name of the rule itself are its further alternatives. -/
theorem comp_own {cls : Cls} {r : Rx} {t : List Byte} (h : W true cls r t) : ∀ (nm : List Byte) (mk : Byte) (g : Nat) (mark : Byte), Fresh nm g → ∀ ρ,
    (ρ ∈ (comp nm mk r g mark).new ∧ ρ.name = nm) ↔ ∃ ts ∈ altsTail nm mk r g mark, ρ = ⟨nm, none, mk, ts⟩ := by
  have gen : ∀ {nm : List Byte} {g k : Nat} {x : List Term}, Fresh nm g → g ≤ k → (hidden (genName k) x).name ≠ nm := by
    intro nm g k x hf hk e
    exact hf.2 k hk e.symm
  induction h with
  | lit m cs =>
    intro nm mk g mark hf ρ
    match cs with
    | [] => simp [comp, altsTail]
    | [c] => simp [comp, altsTail]
    | c :: d :: cs =>
      simp only [comp, altsTail, List.mem_singleton, List.not_mem_nil, false_and, exists_false, iff_false]
      rintro ⟨rfl, h⟩
      exact gen hf (Nat.le_refl _) h
  | enc => intro nm mk g mark hf ρ; simp [comp, altsTail]
  | incl => intro nm mk g mark hf ρ; simp [comp, altsTail]
  | excl => intro nm mk g mark hf ρ; simp [comp, altsTail]
  | ref => intro nm mk g mark hf ρ; simp [comp, altsTail]
  | ins cs =>
    intro nm mk g mark hf ρ
    simp only [comp, altsTail, List.mem_singleton, List.not_mem_nil, false_and, exists_false, iff_false]
    rintro ⟨rfl, rfl⟩
    exact hf.1 rfl
  | insEnc c s1 t s2 h => cases h
  | group r s1 t s2 _ hw _ _ ih =>
    intro nm mk g mark hf ρ
    simp only [altsTail, List.not_mem_nil, false_and, exists_false, iff_false]
    rintro ⟨h, rfl⟩
    rcases comp_names _ mk (.group r) g mark ρ h with e | ⟨k, h1, h2, e⟩ | ⟨-, x, e⟩
    · by_cases hr : r = .eps
      · subst hr; cases h
      · rw [comp_group hr] at h
        rcases List.mem_cons.1 h with h | h
        · exact gen hf (Nat.le_refl g) (congrArg Rule.name h).symm
        · rcases comp_names _ _ r (g + 1) mark ρ h with e | ⟨k, h1, h2, e⟩ | ⟨-, x, e⟩
          · exact hf.2 g (Nat.le_refl _) e
          · exact hf.2 k (by omega) e
          · exact hf.1 (by rw [e]; rfl)
    · exact hf.2 k h1 e
    · exact hf.1 (by rw [e]; rfl)
  | one f t _ ih => exact ih
  | opt f t s hw _ _ ih =>
    intro nm mk g mark hf ρ
    have ih := ih nm mk g mark hf ρ
    rw [altsTail_nil (not_alt hw (by simp))] at ih
    have hg := comp_gen nm mk f g mark
    simp only [List.not_mem_nil, false_and, exists_false, iff_false] at ih
    simp only [comp, altsTail, List.mem_append, List.mem_cons, List.not_mem_nil, or_false, false_and, exists_false, iff_false]
    rintro ⟨h | rfl | rfl, e⟩
    · exact ih ⟨h, e⟩
    · exact gen hf hg e
    · exact gen hf hg e
  | plus f t s hw _ _ ih =>
    intro nm mk g mark hf ρ
    have ih := ih nm mk g mark hf ρ
    rw [altsTail_nil (not_alt hw (by simp))] at ih
    have hg := comp_gen nm mk f g mark
    simp only [List.not_mem_nil, false_and, exists_false, iff_false] at ih
    simp only [comp, altsTail, List.mem_append, List.mem_cons, List.not_mem_nil, or_false, false_and, exists_false, iff_false]
    rintro ⟨h | rfl | rfl, e⟩
    · exact ih ⟨h, e⟩
    · exact gen hf hg e
    · exact gen hf hg e
  | star f t s hw _ _ ih =>
    intro nm mk g mark hf ρ
    have ih := ih nm mk g mark hf ρ
    rw [altsTail_nil (not_alt hw (by simp))] at ih
    have hg := comp_gen nm mk f g mark
    simp only [List.not_mem_nil, false_and, exists_false, iff_false] at ih
    simp only [comp, altsTail, List.mem_append, List.mem_cons, List.not_mem_nil, or_false, false_and, exists_false, iff_false]
    rintro ⟨h | rfl | rfl, e⟩
    · exact ih ⟨h, e⟩
    · exact gen hf hg e
    · exact gen hf hg e
  | plusSep f s t _ u hw _ hv _ ih1 ih2 =>
    intro nm mk g mark hf ρ
    have hg := comp_gen nm mk f g mark
    have hg2 := comp_gen nm mk s (comp nm mk f g mark).gen (comp nm mk f g mark).mark
    have ih1 := ih1 nm mk g mark hf ρ
    have ih2 := ih2 nm mk (comp nm mk f g mark).gen (comp nm mk f g mark).mark (hf.mono hg) ρ
    rw [altsTail_nil (not_alt hw (by simp))] at ih1
    rw [altsTail_nil (not_alt hv (by simp))] at ih2
    simp only [List.not_mem_nil, false_and, exists_false, iff_false] at ih1 ih2
    simp only [comp, altsTail, List.mem_append, List.mem_cons, List.not_mem_nil, or_false, false_and, exists_false, iff_false]
    rintro ⟨(h | h) | rfl | rfl, e⟩
    · exact ih1 ⟨h, e⟩
    · exact ih2 ⟨h, e⟩
    · exact gen hf (Nat.le_trans hg hg2) e
    · exact gen hf (Nat.le_trans hg hg2) e
  | starSep f s t _ u hw _ hv _ ih1 ih2 =>
    intro nm mk g mark hf ρ
    have hg := comp_gen nm mk f g mark
    have hg2 := comp_gen nm mk s (comp nm mk f g mark).gen (comp nm mk f g mark).mark
    have ih1 := ih1 nm mk g mark hf ρ
    have ih2 := ih2 nm mk (comp nm mk f g mark).gen (comp nm mk f g mark).mark (hf.mono hg) ρ
    rw [altsTail_nil (not_alt hw (by simp))] at ih1
    rw [altsTail_nil (not_alt hv (by simp))] at ih2
    simp only [List.not_mem_nil, false_and, exists_false, iff_false] at ih1 ih2
    simp only [comp, altsTail, List.mem_append, List.mem_cons, List.not_mem_nil, or_false, false_and, exists_false, iff_false]
    rintro ⟨((h | h) | rfl | rfl) | rfl | rfl, e⟩
    · exact ih1 ⟨h, e⟩
    · exact ih2 ⟨h, e⟩
    · exact gen hf (Nat.le_trans hg hg2) e
    · exact gen hf (Nat.le_trans hg hg2) e
    · exact gen hf (show g ≤ _ + 1 by omega) e
    · exact gen hf (show g ≤ _ + 1 by omega) e
  | eps => intro nm mk g mark hf ρ; simp [comp, altsTail]
  | last r t _ ih => exact ih
  | seq a b t s u hw _ hv _ ih1 ih2 =>
    intro nm mk g mark hf ρ
    have hg := comp_gen nm mk a g mark
    have ih1 := ih1 nm mk g mark hf ρ
    have ih2 := ih2 nm mk (comp nm mk a g mark).gen (comp nm mk a g mark).mark (hf.mono hg) ρ
    rw [altsTail_nil (not_alt hw (by simp))] at ih1
    rw [altsTail_nil (not_alt hv (by simp))] at ih2
    simp only [List.not_mem_nil, false_and, exists_false, iff_false] at ih1 ih2
    simp only [comp, altsTail, List.mem_append, List.not_mem_nil, false_and, exists_false, iff_false]
    rintro ⟨h | h, e⟩
    · exact ih1 ⟨h, e⟩
    · exact ih2 ⟨h, e⟩
  | alone r t _ ih => exact ih
  | alt a b c t s u hw _ _ hv _ ih1 ih2 =>
    intro nm mk g mark hf ρ
    have hg := comp_gen nm mk a g mark
    have ih1 := ih1 nm mk g mark hf ρ
    have ih2 := ih2 nm mk (comp nm mk a g mark).gen (comp nm mk a g mark).mark (hf.mono hg) ρ
    rw [altsTail_nil (not_alt hw (by simp))] at ih1
    simp only [List.not_mem_nil, false_and, exists_false, iff_false] at ih1
    simp only [comp, altsTail, List.mem_append, List.mem_cons]
    constructor
    · rintro ⟨h | rfl | h, e⟩
      · exact absurd ⟨h, e⟩ ih1
      · exact ⟨_, .inl rfl, rfl⟩
      · obtain ⟨ts, h1, h2⟩ := ih2.1 ⟨h, e⟩
        exact ⟨ts, .inr h1, h2⟩
    · rintro ⟨ts, rfl | h, rfl⟩
      · exact ⟨.inr (.inl rfl), rfl⟩
      · have := ih2.2 ⟨ts, h, rfl⟩
        exact ⟨.inr (.inr this.1), rfl⟩

/-! ## The sets are good -/

theorem wtmark_byte {m : Byte} {tm : List Byte} (h : WTmark true m tm) (hm : m ≠ b#'^') : m = 0 ∨ m = b#'-' := by
  cases h with
  | none => exact .inl rfl
  | mk m s h _ => exact .inr (h.resolve_left hm)

theorem comp_sets {cls : Cls} {r : Rx} {t : List Byte} (h : W true cls r t) : ∀ (nm : List Byte) (mk : Byte) (g : Nat) (mark : Byte),
    ∀ cs ∈ (comp nm mk r g mark).sets, GoodSet cs := by
  induction h with
  | lit m cs =>
    intro nm mk g mark cs' h
    match cs with
    | [] => cases h
    | [c] => cases h
    | c :: d :: cs => cases h
  | enc => intro nm mk g mark cs h; cases h
  | incl m ms tm s1 t s2 hm _ hms _ hc =>
    intro nm mk g mark cs h
    obtain rfl := List.mem_singleton.1 h
    exact ⟨wtmark_byte hm (hc rfl), (members_mean hms).1⟩
  | excl m ms tm gap s1 t s2 hm _ _ hms _ hc =>
    intro nm mk g mark cs h
    obtain rfl := List.mem_singleton.1 h
    exact ⟨wtmark_byte hm (hc rfl), (members_mean hms).1⟩
  | ref => intro nm mk g mark cs h; cases h
  | ins => intro nm mk g mark cs h; cases h
  | insEnc c s1 t s2 h => cases h
  | group r s1 t s2 _ hw _ _ ih =>
    intro nm mk g mark cs h
    by_cases hr : r = .eps
    · subst hr; cases h
    · rw [comp_group hr] at h
      exact ih _ _ _ _ cs h
  | one f t _ ih => exact ih
  | opt f t s hw _ _ ih => intro nm mk g mark cs h; exact ih _ _ _ _ cs h
  | plus f t s hw _ _ ih => intro nm mk g mark cs h; exact ih _ _ _ _ cs h
  | star f t s hw _ _ ih => intro nm mk g mark cs h; exact ih _ _ _ _ cs h
  | plusSep f s t _ u hw _ hv _ ih1 ih2 =>
    intro nm mk g mark cs h
    exact (List.mem_append.1 h).elim (ih1 _ _ _ _ cs) (ih2 _ _ _ _ cs)
  | starSep f s t _ u hw _ hv _ ih1 ih2 =>
    intro nm mk g mark cs h
    exact (List.mem_append.1 h).elim (ih1 _ _ _ _ cs) (ih2 _ _ _ _ cs)
  | eps => intro nm mk g mark cs h; cases h
  | last r t _ ih => exact ih
  | seq a b t s u hw _ hv _ ih1 ih2 =>
    intro nm mk g mark cs h
    exact (List.mem_append.1 h).elim (ih1 _ _ _ _ cs) (ih2 _ _ _ _ cs)
  | alone r t _ ih => exact ih
  | alt a b c t s u hw _ _ hv _ ih1 ih2 =>
    intro nm mk g mark cs h
    exact (List.mem_append.1 h).elim (ih1 _ _ _ _ cs) (ih2 _ _ _ _ cs)

/-! ## Marks that do not matter -/

theorem conv_refl (R : List Rule) (m : Byte) (x : Sym) : Conv R m m x := fun trees _ h => ⟨trees, h, rfl, rfl⟩

theorem conv_hidden {R : List Rule} {nm : List Byte} (hn : nm.take 2 ≠ b#"|+") (hR : ∀ ρ ∈ R, ρ.name = nm → ∃ ts, ρ = hidden nm ts) {m m' : Byte} (hm : m = 0 ∨ m = b#'-')
    (hm' : m' = 0 ∨ m' = b#'-') : Conv R m m' (.n nm) := by
  intro trees w h
  obtain ⟨ρ, kids, h1, h2, h3, rfl⟩ := derives_n h
  obtain ⟨ts, rfl⟩ := hR ρ h1 h2
  have hd := Derives.node (rules := R) m' (hidden nm ts) kids w [] [] [] h1 h3 .nil
  rw [List.append_nil] at hd
  refine ⟨_, hd, by simp [sizes, Tree.size], ?_⟩
  have e : ∀ k : Byte, k = 0 ∨ k = b#'-' → (if k ≠ 0 then k else (hidden nm ts).mark) = b#'-' := by
    rintro k (rfl | rfl) <;> rfl
  exact (take_append_mark nm _ kids hn (e m' hm')).trans (take_append_mark nm _ kids hn (e m hm)).symm

theorem conv_ins {R : List Rule} {x : List Byte} (hR : ∀ ρ ∈ R, ρ.name = b#"|+" ++ x → ρ = ⟨b#"|+" ++ x, none, b#' ', []⟩) (m m' : Byte) :
    Conv R m m' (.n (b#"|+" ++ x)) := by
  intro trees w h
  obtain ⟨ρ, kids, h1, h2, h3, rfl⟩ := derives_n h
  obtain rfl := hR ρ h1 h2
  have hd := Derives.node (rules := R) m' _ kids w [] [] [] h1 h3 .nil
  rw [List.append_nil] at hd
  refine ⟨_, hd, by simp [sizes, Tree.size], ?_⟩
  have e : ∀ k : Byte, piecesList [.node (b#"|+" ++ x) k kids] = [.text x] := by
    intro k
    rw [piecesList, piecesList, pieces, if_pos (take_ins x)]
    rfl
  exact (e _).trans (e _).symm

/-! ## Representation -/

/-- The rules of a set. -/
def SetRules (used : Nat → Bool) (cs : CSet) (ρ : Rule) : Prop :=
  ∃ c : Nat, used c = true ∧ c < 0x110000 ∧ ((∃ p ∈ cs.parts, partMeans p c) ↔ cs.exclude = false) ∧
    ρ = hidden (setName cs) [⟨if cs.mark = b#'-' then b#'-' else 0, .t c⟩]

/-- The rules `R` contain what was made for an expression and no other rules with the names it owns. -/
structure Own (used : Nat → Bool) (R : List Rule) (c : Cmp) (g : Nat) : Prop where
  gen : ∀ k, g ≤ k → k < c.gen → ∀ ρ ∈ R, ρ.name = genName k → ρ ∈ c.new
  sub : ∀ ρ ∈ c.new, ρ ∈ R
  sets : ∀ cs ∈ c.sets, ∀ ρ, (ρ ∈ R ∧ ρ.name = setName cs) ↔ SetRules used cs ρ

theorem Own.only {used : Nat → Bool} {R : List Rule} {c : Cmp} {g k : Nat} (h : Own used R c g) (h1 : g ≤ k) (h2 : k < c.gen) {X : List (List Term)}
    (h3 : ∀ ρ ∈ c.new, ρ.name = genName k → ∃ ts ∈ X, ρ = hidden (genName k) ts) (h4 : ∀ ts ∈ X, hidden (genName k) ts ∈ c.new) : Only R (genName k) X := by
  refine ⟨genName_take k, fun ρ => ⟨fun hρ => h3 ρ (h.gen k h1 h2 ρ hρ.1 hρ.2) hρ.2, ?_⟩⟩
  rintro ⟨ts, hts, rfl⟩
  exact ⟨h.sub _ (h4 ts hts), rfl⟩

/-- Insertions have one rule. -/
def InsRules (R : List Rule) : Prop := ∀ ρ ∈ R, ρ.name.take 2 = b#"|+" → ρ = ⟨ρ.name, none, b#' ', []⟩

/-- The mark of a repeated symbol does not matter. -/
theorem fac_conv {used : Nat → Bool} {R : List Rule} (hI : InsRules R) {f : Rx} {t : List Byte} (h : W true .fac f t) (he : ¬ Empty f) {nm : List Byte} {mk : Byte} {g : Nat} {mark : Byte}
    (hf : Fresh nm g) (ho : Own used R (comp nm mk f g mark) g) (hu : Unmarked (markAfter f mark) f) {m : Byte} {x : Sym} (hx : (comp nm mk f g mark).ts = [⟨m, x⟩]) :
    Conv R (comp nm mk f g mark).mark m x ∧ Conv R m (comp nm mk f g mark).mark x := by
  rw [comp_mark]
  have hid : ∀ {n : List Byte} {k : Byte}, n.take 2 ≠ b#"|+" → (∀ ρ ∈ R, ρ.name = n → ∃ ts, ρ = hidden n ts) → (k = 0 ∨ k = b#'-') → ∀ {m : Byte}, (m = 0 ∨ m = b#'-') →
      Conv R k m (.n n) ∧ Conv R m k (.n n) :=
    fun h1 h2 h3 _ h4 => ⟨conv_hidden h1 h2 h3 h4, conv_hidden h1 h2 h4 h3⟩
  have hset : ∀ {m : Byte} {ex : Bool} {ms : List Member}, Own used R (comp nm mk (.set m ex ms) g mark) g → ∀ ρ ∈ R, ρ.name = setName (csetOf m ex ms) →
      ∃ ts, ρ = hidden (setName (csetOf m ex ms)) ts := by
    intro m ex ms ho ρ h1 h2
    obtain ⟨c, _, _, _, h⟩ := (ho.sets _ (List.mem_singleton.2 rfl) ρ).1 ⟨h1, h2⟩
    exact ⟨_, h⟩
  cases h with
  | lit m' cs tm t s hm hq hs =>
    match cs with
    | [] => exact absurd trivial he
    | [c] =>
      simp only [comp, List.cons.injEq, and_true, Term.mk.injEq] at hx
      obtain ⟨rfl, rfl⟩ := hx
      exact ⟨conv_refl _ _ _, conv_refl _ _ _⟩
    | c :: d :: cs =>
      simp only [comp, List.cons.injEq, and_true, Term.mk.injEq] at hx
      obtain ⟨rfl, rfl⟩ := hx
      refine hid (genName_take g) ?_ (hu.resolve_left (by simp)) (.inr rfl)
      intro ρ h1 h2
      exact ⟨_, List.mem_singleton.1 (ho.gen g (Nat.le_refl _) (Nat.lt_succ_self _) ρ h1 h2)⟩
  | enc m' c tm t s hm hq hs =>
    simp only [comp, List.cons.injEq, and_true, Term.mk.injEq] at hx
    obtain ⟨rfl, rfl⟩ := hx
    exact ⟨conv_refl _ _ _, conv_refl _ _ _⟩
  | incl m' ms tm s1 t s2 hm h1 hms h2 hc =>
    simp only [comp, List.cons.injEq, and_true, Term.mk.injEq] at hx
    obtain ⟨rfl, rfl⟩ := hx
    exact hid (setName_take _) (hset ho) hu (wtmark_byte hm (hc rfl))
  | excl m' ms tm gap s1 t s2 hm hg h1 hms h2 hc =>
    simp only [comp, List.cons.injEq, and_true, Term.mk.injEq] at hx
    obtain ⟨rfl, rfl⟩ := hx
    exact hid (setName_take _) (hset ho) hu (wtmark_byte hm (hc rfl))
  | ref m' n al t hn =>
    simp only [comp, List.cons.injEq, and_true, Term.mk.injEq] at hx
    obtain ⟨rfl, rfl⟩ := hx
    exact ⟨conv_refl _ _ _, conv_refl _ _ _⟩
  | ins cs s1 t s2 h1 hq h2 =>
    simp only [comp, List.cons.injEq, and_true, Term.mk.injEq] at hx
    obtain ⟨rfl, rfl⟩ := hx
    have : ∀ ρ ∈ R, ρ.name = b#"|+" ++ insBytes cs → ρ = ⟨b#"|+" ++ insBytes cs, none, b#' ', []⟩ := by
      intro ρ h1 h2
      have := hI ρ h1 (by rw [h2]; rfl)
      rwa [h2] at this
    exact ⟨conv_ins this _ _, conv_ins this _ _⟩
  | insEnc c s1 t s2 h1 hq h2 h => cases h1
  | group r s1 t s2 h1 hw h2 _ =>
    have hr : r ≠ .eps := fun h => by subst h; exact he trivial
    rw [comp_group hr] at hx ho
    simp only [List.cons.injEq, and_true, Term.mk.injEq] at hx
    obtain ⟨rfl, rfl⟩ := hx
    have hg := comp_gen (genName g) b#'-' r (g + 1) mark
    refine hid (genName_take g) ?_ hu (.inr rfl)
    intro ρ h1 h2
    rcases List.mem_cons.1 (ho.gen g (Nat.le_refl _) (by simp only; omega) ρ h1 h2) with h | h
    · exact ⟨_, h⟩
    · obtain ⟨ts, _, h⟩ := (comp_own hw (genName g) b#'-' (g + 1) mark (fresh_gen g) ρ).1 ⟨h, h2⟩
      exact ⟨ts, h⟩

theorem end_bound {f na : Bool} {c : Nat} {t : List Byte} (h : End f c na t) : c < 0x110000 := by
  cases h with
  | chr _ h hn => exact (quoted_codes h c (by simp)).2
  | num _ h => obtain ⟨ds, _, _, _, h⟩ := encoded_head h; exact h

/-- What was read represents the expression. -/
theorem comp_enc {used : Nat → Bool} {R : List Rule} {ok : Prop} (hI : InsRules R) {cls : Cls} {r : Rx} {t : List Byte} (h : W true cls r t) :
    ∀ (nm : List Byte) (mk : Byte) (g : Nat) (mark : Byte), Fresh nm g → Own used R (comp nm mk r g mark) g → (ok → Tidy r mark) → (ok → UsesAt r → NoIns R) →
      Enc tableCat used R ok r ((comp nm mk r g mark).ts :: altsTail nm mk r g mark) := by
  -- the first of two parts
  have left : ∀ {nm : List Byte} {mk : Byte} {a b : Rx} {g : Nat} {mark : Byte} {c : Cmp}, Fresh nm g →
      (∀ ρ ∈ c.new, ρ ∈ (comp nm mk a g mark).new ∨ ρ.name = nm ∨ ρ ∈ (comp nm mk b (comp nm mk a g mark).gen (comp nm mk a g mark).mark).new ∨
        ∃ k, (comp nm mk a g mark).gen ≤ k ∧ ρ.name = genName k) →
      (∀ ρ ∈ (comp nm mk a g mark).new, ρ ∈ c.new) → (∀ cs ∈ (comp nm mk a g mark).sets, cs ∈ c.sets) → (comp nm mk a g mark).gen ≤ c.gen → Own used R c g →
      Own used R (comp nm mk a g mark) g := by
    intro nm mk a b g mark c hf h1 h2 h3 h4 ho
    refine ⟨fun k hk1 hk2 ρ hρ hn => ?_, fun ρ hρ => ho.sub ρ (h2 ρ hρ), fun cs hcs => ho.sets cs (h3 cs hcs)⟩
    rcases h1 ρ (ho.gen k hk1 (by omega) ρ hρ hn) with h | h | h | ⟨j, hj, h⟩
    · exact h
    · exact absurd (h.symm.trans hn) (hf.2 k hk1)
    · exact absurd h (not_new (hf.mono hk1) (.inl hk2) hn)
    · have := genName_inj (h.symm.trans hn); omega
  have right : ∀ {nm : List Byte} {mk : Byte} {a b : Rx} {g : Nat} {mark : Byte} {c : Cmp}, Fresh nm g →
      (∀ ρ ∈ c.new, ρ ∈ (comp nm mk a g mark).new ∨ ρ.name = nm ∨ ρ ∈ (comp nm mk b (comp nm mk a g mark).gen (comp nm mk a g mark).mark).new ∨
        ∃ k, (comp nm mk b (comp nm mk a g mark).gen (comp nm mk a g mark).mark).gen ≤ k ∧ ρ.name = genName k) →
      (∀ ρ ∈ (comp nm mk b (comp nm mk a g mark).gen (comp nm mk a g mark).mark).new, ρ ∈ c.new) →
      (∀ cs ∈ (comp nm mk b (comp nm mk a g mark).gen (comp nm mk a g mark).mark).sets, cs ∈ c.sets) →
      (comp nm mk b (comp nm mk a g mark).gen (comp nm mk a g mark).mark).gen ≤ c.gen → Own used R c g →
      Own used R (comp nm mk b (comp nm mk a g mark).gen (comp nm mk a g mark).mark) (comp nm mk a g mark).gen := by
    intro nm mk a b g mark c hf h1 h2 h3 h4 ho
    have hg := comp_gen nm mk a g mark
    refine ⟨fun k hk1 hk2 ρ hρ hn => ?_, fun ρ hρ => ho.sub ρ (h2 ρ hρ), fun cs hcs => ho.sets cs (h3 cs hcs)⟩
    rcases h1 ρ (ho.gen k (by omega) (by omega) ρ hρ hn) with h | h | h | ⟨j, hj, h⟩
    · exact absurd h (not_new (hf.mono (by omega)) (.inr hk1) hn)
    · exact absurd (h.symm.trans hn) (hf.2 k (by omega))
    · exact h
    · have := genName_inj (h.symm.trans hn); omega
  -- what is repeated
  have rep : ∀ {f : Rx} {t : List Byte} {nm : List Byte} {mk : Byte} {g : Nat} {mark : Byte}, W true .fac f t → ¬ Empty f → Fresh nm g → Own used R (comp nm mk f g mark) g →
      (ok → Unmarked (markAfter f mark) f) → Enc tableCat used R ok f ((comp nm mk f g mark).ts :: altsTail nm mk f g mark) →
      ∃ m x, symOf (comp nm mk f g mark).ts = x ∧ Enc tableCat used R ok f [[⟨m, x⟩]] ∧ (ok → Conv R (comp nm mk f g mark).mark m x ∧ Conv R m (comp nm mk f g mark).mark x) := by
    intro f t nm mk g mark hw he hf ho hu hE
    obtain ⟨⟨m, x⟩, hx⟩ := comp_one hw he nm mk g mark
    rw [altsTail_nil (not_alt hw (by simp)), hx] at hE
    exact ⟨m, x, by rw [hx]; rfl, hE, fun hok => fac_conv hI hw he hf ho (hu hok) hx⟩
  have single : ∀ {f : Rx} {t : List Byte} {nm : List Byte} {mk : Byte} {g : Nat} {mark : Byte} {l : List (Rule)}, Fresh nm g →
      Own used R ⟨[⟨b#'-', .n (genName (comp nm mk f g mark).gen)⟩], (comp nm mk f g mark).new ++ l, (comp nm mk f g mark).gen + 1, t.headD 0, (comp nm mk f g mark).sets⟩ g →
      (∀ ρ ∈ l, ρ.name = genName (comp nm mk f g mark).gen) →
      Own used R (comp nm mk f g mark) g ∧ ∀ X, (∀ ρ ∈ l, ∃ ts ∈ X, ρ = hidden (genName (comp nm mk f g mark).gen) ts) →
        (∀ ts ∈ X, hidden (genName (comp nm mk f g mark).gen) ts ∈ l) → Only R (genName (comp nm mk f g mark).gen) X := by
    intro f t nm mk g mark l hf ho hl
    have hg := comp_gen nm mk f g mark
    constructor
    · refine left (b := .eps) hf ?_ ?_ ?_ ?_ ho
      · intro ρ hρ
        rcases List.mem_append.1 hρ with h | h
        · exact .inl h
        · exact .inr (.inr (.inr ⟨_, Nat.le_refl _, hl ρ h⟩))
      · intro ρ hρ; exact List.mem_append.2 (.inl hρ)
      · intro cs hcs; exact hcs
      · exact Nat.le_succ _
    · intro X h1 h2
      refine ho.only hg (Nat.lt_succ_self _) ?_ ?_
      · intro ρ hρ hn
        rcases List.mem_append.1 hρ with h | h
        · exact absurd h (not_new (hf.mono hg) (.inr (Nat.le_refl _)) hn)
        · exact h1 ρ h
      · intro ts hts; exact List.mem_append.2 (.inr (h2 ts hts))
  induction h with
  | lit m cs tm t s hm hq hs =>
    intro nm mk g mark hf ho ht hat
    have hc := quoted_codes hq
    match cs, ho, hc with
    | [], _, _ => exact .litNil m
    | [c], _, hc => exact .litOne m c (hc c (by simp)).2
    | c :: d :: cs, ho, hc =>
      refine .litMany m (c :: d :: cs) (genName g) (fun x hx => (hc x hx).2) (ho.only (Nat.le_refl _) (Nat.lt_succ_self _) ?_ ?_)
      · intro ρ hρ _
        exact ⟨_, List.mem_singleton.2 rfl, List.mem_singleton.1 hρ⟩
      · intro ts hts
        obtain rfl := List.mem_singleton.1 hts
        exact List.mem_singleton.2 rfl
  | enc m c tm t s hm hq hs =>
    intro nm mk g mark hf ho ht hat
    obtain ⟨ds, _, _, _, h⟩ := encoded_head hq
    exact .litOne m c h
  | incl m ms tm s1 t s2 hm _ hms _ hc =>
    intro nm mk g mark hf ho ht hat
    refine .set m false ms _ (setName_take _) (wtmark_byte hm (hc rfl)) (fun ρ => ?_)
    rw [ho.sets (csetOf m false ms) (List.mem_singleton.2 rfl) ρ]
    exact exists_congr fun c => and_congr_right fun _ => and_congr_right fun _ => and_congr_left fun _ => iff_congr ((members_mean hms).2 c) Iff.rfl
  | excl m ms tm gap s1 t s2 hm _ _ hms _ hc =>
    intro nm mk g mark hf ho ht hat
    refine .set m true ms _ (setName_take _) (wtmark_byte hm (hc rfl)) (fun ρ => ?_)
    rw [ho.sets (csetOf m true ms) (List.mem_singleton.2 rfl) ρ]
    exact exists_congr fun c => and_congr_right fun _ => and_congr_right fun _ => and_congr_left fun _ => iff_congr ((members_mean hms).2 c) Iff.rfl
  | ref m n al t hn =>
    intro nm mk g mark hf ho ht hat
    obtain ⟨tm, s, ta, hm, hnn, hs, ha⟩ := hn
    exact .ref m n al hnn ht hat
  | ins cs =>
    intro nm mk g mark hf ho ht hat
    refine .ins cs fun ρ => ⟨fun h => ?_, fun h => ?_⟩
    · have := hI ρ h.1 (by rw [h.2]; rfl)
      rwa [h.2] at this
    · subst h
      exact ⟨ho.sub _ (List.mem_singleton.2 rfl), rfl⟩
  | insEnc c s1 t s2 h => cases h
  | group r s1 t s2 _ hw _ _ ih =>
    intro nm mk g mark hf ho ht hat
    by_cases hr : r = .eps
    · subst hr; exact .groupEps
    · rw [comp_group hr] at ho ⊢
      have hg := comp_gen (genName g) b#'-' r (g + 1) mark
      refine .group r _ (genName g) (ih (genName g) b#'-' (g + 1) mark (fresh_gen g) ⟨?_, ?_, ?_⟩ ht hat) (ho.only (Nat.le_refl _) (by simp only; omega) ?_ ?_)
      · intro k h1 h2 ρ hρ hn
        rcases List.mem_cons.1 (ho.gen k (by omega) h2 ρ hρ hn) with h | h
        · rw [h] at hn
          have := genName_inj (show genName g = genName k from hn); omega
        · exact h
      · intro ρ hρ; exact ho.sub ρ (List.mem_cons_of_mem _ hρ)
      · exact ho.sets
      · intro ρ hρ hn
        rcases List.mem_cons.1 hρ with h | h
        · exact ⟨_, List.mem_cons_self, h⟩
        · obtain ⟨ts, h1, h2⟩ := (comp_own hw (genName g) b#'-' (g + 1) mark (fresh_gen g) ρ).1 ⟨h, hn⟩
          exact ⟨ts, List.mem_cons_of_mem _ h1, h2⟩
      · intro ts hts
        rcases List.mem_cons.1 hts with rfl | h
        · exact List.mem_cons_self
        · exact List.mem_cons_of_mem _ ((comp_own hw (genName g) b#'-' (g + 1) mark (fresh_gen g) _).2 ⟨ts, h, rfl⟩).1
  | one f t _ ih => exact ih
  | opt f t s hw _ he ih =>
    intro nm mk g mark hf ho ht hat
    obtain ⟨ho1, hO⟩ := single (t := [(comp nm mk f g mark).mark]) (l := [hidden _ [⟨_, _⟩], hidden _ []]) hf ho (by simp [hidden])
    obtain ⟨m, x, hx, hE, hC⟩ := rep hw (he rfl) hf ho1 (fun hok => (ht hok).2) (ih nm mk g mark hf ho1 (fun hok => (ht hok).1) hat)
    exact .opt f m _ x _ hE (hx ▸ hO _ (by simp) (by simp)) hC
  | plus f t s hw _ he ih =>
    intro nm mk g mark hf ho ht hat
    obtain ⟨ho1, hO⟩ := single (t := [(comp nm mk f g mark).mark]) (l := [hidden _ [⟨_, _⟩], hidden _ [⟨_, _⟩, ⟨_, _⟩]]) hf ho (by simp [hidden])
    obtain ⟨m, x, hx, hE, hC⟩ := rep hw (he rfl) hf ho1 (fun hok => (ht hok).2) (ih nm mk g mark hf ho1 (fun hok => (ht hok).1) hat)
    exact .plus f m _ x _ hE (hx ▸ hO _ (by simp) (by simp)) hC
  | star f t s hw _ he ih =>
    intro nm mk g mark hf ho ht hat
    obtain ⟨ho1, hO⟩ := single (t := [(comp nm mk f g mark).mark]) (l := [hidden _ [], hidden _ [⟨_, _⟩, ⟨_, _⟩]]) hf ho (by simp [hidden])
    obtain ⟨m, x, hx, hE, hC⟩ := rep hw (he rfl) hf ho1 (fun hok => (ht hok).2) (ih nm mk g mark hf ho1 (fun hok => (ht hok).1) hat)
    exact .star f m _ x _ hE (hx ▸ hO _ (by simp) (by simp)) hC
  | plusSep f s t _ u hw _ hv he ih1 ih2 =>
    intro nm mk g mark hf ho ht hat
    have hg := comp_gen nm mk f g mark
    have hg2 := comp_gen nm mk s (comp nm mk f g mark).gen (comp nm mk f g mark).mark
    have hmem : ∀ ρ ∈ (comp nm mk (.plusSep f s) g mark).new, ρ ∈ (comp nm mk f g mark).new ∨ ρ.name = nm ∨
        ρ ∈ (comp nm mk s (comp nm mk f g mark).gen (comp nm mk f g mark).mark).new ∨
        ∃ k, (comp nm mk s (comp nm mk f g mark).gen (comp nm mk f g mark).mark).gen ≤ k ∧ ρ.name = genName k := by
      intro ρ hρ
      simp only [comp, List.mem_append, List.mem_cons, List.not_mem_nil, or_false] at hρ
      rcases hρ with (h | h) | rfl | rfl
      · exact .inl h
      · exact .inr (.inr (.inl h))
      · exact .inr (.inr (.inr ⟨_, Nat.le_refl _, rfl⟩))
      · exact .inr (.inr (.inr ⟨_, Nat.le_refl _, rfl⟩))
    have ho1 := left (b := s) hf (fun ρ hρ => (hmem ρ hρ).imp id (Or.imp id (Or.imp id fun ⟨k, h, e⟩ => ⟨k, Nat.le_trans hg2 h, e⟩))) (by simp [comp]; grind) (by simp [comp]; grind) (by simp only [comp]; omega) ho
    have ho2 := right (b := s) hf hmem (by simp [comp]; grind) (by simp [comp]; grind) (by simp only [comp]; omega) ho
    obtain ⟨m, x, hx, hE, hC⟩ := rep hw (he rfl).1 hf ho1 (fun hok => (ht hok).1.2) (ih1 nm mk g mark hf ho1 (fun hok => (ht hok).1.1) (fun hok h => hat hok (.inl h)))
    obtain ⟨l, y, hy, hE2, hC2⟩ := rep hv (he rfl).2 (hf.mono hg) ho2 (fun hok => by rw [comp_mark]; exact (ht hok).2.2) (ih2 nm mk _ _ (hf.mono hg) ho2
      (fun hok => by rw [comp_mark]; exact (ht hok).2.1) (fun hok h => hat hok (.inr h)))
    have hO : Only R (genName (comp nm mk s (comp nm mk f g mark).gen (comp nm mk f g mark).mark).gen) [[⟨(comp nm mk f g mark).mark, x⟩],
        [⟨b#'-', .n (genName (comp nm mk s (comp nm mk f g mark).gen (comp nm mk f g mark).mark).gen)⟩,
          ⟨(comp nm mk s (comp nm mk f g mark).gen (comp nm mk f g mark).mark).mark, y⟩, ⟨(comp nm mk f g mark).mark, x⟩]] := by
      refine ho.only (Nat.le_trans hg hg2) (by simp only [comp]; omega) ?_ ?_
      · intro ρ hρ hn
        simp only [comp, List.mem_append, List.mem_cons, List.not_mem_nil, or_false] at hρ
        rcases hρ with (h | h) | rfl | rfl
        · exact absurd h (not_new (hf.mono (Nat.le_trans hg hg2)) (.inr hg2) hn)
        · exact absurd h (not_new (hf.mono (Nat.le_trans hg hg2)) (.inr (Nat.le_refl _)) hn)
        · exact ⟨_, List.mem_cons_self, by rw [hx]⟩
        · exact ⟨_, List.mem_cons_of_mem _ List.mem_cons_self, by rw [hx, hy]⟩
      · intro ts hts
        simp only [comp, List.mem_append, List.mem_cons, List.not_mem_nil, or_false] at hts ⊢
        rcases hts with rfl | rfl
        · rw [hx]; exact .inr (.inl rfl)
        · rw [hx, hy]; exact .inr (.inr rfl)
    exact .plusSep f s m _ l _ x y _ hE hE2 hO hC hC2
  | starSep f s t _ u hw _ hv he ih1 ih2 =>
    intro nm mk g mark hf ho ht hat
    have hg := comp_gen nm mk f g mark
    have hg2 := comp_gen nm mk s (comp nm mk f g mark).gen (comp nm mk f g mark).mark
    have hmem : ∀ ρ ∈ (comp nm mk (.starSep f s) g mark).new, ρ ∈ (comp nm mk f g mark).new ∨ ρ.name = nm ∨
        ρ ∈ (comp nm mk s (comp nm mk f g mark).gen (comp nm mk f g mark).mark).new ∨
        ∃ k, (comp nm mk s (comp nm mk f g mark).gen (comp nm mk f g mark).mark).gen ≤ k ∧ ρ.name = genName k := by
      intro ρ hρ
      simp only [comp, List.mem_append, List.mem_cons, List.not_mem_nil, or_false] at hρ
      rcases hρ with ((h | h) | rfl | rfl) | rfl | rfl
      · exact .inl h
      · exact .inr (.inr (.inl h))
      · exact .inr (.inr (.inr ⟨_, Nat.le_refl _, rfl⟩))
      · exact .inr (.inr (.inr ⟨_, Nat.le_refl _, rfl⟩))
      · exact .inr (.inr (.inr ⟨_, Nat.le_succ _, rfl⟩))
      · exact .inr (.inr (.inr ⟨_, Nat.le_succ _, rfl⟩))
    have ho1 := left (b := s) hf (fun ρ hρ => (hmem ρ hρ).imp id (Or.imp id (Or.imp id fun ⟨k, h, e⟩ => ⟨k, Nat.le_trans hg2 h, e⟩))) (by simp [comp]; grind) (by simp [comp]; grind) (by simp only [comp]; omega) ho
    have ho2 := right (b := s) hf hmem (by simp [comp]; grind) (by simp [comp]; grind) (by simp only [comp]; omega) ho
    obtain ⟨m, x, hx, hE, hC⟩ := rep hw (he rfl).1 hf ho1 (fun hok => (ht hok).1.2) (ih1 nm mk g mark hf ho1 (fun hok => (ht hok).1.1) (fun hok h => hat hok (.inl h)))
    obtain ⟨l, y, hy, hE2, hC2⟩ := rep hv (he rfl).2 (hf.mono hg) ho2 (fun hok => by rw [comp_mark]; exact (ht hok).2.2) (ih2 nm mk _ _ (hf.mono hg) ho2
      (fun hok => by rw [comp_mark]; exact (ht hok).2.1) (fun hok h => hat hok (.inr h)))
    generalize hd : comp nm mk s (comp nm mk f g mark).gen (comp nm mk f g mark).mark = d at *
    have hO : Only R (genName d.gen) [[⟨(comp nm mk f g mark).mark, x⟩], [⟨b#'-', .n (genName d.gen)⟩, ⟨d.mark, y⟩, ⟨(comp nm mk f g mark).mark, x⟩]] := by
      refine ho.only (Nat.le_trans hg hg2) (by simp only [comp, hd]; omega) ?_ ?_
      · intro ρ hρ hn
        simp only [comp, hd, List.mem_append, List.mem_cons, List.not_mem_nil, or_false] at hρ
        rcases hρ with ((h | h) | rfl | rfl) | rfl | rfl
        · exact absurd h (not_new (hf.mono (Nat.le_trans hg hg2)) (.inr hg2) hn)
        · rw [← hd] at h hn hg2
          exact absurd h (not_new (hf.mono (Nat.le_trans hg hg2)) (.inr (Nat.le_refl _)) hn)
        · exact ⟨_, List.mem_cons_self, by rw [hx]⟩
        · exact ⟨_, List.mem_cons_of_mem _ List.mem_cons_self, by rw [hx, hy]⟩
        · have := genName_inj (show genName (d.gen + 1) = genName d.gen from hn); omega
        · have := genName_inj (show genName (d.gen + 1) = genName d.gen from hn); omega
      · intro ts hts
        simp only [comp, hd, List.mem_append, List.mem_cons, List.not_mem_nil, or_false] at hts ⊢
        rcases hts with rfl | rfl
        · rw [hx]; exact .inl (.inr (.inl rfl))
        · rw [hx, hy]; exact .inl (.inr (.inr rfl))
    have hO2 : Only R (genName (d.gen + 1)) [[⟨b#'-', .n (genName d.gen)⟩], []] := by
      refine ho.only (by omega) (by simp only [comp, hd]; omega) ?_ ?_
      · intro ρ hρ hn
        simp only [comp, hd, List.mem_append, List.mem_cons, List.not_mem_nil, or_false] at hρ
        rcases hρ with ((h | h) | rfl | rfl) | rfl | rfl
        · exact absurd h (not_new (hf.mono (by omega)) (.inr (by omega)) hn)
        · rw [← hd] at h hn hg2
          exact absurd h (not_new (hf.mono (by omega)) (.inr (Nat.le_succ _)) hn)
        · have := genName_inj (show genName d.gen = genName (d.gen + 1) from hn); omega
        · have := genName_inj (show genName d.gen = genName (d.gen + 1) from hn); omega
        · exact ⟨_, by simp, rfl⟩
        · exact ⟨_, by simp, rfl⟩
      · intro ts hts
        simp only [comp, hd, List.mem_append, List.mem_cons, List.not_mem_nil, or_false] at hts ⊢
        rcases hts with rfl | rfl
        · exact .inr (.inl rfl)
        · exact .inr (.inr rfl)
    have : (comp nm mk (.starSep f s) g mark).ts = [⟨b#'-', .n (genName (d.gen + 1))⟩] := by simp only [comp, hd]
    rw [this]
    exact .starSep f s _ _ (.plusSep f s m _ l _ x y _ hE hE2 hO hC hC2) hO2
  | eps => intro nm mk g mark hf ho ht hat; exact .eps
  | last r t _ ih => exact ih
  | seq a b t s u hw _ hv _ ih1 ih2 =>
    intro nm mk g mark hf ho ht hat
    have hg := comp_gen nm mk a g mark
    have hg2 := comp_gen nm mk b (comp nm mk a g mark).gen (comp nm mk a g mark).mark
    have hmem : ∀ ρ ∈ (comp nm mk (.seq a b) g mark).new, ρ ∈ (comp nm mk a g mark).new ∨ ρ.name = nm ∨
        ρ ∈ (comp nm mk b (comp nm mk a g mark).gen (comp nm mk a g mark).mark).new ∨
        ∃ k, (comp nm mk b (comp nm mk a g mark).gen (comp nm mk a g mark).mark).gen ≤ k ∧ ρ.name = genName k := by
      intro ρ hρ
      rcases List.mem_append.1 hρ with h | h
      · exact .inl h
      · exact .inr (.inr (.inl h))
    have ho1 := left (b := b) hf (fun ρ hρ => (hmem ρ hρ).imp id (Or.imp id (Or.imp id fun ⟨k, h, e⟩ => ⟨k, Nat.le_trans hg2 h, e⟩))) (by simp [comp]; grind) (by simp [comp]; grind) (by simp only [comp]; omega) ho
    have ho2 := right (b := b) hf hmem (by simp [comp]; grind) (by simp [comp]; grind) (by simp only [comp]; omega) ho
    have e1 := ih1 nm mk g mark hf ho1 (fun hok => (ht hok).1) (fun hok h => hat hok (.inl h))
    have e2 := ih2 nm mk _ _ (hf.mono hg) ho2 (fun hok => by rw [comp_mark]; exact (ht hok).2) (fun hok h => hat hok (.inr h))
    rw [altsTail_nil (not_alt hw (by simp))] at e1
    rw [altsTail_nil (not_alt hv (by simp))] at e2
    exact .seq a b _ _ e1 e2
  | alone r t _ ih => exact ih
  | alt a b c t s u hw _ _ hv _ ih1 ih2 =>
    intro nm mk g mark hf ho ht hat
    have hg := comp_gen nm mk a g mark
    have hg2 := comp_gen nm mk b (comp nm mk a g mark).gen (comp nm mk a g mark).mark
    have hmem : ∀ ρ ∈ (comp nm mk (.alt a b) g mark).new, ρ ∈ (comp nm mk a g mark).new ∨ ρ.name = nm ∨
        ρ ∈ (comp nm mk b (comp nm mk a g mark).gen (comp nm mk a g mark).mark).new ∨
        ∃ k, (comp nm mk b (comp nm mk a g mark).gen (comp nm mk a g mark).mark).gen ≤ k ∧ ρ.name = genName k := by
      intro ρ hρ
      simp only [comp, List.mem_append, List.mem_cons] at hρ
      rcases hρ with h | rfl | h
      · exact .inl h
      · exact .inr (.inl rfl)
      · exact .inr (.inr (.inl h))
    have ho1 := left (b := b) hf (fun ρ hρ => (hmem ρ hρ).imp id (Or.imp id (Or.imp id fun ⟨k, h, e⟩ => ⟨k, Nat.le_trans hg2 h, e⟩))) (by simp [comp]; grind) (by simp [comp]; grind) (by simp only [comp]; omega) ho
    have ho2 := right (b := b) hf hmem (by simp [comp]; grind) (by simp [comp]; grind) (by simp only [comp]; omega) ho
    have e1 := ih1 nm mk g mark hf ho1 (fun hok => (ht hok).1) (fun hok h => hat hok (.inl h))
    have e2 := ih2 nm mk _ _ (hf.mono hg) ho2 (fun hok => by rw [comp_mark]; exact (ht hok).2) (fun hok h => hat hok (.inr h))
    rw [altsTail_nil (not_alt hw (by simp))] at e1
    exact .alt a b _ _ e1 e2

end Xmq.Ixml
