import Verif.Spec.Cfg
/-!
# Derivations in context free grammars
-/
namespace Xmq.Cfg
open Xmq.Spec

variable {σ : Type} {P : σ → List σ → Prop}

theorem Yields.trans {α β γ : List σ} (h1 : Yields P α β) (h2 : Yields P β γ) : Yields P α γ := by
  induction h2 with
  | refl => exact h1
  | step u x v rhs _ hp ih => exact .step u x v rhs ih hp

theorem Yields.ctx {α β : List σ} (h : Yields P α β) (l r : List σ) : Yields P (l ++ (α ++ r)) (l ++ (β ++ r)) := by
  induction h with
  | refl => exact .refl
  | step u x v rhs _ hp ih =>
    have := Yields.step (l ++ u) x (v ++ r) rhs (by simpa using ih) hp
    simpa using this

theorem Yields.append {α β γ δ : List σ} (h1 : Yields P α β) (h2 : Yields P γ δ) : Yields P (α ++ γ) (β ++ δ) := by
  have a := Yields.ctx h1 [] γ
  have b := Yields.ctx h2 β []
  simp only [List.nil_append, List.append_nil] at a b
  exact Yields.trans a b

theorem Yields.rule {x : σ} {rhs : List σ} (h : P x rhs) : Yields P [x] rhs := by
  have := Yields.step (P := P) (α := [x]) [] x [] rhs .refl h
  simpa using this

theorem yields_nulls {α : List σ} (h : ∀ x ∈ α, Nullable P x) : Yields P α [] := by
  induction α with
  | nil => exact .refl
  | cons x α ih => exact Yields.append (α := [x]) (β := []) (h x (by simp)) (ih fun y hy => h y (by simp [hy]))

/-! ## Derivations as trees -/

/-- The same as `Yields`, symbol by symbol. -/
inductive Gen (P : σ → List σ → Prop) : List σ → List σ → Prop
  | nil : Gen P [] []
  | keep (x : σ) (α β : List σ) : Gen P α β → Gen P (x :: α) (x :: β)
  | expand (x : σ) (rhs α β γ : List σ) : P x rhs → Gen P rhs β → Gen P α γ → Gen P (x :: α) (β ++ γ)

theorem Gen.refl : ∀ α : List σ, Gen P α α
  | [] => .nil
  | x :: α => .keep x α α (Gen.refl α)

theorem Gen.append {α β γ δ : List σ} (h1 : Gen P α β) (h2 : Gen P γ δ) : Gen P (α ++ γ) (β ++ δ) := by
  induction h1 with
  | nil => exact h2
  | keep x α β _ ih => exact .keep x _ _ ih
  | expand x rhs α β γ' hp h _ _ ih =>
    rw [List.append_assoc]
    exact .expand x rhs _ _ _ hp h ih

theorem Gen.split : ∀ {α γ δ : List σ}, Gen P (α ++ γ) δ → ∃ δ1 δ2, δ = δ1 ++ δ2 ∧ Gen P α δ1 ∧ Gen P γ δ2
  | [], γ, δ, h => ⟨[], δ, rfl, .nil, h⟩
  | x :: α, γ, δ, h => by
    cases h with
    | keep _ _ β h =>
      obtain ⟨d1, d2, rfl, h1, h2⟩ := Gen.split h
      exact ⟨x :: d1, d2, rfl, .keep x _ _ h1, h2⟩
    | expand _ rhs _ β β' hp hr h =>
      obtain ⟨d1, d2, rfl, h1, h2⟩ := Gen.split h
      exact ⟨β ++ d1, d2, by simp, .expand x rhs _ _ _ hp hr h1, h2⟩

theorem Gen.yields {α β : List σ} (h : Gen P α β) : Yields P α β := by
  induction h with
  | nil => exact .refl
  | keep x α β _ ih => exact Yields.append (α := [x]) (β := [x]) .refl ih
  | expand x rhs α β γ hp _ _ ih1 ih2 => exact Yields.append (α := [x]) (Yields.trans (Yields.rule hp) ih1) ih2

theorem Gen.head {u v rhs δ : List σ} {x : σ} (hp : P x rhs) (h : Gen P (u ++ (rhs ++ v)) δ) : Gen P (u ++ x :: v) δ := by
  obtain ⟨d1, d2, rfl, h1, h2⟩ := h.split
  obtain ⟨d3, d4, rfl, h3, h4⟩ := h2.split
  exact h1.append (.expand x rhs v d3 d4 hp h3 h4)

theorem yields_gen {α β : List σ} (h : Yields P α β) : Gen P α β := by
  have : ∀ δ, Gen P β δ → Gen P α δ := by
    induction h with
    | refl => exact fun δ h => h
    | step u x v rhs _ hp ih => exact fun δ h => ih δ (h.head hp)
  exact this β (.refl β)

/-! ## Empty strings -/

theorem gen_nil {E : σ → Prop} (hE : ∀ x rhs, P x rhs → (∀ y ∈ rhs, E y) → E x) {α δ : List σ} (h : Gen P α δ) : δ = [] → ∀ x ∈ α, E x := by
  induction h with
  | nil => intro _ x hx; cases hx
  | keep x α β _ _ => intro h; cases h
  | expand x rhs α β γ hp _ _ ih1 ih2 =>
    intro h y hy
    obtain ⟨hb, hg⟩ := List.append_eq_nil_iff.1 h
    rcases List.mem_cons.1 hy with rfl | hy
    · exact hE _ rhs hp (ih1 hb)
    · exact ih2 hg y hy

theorem yields_nil {α : List σ} (h : Yields P α []) : ∀ x ∈ α, Nullable P x :=
  gen_nil (E := Nullable P) (fun _ _ hp hr => Yields.trans (Yields.rule hp) (yields_nulls hr)) (yields_gen h) rfl

/-! ## Strings of terminals -/

theorem gen_terms {T D : σ → Prop} (hT : ∀ x, T x → D x) (hD : ∀ x rhs, P x rhs → (∀ y ∈ rhs, D y) → D x) {α δ : List σ} (h : Gen P α δ) :
    (∀ y ∈ δ, T y) → ∀ x ∈ α, D x := by
  induction h with
  | nil => intro _ x hx; cases hx
  | keep x α β _ ih =>
    intro h y hy
    rcases List.mem_cons.1 hy with rfl | hy
    · exact hT _ (h _ (by simp))
    · exact ih (fun z hz => h z (by simp [hz])) y hy
  | expand x rhs α β γ hp _ _ ih1 ih2 =>
    intro h y hy
    rcases List.mem_cons.1 hy with rfl | hy
    · exact hD _ rhs hp (ih1 fun z hz => h z (by simp [hz]))
    · exact ih2 (fun z hz => h z (by simp [hz])) y hy

theorem productive_all {T : σ → Prop} : ∀ {α : List σ}, (∀ x ∈ α, Productive P T x) → ∃ w, (∀ y ∈ w, T y) ∧ Yields P α w
  | [], _ => ⟨[], by simp, .refl⟩
  | x :: α, h => by
    obtain ⟨w1, h1, h2⟩ := h x (by simp)
    obtain ⟨w2, h3, h4⟩ := productive_all (α := α) fun y hy => h y (by simp [hy])
    refine ⟨w1 ++ w2, ?_, Yields.append (α := [x]) h2 h4⟩
    intro y hy
    rcases List.mem_append.1 hy with hy | hy
    · exact h1 y hy
    · exact h3 y hy

/-! ## Loops -/

/-- One step after which everything but one symbol can vanish. -/
def Sole (P : σ → List σ → Prop) (x y : σ) : Prop := ∃ u v, P x (u ++ y :: v) ∧ (∀ z ∈ u, Nullable P z) ∧ ∀ z ∈ v, Nullable P z

/-- At least one such step. -/
inductive Chain (P : σ → List σ → Prop) : σ → σ → Prop
  | one {x y : σ} : Sole P x y → Chain P x y
  | cons {x y z : σ} : Sole P x y → Chain P y z → Chain P x z

theorem Chain.trans {x y z : σ} (h1 : Chain P x y) (h2 : Chain P y z) : Chain P x z := by
  induction h1 with
  | one h => exact .cons h h2
  | cons h _ ih => exact .cons h (ih h2)

theorem sole_yields {x y : σ} (h : Sole P x y) : ∃ rhs, P x rhs ∧ Yields P rhs [y] := by
  obtain ⟨u, v, hp, hu, hv⟩ := h
  refine ⟨_, hp, ?_⟩
  have := Yields.append (yields_nulls hu) (Yields.append (α := [y]) (β := [y]) .refl (yields_nulls hv))
  simpa using this

theorem chain_yields {x y : σ} (h : Chain P x y) : ∃ rhs, P x rhs ∧ Yields P rhs [y] := by
  induction h with
  | one h => exact sole_yields h
  | cons h _ ih =>
    obtain ⟨r1, h1, h2⟩ := sole_yields h
    obtain ⟨r2, h3, h4⟩ := ih
    exact ⟨r1, h1, Yields.trans h2 (Yields.trans (Yields.rule h3) h4)⟩

theorem gen_single {α δ : List σ} (h : Gen P α δ) : ∀ y, δ = [y] → ∃ u x v, α = u ++ x :: v ∧ (∀ z ∈ u, Nullable P z) ∧ (∀ z ∈ v, Nullable P z) ∧
    (x = y ∨ Chain P x y) := by
  induction h with
  | nil => intro y h; cases h
  | keep x α β h ih =>
    intro y e
    cases e
    exact ⟨[], x, α, rfl, by simp, yields_nil h.yields, .inl rfl⟩
  | expand x rhs α β γ hp h1 h2 ih1 ih2 =>
    intro y e
    rcases List.append_eq_singleton_iff.1 e with ⟨rfl, rfl⟩ | ⟨rfl, rfl⟩
    · obtain ⟨u, z, v, rfl, hu, hv, hz⟩ := ih2 y rfl
      refine ⟨x :: u, z, v, rfl, ?_, hv, hz⟩
      intro w hw
      rcases List.mem_cons.1 hw with rfl | hw
      · exact Yields.trans (Yields.rule hp) h1.yields
      · exact hu w hw
    · obtain ⟨u, z, v, rfl, hu, hv, hz⟩ := ih1 y rfl
      refine ⟨[], x, α, rfl, by simp, yields_nil h2.yields, .inr ?_⟩
      rcases hz with rfl | hz
      · exact .one ⟨u, v, hp, hu, hv⟩
      · exact .cons ⟨u, v, hp, hu, hv⟩ hz

theorem loops_iff {x : σ} : Loops P x ↔ Chain P x x := by
  constructor
  · rintro ⟨rhs, hp, h⟩
    obtain ⟨u, z, v, rfl, hu, hv, hz⟩ := gen_single (yields_gen h) x rfl
    rcases hz with rfl | hz
    · exact .one ⟨u, v, hp, hu, hv⟩
    · exact .cons ⟨u, v, hp, hu, hv⟩ hz
  · exact chain_yields

/-! ## What comes first -/

theorem gen_begins {t : σ} {F : σ → Prop} (hF : ∀ x u y v, P x (u ++ y :: v) → (∀ z ∈ u, Nullable P z) → y = t ∨ F y → F x) {α δ : List σ} (h : Gen P α δ) :
    ∀ β, δ = t :: β → ∃ u x v, α = u ++ x :: v ∧ (∀ z ∈ u, Nullable P z) ∧ (x = t ∨ F x) := by
  induction h with
  | nil => intro β h; cases h
  | keep x α β h ih =>
    intro β e
    cases e
    exact ⟨[], _, α, rfl, by simp, .inl rfl⟩
  | expand x rhs α β γ hp h1 h2 ih1 ih2 =>
    intro δ e
    cases β with
    | nil =>
      obtain ⟨u, z, v, rfl, hu, hz⟩ := ih2 δ e
      refine ⟨x :: u, z, v, rfl, ?_, hz⟩
      intro w hw
      rcases List.mem_cons.1 hw with rfl | hw
      · exact Yields.trans (Yields.rule hp) h1.yields
      · exact hu w hw
    | cons b β =>
      rw [List.cons_append] at e
      injection e with e1 e2
      subst e1
      obtain ⟨u, z, v, rfl, hu, hz⟩ := ih1 β rfl
      exact ⟨[], x, α, rfl, by simp, .inr (hF x u z v hp hu hz)⟩

theorem begins_of {u v : List σ} {x t : σ} (hu : ∀ z ∈ u, Nullable P z) (h : Begins P [x] t) : Begins P (u ++ x :: v) t := by
  obtain ⟨β, h⟩ := h
  exact ⟨β ++ v, by simpa using Yields.append (yields_nulls hu) (Yields.append h (.refl (α := v)))⟩

/-! ## What comes next -/

theorem split_at {α β u r : List σ} {x : σ} (h : α ++ β = u ++ x :: r) :
    (∃ μ, α = u ++ x :: μ ∧ r = μ ++ β) ∨ ∃ μ, u = α ++ μ ∧ β = μ ++ x :: r := by
  rcases List.append_eq_append_iff.1 h with ⟨a, h1, h2⟩ | ⟨a, h1, h2⟩
  · exact .inr ⟨a, h1, h2⟩
  · cases a with
    | nil => exact .inr ⟨[], by simpa using h1.symm, by simpa using h2.symm⟩
    | cons b a =>
      rw [List.cons_append] at h2
      injection h2 with e1 e2
      subst e1
      exact .inl ⟨a, h1, e2⟩

theorem follows_closed {t : σ} {F N : σ → Prop} (hN : ∀ l rhs, P l rhs → N l)
    (h1 : ∀ l u x η y v, N x → P l (u ++ x :: (η ++ y :: v)) → (∀ z ∈ η, Nullable P z) → Begins P [y] t → F x)
    (h2 : ∀ l u x η, N x → P l (u ++ x :: η) → (∀ z ∈ η, Nullable P z) → F l → F x) {b : σ} {δ : List σ} (h : Yields P [b] δ) :
    ∀ u x η y v, δ = u ++ x :: (η ++ y :: v) → N x → (∀ z ∈ η, Nullable P z) → Begins P [y] t → F x := by
  induction h with
  | refl =>
    intro u x η y v e
    have := congrArg List.length e
    simp at this
    omega
  | step u0 l v0 rhs hy hp ih =>
    intro u x η y v e hx hη hb
    rcases split_at e with ⟨μ, rfl, e2⟩ | ⟨μ, rfl, e2⟩
    · rcases split_at e2.symm with ⟨μ1, rfl, rfl⟩ | ⟨μ1, rfl, e3⟩
      · exact ih u x η y (μ1 ++ l :: v0) (by simp) hx hη hb
      · rcases split_at e3 with ⟨μ2, rfl, rfl⟩ | ⟨μ2, rfl, rfl⟩
        · refine ih u x μ l v0 (by simp) hx (fun z hz => hη z (by simp [hz])) ?_
          obtain ⟨β, hβ⟩ := begins_of (u := μ1) (v := μ2) (fun z hz => hη z (by simp [hz])) hb
          exact ⟨β, Yields.trans (Yields.rule hp) hβ⟩
        · refine ih u x (μ ++ l :: μ2) y v (by simp) hx ?_ hb
          intro z hz
          have hl : Nullable P l := Yields.trans (Yields.rule hp) (yields_nulls fun w hw => hη w (by simp [hw]))
          simp only [List.mem_append, List.mem_cons] at hz
          rcases hz with hz | rfl | hz
          · exact hη z (by simp [hz])
          · exact hl
          · exact hη z (by simp [hz])
    · rcases split_at e2 with ⟨μ1, rfl, e3⟩ | ⟨μ1, rfl, rfl⟩
      · rcases split_at e3.symm with ⟨μ2, rfl, rfl⟩ | ⟨μ2, rfl, rfl⟩
        · exact h1 l μ x η y μ2 hx hp hη hb
        · refine h2 l μ x μ1 hx hp (fun z hz => hη z (by simp [hz])) ?_
          exact ih u0 l μ2 y v (by simp) (hN l _ hp) (fun z hz => hη z (by simp [hz])) hb
      · exact ih (u0 ++ l :: μ1) x η y v (by simp) hx hη hb

end Xmq.Cfg
