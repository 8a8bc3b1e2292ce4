import Verif.Model.Yaep
import Verif.Lemmas.Cfg
/-!
# Sets that grow until nothing changes
-/
namespace Xmq.Yaep
open Xmq.Ixml (Sym)
open Xmq.Spec

variable {α : Type} [DecidableEq α]

theorem nodup_length_le : ∀ {s u : List α}, s.Nodup → (∀ x ∈ s, x ∈ u) → s.length ≤ u.length
  | [], _, _, _ => by simp
  | x :: s, u, hn, hs => by
    have hx : x ∈ u := hs x (by simp)
    have hn' := List.nodup_cons.1 hn
    have := nodup_length_le (s := s) (u := u.erase x) hn'.2 (by
      intro y hy
      have hne : y ≠ x := fun e => hn'.1 (e ▸ hy)
      exact (List.mem_erase_of_ne hne).2 (hs y (by simp [hy])))
    rw [List.length_erase_of_mem hx] at this
    have : 0 < u.length := List.length_pos_of_mem hx
    simp only [List.length_cons]
    omega

/-- `t` comes from `s` by additions, each of which keeps `S` true of all members. -/
inductive Grow (S : α → Prop) (s : List α × Bool) : List α × Bool → Prop
  | refl : Grow S s s
  | add (x : α) (t : List α × Bool) : Grow S s t → ((∀ y ∈ t.1, S y) → S x) → Grow S s (add x t)

variable {S : α → Prop} {s t u : List α × Bool}

theorem Grow.trans (h1 : Grow S s t) (h2 : Grow S t u) : Grow S s u := by
  induction h2 with
  | refl => exact h1
  | add x t _ hx ih => exact .add x t ih hx

theorem Grow.one (x : α) (hx : (∀ y ∈ s.1, S y) → S x) : Grow S s (Yaep.add x s) := .add x s .refl hx

theorem Grow.mono (h : Grow S s t) : ∀ y ∈ s.1, y ∈ t.1 := by
  induction h with
  | refl => exact fun _ h => h
  | add x t _ _ ih =>
    intro y hy
    unfold Yaep.add
    split
    · exact ih y hy
    · exact List.mem_cons_of_mem _ (ih y hy)

theorem Grow.inv (h : Grow S s t) (hs : ∀ y ∈ s.1, S y) : ∀ y ∈ t.1, S y := by
  induction h with
  | refl => exact hs
  | add x t _ hx ih =>
    unfold Yaep.add
    split
    · exact ih
    · intro y hy
      rcases List.mem_cons.1 hy with rfl | hy
      · exact hx ih
      · exact ih y hy

theorem Grow.nodup (h : Grow S s t) (hs : s.1.Nodup) : t.1.Nodup := by
  induction h with
  | refl => exact hs
  | add x t _ _ ih =>
    unfold Yaep.add
    split
    · exact ih
    · next hx => exact List.nodup_cons.2 ⟨hx, ih⟩

theorem Grow.flag (h : Grow S s t) : (t.2 = false → t = s) ∧ s.1.length ≤ t.1.length ∧ (t.2 = true → s.2 = true ∨ s.1.length < t.1.length) := by
  induction h with
  | refl => exact ⟨fun _ => rfl, Nat.le_refl _, fun h => .inl h⟩
  | add x t _ _ ih =>
    unfold Yaep.add
    split
    · exact ih
    · refine ⟨fun h => by simp at h, by simp; omega, fun _ => .inr ?_⟩
      simp
      omega

/-- After additions without a change each of two parts is without a change. -/
theorem Grow.fixed (h1 : Grow S s t) (h2 : Grow S t u) (hu : u = s) (hs : s.2 = false) : t = s := by
  subst hu
  have := h2.flag.1 hs
  exact this.symm

theorem grow_foldl {β : Type} {f : List α × Bool → β → List α × Bool} : ∀ {l : List β} {s : List α × Bool}, (∀ x ∈ l, ∀ s, Grow S s (f s x)) → Grow S s (l.foldl f s)
  | [], _, _ => .refl
  | x :: l, s, h => (h x (by simp) s).trans (grow_foldl (l := l) fun y hy => h y (by simp [hy]))

theorem fixed_foldl {β : Type} {f : List α × Bool → β → List α × Bool} : ∀ {l : List β} {s : List α × Bool}, (∀ x ∈ l, ∀ s, Grow S s (f s x)) → s.2 = false →
    l.foldl f s = s → ∀ x ∈ l, f s x = s
  | [], _, _, _, _ => by simp
  | x :: l, s, h, hs, e => by
    have h2 : Grow S (f s x) (l.foldl f (f s x)) := grow_foldl (l := l) fun y hy => h y (by simp [hy])
    have hx : f s x = s := (h x (by simp) s).fixed h2 e hs
    intro y hy
    rcases List.mem_cons.1 hy with rfl | hy
    · exact hx
    · rw [List.foldl_cons, hx] at e
      exact fixed_foldl (l := l) (fun y hy => h y (by simp [hy])) hs e y hy

theorem add_fixed {x : α} (hs : s.2 = false) (h : add x s = s) : x ∈ s.1 := by
  unfold Yaep.add at h
  split at h
  · assumption
  · have := congrArg Prod.snd h
    simp [hs] at this

/-- The loop ends, and nothing changes in a further round. -/
theorem repeatUntil_some {round : List α × Bool → List α × Bool} (hr : ∀ s, Grow S s (round s)) {U : List α} (hU : ∀ x, S x → x ∈ U) :
    ∀ (n : Nat) (s : List α), s.Nodup → (∀ y ∈ s, S y) → U.length < n + s.length →
      ∃ t, repeatUntil round n s = some t ∧ (∀ y ∈ s, y ∈ t) ∧ (∀ y ∈ t, S y) ∧ round (t, false) = (t, false)
  | 0, s, hn, hs, hl => by
    have := nodup_length_le hn (fun x hx => hU x (hs x hx))
    omega
  | n + 1, s, hn, hs, hl => by
    unfold repeatUntil
    have hg := hr (s, false)
    cases hb : (round (s, false)).2 with
    | false =>
      have e := hg.flag.1 hb
      simp only [Bool.false_eq_true, if_false]
      exact ⟨_, rfl, hg.mono, hg.inv hs, by rw [e]; exact e⟩
    | true =>
      rw [if_pos rfl]
      have hlt := hg.flag.2.2 hb
      simp at hlt
      obtain ⟨t, h1, h2, h3, h4⟩ := repeatUntil_some hr hU n (round (s, false)).1 (hg.nodup hn) (hg.inv hs) (by omega)
      exact ⟨t, h1, fun y hy => h2 y (hg.mono y hy), h3, h4⟩

end Xmq.Yaep
