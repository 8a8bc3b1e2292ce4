import Verif.Lemmas.EarleyExpand
/-!
# What a set of the Earley parser contains
-/
namespace Xmq.Yaep
open Xmq.Ixml (Sym)

variable {g : Gram}

/-- The set made from the started dotted rules `l`. -/
structure SetOk (g : Gram) (l : List Item) (s : SSet) : Prop where
  started : s.core.started = l.map Prod.fst
  lens : s.lens = l.map Prod.snd
  nys : ∀ e p, (e, p) ∈ s.core.nys ↔ ∃ q, l[p]? = some q ∧ Skipped g q.1 e
  nysNodup : s.core.nys.Nodup
  nodup : s.core.initial.Nodup
  apart : ∀ d ∈ s.core.initial, ∀ p ∈ l, ¬ Skipped g p.1 d
  valid : ∀ d ∈ s.core.initial, g.Valid d
  rules : ∀ p ∈ s.items, ∀ a, g.next p.1 = some (.n a) → ∀ r ∈ g.ruleIds a, ⟨r, 0⟩ ∈ s.core.initial
  skip : ∀ d ∈ s.core.initial, ∀ x, g.next d = some x → g.empty x = true → d.succ ∈ s.core.initial ∨ ∃ p ∈ l, Skipped g p.1 d.succ
  induct : ∀ Q : Dotted → Prop, (∀ p ∈ l, ∀ a, g.next p.1 = some (.n a) → ∀ r ∈ g.ruleIds a, Q ⟨r, 0⟩) →
    (∀ p ∈ l, ∀ e, Skipped g p.1 e → ∀ a, g.next e = some (.n a) → ∀ r ∈ g.ruleIds a, Q ⟨r, 0⟩) →
    (∀ d a, d ∈ s.core.initial → Q d → g.next d = some (.n a) → ∀ r ∈ g.ruleIds a, Q ⟨r, 0⟩) →
    (∀ d x, d ∈ s.core.initial → Q d → g.next d = some x → g.empty x = true → Q d.succ) → ∀ d ∈ s.core.initial, Q d

theorem zip_map_fst_snd {α β : Type} : ∀ l : List (α × β), (l.map Prod.fst).zip (l.map Prod.snd) = l
  | [] => rfl
  | p :: l => by simp [zip_map_fst_snd l]

namespace SetOk
variable {l : List Item} {s : SSet}

theorem items_eq (h : SetOk g l s) : s.items = l ++ s.core.nys.map (fun p => (p.1, (s.lens[p.2]?).getD 0)) ++ s.core.initial.map fun d => (d, 0) := by
  unfold SSet.items
  rw [h.started, h.lens, zip_map_fst_snd]

theorem mem_items (h : SetOk g l s) {d : Dotted} {m : Nat} :
    (d, m) ∈ s.items ↔ (d, m) ∈ l ∨ (∃ d0, (d0, m) ∈ l ∧ Skipped g d0 d) ∨ (m = 0 ∧ d ∈ s.core.initial) := by
  rw [h.items_eq, List.mem_append, List.mem_append, or_assoc]
  refine or_congr Iff.rfl (or_congr ?_ ?_)
  · rw [List.mem_map]
    constructor
    · rintro ⟨⟨e, p⟩, h1, h2⟩
      obtain ⟨q, h3, h4⟩ := (h.nys e p).1 h1
      rw [h.lens, List.getElem?_map, h3] at h2
      cases h2
      exact ⟨q.1, List.mem_of_getElem? h3, h4⟩
    · rintro ⟨d0, h1, h2⟩
      obtain ⟨p, hp, h3⟩ := List.getElem_of_mem h1
      have h3' : l[p]? = some (d0, m) := List.getElem?_eq_some_iff.2 ⟨hp, h3⟩
      refine ⟨(d, p), (h.nys d p).2 ⟨_, h3', h2⟩, ?_⟩
      rw [h.lens, List.getElem?_map, h3']
      rfl
  · rw [List.mem_map]
    constructor
    · rintro ⟨a, h1, h2⟩
      cases h2
      exact ⟨rfl, h1⟩
    · rintro ⟨rfl, h1⟩
      exact ⟨d, h1, rfl⟩

theorem mem_started (h : SetOk g l s) {p : Item} (hp : p ∈ l) : p ∈ s.items := by
  rw [h.items_eq]
  exact List.mem_append_left _ (List.mem_append_left _ hp)

end SetOk

theorem skipped_pos {d e : Dotted} (h : Skipped g d e) : 0 < e.dot := by
  have := h.2.1
  omega

theorem makeSet_ok (g : Gram) (l : List Item) : ∃ s, makeSet g l = .ok s ∧ SetOk g l s := by
  obtain ⟨c, h1, h2, h3, _, h5, h6, h7, h8, h9⟩ := expandLoop_some (g := g) ((l.map Prod.fst).length + (addAllNys g (l.map Prod.fst) 0 []).length + g.size + 1) 0
    ⟨l.map Prod.fst, addAllNys g (l.map Prod.fst) 0 [], []⟩ (Nat.zero_le _) (Nat.le_refl _) (by simp) (by simp) (by simp) (by intro j e hj; omega)
  simp only at h2 h3
  have hm : makeSet g l = .ok ⟨c, l.map Prod.snd⟩ := by
    unfold makeSet expand
    rw [h1]
  have hnys : ∀ e p, (e, p) ∈ c.nys ↔ ∃ q, l[p]? = some q ∧ Skipped g q.1 e := by
    intro e p
    rw [h3, mem_addAllNys]
    simp only [List.not_mem_nil, false_or, Nat.zero_add, List.getElem?_map]
    constructor
    · rintro ⟨i, d, a, b, rfl⟩
      cases hq : l[p]? with
      | none => rw [hq] at a; cases a
      | some q =>
        rw [hq] at a
        cases a
        exact ⟨q, rfl, skipped_iff.1 b⟩
    · rintro ⟨q, a, b⟩
      exact ⟨p, q.1, by rw [a]; rfl, skipped_iff.2 b, rfl⟩
  have hnys' : ∀ e, e ∈ c.nys.map Prod.fst ↔ ∃ q ∈ l, Skipped g q.1 e := by
    intro e
    rw [List.mem_map]
    constructor
    · rintro ⟨⟨e', p⟩, a, rfl⟩
      obtain ⟨q, b, c⟩ := (hnys e' p).1 a
      exact ⟨q, List.mem_of_getElem? b, c⟩
    · rintro ⟨q, a, b⟩
      obtain ⟨p, hp, e1⟩ := List.getElem_of_mem a
      exact ⟨(e, p), (hnys e p).2 ⟨q, List.getElem?_eq_some_iff.2 ⟨hp, e1⟩, b⟩, rfl⟩
  have hrest : ∀ d : Dotted, d ∈ c.rest → d.dot = 0 → d ∈ c.initial := by
    intro d hd h0
    rcases List.mem_append.1 hd with hd | hd
    · obtain ⟨q, _, b⟩ := (hnys' d).1 hd
      have := skipped_pos b
      omega
    · exact hd
  have hitems : ∀ p : Item, p ∈ (⟨c, l.map Prod.snd⟩ : SSet).items → p.1 ∈ c.all := by
    intro p hp
    unfold SSet.items at hp
    simp only at hp
    rw [h2, zip_map_fst_snd] at hp
    unfold Core.all
    rw [h2]
    simp only [List.mem_append, List.mem_map] at hp ⊢
    rcases hp with (hp | ⟨q, hp, rfl⟩) | ⟨d, hp, rfl⟩
    · exact .inl (.inl ⟨p, hp, rfl⟩)
    · exact .inl (.inr ⟨q, hp, rfl⟩)
    · exact .inr hp
  refine ⟨_, hm, h2, rfl, hnys, by rw [h3]; exact addAllNys_nodup (by simp), h5, ?_, h7, ?_, ?_, ?_⟩
  · intro d hd p hp hs
    exact h6 d hd ((hnys' d).2 ⟨p, hp, hs⟩)
  · intro p hp a ha r hr
    obtain ⟨j, hj, e⟩ := List.getElem_of_mem (hitems p hp)
    exact hrest _ ((h8 j p.1 (List.getElem?_eq_some_iff.2 ⟨hj, e⟩)).1 a ha r hr) rfl
  · intro d hd x hx he
    obtain ⟨j, hj, e⟩ := List.getElem_of_mem hd
    have hj' : c.all[c.started.length + c.nys.length + j]? = some d := by
      unfold Core.all
      rw [List.getElem?_append_right (by simp)]
      refine List.getElem?_eq_some_iff.2 ⟨by simpa using hj, ?_⟩
      simpa using e
    rcases List.mem_append.1 ((h8 _ d hj').2 x hx he (by omega)) with h | h
    · exact .inr ((hnys' _).1 h)
    · exact .inl h
  · intro Q q1 q2 q3 q4
    refine h9 Q (by simp) ?_ q3 q4
    intro d hd
    rcases List.mem_append.1 hd with hd | hd
    · obtain ⟨p, hp, rfl⟩ := List.mem_map.1 hd
      exact q1 p hp
    · rw [← h3] at hd
      obtain ⟨q, a, b⟩ := (hnys' d).1 hd
      exact q2 q a d b

end Xmq.Yaep
