import Verif.Lemmas.EarleyAccept
/-!
# The parser in terms of the grammar that was given
-/
namespace Xmq.Yaep
open Xmq.Ixml (Sym)
open Xmq.Spec Xmq.Cfg

variable {g : Gram} {w text : List Int} {start : List Byte} {sets : List SSet} {P : Sym → List Sym → Prop}

/-- The rules without those of the axiom. -/
def Inner (g : Gram) (P : Sym → List Sym → Prop) : Prop := ∀ x rhs, P x rhs ↔ Prods g.rules x rhs ∧ x ≠ .n axiomName

theorem gen_inner (hg : Proper g start) (hP : Inner g P) {α δ : List Sym} (h : Gen (Prods g.rules) α δ) (ha : .n axiomName ∉ α) : Gen P α δ := by
  induction h with
  | nil => exact .nil
  | keep x α β _ ih => exact .keep x α β (ih fun h => ha (List.mem_cons_of_mem _ h))
  | expand x rhs α β γ hp _ _ ih1 ih2 =>
    refine .expand x rhs α β γ ((hP _ _).2 ⟨hp, fun e => ha (e ▸ List.mem_cons_self)⟩) (ih1 ?_) (ih2 fun h => ha (List.mem_cons_of_mem _ h))
    obtain ⟨ρ, hρ, _, rfl⟩ := hp
    exact hg.noax ρ hρ

theorem gen_outer (hP : Inner g P) {α δ : List Sym} (h : Gen P α δ) : Gen (Prods g.rules) α δ := by
  induction h with
  | nil => exact .nil
  | keep x α β _ ih => exact .keep x α β ih
  | expand x rhs α β γ hp _ _ ih1 ih2 => exact .expand x rhs α β γ ((hP _ _).1 hp).1 ih1 ih2

theorem yields_inner (hg : Proper g start) (hP : Inner g P) {α δ : List Sym} (ha : .n axiomName ∉ α) : Yields (Prods g.rules) α δ ↔ Yields P α δ :=
  ⟨fun h => (gen_inner hg hP (yields_gen h) ha).yields, fun h => (gen_outer hP (yields_gen h)).yields⟩

/-- Only the axiom has negative codes. -/
theorem gen_codes (hg : Proper g start) (hP : Inner g P) {α δ : List Sym} (h : Gen P α δ) (ha : ∀ c, .t c ∈ α → 0 ≤ c) : ∀ c, .t c ∈ δ → 0 ≤ c := by
  induction h with
  | nil => exact ha
  | keep x α β _ ih =>
    intro c hc
    rcases List.mem_cons.1 hc with rfl | hc
    · exact ha c List.mem_cons_self
    · exact ih (fun c hc => ha c (List.mem_cons_of_mem _ hc)) c hc
  | expand x rhs α β γ hp _ _ ih1 ih2 =>
    intro c hc
    rcases List.mem_append.1 hc with hc | hc
    · refine ih1 ?_ c hc
      obtain ⟨⟨ρ, hρ, rfl, rfl⟩, h2⟩ := (hP _ _).1 hp
      exact hg.own ρ hρ (fun e => h2 (by rw [e]))
    · exact ih2 (fun c hc => ha c (List.mem_cons_of_mem _ hc)) c hc

theorem inner_rule (hP : Inner g P) {r : Nat} (hr : r < g.rules.length) (ha : g.lhs r ≠ axiomName) : P (.n (g.lhs r)) (g.rhs r) :=
  (hP _ _).2 ⟨prods_rule hr, fun e => ha (by injection e)⟩

theorem rhs_noax (hg : Proper g start) {r : Nat} (hr : r < g.rules.length) : .n axiomName ∉ g.rhs r := by
  rw [rhs_of_lt hr]
  exact hg.noax _ (List.getElem_mem hr)

theorem rhs_codes (hg : Proper g start) {r : Nat} (hr : r < g.rules.length) (ha : g.lhs r ≠ axiomName) : ∀ c, .t c ∈ g.rhs r → 0 ≤ c := by
  rw [rhs_of_lt hr]
  rw [lhs_of_lt hr] at ha
  exact hg.own _ (List.getElem_mem hr) ha

/-- A rule that is expected can begin there. -/
theorem asked_yields (hg : Proper g start) (hP : Inner g P) {r i : Nat} (h : Asked g w r i) :
    r < g.rules.length ∧ ((g.lhs r = axiomName ∧ i = 0) ∨ (g.lhs r ≠ axiomName ∧ ∃ γ, Yields P [.n start] (part w 0 i ++ .n (g.lhs r) :: γ))) := by
  induction h with
  | start r hr ha => exact ⟨hr, .inl ⟨ha, rfl⟩⟩
  | step r i α β r' j _ e hr' hs ih =>
    obtain ⟨hr, ih⟩ := ih
    have hno := rhs_noax hg hr
    have hne : g.lhs r' ≠ axiomName := by
      intro e'
      rw [e, e'] at hno
      simp at hno
    refine ⟨hr', .inr ⟨hne, ?_⟩⟩
    rcases ih with ⟨ha, rfl⟩ | ⟨ha, γ, hy⟩
    · rcases axiom_rhs hg hr ha with ⟨_, e'⟩ | e'
      · rw [e'] at e
        cases α with
        | nil =>
          cases hs
          simp only [List.nil_append, List.cons.injEq] at e
          rw [part_self, ← e.1]
          exact ⟨[], .refl⟩
        | cons x α =>
          simp only [List.cons_append, List.cons.injEq] at e
          obtain ⟨_, e⟩ := e
          cases α with
          | nil => simp at e
          | cons y α => simp at e
      · rw [e'] at e
        have : Sym.n (g.lhs r') ∈ [Sym.t (-2), Sym.t (-1)] := by rw [e]; simp
        simp at this
    · refine ⟨β ++ γ, ?_⟩
      have h1 := Yields.step (part w 0 i) _ γ _ hy (inner_rule hP hr ha)
      rw [e] at h1
      have hα : .n axiomName ∉ α := fun h => hno (by rw [e]; exact List.mem_append_left _ h)
      have h2 := (yields_inner hg hP hα).1 hs.yields
      have h3 := Yields.ctx h2 (part w 0 i) (.n (g.lhs r') :: β ++ γ)
      have h4 := Yields.trans (by simpa using h1) h3
      rw [← List.append_assoc, part_append (Nat.zero_le _) hs.le] at h4
      exact h4

theorem part_text {i j : Nat} (hj : j ≤ text.length) : part (text ++ [-1]) i j = part text i j := by
  unfold part
  rw [List.drop_append, List.take_append_of_le_length (by simp; omega)]

theorem part_full : part text 0 text.length = text.map Sym.t := by simp [part]

theorem part_codes (hs : ∀ c, Sym.t c ∈ part (text ++ [-1]) i j → 0 ≤ c) (hij : i < j) (hj : j ≤ text.length + 1) : j ≤ text.length := by
  rcases Nat.lt_or_ge text.length j with h | h
  · exfalso
    obtain rfl : j = text.length + 1 := by omega
    have h1 : part (text ++ [-1]) i text.length ++ part (text ++ [-1]) text.length (text.length + 1) = _ := part_append (by omega) (by omega)
    have h2 : part (text ++ [-1]) text.length (text.length + 1) = [.t (-1)] := by simp [part]
    rw [h2] at h1
    have := hs (-1) (by rw [← h1]; simp)
    omega
  · exact h

theorem span_length {α : List Sym} {i j : Nat} (h : Span g w α i j) (hi : i ≤ w.length) : j ≤ w.length := by
  induction h with
  | nil i => exact hi
  | term c α i j hc _ ih => exact ih (List.getElem?_eq_some_iff.1 hc).1
  | node r α i j k _ _ _ ih1 ih2 => exact ih2 (ih1 hi)

/-- No clash, nothing is lost. -/
theorem lossless_of (hg : Proper g start) (hP : Inner g P) (h : ¬ Clash P (.n start) (text.map Sym.t)) : Lossless g (text ++ [-1]) := by
  intro r i k j j' h1 h2 hik hj hjl hnull hs
  refine h ?_
  obtain ⟨hr, a1⟩ := asked_yields hg hP h1
  obtain ⟨_, a2⟩ := asked_yields hg hP h2
  rcases a1 with ⟨ha, rfl⟩ | ⟨ha, γ, a1⟩
  · rcases a2 with ⟨_, rfl⟩ | ⟨ha', _⟩
    · omega
    · exact absurd ha ha'
  · rcases a2 with ⟨ha', _⟩ | ⟨_, γ', a2⟩
    · exact absurd ha' ha
    · have hna : .n axiomName ∉ (g.rhs r).take j' := fun h => rhs_noax hg hr (List.mem_of_mem_take h)
      have hy := (yields_inner hg hP hna).1 hs.yields
      have hi : i ≤ (text ++ [-1]).length := by
        have := hs.le
        rcases Nat.lt_or_ge (text ++ [-1]).length i with hlt | hge
        · exfalso
          -- nothing can be read behind the end
          have : ∀ {α : List Sym} {i j : Nat}, Span g (text ++ [-1]) α i j → (text ++ [-1]).length < i → i = j := by
            intro α i j h
            induction h with
            | nil i => exact fun _ => rfl
            | term c α i j hc _ _ => intro h; have := (List.getElem?_eq_some_iff.1 hc).1; omega
            | node r α i j k _ _ _ ih1 ih2 =>
              intro h
              have := ih1 h
              subst this
              exact ih2 h
          have := this hs hlt
          omega
        · exact hge
      have hkl : k ≤ text.length := by
        refine part_codes (i := i) ?_ hik (by have := span_length hs hi; simpa using this)
        exact gen_codes hg hP (yields_gen hy) fun c hc => rhs_codes hg hr ha c (List.mem_of_mem_take hc)
      have hnull' : ∀ y ∈ (g.rhs r).take j, Nullable P y := fun y hy =>
        (yields_inner hg hP (by
          intro hm
          rw [List.mem_singleton] at hm
          subst hm
          exact rhs_noax hg hr (List.mem_of_mem_take hy))).1 (hnull y hy)
      rw [part_text (by omega)] at a1 hy
      rw [part_text (by omega)] at a2
      refine ⟨.n (g.lhs r), g.rhs r, inner_rule hP hr ha, part text 0 i, part text i k, part text k text.length, γ, γ', j', j, ?_, ?_, hj, hjl, hnull', hy, a1, ?_⟩
      · rw [part_append (by omega) hkl, part_append (by omega) (by omega), part_full]
      · intro e
        have := congrArg List.length e
        rw [part_length hkl] at this
        simp at this
        omega
      · rw [← List.append_assoc, part_append (Nat.zero_le _) (by omega)]
        exact a2

end Xmq.Yaep
