import Verif.Lemmas.IxmlEnc
/-!
# The rules of a whole ixml grammar
-/
namespace Xmq.Ixml
open Xmq.Spec Xmq.Spec.Ixml Xmq.Props

theorem comp_alias (nm : List Byte) (mk : Byte) (r : Rx) (g : Nat) (mark : Byte) : ∀ ρ ∈ (comp nm mk r g mark).new, ρ.alias = none := by
  induction r generalizing nm mk g mark with
  | lit m cs =>
    intro ρ h
    match cs with
    | [] => cases h
    | [c] => cases h
    | c :: d :: cs => obtain rfl := List.mem_singleton.1 h; rfl
  | set => intro ρ h; cases h
  | ref => intro ρ h; cases h
  | ins cs => intro ρ h; obtain rfl := List.mem_singleton.1 h; rfl
  | eps => intro ρ h; cases h
  | group r ih =>
    by_cases h : r = .eps
    · subst h; intro ρ h; cases h
    · rw [comp_group h]
      intro ρ hρ
      rcases List.mem_cons.1 hρ with rfl | hρ
      · rfl
      · exact ih _ _ _ _ ρ hρ
  | opt f ih =>
    intro ρ h
    simp only [comp, List.mem_append, List.mem_cons, List.not_mem_nil, or_false] at h
    rcases h with h | rfl | rfl
    · exact ih _ _ _ _ ρ h
    · rfl
    · rfl
  | plus f ih =>
    intro ρ h
    simp only [comp, List.mem_append, List.mem_cons, List.not_mem_nil, or_false] at h
    rcases h with h | rfl | rfl
    · exact ih _ _ _ _ ρ h
    · rfl
    · rfl
  | star f ih =>
    intro ρ h
    simp only [comp, List.mem_append, List.mem_cons, List.not_mem_nil, or_false] at h
    rcases h with h | rfl | rfl
    · exact ih _ _ _ _ ρ h
    · rfl
    · rfl
  | plusSep f s ih1 ih2 =>
    intro ρ h
    simp only [comp, List.mem_append, List.mem_cons, List.not_mem_nil, or_false] at h
    rcases h with (h | h) | rfl | rfl
    · exact ih1 _ _ _ _ ρ h
    · exact ih2 _ _ _ _ ρ h
    · rfl
    · rfl
  | starSep f s ih1 ih2 =>
    intro ρ h
    simp only [comp, List.mem_append, List.mem_cons, List.not_mem_nil, or_false] at h
    rcases h with ((h | h) | rfl | rfl) | rfl | rfl
    · exact ih1 _ _ _ _ ρ h
    · exact ih2 _ _ _ _ ρ h
    · rfl
    · rfl
    · rfl
    · rfl
  | seq f s ih1 ih2 =>
    intro ρ h
    rcases List.mem_append.1 h with h | h
    · exact ih1 _ _ _ _ ρ h
    · exact ih2 _ _ _ _ ρ h
  | alt f s ih1 ih2 =>
    intro ρ h
    simp only [comp, List.mem_append, List.mem_cons] at h
    rcases h with h | rfl | h
    · exact ih1 _ _ _ _ ρ h
    · rfl
    · exact ih2 _ _ _ _ ρ h

/-- What is known about a rule from how it is written. -/
def Written (r : GRule) : Prop := IsName r.name ∧ (∀ a, r.alias = some a → IsName a) ∧ ∃ t, W true .alts r.body t

theorem wrule_written {r : GRule} {t : List Byte} (h : WRule true r t) : Written r := by
  obtain ⟨tn, c, s1, t, s2, hn, -, -, hw, -⟩ := h
  have key : ∀ {al : Option (List Byte)} {ta : List Byte}, WAlias true al ta → ∀ a, al = some a → IsName a := by
    intro al ta h a e
    cases h with
    | none => cases e
    | some a' s1 s2 h1 h2 h3 => cases e; exact h2
  obtain ⟨tm, s, ta, hm, hnn, hs, ha⟩ := hn
  exact ⟨hnn, key ha, t, hw⟩

theorem wrules_written {g : List GRule} {t : List Byte} (h : WRules true g t) : ∀ r ∈ g, Written r := by
  induction h with
  | one r t h =>
    intro r' hr
    obtain rfl := List.mem_singleton.1 hr
    exact wrule_written h
  | cons r rs t u h _ ih =>
    intro r' hr
    rcases List.mem_cons.1 hr with rfl | hr
    · exact wrule_written h
    · exact ih r' hr

/-- The names of the rules. -/
theorem compRules_names : ∀ (g : List GRule) (k : Nat) (m : Byte), ∀ ρ ∈ (compRules g k m).1,
    (∃ r ∈ g, ρ.name = r.name ∧ (ρ.alias = r.alias ∨ ρ.alias = none)) ∨ (ρ.alias = none ∧ ∃ j, k ≤ j ∧ ρ.name = genName j) ∨
    ((∃ r ∈ g, Inserts r.body) ∧ ∃ x, ρ = ⟨b#"|+" ++ x, none, b#' ', []⟩)
  | [], _, _, ρ, h => by cases h
  | r :: rs, k, m, ρ, h => by
    rw [compRules] at h
    have hg := comp_gen r.name r.mark r.body k m
    rcases List.mem_cons.1 h with rfl | h
    · exact .inl ⟨r, List.mem_cons_self, rfl, .inl rfl⟩
    · rcases List.mem_append.1 h with h | h
      · have ha := comp_alias _ _ _ _ _ ρ h
        rcases comp_names _ _ _ _ _ ρ h with e | ⟨j, h1, _, e⟩ | ⟨h1, h2⟩
        · exact .inl ⟨r, List.mem_cons_self, e, .inr ha⟩
        · exact .inr (.inl ⟨ha, j, h1, e⟩)
        · exact .inr (.inr ⟨⟨r, List.mem_cons_self, h1⟩, h2⟩)
      · rcases compRules_names rs _ _ ρ h with ⟨r', h1, h2⟩ | ⟨ha, j, h1, e⟩ | ⟨⟨r', h1, h1'⟩, h2⟩
        · exact .inl ⟨r', List.mem_cons_of_mem _ h1, h2⟩
        · exact .inr (.inl ⟨ha, j, by omega, e⟩)
        · exact .inr (.inr ⟨⟨r', List.mem_cons_of_mem _ h1, h1'⟩, h2⟩)

theorem compRules_sets : ∀ (g : List GRule) (k : Nat) (m : Byte), (∀ r ∈ g, Written r) → ∀ cs ∈ (compRules g k m).2, GoodSet cs
  | [], _, _, _, cs, h => by cases h
  | r :: rs, k, m, hw, cs, h => by
    rw [compRules] at h
    rcases List.mem_append.1 h with h | h
    · obtain ⟨t, ht⟩ := (hw r List.mem_cons_self).2.2
      exact comp_sets ht _ _ _ _ cs h
    · exact compRules_sets rs _ _ (fun r hr => hw r (List.mem_cons_of_mem _ hr)) cs h

/-- A rule represents an alternative of a rule of the grammar. -/
def Stands (ok : Prop) (ρ : Rule) (r : GRule) : Prop :=
  r.name = ρ.name ∧ r.mark = ρ.mark ∧ (ok → r.alias = ρ.alias) ∧ ∀ a, ρ.alias = some a → IsName a

theorem compRules_enc {used : Nat → Bool} {R : List Rule} {ok : Prop} (hI : InsRules R) : ∀ (g : List GRule) (k : Nat) (m : Byte), (∀ r ∈ g, Written r) →
    (∀ j, k ≤ j → ∀ ρ ∈ R, ρ.name = genName j → ρ ∈ (compRules g k m).1) → (∀ ρ ∈ (compRules g k m).1, ρ ∈ R) →
    (∀ cs ∈ (compRules g k m).2, ∀ ρ, (ρ ∈ R ∧ ρ.name = setName cs) ↔ SetRules used cs ρ) → (ok → TidyRules g m) → (ok → ∀ r ∈ g, UsesAt r.body → NoIns R) →
    (∀ r ∈ g, ∃ X, Enc tableCat used R ok r.body X ∧ ∀ ts ∈ X, ∃ ρ ∈ R, Stands ok ρ r ∧ ρ.rhs = ts) ∧
    (∀ ρ ∈ (compRules g k m).1, IsName ρ.name → ∃ r ∈ g, Stands ok ρ r ∧ ∃ X, Enc tableCat used R ok r.body X ∧ ρ.rhs ∈ X)
  | [], _, _, _, _, _, _, _, _ => ⟨fun r h => (by cases h), fun ρ h => (by cases h)⟩
  | r :: rs, k, m, hw, hgen, hsub, hsets, ht, hat => by
    obtain ⟨hn, hal, t, hwt⟩ := hw r List.mem_cons_self
    have hg := comp_gen r.name r.mark r.body k m
    have hf := fresh_name hn k
    rw [compRules] at hgen hsub hsets
    have notIns : ∀ {x : List Byte} {j : Nat}, b#"|+" ++ x ≠ genName j := by
      intro x j e
      exact genName_take j (by rw [← e]; rfl)
    have ho : Own used R (comp r.name r.mark r.body k m) k := by
      refine ⟨?_, ?_, ?_⟩
      · intro j h1 h2 ρ hρ e
        rcases List.mem_cons.1 (hgen j h1 ρ hρ e) with h | h
        · rw [h] at e
          exact absurd e (hf.2 j h1)
        · rcases List.mem_append.1 h with h | h
          · exact h
          · exfalso
            rcases compRules_names _ _ _ ρ h with ⟨r', hr', h3, _⟩ | ⟨_, i, h3, h4⟩ | ⟨_, x, h3⟩
            · exact (fresh_name (hw r' (List.mem_cons_of_mem _ hr')).1 0).2 j (Nat.zero_le _) (h3.symm.trans e)
            · have := genName_inj (h4.symm.trans e); omega
            · rw [h3] at e; exact notIns e
      · intro ρ hρ
        exact hsub ρ (List.mem_cons_of_mem _ (List.mem_append_left _ hρ))
      · intro cs hcs
        exact hsets cs (List.mem_append_left _ hcs)
    have hE := comp_enc (ok := ok) hI hwt r.name r.mark k m hf ho (fun hok => (ht hok).2.1) (fun hok => hat hok r List.mem_cons_self)
    have halt : ok → ∀ ts ∈ altsTail r.name r.mark r.body k m, r.alias = none := by
      intro hok ts hts
      rcases (ht hok).1 with h | h
      · exact h
      · rw [altsTail_nil h] at hts; cases hts
    obtain ⟨ih1, ih2⟩ := compRules_enc (used := used) (ok := ok) hI rs (comp r.name r.mark r.body k m).gen (comp r.name r.mark r.body k m).mark
      (fun r hr => hw r (List.mem_cons_of_mem _ hr))
      (by
        intro j h1 ρ hρ e
        rcases List.mem_cons.1 (hgen j (by omega) ρ hρ e) with h | h
        · rw [h] at e
          exact absurd e (hf.2 j (by omega))
        · rcases List.mem_append.1 h with h | h
          · exact absurd h (not_new (hf.mono (by omega)) (.inr h1) e)
          · exact h)
      (fun ρ hρ => hsub ρ (List.mem_cons_of_mem _ (List.mem_append_right _ hρ)))
      (fun cs hcs => hsets cs (List.mem_append_right _ hcs))
      (fun hok => by rw [comp_mark]; exact (ht hok).2.2)
      (fun hok r hr => hat hok r (List.mem_cons_of_mem _ hr))
    refine ⟨?_, ?_⟩
    · intro r' hr'
      rcases List.mem_cons.1 hr' with rfl | hr'
      · refine ⟨_, hE, ?_⟩
        intro ts hts
        rcases List.mem_cons.1 hts with rfl | hts
        · exact ⟨_, hsub _ List.mem_cons_self, ⟨rfl, rfl, fun _ => rfl, hal⟩, rfl⟩
        · have := (comp_own hwt r'.name r'.mark k m hf _).2 ⟨ts, hts, rfl⟩
          exact ⟨_, hsub _ (List.mem_cons_of_mem _ (List.mem_append_left _ this.1)), ⟨rfl, rfl, fun hok => halt hok ts hts, fun a e => by cases e⟩, rfl⟩
      · exact ih1 r' hr'
    · intro ρ hρ hnn
      rw [compRules] at hρ
      rcases List.mem_cons.1 hρ with rfl | hρ
      · exact ⟨r, List.mem_cons_self, ⟨rfl, rfl, fun _ => rfl, hal⟩, _, hE, List.mem_cons_self⟩
      · rcases List.mem_append.1 hρ with hρ | hρ
        · rcases comp_names _ _ _ _ _ ρ hρ with e | ⟨j, _, _, e⟩ | ⟨_, x, e⟩
          · obtain ⟨ts, hts, rfl⟩ := (comp_own hwt r.name r.mark k m hf ρ).1 ⟨hρ, e⟩
            exact ⟨r, List.mem_cons_self, ⟨rfl, rfl, fun hok => halt hok ts hts, fun a e => by cases e⟩, _, hE, List.mem_cons_of_mem _ hts⟩
          · rw [e] at hnn; exact absurd hnn (genName_not_name j)
          · rw [e] at hnn; exact absurd rfl (isName_take hnn)
        · obtain ⟨r', h1, h2⟩ := ih2 ρ hρ hnn
          exact ⟨r', List.mem_cons_of_mem _ h1, h2⟩

/-- The rules made for a grammar and a content represent the grammar. -/
theorem grammar_enc {g : List GRule} {text : List Byte} (h : WGrammar true g text) (content : List Nat) : ∃ st R, readGrammar text = .ok st ∧ grammarFor st content = some R ∧
    EncAll tableCat (fun c => content.contains c) R (TidyGrammar g) g ∧ (∀ r ∈ g, IsName r.name) ∧ st.rest = [] ∧
    startOf R = g.head?.map fun r => r.name := by
  obtain ⟨cur, gen, m, e⟩ := readGrammar_read h
  have hw : ∀ r ∈ g, Written r := by
    obtain ⟨s, p, t, hs, hp, ht, hx⟩ := h
    exact wrules_written ht
  obtain ⟨l, e2, hl⟩ := sets_mem (fun c => content.contains c) (compRules_sets g 0 0 hw)
  refine ⟨_, (compRules g 0 0).1 ++ l.flatten, e, by unfold grammarFor; simp only [e2], ?_, fun r hr => (hw r hr).1, rfl, ?start⟩
  case start =>
    cases g with
    | nil =>
      obtain ⟨s, p, t, hs, hp, ht, hx⟩ := h
      cases ht
    | cons r g => rfl
  have hset : ∀ ρ ∈ l.flatten, ∃ cs ∈ (compRules g 0 0).2, ∃ ts, ρ = hidden (setName cs) ts := by
    intro ρ hρ
    obtain ⟨cs, hcs, c, _, _, _, e⟩ := (hl ρ).1 hρ
    exact ⟨cs, hcs, _, e⟩
  have hI : InsRules ((compRules g 0 0).1 ++ l.flatten) := by
    intro ρ hρ ht
    rcases List.mem_append.1 hρ with h | h
    · rcases compRules_names g 0 0 ρ h with ⟨r, hr, e, _⟩ | ⟨_, j, _, e⟩ | ⟨_, x, e⟩
      · rw [e] at ht; exact absurd ht (isName_take (hw r hr).1)
      · rw [e] at ht; exact absurd ht (genName_take j)
      · rw [e]
    · obtain ⟨cs, _, ts, e⟩ := hset ρ h
      rw [e] at ht; exact absurd ht (setName_take cs)
  have hno : (∀ r ∈ g, ¬ Inserts r.body) → NoIns ((compRules g 0 0).1 ++ l.flatten) := by
    intro hn ρ hρ
    rcases List.mem_append.1 hρ with h | h
    · rcases compRules_names g 0 0 ρ h with ⟨r, hr, e, ha | ha⟩ | ⟨ha, j, _, e⟩ | ⟨⟨r, hr, hr2⟩, x, e⟩
      · rw [ha, e]
        cases hal : r.alias with
        | none => exact isName_take (hw r hr).1
        | some a => exact isName_take ((hw r hr).2.1 a hal)
      · rw [ha, e]; exact isName_take (hw r hr).1
      · rw [ha, e]; exact genName_take j
      · exact absurd hr2 (hn r hr)
    · obtain ⟨cs, _, ts, e⟩ := hset ρ h
      rw [e]; exact setName_take cs
  have hat : TidyGrammar g → ∀ r ∈ g, r.mark = b#'@' ∨ UsesAt r.body → NoIns ((compRules g 0 0).1 ++ l.flatten) := by
    intro hok r hr h
    rcases hok.2 with h1 | h1
    · rcases h with h | h
      · exact absurd h (h1 r hr).1
      · exact absurd h (h1 r hr).2
    · exact hno h1
  obtain ⟨h1, h2⟩ := compRules_enc (used := fun c => content.contains c) (ok := TidyGrammar g) hI g 0 0 hw
    (by
      intro j _ ρ hρ e
      rcases List.mem_append.1 hρ with h | h
      · exact h
      · obtain ⟨cs, _, ts, e2⟩ := hset ρ h
        rw [e2] at e
        exact absurd e (setName_ne_gen cs j))
    (fun ρ hρ => List.mem_append_left _ hρ)
    (by
      intro cs hcs ρ
      have hgs := compRules_sets g 0 0 hw
      constructor
      · rintro ⟨hρ, e⟩
        rcases List.mem_append.1 hρ with h | h
        · exfalso
          rcases compRules_names g 0 0 ρ h with ⟨r, hr, e', _⟩ | ⟨_, j, _, e'⟩ | ⟨_, x, e'⟩
          · exact setName_not_name cs (e ▸ e' ▸ (hw r hr).1)
          · exact setName_ne_gen cs j (e.symm.trans e')
          · exact setName_take cs (by rw [← e, e']; rfl)
        · obtain ⟨cs', hcs', c, a1, a2, a3, a4⟩ := (hl ρ).1 h
          have : cs' = cs := setName_inj (hgs cs' hcs') (hgs cs hcs) (by rw [a4] at e; exact e)
          subst this
          exact ⟨c, a1, a2, a3, a4⟩
      · rintro ⟨c, a1, a2, a3, a4⟩
        exact ⟨List.mem_append_right _ ((hl ρ).2 ⟨cs, hcs, c, a1, a2, a3, a4⟩), by rw [a4]; rfl⟩)
    (fun hok => hok.1) (fun hok r hr h => hat hok r hr (.inr h))
  refine ⟨?_, ?_⟩
  · intro ρ hρ hn
    rcases List.mem_append.1 hρ with h | h
    · obtain ⟨r, hr, ⟨a1, a2, a3, a4⟩, X, hX⟩ := h2 ρ h hn
      exact ⟨r, hr, a1, a2, a3, fun hok hm => hat hok r hr (.inl hm), a4, X, hX⟩
    · obtain ⟨cs, _, ts, e2⟩ := hset ρ h
      rw [e2] at hn
      exact absurd hn (setName_not_name cs)
  · intro r hr
    obtain ⟨X, hE, hX⟩ := h1 r hr
    refine ⟨X, hE, ?_⟩
    intro ts hts
    obtain ⟨ρ, hρ, ⟨a1, a2, a3, a4⟩, e⟩ := hX ts hts
    exact ⟨ρ, hρ, a1.symm, a2.symm, fun hok => (a3 hok).symm, e, fun hok hm => hat hok r hr (.inl hm), (hw r hr).1, a4⟩

end Xmq.Ixml
