import Verif.Lemmas.EarleyAmbiguous
/-!
# When the parser finds a parse
-/
namespace Xmq.Yaep
open Xmq.Ixml (Sym)
open Xmq.Spec Xmq.Cfg

variable {g : Gram} {text : List Int} {start : List Byte} {sets : List SSet}

theorem token_cases {k : Nat} {c : Int} (h : (text ++ [-1])[k]? = some c) : (k < text.length ∧ c ∈ text) ∨ (k = text.length ∧ c = -1) := by
  rcases Nat.lt_or_ge k text.length with hk | hk
  · rw [List.getElem?_append_left hk] at h
    exact .inl ⟨hk, List.mem_of_getElem? h⟩
  · rw [List.getElem?_append_right hk] at h
    obtain ⟨h1, h2⟩ := List.getElem?_eq_some_iff.1 h
    simp only [List.length_singleton] at h1
    simp only [List.getElem_singleton] at h2
    exact .inr ⟨by omega, h2.symm⟩

theorem end_token : (text ++ [-1])[text.length]? = some (-1) := by simp

theorem axiom_next (hg : Proper g start) (ht : ∀ c ∈ text, 0 ≤ c) {k r : Nat} (hr : r < g.rules.length) (ha : g.lhs r = axiomName) {dot : Nat} (hd : 0 < dot)
    (h : Span g (text ++ [-1]) ((g.rhs r).take dot) 0 k) : r = 0 ∧ g.rhs r = [.n start, .t (-1)] := by
  rcases axiom_rhs hg hr ha with h1 | h1
  · exact h1
  · exfalso
    rw [h1] at h
    cases dot with
    | zero => omega
    | succ dot =>
      rw [List.take_succ_cons] at h
      cases h with
      | term c _ _ _ hc _ =>
        rcases token_cases hc with ⟨_, h2⟩ | ⟨_, h2⟩
        · exact absurd (ht _ h2) (by decide)
        · cases h2

theorem isParse_spec (hg : Proper g start) (ht : ∀ c ∈ text, 0 ≤ c) (hc : Chart g (text ++ [-1]) sets) (h : isParse g sets = true) :
    sets.length = text.length + 2 ∧ In sets text.length (⟨0, 1⟩, text.length) := by
  unfold isParse at h
  have hpos : 0 < sets.length := List.length_pos_iff.2 hc.ne
  cases hl : sets.getLast? with
  | none => rw [hl] at h; cases h
  | some s =>
    rw [hl] at h
    dsimp only at h
    cases hi : s.items with
    | nil => rw [hi] at h; cases h
    | cons q rest =>
      obtain ⟨⟨r, dot⟩, m⟩ := q
      rw [hi] at h
      simp only [Bool.and_eq_true, decide_eq_true_eq] at h
      obtain ⟨⟨rfl, ha⟩, rfl⟩ := h
      have hs : sets[sets.length - 1]? = some s := by rw [← List.getLast?_eq_getElem?]; exact hl
      have hin : In sets (sets.length - 1) (⟨r, (g.rhs r).length⟩, sets.length - 1) := ⟨s, hs, by rw [hi]; exact List.mem_cons_self⟩
      have hsn := sound hg hc _ _ hin
      have hsp := hsn.span
      simp only [Nat.sub_self] at hsp
      have hlen : 0 < (g.rhs r).length := by
        rcases axiom_rhs hg hsn.valid.1 ha with ⟨_, e⟩ | e <;> rw [e] <;> simp
      obtain ⟨rfl, e⟩ := axiom_next hg ht hsn.valid.1 ha hlen hsp
      rw [e] at hin
      obtain ⟨h1, _, h2, h3⟩ := in_terminal hg hc (pos := 1) hin (c := -1) (by unfold Gram.next; simp only; rw [e]; rfl)
      rcases token_cases h2 with ⟨_, h4⟩ | ⟨h4, _⟩
      · exact absurd (ht _ h4) (by decide)
      · refine ⟨by omega, ?_⟩
        rw [h4] at h3
        exact h3

/-- What the last set has. -/
theorem last_begun (hg : Proper g start) (ht : ∀ c ∈ text, 0 ≤ c) (hc : Chart g (text ++ [-1]) sets) {p : Item} (h : Begun sets (text.length + 1) p) : p = (⟨0, 2⟩, text.length + 1) := by
  refine hc.induct text.length (fun p => p = (⟨0, 2⟩, text.length + 1)) ?_ ?_ p h
  · rintro ⟨⟨r, dot⟩, m⟩ c hin hw hn _
    rw [end_token] at hw
    cases hw
    have hsn := sound hg hc _ _ hin
    have hr := hsn.valid.1
    simp only at hr
    have hmem : Sym.t (-1) ∈ g.rhs r := List.mem_of_getElem? hn
    have ha : g.lhs r = axiomName := by
      rw [lhs_of_lt hr]
      refine Decidable.byContradiction fun hne => ?_
      rw [rhs_of_lt hr] at hmem
      exact absurd (hg.own _ (List.getElem_mem hr) hne _ hmem) (by decide)
    have hm : text.length - m = 0 := by
      rcases hsn.why with ⟨h1, _⟩ | ⟨q, hq, hqn⟩
      · exact h1
      · exfalso
        simp only [ha] at hqn
        have hqv := in_valid hg hc hq
        refine hg.noax _ (List.getElem_mem hqv) ?_
        rw [← rhs_of_lt hqv]
        exact List.mem_of_getElem? hqn
    have hle := hsn.le
    have hsp := hsn.span
    simp only [hm] at hle hsp
    obtain rfl : m = text.length := by omega
    unfold Item.over Dotted.succ
    simp only
    have hdot : 0 < dot := by
      cases dot with
      | succ dot => omega
      | zero =>
        exfalso
        unfold Gram.next at hn
        simp only at hn
        rcases axiom_rhs hg hr ha with ⟨_, e⟩ | e <;> rw [e] at hn <;> simp at hn
    obtain ⟨rfl, e⟩ := axiom_next hg ht hr ha hdot hsp
    unfold Gram.next at hn
    simp only at hn
    rw [e] at hn
    match dot, hdot, hn with
    | 1, _, _ => rfl
  · rintro q p _ rfl _ _ _ hin hn _
    exfalso
    have hpv := in_valid hg hc hin
    refine hg.noax _ (List.getElem_mem hpv) ?_
    rw [← rhs_of_lt hpv]
    have e0 : g.lhs 0 = axiomName := by
      unfold Gram.lhs
      rw [hg.zero]
      rfl
    rw [← e0]
    exact List.mem_of_getElem? hn

theorem rhs_zero (hg : Proper g start) : g.rhs 0 = [.n start, .t (-1)] ∧ g.lhs 0 = axiomName ∧ 0 < g.rules.length := by
  refine ⟨?_, ?_, (List.getElem?_eq_some_iff.1 hg.zero).1⟩
  · unfold Gram.rhs
    rw [hg.zero]
    rfl
  · unfold Gram.lhs
    rw [hg.zero]
    rfl

theorem isParse_of (hg : Proper g start) (ht : ∀ c ∈ text, 0 ≤ c) (hc : Chart g (text ++ [-1]) sets) (hk : Taken g (text ++ [-1]) sets) (hl : sets.length = text.length + 2) :
    isParse g sets = true := by
  obtain ⟨p, c, h1, h2, h3⟩ := hk text.length (by omega)
  have hb : Begun sets (text.length + 1) (p.over 1) := by
    refine hc.scan text.length p c (by omega) h1 h2 h3 ?_
    rw [List.getElem?_eq_none (by simp)]
    rfl
  obtain ⟨s, hs, hp⟩ := hb
  have hlast : sets.getLast? = some s := by
    rw [List.getLast?_eq_getElem?, hl]
    exact hs
  unfold isParse
  rw [hlast]
  dsimp only
  rw [(hc.ok _ s hs).items_eq]
  cases hbl : s.begun with
  | nil => rw [hbl] at hp; cases hp
  | cons q rest =>
    have hq := last_begun hg ht hc (p := q) ⟨s, hs, by rw [hbl]; exact List.mem_cons_self⟩
    subst hq
    obtain ⟨e1, e2, _⟩ := rhs_zero hg
    simp only [List.cons_append]
    rw [hl, e1, e2]
    simp

/-- With no dotted rule lost a text of the language is consumed. -/
theorem consumed (hg : Proper g start) (hc : Chart g (text ++ [-1]) sets) (hL : Lossless g (text ++ [-1])) {K : Nat} (hK : K < sets.length) (hK' : K ≤ text.length)
    (hd : Span g (text ++ [-1]) [.n start] 0 text.length) : ∃ p c, (text ++ [-1])[K]? = some c ∧ In sets K p ∧ g.next p.1 = some (.t c) := by
  obtain ⟨e1, e2, h0⟩ := rhs_zero hg
  have hin : In sets 0 (⟨0, 0⟩, 0) := by
    have hpos : 0 < sets.length := List.length_pos_iff.2 hc.ne
    refine begun_in hc ⟨sets[0], List.getElem?_eq_getElem hpos, ?_⟩
    rw [hc.first _ (List.getElem?_eq_getElem hpos)]
    exact List.mem_map.2 ⟨0, mem_ruleIds.2 ⟨h0, e2⟩, rfl⟩
  have hs : Span g (text ++ [-1]) [.n start, .t (-1)] 0 (text.length + 1) := hd.append (.term (-1) [] _ _ end_token (.nil _))
  refine expected hg hc hL hK hs 0 0 0 [] (text.length + 1) (Nat.zero_le _) (by omega) hin (by rw [e1]; rfl) (.nil _) ?_
  intro c hw
  rw [List.getElem?_eq_none (by simp)] at hw
  cases hw

theorem fuel_enough {a b : Nat} (g : Gram) (n : Nat) (ha : a = (n * ((nonterms g.rules).length + 2) + ((nonterms g.rules).length + 1)) * (g.size + 1) + 1 + 1) (hb : b = treeFuel g n) : a ≤ b := by
  subst ha hb
  unfold treeFuel
  generalize (nonterms g.rules).length = N
  generalize g.size = z
  have h1 : n * (N + 2) + (N + 1) + 1 = (n + 1) * (N + 2) := by rw [Nat.succ_mul]; omega
  have h2 : (n * (N + 2) + (N + 1)) * (z + 1) ≤ (n + 1) * (N + 2) * (z + 1) := Nat.mul_le_mul_right _ (by omega)
  have h3 : (n + 1) * (N + 2) * (z + 1) + 1 + 1 ≤ (n + 2) * (N + 2) * (z + 2) := by
    have e1 : (n + 2) * (N + 2) = (n + 1) * (N + 2) + (N + 2) := by rw [← Nat.succ_mul]
    have e2 : (n + 2) * (N + 2) * (z + 2) = (n + 2) * (N + 2) * (z + 1) + (n + 2) * (N + 2) := by rw [← Nat.mul_succ]
    have e3 : (n + 1) * (N + 2) * (z + 1) ≤ (n + 2) * (N + 2) * (z + 1) := Nat.mul_le_mul_right _ (by omega)
    omega
  omega

/-- The answer of the parser when the guard holds. -/
inductive Right (g : Gram) (text : List Int) (start : List Byte) : Parse → Prop
  | tree (t : PT) (amb : Bool) : TSpan g (text ++ [-1]) [.n start] [t] 0 text.length →
      (amb = false ↔ ∀ u, TSpan g (text ++ [-1]) [.n start] [u] 0 text.length → u = t) → Right g text start (.tree t amb)
  | noTree (k : Nat) : k ≤ text.length → ¬ Span g (text ++ [-1]) [.n start] 0 text.length → Right g text start (.noTree k)

theorem yaepParse_tree (hg : Proper g start) (ht : ∀ c ∈ text, 0 ≤ c) {t : PT} {amb : Bool} (h : yaepParse g text = .tree t amb) :
    TSpan g (text ++ [-1]) [.n start] [t] 0 text.length ∧ (amb = true → ∃ u, u ≠ t ∧ TSpan g (text ++ [-1]) [.n start] [u] 0 text.length) := by
  obtain ⟨sets, b, hp, hc, -⟩ := performParse_ok hg (text ++ [-1])
  unfold yaepParse at h
  rw [hp] at h
  dsimp only at h
  split at h
  · next hi =>
    obtain ⟨hl, hin⟩ := isParse_spec hg ht hc hi
    have e : (g.rhs 0).take 1 = [.n start] := by rw [(rhs_zero hg).1]; rfl
    rw [hl, show text.length + 2 - 2 = text.length by omega] at h
    split at h
    · cases h
    · next t' amb' hb =>
      cases h
      obtain ⟨ts, h1, h2⟩ := build_sound hg hc _ _ _ 0 _ _ _ _ (by simpa using hin) (Nat.zero_le _) hb
      rw [List.append_nil] at h1
      subst h1
      rw [e] at h2
      refine ⟨h2, fun ha => ?_⟩
      subst ha
      obtain ⟨ts, h3, h4⟩ := build_ambiguous hg hc _ _ _ 0 _ _ _ (by simpa using hin) (Nat.zero_le _) hb
      rw [e] at h3
      obtain ⟨r, kids, _, _, _, rfl⟩ := h3.single_n
      exact ⟨_, fun e => h4 (by rw [e]; rfl), h3⟩
    · cases h
  · cases h

theorem yaepParse_answer (hg : Proper g start) (ht : ∀ c ∈ text, 0 ≤ c) (hL : Lossless g (text ++ [-1])) : Right g text start (yaepParse g text) := by
  obtain ⟨sets, b, hp, hc, hk, hb1, hb2⟩ := performParse_ok hg (text ++ [-1])
  have hpos : 0 < sets.length := List.length_pos_iff.2 hc.ne
  by_cases hi : isParse g sets = true
  · obtain ⟨hl, hin⟩ := isParse_spec hg ht hc hi
    have e : (g.rhs 0).take 1 = [.n start] := by rw [(rhs_zero hg).1]; rfl
    obtain ⟨out, amb, hb⟩ := build_ok hg hc hL (treeFuel g text.length) 0 1 0 text.length [] _ (by simpa using hin) (Nat.zero_le _) (.inl rfl) (fuel_enough g text.length rfl rfl)
    obtain ⟨ts, h1, h2⟩ := build_sound hg hc _ _ _ 0 _ _ _ _ (by simpa using hin) (Nat.zero_le _) hb
    rw [List.append_nil] at h1
    subst h1
    rw [e] at h2
    obtain ⟨r, kids, _, _, _, rfl⟩ := h2.single_n
    have hy : yaepParse g text = .tree (.node r kids) amb := by
      unfold yaepParse
      rw [hp]
      dsimp only
      rw [if_pos hi, hl, show text.length + 2 - 2 = text.length by omega, hb]
    rw [hy]
    refine .tree _ _ h2 ⟨?_, ?_⟩
    · rintro rfl u hu
      have := build_unique hg hc hL _ _ _ 0 _ _ _ (text.length + 1) (by simpa using hin) (Nat.zero_le _) (by
        rw [(rhs_zero hg).1]
        exact .term (-1) [] _ _ end_token (.nil _)) (by
        intro c hw
        rw [List.getElem?_eq_none (by simp)] at hw
        cases hw) hb [u] (by rw [e]; exact hu)
      simpa using this.symm
    · intro h
      refine Decidable.byContradiction fun hne => ?_
      obtain ⟨u, h3, h4⟩ := (yaepParse_tree hg ht hy).2 (by simpa using hne)
      exact h3 (h u h4)
  · have hy : yaepParse g text = .noTree (sets.length - 1) := by
      unfold yaepParse
      rw [hp]
      dsimp only
      rw [if_neg hi]
    rw [hy]
    have hshort := hc.short
    simp only [List.length_append, List.length_singleton] at hshort
    have hb : b = false := by
      cases hb : b with
      | false => rfl
      | true =>
        refine absurd (isParse_of hg ht hc hk ?_) hi
        rw [hb1 hb]
        simp
    obtain ⟨set, c, h1, h2, h3⟩ := hb2 hb
    have hle : sets.length - 1 ≤ text.length := by
      rcases token_cases h2 with ⟨h, _⟩ | ⟨h, _⟩ <;> omega
    refine .noTree _ hle fun hd => ?_
    obtain ⟨p, c', h4, ⟨s, hs, h5⟩, h6⟩ := consumed hg hc hL (K := sets.length - 1) (by omega) hle hd
    rw [h2] at h4
    cases h4
    rw [← List.getLast?_eq_getElem?, h1] at hs
    cases hs
    have := mem_predictions.2 ⟨h5, h6⟩
    rw [h3] at this
    cases this

end Xmq.Yaep
