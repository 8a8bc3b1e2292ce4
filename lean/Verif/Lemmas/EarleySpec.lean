import Verif.Lemmas.EarleyGuard
/-!
# Trees, beginnings of texts, and the place of a syntax error
-/
namespace Xmq.Yaep
open Xmq.Ixml (Sym)
open Xmq.Spec Xmq.Cfg

variable {g : Gram} {w text : List Int} {start : List Byte} {sets : List SSet} {P : Sym → List Sym → Prop}

/-! ## Trees -/

theorem TSpan.parses {α : List Sym} {ts : List PT} {i j : Nat} (h : TSpan g w α ts i j) : Parses g.rules α ts ((w.drop i).take (j - i)) := by
  induction h with
  | nil i => rw [Nat.sub_self, List.take_zero]; exact .nil
  | term c α ts i j hc h ih =>
    have hle := h.span.le
    obtain ⟨h1, h2⟩ := List.getElem?_eq_some_iff.1 hc
    rw [List.drop_eq_getElem_cons h1, h2, show j - i = (j - (i + 1)) + 1 by omega, List.take_succ_cons]
    exact .leaf c α ts _ ih
  | node r kids α ts i j k hr h1 h2 ih1 ih2 =>
    have l1 := h1.span.le
    have l2 := h2.span.le
    rw [show k - i = (j - i) + (k - j) by omega, List.take_add, List.drop_drop, show i + (j - i) = j by omega, lhs_of_lt hr]
    rw [rhs_of_lt hr] at ih1
    exact .node r _ kids _ α ts _ (List.getElem?_eq_getElem hr) ih1 ih2

theorem parses_tspan {α : List Sym} {ts : List PT} {u : List Int} (h : Parses g.rules α ts u) : ∀ pre post, w = pre ++ (u ++ post) → TSpan g w α ts pre.length (pre.length + u.length) := by
  induction h with
  | nil => intro pre post _; exact .nil _
  | leaf c α ts u _ ih =>
    rintro pre post rfl
    refine .term c α ts _ _ (by simp) ?_
    have := ih (pre ++ [c]) post (by simp)
    rw [List.length_append, List.length_singleton] at this
    rw [List.length_cons, show pre.length + (u.length + 1) = pre.length + 1 + u.length by omega]
    exact this
  | node r ρ kids u α ts v hr _ _ ih1 ih2 =>
    rintro pre post rfl
    obtain ⟨hlt, rfl⟩ := List.getElem?_eq_some_iff.1 hr
    rw [← lhs_of_lt hlt]
    have h1 := ih1 pre (v ++ post) (by simp)
    have h2 := ih2 (pre ++ u) post (by simp)
    rw [← rhs_of_lt hlt] at h1
    rw [List.length_append] at h2
    rw [List.length_append, show pre.length + (u.length + v.length) = pre.length + u.length + v.length by omega]
    exact .node r kids α ts _ _ _ hlt h1 h2

theorem tspan_iff {α : List Sym} {ts : List PT} : TSpan g (text ++ [-1]) α ts 0 text.length ↔ Parses g.rules α ts text := by
  constructor
  · intro h
    have := h.parses
    simpa using this
  · intro h
    have := parses_tspan (w := text ++ [-1]) h [] [-1] (by simp)
    simpa using this

theorem span_text (hg : Proper g start) (hP : Inner g P) {a : List Byte} (ha : a ≠ axiomName) : Span g (text ++ [-1]) [.n a] 0 text.length ↔ Yields P [.n a] (text.map Sym.t) := by
  rw [span_iff (Nat.zero_le _) (by simp), part_text (Nat.le_refl _), part_full, yields_inner hg hP (by simpa using Ne.symm ha)]

/-! ## The beginning of the text -/

/-- What is in front of the error can be continued. -/
theorem viable (hg : Proper g start) (hP : Inner g P) (ht : ∀ c ∈ text, 0 ≤ c) (hc : Chart g (text ++ [-1]) sets) (hk : Taken g (text ++ [-1]) sets) {k : Nat} (hl : k < sets.length)
    (hle : k ≤ text.length) : ∃ γ, Yields P [.n start] ((text.take k).map Sym.t ++ γ) := by
  cases k with
  | zero => exact ⟨[.n start], .refl⟩
  | succ k =>
    obtain ⟨⟨⟨r, dot⟩, m⟩, c, h1, h2, h3⟩ := hk k hl
    have hsn := sound hg hc k _ h1
    have hc0 : 0 ≤ c := by
      rcases token_cases h2 with ⟨_, h⟩ | ⟨h, _⟩
      · exact ht c h
      · omega
    have hmem : Sym.t c ∈ g.rhs r := List.mem_of_getElem? h3
    obtain ⟨hr, ha | ⟨ha, γ, hy⟩⟩ := asked_yields hg hP hsn.asked
    · exfalso
      simp only at hr ha
      rcases axiom_rhs hg hr ha.1 with ⟨_, e⟩ | e <;> rw [e] at hmem <;> simp at hmem <;> omega
    · simp only at hr ha hy
      have e := rhs_split h3
      have hs1 := Yields.step _ _ γ _ hy (inner_rule hP hr ha)
      simp only at e
      rw [e] at hs1
      have hna : .n axiomName ∉ (g.rhs r).take dot := fun h => rhs_noax hg hr (List.mem_of_mem_take h)
      have hsp := hsn.span
      have hml := hsn.le
      simp only at hsp hml
      have hs2 := Yields.ctx ((yields_inner hg hP hna).1 hsp.yields) (part (text ++ [-1]) 0 (k - m)) (.t c :: g.tail (Dotted.succ ⟨r, dot⟩) ++ γ)
      have hs3 := Yields.trans (by simpa using hs1) hs2
      rw [← List.append_assoc, part_append (Nat.zero_le _) (by omega)] at hs3
      refine ⟨g.tail (Dotted.succ ⟨r, dot⟩) ++ γ, ?_⟩
      have e2 : (text.take (k + 1)).map Sym.t = part (text ++ [-1]) 0 k ++ [.t c] := by
        have h5 : part (text ++ [-1]) k (k + 1) = [.t c] := by rw [part_cons h2 (by omega), part_self]
        rw [← h5, part_append (by omega) (by omega), part_text hle]
        simp [part]
      rw [e2]
      simpa using hs3

/-- The sets depend only on the tokens up to the one that is looked at. -/
theorem parseLoop_prefix : ∀ (a : List Int) (c : Int) (rest rest' : List Int) (sets : List SSet) (set : SSet) (sets' : List SSet), parseLoop g sets set (a ++ c :: rest) = .ok (sets', false) →
    sets'.length = sets.length + a.length → parseLoop g sets set (a ++ c :: rest') = .ok (sets', false)
  | [], c, rest, rest', sets, set, sets', h, hl => by
    rw [List.nil_append] at h ⊢
    unfold parseLoop at h ⊢
    split
    · next hp => rw [if_pos hp] at h; exact h
    · next hp =>
      rw [if_neg hp] at h
      exfalso
      split at h
      · cases h
      · have : ∀ (cs : List Int) (sets : List SSet) (set : SSet) (sets' : List SSet) (b : Bool), parseLoop g sets set cs = .ok (sets', b) → sets.length ≤ sets'.length := by
          intro cs
          induction cs with
          | nil => intro sets set sets' b h; unfold parseLoop at h; cases h; exact Nat.le_refl _
          | cons c cs ih =>
            intro sets set sets' b h
            unfold parseLoop at h
            split at h
            · cases h; exact Nat.le_refl _
            · split at h
              · cases h
              · have := ih _ _ _ _ h
                simp at this
                omega
        have := this _ _ _ _ _ h
        simp at this hl
        omega
  | c0 :: a, c, rest, rest', sets, set, sets', h, hl => by
    rw [List.cons_append] at h ⊢
    unfold parseLoop at h ⊢
    have hh : (a ++ c :: rest').head? = (a ++ c :: rest).head? := by cases a <;> rfl
    rw [hh]
    split
    · next hp => rw [if_pos hp] at h; exact h
    · next hp =>
      rw [if_neg hp] at h
      split
      · next e he => rw [he] at h; cases h
      · next s hs =>
        rw [hs] at h
        exact parseLoop_prefix a c rest rest' _ _ _ h (by simp at hl ⊢; omega)

/-- The answer `noTree`. -/
theorem noTree_cases (hg : Proper g start) (hP : Inner g P) (ht : ∀ c ∈ text, 0 ≤ c) {k : Nat} (h : yaepParse g text = .noTree k) :
    k ≤ text.length ∧ (∃ γ, Yields P [.n start] ((text.take k).map Sym.t ++ γ)) ∧ ∃ sets, sets.length = k + 1 ∧ performParse g (text ++ [-1]) = .ok (sets, false) := by
  obtain ⟨sets, b, hp, hc, hk, hb1, hb2⟩ := performParse_ok hg (text ++ [-1])
  have hpos : 0 < sets.length := List.length_pos_iff.2 hc.ne
  unfold yaepParse at h
  rw [hp] at h
  dsimp only at h
  split at h
  · split at h <;> cases h
  · next hi =>
    cases h
    have hb : b = false := by
      cases hb : b with
      | false => rfl
      | true =>
        refine absurd (isParse_of hg ht hc hk ?_) hi
        rw [hb1 hb]
        simp
    obtain ⟨set, c, h1, h2, h3⟩ := hb2 hb
    have hle : sets.length - 1 ≤ text.length := by
      rcases token_cases h2 with ⟨h, _⟩ | ⟨h, _⟩ <;> omega
    exact ⟨hle, viable hg hP ht hc hk (by omega) hle, sets, by omega, by rw [hp, hb]⟩

/-- A text with the same beginning fails at the same place. -/
theorem noTree_prefix (hg : Proper g start) (hP : Inner g P) (ht : ∀ c ∈ text, 0 ≤ c) {k : Nat} (h : yaepParse g text = .noTree k) (hk : k < text.length) {text' : List Int}
    (hpre : text.take (k + 1) <+: text') : yaepParse g text' = .noTree k := by
  obtain ⟨_, _, sets, hl, hp⟩ := noTree_cases hg hP ht h
  obtain ⟨rest, rfl⟩ := hpre
  have e1 : text ++ [-1] = text.take k ++ text[k] :: (text.drop (k + 1) ++ [-1]) := by
    have := List.take_append_drop k text
    rw [List.drop_eq_getElem_cons hk] at this
    have := congrArg (· ++ [-1]) this
    simp only [List.append_assoc, List.cons_append] at this
    exact this.symm
  have e2 : text.take (k + 1) ++ rest ++ [-1] = text.take k ++ text[k] :: (rest ++ [-1]) := by
    rw [List.take_succ_eq_append_getElem hk]
    simp only [List.append_assoc, List.cons_append, List.nil_append]
  have hp' : performParse g (text.take (k + 1) ++ rest ++ [-1]) = .ok (sets, false) := by
    unfold performParse at hp ⊢
    cases hs : startSet g with
    | error e => rw [hs] at hp; cases hp
    | ok s =>
      rw [hs] at hp
      dsimp only at hp ⊢
      rw [e1] at hp
      rw [e2]
      exact parseLoop_prefix _ _ _ _ _ _ _ hp (by simp [hl]; omega)
  unfold yaepParse at h ⊢
  rw [hp] at h
  rw [hp']
  dsimp only at h ⊢
  split at h
  · split at h <;> cases h
  · next hi => rw [if_neg hi]; exact h

end Xmq.Yaep
