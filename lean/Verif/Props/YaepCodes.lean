import Verif.Model.YaepCodes
/-!
# C92: characters that a grammar does not know

A character that is no terminal of the grammar should be refused.  It is only refused when it lies above all
terminals; otherwise memory that was never written is taken for a symbol.
-/
namespace Xmq.Props

open Xmq Xmq.Yaep

/-! ## The bounds -/

theorem codeBounds_fold (cs : List Int) (lo hi : Int) (h : lo ≤ hi) :
    let b := cs.foldl (fun b d => (if b.1 > d then d else b.1, if b.2 < d then d else b.2)) (lo, hi)
    (b.1 = lo ∨ b.1 ∈ cs) ∧ (b.2 = hi ∨ b.2 ∈ cs) ∧ b.1 ≤ lo ∧ hi ≤ b.2 ∧ ∀ c ∈ cs, b.1 ≤ c ∧ c ≤ b.2 := by
  induction cs generalizing lo hi with
  | nil => simp
  | cons c cs ih =>
    have := ih (if lo > c then c else lo) (if hi < c then c else hi) (by split <;> split <;> omega)
    simp only [List.foldl_cons]
    dsimp only at this ⊢
    generalize cs.foldl (fun b d => (if b.1 > d then d else b.1, if b.2 < d then d else b.2))
      (if lo > c then c else lo, if hi < c then c else hi) = b at this
    obtain ⟨h1, h2, h3, h4, h5⟩ := this
    have e3 : b.1 ≤ lo ∧ b.1 ≤ c := by split at h3 <;> omega
    have e4 : hi ≤ b.2 ∧ c ≤ b.2 := by split at h4 <;> omega
    refine ⟨?_, ?_, e3.1, e4.1, fun d hd => ?_⟩
    · rcases h1 with h1 | h1
      · split at h1
        · exact Or.inr (by rw [h1]; exact List.mem_cons_self)
        · exact Or.inl h1
      · exact Or.inr (List.mem_cons_of_mem _ h1)
    · rcases h2 with h2 | h2
      · split at h2
        · exact Or.inr (by rw [h2]; exact List.mem_cons_self)
        · exact Or.inl h2
      · exact Or.inr (List.mem_cons_of_mem _ h2)
    · rcases List.mem_cons.1 hd with rfl | hd
      · exact ⟨e3.2, e4.2⟩
      · exact h5 d hd

theorem codeBounds_spec (codes : List Int) (lo hi : Int) (h : codeBounds codes = some (lo, hi)) :
    lo ∈ codes ∧ hi ∈ codes ∧ ∀ c ∈ codes, lo ≤ c ∧ c ≤ hi := by
  cases codes with
  | nil => cases h
  | cons c cs =>
    have := codeBounds_fold cs c c (Int.le_refl _)
    have e : cs.foldl (fun b d => (if b.1 > d then d else b.1, if b.2 < d then d else b.2)) (c, c) = (lo, hi) := by
      simpa [codeBounds] using h
    dsimp only at this
    rw [e] at this
    obtain ⟨h1, h2, h3, h4, h5⟩ := this
    refine ⟨?_, ?_, fun d hd => ?_⟩
    · rcases h1 with h1 | h1
      · exact h1 ▸ List.mem_cons_self
      · exact List.mem_cons_of_mem _ h1
    · rcases h2 with h2 | h2
      · exact h2 ▸ List.mem_cons_self
      · exact List.mem_cons_of_mem _ h2
    · rcases List.mem_cons.1 hd with rfl | hd
      · exact ⟨h3, h4⟩
      · exact h5 d hd

theorem fillCodes_get (start : Int) (cs : List Int) (cells : List (Option Int)) (i : Nat)
    (hs : ∀ c ∈ cs, start ≤ c) (hi : i < cells.length) :
    (fillCodes start cs cells)[i]? = if start + i ∈ cs then some (some (start + i)) else cells[i]? := by
  induction cs generalizing cells with
  | nil => simp [fillCodes]
  | cons c cs ih =>
    unfold fillCodes
    rw [ih _ (fun d hd => hs d (List.mem_cons_of_mem _ hd)) (by simpa using hi)]
    have hc := hs c List.mem_cons_self
    by_cases h1 : start + i ∈ cs
    · simp [h1]
    · rw [if_neg h1, List.getElem?_set]
      by_cases h2 : start + (i : Int) = c
      · have e : (c - start).toNat = i := by omega
        rw [if_pos e, if_pos (by omega), if_pos (by rw [h2]; exact List.mem_cons_self), h2]
      · have e : ¬ (c - start).toNat = i := by omega
        rw [if_neg e, if_neg (by simp [h1, h2])]

/-! ## The vector -/

/-- **C92.** The vector can be made exactly if the codes lie close enough together. -/
theorem C92_vector_iff (codes : List Int) :
    (∃ v, codeVect codes = some v) ↔ codes ≠ [] ∧ ∀ a ∈ codes, ∀ b ∈ codes, a - b < 200000 := by
  cases hb : codeBounds codes with
  | none =>
    cases codes with
    | nil => simp [codeVect, codeBounds]
    | cons c cs => simp [codeBounds] at hb
  | some p =>
    obtain ⟨lo, hi⟩ := p
    obtain ⟨h1, h2, h3⟩ := codeBounds_spec codes lo hi hb
    unfold codeVect
    rw [hb]
    dsimp only
    constructor
    · rintro ⟨v, hv⟩
      split at hv
      · refine ⟨fun e => (by rw [e] at h1; cases h1), fun a ha b hb => ?_⟩
        have := h3 a ha
        have := h3 b hb
        omega
      · cases hv
    · rintro ⟨_, h⟩
      rw [if_pos (h hi h2 lo h1)]
      exact ⟨_, rfl⟩

/-- **C92.** What is found for a code: the terminal, nothing outside of the bounds, and else an undefined pointer. -/
theorem C92_find (codes : List Int) (v : CodeVect) (h : codeVect codes = some v) (c : Int) :
    (findByCode v c = .symbol c ↔ c ∈ codes) ∧
    (findByCode v c = .null ↔ (∀ d ∈ codes, c < d) ∨ (∀ d ∈ codes, d < c)) ∧
    (findByCode v c = .undefined ↔ c ∉ codes ∧ (∃ d ∈ codes, d < c) ∧ ∃ d ∈ codes, c < d) ∧
    ∀ d, findByCode v c = .symbol d → d = c := by
  unfold codeVect at h
  cases hb : codeBounds codes with
  | none => rw [hb] at h; cases h
  | some p =>
    obtain ⟨lo, hi⟩ := p
    obtain ⟨h1, h2, h3⟩ := codeBounds_spec codes lo hi hb
    rw [hb] at h
    dsimp only at h
    split at h
    · have e := Option.some.inj h
      subst e
      unfold findByCode
      dsimp only
      have hlo := h3 lo h1
      by_cases hout : c < lo ∨ c ≥ hi + 1
      · rw [if_pos hout]
        have hn : c ∉ codes := fun hc => by have := h3 c hc; omega
        refine ⟨⟨fun h => (by cases h), fun h => absurd h hn⟩, ⟨fun _ => ?_, fun _ => rfl⟩,
          ⟨fun h => (by cases h), ?_⟩, fun d h => (by cases h)⟩
        · rcases hout with ho | ho
          · exact Or.inl fun d hd => by have := h3 d hd; omega
          · exact Or.inr fun d hd => by have := h3 d hd; omega
        · rintro ⟨_, ⟨d, hd, hd'⟩, ⟨d2, hd2, hd2'⟩⟩
          have := h3 d hd
          have := h3 d2 hd2
          omega
      · rw [if_neg hout]
        have hget := fillCodes_get lo codes (List.replicate (hi - lo + 1).toNat none) (c - lo).toNat
          (fun d hd => (h3 d hd).1) (by rw [List.length_replicate]; omega)
        have ec : lo + ((c - lo).toNat : Int) = c := by omega
        rw [ec] at hget
        by_cases hc : c ∈ codes
        · rw [if_pos hc] at hget
          rw [hget]
          refine ⟨⟨fun _ => hc, fun _ => rfl⟩, ⟨fun h => (by cases h), ?_⟩, ⟨fun h => (by cases h), fun h => absurd hc h.1⟩,
            fun d h => by cases h; rfl⟩
          rintro (h | h)
          · have := h c hc; omega
          · have := h c hc; omega
        · rw [if_neg hc, List.getElem?_replicate, if_pos (by omega)] at hget
          rw [hget]
          have hne1 : c ≠ lo := fun e => hc (e ▸ h1)
          have hne2 : c ≠ hi := fun e => hc (e ▸ h2)
          refine ⟨⟨fun h => (by cases h), fun h => absurd h hc⟩, ⟨fun h => (by cases h), ?_⟩,
            ⟨fun _ => ⟨hc, ⟨lo, h1, by omega⟩, ⟨hi, h2, by omega⟩⟩, fun _ => rfl⟩, fun d h => (by cases h)⟩
          rintro (h | h)
          · have := h lo h1; omega
          · have := h hi h2; omega
    · cases h

/-! ## Reading a text -/

theorem readText_spec (codes : List Int) (v : CodeVect) (h : codeVect codes = some v) (he : (-1 : Int) ∈ codes)
    (text acc : List Int) :
    (readText v acc text = .tokens (acc ++ text ++ [-1]) ↔ ∀ c ∈ text, c ∈ codes) ∧
    (∀ i, readText v acc text = .invalid (acc.length + i) ↔
      ∃ c, text[i]? = some c ∧ (∀ d ∈ text.take i, d ∈ codes) ∧ ((∀ d ∈ codes, c < d) ∨ ∀ d ∈ codes, d < c)) ∧
    (∀ i, readText v acc text = .invalid i → acc.length ≤ i) ∧
    (∀ l, readText v acc text = .tokens l → l = acc ++ text ++ [-1]) := by
  induction text generalizing acc with
  | nil =>
    have h1 := (C92_find codes v h (-1)).1.2 he
    unfold readText
    rw [h1]
    simp [eq_comm]
  | cons c cs ih =>
    obtain ⟨f1, f2, f3, f4⟩ := C92_find codes v h c
    unfold readText
    cases hf : findByCode v c with
    | null =>
      have hout := f2.1 hf
      have hn : c ∉ codes := fun hc => by rw [f1.2 hc] at hf; cases hf
      refine ⟨⟨fun h => (by cases h), fun h => absurd (h c List.mem_cons_self) hn⟩, fun i => ?_, fun i hi => ?_,
        fun l h => (by cases h)⟩
      · constructor
        · intro h
          have : i = 0 := by
            injection h with h
            omega
          subst this
          exact ⟨c, rfl, by simp, hout⟩
        · rintro ⟨d, hd, hall, _⟩
          cases i with
          | zero => rfl
          | succ i =>
            exact absurd (hall c (by simp)) hn
      · injection hi with hi
        omega
    | symbol d =>
      have hd := f4 d hf
      subst hd
      have hc := f1.1 hf
      obtain ⟨g1, g2, g3, g4⟩ := ih (acc ++ [d])
      have el : acc ++ [d] ++ cs ++ [-1] = acc ++ d :: cs ++ [-1] := by simp
      rw [el] at g1
      dsimp only
      refine ⟨?_, fun i => ?_, fun i hi => ?_, fun l hl => ?_⟩
      · rw [g1]
        simp [hc]
      · cases i with
        | zero =>
          constructor
          · intro hh
            have := g3 _ hh
            rw [List.length_append, List.length_singleton] at this
            omega
          · rintro ⟨e, he', _, hout⟩
            have e1 : d = e := by simpa using he'
            subst e1
            rw [f2.2 hout] at hf
            cases hf
        | succ i =>
          have := g2 i
          rw [List.length_append, List.length_singleton, Nat.add_assoc, Nat.add_comm 1 i] at this
          rw [this]
          simp [hc]
      · have := g3 i hi
        rw [List.length_append, List.length_singleton] at this
        omega
      · rw [g4 l hl, el]
    | undefined =>
      have hu := f3.1 hf
      refine ⟨⟨fun h => (by cases h), fun h => absurd (h c List.mem_cons_self) hu.1⟩, fun i => ?_, fun i h => (by cases h),
        fun l h => (by cases h)⟩
      refine ⟨fun h => (by cases h), ?_⟩
      rintro ⟨d, hd, hall, hout⟩
      cases i with
      | zero =>
        have e : c = d := by simpa using hd
        subst e
        rw [f2.2 hout] at hf
        cases hf
      | succ i => exact absurd (hall c (by simp)) hu.1

theorem codes_marks (rs : List Ixml.Rule) : (-2 : Int) ∈ grammarCodes rs ∧ (-1 : Int) ∈ grammarCodes rs := by
  simp [grammarCodes]

/-- **C92.** A text is handed to the parser, unchanged and with the end marker, exactly if all its characters are
terminals of the grammar. -/
theorem C92_tokens_iff (rs : List Ixml.Rule) (v : CodeVect) (h : codeVect (grammarCodes rs) = some v) (text : List Int) :
    (∃ l, readText v [] text = .tokens l) ↔ ∀ c ∈ text, c ∈ grammarCodes rs := by
  obtain ⟨h1, _, _, h4⟩ := readText_spec _ v h (codes_marks rs).2 text []
  rw [← h1]
  constructor
  · rintro ⟨l, hl⟩
    rw [hl, h4 l hl]
  · intro h
    exact ⟨_, h⟩

theorem C92_tokens (rs : List Ixml.Rule) (v : CodeVect) (h : codeVect (grammarCodes rs) = some v) (text l : List Int)
    (hl : readText v [] text = .tokens l) : l = text ++ [-1] := by
  simpa using (readText_spec _ v h (codes_marks rs).2 text []).2.2.2 l hl

/-- **C92.** A text is refused with the offset of a character exactly if that character lies above all terminals and
those before it are terminals. -/
theorem C92_refused_iff (rs : List Ixml.Rule) (v : CodeVect) (h : codeVect (grammarCodes rs) = some v) (text : List Int)
    (hpos : ∀ c ∈ text, 0 ≤ c) (i : Nat) :
    readText v [] text = .invalid i ↔
      ∃ c, text[i]? = some c ∧ (∀ d ∈ text.take i, d ∈ grammarCodes rs) ∧ ∀ d ∈ grammarCodes rs, d < c := by
  have := (readText_spec _ v h (codes_marks rs).2 text []).2.1 i
  rw [List.length_nil, Nat.zero_add] at this
  rw [this]
  constructor
  · rintro ⟨c, hc, ht, hout⟩
    refine ⟨c, hc, ht, ?_⟩
    rcases hout with ho | ho
    · have := ho (-2) (codes_marks rs).1
      have := hpos c (List.mem_of_getElem? hc)
      omega
    · exact ho
  · rintro ⟨c, hc, ht, hout⟩
    exact ⟨c, hc, ht, Or.inr hout⟩

/-- The first character that is no terminal is refused. -/
def UnknownRefused : Prop :=
  ∀ (rs : List Ixml.Rule) (v : CodeVect) (text : List Int), codeVect (grammarCodes rs) = some v →
    (∀ c ∈ text, 0 ≤ c) → (∃ c ∈ text, c ∉ grammarCodes rs) → ∃ i, readText v [] text = .invalid i

/-- A grammar for the text `c`. -/
def onlyC : List Ixml.Rule := [⟨b#"s", none, 0, [⟨0, .t 99⟩]⟩]

theorem C92_false : ¬ UnknownRefused := by
  intro h
  obtain ⟨i, hi⟩ := h onlyC ((codeVect (grammarCodes onlyC)).getD ⟨0, 0, []⟩) [97] (by decide +kernel) (by decide)
    ⟨97, by decide, by decide +kernel⟩
  have : readText ((codeVect (grammarCodes onlyC)).getD ⟨0, 0, []⟩) [] [97] = .undefined := by decide +kernel
  rw [this] at hi
  cases hi

/-- **C92.** With the first unknown character above all terminals the text is refused. -/
theorem C92_refused_partial (rs : List Ixml.Rule) (v : CodeVect) (text : List Int) (h : codeVect (grammarCodes rs) = some v)
    (hpos : ∀ c ∈ text, 0 ≤ c) (hu : ∃ c ∈ text, c ∉ grammarCodes rs)
    (hab : ∀ c ∈ text, c ∉ grammarCodes rs → ∀ d ∈ grammarCodes rs, d < c) : ∃ i, readText v [] text = .invalid i := by
  obtain ⟨c, hc, hn⟩ := hu
  have key : ∀ (l pre : List Int), (∃ c ∈ l, c ∉ grammarCodes rs) → ∃ i c, l[i]? = some c ∧ c ∉ grammarCodes rs ∧
      ∀ d ∈ l.take i, d ∈ grammarCodes rs := by
    intro l pre
    induction l with
    | nil => rintro ⟨c, hc, _⟩; cases hc
    | cons a l ih =>
      rintro ⟨c, hc, hn⟩
      by_cases ha : a ∈ grammarCodes rs
      · rcases List.mem_cons.1 hc with rfl | hc
        · exact absurd ha hn
        · obtain ⟨i, c', h1, h2, h3⟩ := ih ⟨c, hc, hn⟩
          refine ⟨i + 1, c', by simpa using h1, h2, ?_⟩
          intro d hd
          rw [List.take_succ_cons] at hd
          rcases List.mem_cons.1 hd with rfl | hd
          · exact ha
          · exact h3 d hd
      · exact ⟨0, a, rfl, ha, by simp⟩
  obtain ⟨i, c', h1, h2, h3⟩ := key text [] ⟨c, hc, hn⟩
  exact ⟨i, (C92_refused_iff rs v h text hpos i).2 ⟨c', h1, h3, hab c' (List.mem_of_getElem? h1) h2⟩⟩

/-- Every grammar with code points as terminals can be used. -/
def CodesFit : Prop :=
  ∀ rs : List Ixml.Rule, (∀ c ∈ grammarCodes rs, c ≤ 0x10FFFF) → (∀ c ∈ grammarCodes rs, -2 ≤ c) →
    ∃ v, codeVect (grammarCodes rs) = some v

/-- A code point above 199997 makes the assertion fail. -/
theorem C92_fit_false : ¬ CodesFit := by
  intro h
  obtain ⟨v, hv⟩ := h [⟨b#"s", none, 0, [⟨0, .t 0xE0001⟩]⟩] (by decide +kernel) (by decide +kernel)
  have := ((C92_vector_iff _).1 ⟨v, hv⟩).2 0xE0001 (by decide +kernel) (-2) (by decide +kernel)
  omega

/-- **C92.** The assertion holds exactly if no terminal is above 199997. -/
theorem C92_fit_iff (rs : List Ixml.Rule) (hneg : ∀ c ∈ grammarCodes rs, -2 ≤ c) :
    (∃ v, codeVect (grammarCodes rs) = some v) ↔ ∀ c ∈ grammarCodes rs, c ≤ 199997 := by
  rw [C92_vector_iff]
  constructor
  · rintro ⟨_, h⟩ c hc
    have := h c hc (-2) (codes_marks rs).1
    omega
  · intro h
    refine ⟨fun e => ?_, fun a ha b hb => ?_⟩
    · have := (codes_marks rs).1
      rw [e] at this
      cases this
    · have := h a ha
      have := hneg b hb
      omega

example : readText ((codeVect (grammarCodes onlyC)).getD ⟨0, 0, []⟩) [] [99, 99] = .tokens [99, 99, -1] := by decide +kernel
example : readText ((codeVect (grammarCodes onlyC)).getD ⟨0, 0, []⟩) [] [99, 100] = .invalid 1 := by decide +kernel

end Xmq.Props
