import Verif.Lemmas.SemElem
/-!
# What the printer writes for texts and entities is a sequence of parts

`K c k`: after output that ends in `c` (the printer's `last_char`) the parser may go on with `k`.
`Emits S cfg ps ps' vs`: from `ps` to `ps'` the printer has written parts that stand for `vs`.
-/
namespace Xmq
open Spec

variable {S : Prop}

/-- Last bytes after which a name or a bare value could go on. -/
def Other (c : Byte) : Prop := c ∉ ([0, 1, 39, 40, 41, 47, 59, 61, 123, 125] : List Byte)

/-- Last bytes behind which the printer separates whatever could go on with a bare value. -/
def BareEnd (cfg : OutCfg) (c : Byte) : Prop := Other c ∨ (cfg.compact = false ∧ c ≠ 0 ∧ c ≠ 40 ∧ c ≠ 61)

/-- What may follow output that ends in `c`. -/
structure K (cfg : OutCfg) (c : Byte) (k : List Byte) : Prop where
  calm : Calm [61, 40, 123] k
  quote : c = 39 → k.head? ≠ some 39
  slash : c = 47 → k.head? ≠ some 47 ∧ k.head? ≠ some 42
  eol : c = 1 → k.head? = some 10
  other : BareEnd cfg c → k = [] ∨ ∃ x, k.head? = some x ∧ x ∈ ([32, 10, 39, 41, 125] : List Byte)

/-- `current_indent` is right where a quote may be printed at once; asked for only if `S`. -/
def Sync (S : Prop) (cfg : OutCfg) (ps : PS) (col : Nat) : Prop :=
  if cfg.compact then ps.last ≠ 1 else (S → ps.last = 0 ∨ ps.last = 40 ∨ ps.last = 61 → ps.cur + 1 = col)

def Emits (S : Prop) (cfg : OutCfg) (ps ps' : PS) (vs : List Val) : Prop :=
  ∃ w, ps'.out = ps.out ++ w ∧ ps'.line = ps.line ∧ ∀ col, Sync S cfg ps col → Sync S cfg ps' (colw col w) ∧
    ∀ k, K cfg ps'.last k → Parts col w k vs ∧ K cfg ps.last (w ++ k)

theorem Emits.refl (cfg : OutCfg) (ps : PS) : Emits S cfg ps ps [] :=
  ⟨[], by simp, rfl, fun _ h => ⟨h, fun k hk => ⟨.nil _ _, hk⟩⟩⟩

theorem Emits.trans {cfg : OutCfg} {a b c : PS} {vs1 vs2 : List Val} (h1 : Emits S cfg a b vs1) (h2 : Emits S cfg b c vs2) :
    Emits S cfg a c (vs1 ++ vs2) := by
  obtain ⟨w1, o1, l1, p1⟩ := h1
  obtain ⟨w2, o2, l2, p2⟩ := h2
  refine ⟨w1 ++ w2, by rw [o2, o1, List.append_assoc], by rw [l2, l1], fun col hs => ?_⟩
  obtain ⟨hb, q1⟩ := p1 col hs
  obtain ⟨hc, q2⟩ := p2 _ hb
  refine ⟨by rw [colw_append]; exact hc, fun k hk => ?_⟩
  obtain ⟨r2, k2⟩ := q2 k hk
  obtain ⟨r1, k1⟩ := q1 _ k2
  exact ⟨r1.append r2, by rw [List.append_assoc]; exact k1⟩

theorem colw_spaces (col n : Nat) : colw col (List.replicate n 32) = col + n := by
  induction n generalizing col with
  | zero => rfl
  | succ n ih =>
    rw [List.replicate_succ, ← List.singleton_append, colw_append, ih]
    show col + 1 + n = _
    omega

theorem ws_spaces (n : Nat) : Ws (List.replicate n 32) := by
  intro c hc; simp at hc; exact .inl hc.2

/-- The separator is a space, or it is missing and not needed (`xmqCompactQuote`). -/
def SepE (cfg : OutCfg) (ps : PS) : Prop :=
  cfg.indentationSpace = [32] ∨
    (cfg.indentationSpace = [] ∧ cfg.compact = true ∧ ps.last ∈ ([0, 39, 40, 59, 61] : List Byte))

def SepQ (cfg : OutCfg) (ps : PS) : Prop :=
  cfg.indentationSpace = [32] ∨
    (cfg.indentationSpace = [] ∧ cfg.compact = true ∧ ps.last ∈ ([0, 40, 59, 61] : List Byte))

theorem SepQ.toE {cfg : OutCfg} {ps : PS} (h : SepQ cfg ps) : SepE cfg ps := by
  rcases h with h | ⟨h1, h2, h3⟩
  · exact .inl h
  · exact .inr ⟨h1, h2, by simp at h3 ⊢; grind⟩

theorem Calm.of_ws {ws k : List Byte} {c : Byte} {t : List Byte} (hw : Ws ws) (hk : k = c :: t) (h0 : countWhitespace k = 0)
    (hc : c ∉ ([61, 40, 123] : List Byte)) : Calm [61, 40, 123] (ws ++ k) :=
  ⟨ws, k, rfl, hw, h0, fun x hx => by subst hk; simp at hx; subst hx; exact hc⟩

theorem nlIndent_eq (cfg : OutCfg) (ps : PS) (hsp : cfg.indentationSpace = [32]) :
    ps.nlIndent cfg = { ps with out := ps.out ++ 10 :: List.replicate ps.line 32, cur := ps.line, last := 0 } := by
  simp [PS.nlIndent, PS.nl, PS.whiteSpaces, hsp]

theorem colw_nl_spaces (col n : Nat) : colw col (10 :: List.replicate n 32) = n + 1 := by
  rw [← List.singleton_append, colw_append]
  have : colw col [10] = 1 := rfl
  rw [this, colw_spaces]; omega

theorem K_nl (cfg : OutCfg) (c : Byte) {k t : List Byte} {ws : List Byte} {x : Byte} (hk : k = x :: t) (hw : Ws ws)
    (h0 : countWhitespace k = 0) (hx : x ∉ ([61, 40, 123] : List Byte)) : K cfg c ((10 :: ws) ++ k) where
  calm := .of_ws (hw.cons (.inr rfl)) hk h0 hx
  quote _ := by simp
  slash _ := by simp
  eol _ := by simp
  other _ := .inr ⟨10, by simp, by simp⟩

theorem K_space (cfg : OutCfg) (c : Byte) {k t : List Byte} {ws : List Byte} {x : Byte} (hk : k = x :: t) (hw : Ws ws)
    (h0 : countWhitespace k = 0) (hx : x ∉ ([61, 40, 123] : List Byte)) (h1 : c ≠ 1) : K cfg c ((32 :: ws) ++ k) where
  calm := .of_ws (hw.cons (.inl rfl)) hk h0 hx
  quote _ := by simp
  slash _ := by simp
  eol h := absurd h h1
  other _ := .inr ⟨32, by simp, by simp⟩

/-- The space before a quote. -/
theorem beforeQuote_spec (cfg : OutCfg) (ps : PS) (level : Level) (hs : SepQ cfg ps) :
    ∃ ws, Ws ws ∧ (ps.beforeQuote cfg level).out = ps.out ++ ws ∧ (ps.beforeQuote cfg level).line = ps.line ∧
      ∀ col, Sync S cfg ps col → (cfg.compact = false → S → (ps.beforeQuote cfg level).cur + 1 = colw col ws) ∧
        ∀ k, k.head? = some 39 → K cfg ps.last (ws ++ k) := by
  have hk0 : ∀ k : List Byte, k.head? = some 39 → ∃ t, k = 39 :: t ∧ countWhitespace k = 0 := by
    intro k hk
    obtain ⟨t, rfl⟩ := head_cons hk
    exact ⟨t, rfl, countWhitespace_of_head (by decide) (by decide) (by decide)⟩
  have none : ∀ ps', ps' = ps → (ps.last ≠ 39) → (cfg.compact = false → ps.last = 0 ∨ ps.last = 40 ∨ ps.last = 61) →
      ∃ ws, Ws ws ∧ ps'.out = ps.out ++ ws ∧ ps'.line = ps.line ∧
      ∀ col, Sync S cfg ps col → (cfg.compact = false → S → ps'.cur + 1 = colw col ws) ∧
        ∀ k, k.head? = some 39 → K cfg ps.last (ws ++ k) := by
    rintro _ rfl h39 hl
    refine ⟨[], Ws.nil, by simp, rfl, fun col hsync => ⟨fun hc hS => ?_, fun k hk => ?_⟩⟩
    · simp only [Sync, hc, Bool.false_eq_true, if_false] at hsync
      exact hsync hS (hl hc)
    · obtain ⟨t, rfl, h0⟩ := hk0 k hk
      refine ⟨.of_ws Ws.nil rfl h0 (by simp), fun h => absurd h h39, fun _ => by simp, fun h => ?_, fun _ => .inr ⟨39, by simp, by simp⟩⟩
      exfalso
      cases hc : cfg.compact
      · have := hl hc; simp [h] at this
      · simp [Sync, hc, h] at hsync
  have nl : cfg.compact = false → ∃ ws, Ws ws ∧ (ps.nlIndent cfg).out = ps.out ++ ws ∧ (ps.nlIndent cfg).line = ps.line ∧
      ∀ col, Sync S cfg ps col → (cfg.compact = false → S → (ps.nlIndent cfg).cur + 1 = colw col ws) ∧
        ∀ k, k.head? = some 39 → K cfg ps.last (ws ++ k) := by
    intro hc
    have hsp : cfg.indentationSpace = [32] := by
      rcases hs with h | ⟨-, h, -⟩
      · exact h
      · rw [hc] at h; cases h
    rw [nlIndent_eq _ _ hsp]
    refine ⟨10 :: List.replicate ps.line 32, (ws_spaces _).cons (.inr rfl), rfl, rfl, fun col _ => ⟨fun _ _ => ?_, fun k hk => ?_⟩⟩
    · rw [colw_nl_spaces]
    · obtain ⟨t, hk, h0⟩ := hk0 k hk
      exact K_nl _ _ hk (ws_spaces _) h0 (by simp)
  unfold PS.beforeQuote
  split
  · rename_i h0
    simp only [beq_iff_eq] at h0
    exact none ps rfl (by rw [h0]; decide) (fun _ => .inl h0)
  · split
    · rename_i h
      exact nl (by simp at h; exact h.1.1)
    · rename_i h0 h1
      simp only [beq_iff_eq] at h0
      split
      · rename_i h39
        simp only [needSepQuote, beq_iff_eq] at h39
        have hsp : cfg.indentationSpace = [32] := by
          rcases hs with h | ⟨-, -, h⟩
          · exact h
          · simp [h39] at h
        have hc : cfg.compact = true := by
          cases hc : cfg.compact
          · simp [hc, h39] at h1
          · rfl
        refine ⟨[32], ws_spaces 1, by simp [PS.whiteSpaces, hsp], rfl, fun col hsync => ⟨fun h => (by rw [hc] at h; cases h), fun k hk => ?_⟩⟩
        obtain ⟨t, hk, h0⟩ := hk0 k hk
        exact K_space _ _ hk Ws.nil h0 (by simp) (by rw [h39]; decide)
      · rename_i h39
        simp only [needSepQuote, beq_iff_eq] at h39
        refine none ps rfl h39 (fun hc => ?_)
        simp [hc] at h1
        by_cases h61 : ps.last = 61
        · exact .inr (.inr h61)
        · exact .inr (.inl (h1 (.inl h61)))

/-- The space before an entity. -/
theorem beforeEntity_spec (cfg : OutCfg) (ps : PS) (hs : SepE cfg ps) :
    ∃ ws, Ws ws ∧ (ps.beforeEntity cfg).out = ps.out ++ ws ∧ (ps.beforeEntity cfg).line = ps.line ∧
      ∀ col, Sync S cfg ps col → ∀ k, k.head? = some 38 → K cfg ps.last (ws ++ k) := by
  have hk0 : ∀ k : List Byte, k.head? = some 38 → ∃ t, k = 38 :: t ∧ countWhitespace k = 0 := by
    intro k hk
    obtain ⟨t, rfl⟩ := head_cons hk
    exact ⟨t, rfl, countWhitespace_of_head (by decide) (by decide) (by decide)⟩
  have none : ∀ ps', ps' = ps → (ps.last ∈ ([0, 39, 40, 41, 59, 61, 123, 125] : List Byte)) →
      (cfg.compact = false → ps.last = 40 ∨ ps.last = 61) →
      ∃ ws, Ws ws ∧ ps'.out = ps.out ++ ws ∧ ps'.line = ps.line ∧
      ∀ col, Sync S cfg ps col → ∀ k, k.head? = some 38 → K cfg ps.last (ws ++ k) := by
    rintro _ rfl hl hpr
    refine ⟨[], Ws.nil, by simp, rfl, fun col hsync k hk => ?_⟩
    obtain ⟨t, rfl, h0⟩ := hk0 k hk
    refine ⟨.of_ws Ws.nil rfl h0 (by simp), fun _ => by simp, fun _ => by simp, fun h => ?_, fun h => ?_⟩
    · rw [h] at hl; simp at hl
    · exfalso
      rcases h with h | h
      · apply h; simp at hl ⊢; grind
      · have := hpr h.1; grind
  unfold PS.beforeEntity
  split
  · rename_i h
    simp only [beq_iff_eq] at h
    exact none ps rfl (by simp [h]) (fun _ => .inl h)
  · split
    · rename_i h
      have hc : cfg.compact = false := by simp at h; exact h.1
      have hsp : cfg.indentationSpace = [32] := by
        rcases hs with h | ⟨-, h, -⟩
        · exact h
        · rw [hc] at h; cases h
      rw [nlIndent_eq _ _ hsp]
      refine ⟨10 :: List.replicate ps.line 32, (ws_spaces _).cons (.inr rfl), rfl, rfl, fun col _ k hk => ?_⟩
      obtain ⟨t, hk, h0⟩ := hk0 k hk
      exact K_nl _ _ hk (ws_spaces _) h0 (by simp)
    · split
      · rename_i h1 h2 h3
        have hc : cfg.compact = true := by
          cases hc : cfg.compact
          · simp [hc] at h2; simp [needSepEntity, h2] at h3
          · rfl
        have hsp : cfg.indentationSpace = [32] := by
          rcases hs with h | ⟨-, -, h⟩
          · exact h
          · simp [needSepEntity] at h3; simp at h; grind
        refine ⟨[32], ws_spaces 1, by simp [PS.whiteSpaces, hsp], rfl, fun col hsync k hk => ?_⟩
        obtain ⟨t, hk, h0⟩ := hk0 k hk
        exact K_space _ _ hk Ws.nil h0 (by simp) (by simpa [Sync, hc] using hsync)
      · rename_i h2 h3
        refine none ps rfl ?_ (fun hc => .inr (by simpa [hc] using h2))
        simp only [needSepEntity] at h3
        simp at h3 ⊢
        grind

end Xmq
