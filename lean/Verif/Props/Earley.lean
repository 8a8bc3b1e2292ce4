import Verif.Lemmas.EarleySpec
import Verif.Props.Yaep
/-!
# C57, C58, C59: the Earley parser

The languages and trees are those of textbooks (Spec/Cfg, Spec/Trees).
-/
namespace Xmq.Props
open Xmq Xmq.Ixml Xmq.Spec Xmq.Yaep Xmq.Cfg

/-- The grammar can be used, and the name `$S` does not occur in it. -/
def Fit (rs : List Ixml.Rule) : Prop := Usable rs ∧ ∀ r ∈ rs, ∀ t ∈ r.rhs, t.sym ≠ .n b#"$S"

/-- The rules with their numbers: 0 is the axiom, the given ones begin with 1. -/
def allRules (rs : List Ixml.Rule) : List Yaep.Rule :=
  match rs with
  | [] => []
  | r0 :: rs => ⟨b#"$S", [.n r0.name, .t (-1)]⟩ :: plainRules (r0 :: rs) ++ [⟨b#"$S", [.t (-2), .t (-1)]⟩]

/-- The text as tokens, and as symbols. -/
def tokens (text : List Nat) : List Int := text.map Int.ofNat
def letters (text : List Nat) : List Sym := text.map fun c => .t (Int.ofNat c)

theorem letters_eq (text : List Nat) : letters text = (tokens text).map Sym.t := by simp [letters, tokens]

theorem tokens_nonneg (text : List Nat) : ∀ c ∈ tokens text, 0 ≤ c := by
  intro c hc
  obtain ⟨n, _, rfl⟩ := List.mem_map.1 hc
  exact Int.natCast_nonneg n

/-- The text belongs to the language of the grammar. -/
def InLanguage (rs : List Ixml.Rule) (text : List Nat) : Prop := ∃ r0, rs.head? = some r0 ∧ Yields (GivenRules rs) [.n r0.name] (letters text)

/-- No rule gets in its own way in the text. -/
def Free (rs : List Ixml.Rule) (text : List Nat) : Prop := ∀ r0, rs.head? = some r0 → ¬ Clash (GivenRules rs) (.n r0.name) (letters text)

theorem fit_proper {rs : List Ixml.Rule} (h : Fit rs) {r0 : Ixml.Rule} (h0 : rs.head? = some r0) {R : List Yaep.Rule} {fl : List Flag} {ff : List FF} (ha : readYaep rs = .accepted R fl ff) :
    R = allRules rs ∧ Proper ⟨R, fl, ff⟩ r0.name ∧ Inner ⟨R, fl, ff⟩ (GivenRules rs) ∧ r0.name ≠ b#"$S" := by
  obtain ⟨hR, he, _⟩ := C56_exact rs R fl ff ha
  have hl := C56_lookahead rs R fl ff ha
  obtain ⟨hu, hS⟩ := h
  have hloops : ¬ ∃ x, Loops (GivenRules rs) x := (accepted_iff rs hu).1.1 ⟨R, fl, ff, ha⟩
  obtain ⟨R', hR', r0', h0', hP⟩ := C55_rules rs hu
  rw [hR] at hR'
  cases hR'
  rw [h0] at h0'
  cases h0'
  have hL : ∀ x, ¬ Loops (Prods R) x := by
    intro x hx
    have := loops_given (rs := rs) (R := R) (fun x rhs hp => ((hP x rhs).1 hp).imp id fun ⟨h1, h2⟩ => ⟨h1, by rcases h2 with rfl | rfl <;> simp⟩)
      (fun x rhs hg => (hP x rhs).2 (.inl hg)) x
    exact hloops ⟨x, this.1 hx⟩
  have hname : ∀ x rhs, GivenRules rs x rhs → x ≠ .n b#"$S" := by
    rintro x rhs ⟨r, hr, rfl, _⟩ e
    injection e with e
    exact (hu.2 r hr).2.1 e
  cases rs with
  | nil => exact absurd rfl hu.1
  | cons r1 rs =>
    cases h0
    have heq := readRules_eq r0 rs hu
    rw [hR] at heq
    have heq : R = allRules (r0 :: rs) := by injection heq
    refine ⟨heq, ⟨?_, ?_, hL, ?_, ?_, ?_, ?_⟩, ?_, (hu.2 r0 (by simp)).2.1⟩
    · intro x
      refine Iff.trans ?_ (he x)
      unfold Gram.empty isEmpty
      simp
    · exact fun lhs xs c => hl lhs xs c
    · rw [heq]
      rfl
    · intro r ρ hr hρ
      have hx : Prods R (.n ρ.lhs) ρ.rhs := ⟨ρ, List.mem_of_getElem? hr, rfl, rfl⟩
      cases r with
      | zero => exact .inl rfl
      | succ r =>
        right
        dsimp only at hr
        rw [heq] at hr
        unfold allRules at hr
        simp only [List.cons_append, List.getElem?_cons_succ] at hr
        have hm := List.mem_of_getElem? hr
        rcases List.mem_append.1 hm with hm | hm
        · obtain ⟨q, hq, rfl⟩ := List.mem_map.1 hm
          exact absurd hρ (hu.2 q hq).2.1
        · rw [List.mem_singleton] at hm
          subst hm
          rfl
    · intro ρ hρ hne c hc
      rcases (hP (.n ρ.lhs) ρ.rhs).1 ⟨ρ, hρ, rfl, rfl⟩ with ⟨r, hr, _, e⟩ | ⟨e, _⟩
      · rw [e] at hc
        obtain ⟨t, ht, e⟩ := List.mem_map.1 hc
        exact ((hu.2 r hr).2.2 t ht).2 c e
      · injection e with e
        exact absurd e hne
    · intro ρ hρ hm
      rcases (hP (.n ρ.lhs) ρ.rhs).1 ⟨ρ, hρ, rfl, rfl⟩ with ⟨r, hr, _, e⟩ | ⟨_, e | e⟩
      · rw [e] at hm
        obtain ⟨t, ht, e⟩ := List.mem_map.1 hm
        exact hS r hr t ht e
      · rw [e] at hm
        simp only [List.mem_cons, Sym.n.injEq, List.not_mem_nil, or_false, reduceCtorEq] at hm
        exact (hu.2 r0 (by simp)).2.1 hm.symm
      · rw [e] at hm
        simp at hm
    · intro x rhs
      constructor
      · exact fun hx => ⟨(hP x rhs).2 (.inl hx), hname x rhs hx⟩
      · rintro ⟨hx, hne⟩
        rcases (hP x rhs).1 hx with h | ⟨e, _⟩
        · exact h
        · exact absurd e hne

theorem parseWith_some {rs : List Ixml.Rule} {text : List Int} {a : Parse} (h : parseWith rs text = some a) : ∃ R fl ff, readYaep rs = .accepted R fl ff ∧ yaepParse ⟨R, fl, ff⟩ text = a := by
  unfold parseWith at h
  split at h
  · next R fl ff e => exact ⟨R, fl, ff, e, by injection h⟩
  · cases h

theorem fit_head {rs : List Ixml.Rule} (h : Fit rs) : ∃ r0, rs.head? = some r0 := by
  cases rs with
  | nil => exact absurd rfl h.1.1
  | cons r0 rs => exact ⟨r0, rfl⟩

/-! ## C57 -/

/-- The parser finds a parse exactly for the texts of the language. -/
def C57_exact : Prop :=
  ∀ (rs : List Ixml.Rule) (text : List Nat) (a : Parse), Fit rs → parseWith rs (tokens text) = some a → ((∃ t amb, a = .tree t amb) ↔ InLanguage rs text)

/-- What is parsed belongs to the language. -/
theorem C57_sound (rs : List Ixml.Rule) (text : List Nat) (t : PT) (amb : Bool) (h : Fit rs) (ha : parseWith rs (tokens text) = some (.tree t amb)) : InLanguage rs text := by
  obtain ⟨R, fl, ff, hr, hy⟩ := parseWith_some ha
  obtain ⟨r0, h0⟩ := fit_head h
  obtain ⟨_, hp, hi, hn⟩ := fit_proper h h0 hr
  refine ⟨r0, h0, ?_⟩
  rw [letters_eq]
  exact (span_text hp hi hn).1 (yaepParse_tree hp (tokens_nonneg text) hy).1.span

/-- What is missing for `C57_exact`: in a text where no rule gets in its own way the parser finds a parse exactly if the text belongs to the language, and it always has an answer. -/
theorem C57_exact_partial (rs : List Ixml.Rule) (text : List Nat) (a : Parse) (h : Fit rs) (hf : Free rs text) (ha : parseWith rs (tokens text) = some a) :
    ((∃ t amb, a = .tree t amb) ↔ InLanguage rs text) ∧ ((∃ k, a = .noTree k) ↔ ¬ InLanguage rs text) := by
  obtain ⟨R, fl, ff, hr, hy⟩ := parseWith_some ha
  obtain ⟨r0, h0⟩ := fit_head h
  obtain ⟨_, hp, hi, hn⟩ := fit_proper h h0 hr
  have hin : InLanguage rs text ↔ Span ⟨R, fl, ff⟩ (tokens text ++ [-1]) [.n r0.name] 0 (tokens text).length := by
    rw [span_text hp hi hn, ← letters_eq]
    constructor
    · rintro ⟨r0', h0', h⟩
      rw [h0] at h0'
      cases h0'
      exact h
    · exact fun h => ⟨r0, h0, h⟩
  have hL := lossless_of (text := tokens text) hp hi (by rw [← letters_eq]; exact hf r0 h0)
  have := yaepParse_answer hp (tokens_nonneg text) hL
  rw [hy] at this
  cases this with
  | tree t amb h1 _ =>
    have h2 := hin.2 h1.span
    exact ⟨⟨fun _ => h2, fun _ => ⟨t, amb, rfl⟩⟩, ⟨fun ⟨k, e⟩ => (by cases e), fun h => absurd h2 h⟩⟩
  | noTree k _ h1 =>
    have h2 := fun h => h1 (hin.1 h)
    exact ⟨⟨fun ⟨t, amb, e⟩ => (by cases e), fun h => absurd h h2⟩, ⟨fun _ => h2, fun _ => ⟨k, rfl⟩⟩⟩

/-- The parser does not come to an end without an answer. -/
def C57_answers : Prop := ∀ (rs : List Ixml.Rule) (text : List Nat) (s : Stop), Fit rs → parseWith rs (tokens text) ≠ some (.stopped s)

/-- A grammar with no rule that begins with two symbols which can be empty. -/
theorem free_of_single (rs : List Ixml.Rule) (h : ∀ x rhs, GivenRules rs x rhs → ∀ y z rest, rhs = y :: z :: rest → Nullable (GivenRules rs) y → ¬ Nullable (GivenRules rs) z)
    (text : List Nat) : Free rs text := by
  rintro r0 _ ⟨x, rhs, hx, u, v, z, γ, γ', j', j, _, hv, hj, hl, hnull, hy, _⟩
  cases j' with
  | zero =>
    rw [List.take_zero] at hy
    have := yields_gen hy
    cases this
    exact hv rfl
  | succ j' =>
    match rhs, j, hl, hj with
    | y :: y' :: rest, j + 2, _, _ =>
      exact h x _ hx y y' rest rfl (hnull y (by simp)) (hnull y' (by simp))
    | [y], j, hl, hj => simp at hl; omega
    | [], j, hl, hj => simp at hl; omega
    | _, 0, _, hj => omega
    | _, 1, _, hj => omega

/-- A grammar in which what a rule derives from the symbols at its beginning, if these and one more can be empty, does not end with a character that can stand in front
of the rule. -/
theorem free_of_ends (rs : List Ixml.Rule) (h : ∀ r0, rs.head? = some r0 → ∀ x rhs, GivenRules rs x rhs → ∀ j' j, j' < j → j ≤ rhs.length →
      (∀ y ∈ rhs.take j, Nullable (GivenRules rs) y) → ∀ v c, Yields (GivenRules rs) (rhs.take j') (v ++ [.t c]) → ∀ δ γ, ¬ Yields (GivenRules rs) [.n r0.name] (δ ++ .t c :: x :: γ))
    (text : List Nat) : Free rs text := by
  rintro r0 h0 ⟨x, rhs, hx, u, v, z, γ, γ', j', j, hw, hv, hj, hl, hnull, hy, _, hagain⟩
  rcases List.eq_nil_or_concat v with rfl | ⟨v, c, rfl⟩
  · exact hv rfl
  · have hc : c ∈ letters text := by rw [hw]; simp
    obtain ⟨n, _, rfl⟩ := List.mem_map.1 hc
    rw [List.concat_eq_append] at hy hagain
    refine h r0 h0 x rhs hx j' j hj hl hnull v _ hy (u ++ v) γ' ?_
    simpa using hagain

theorem yields_once {P : Sym → List Sym → Prop} {s x : Sym} (hx : ∀ y rhs, P y rhs → x ∉ rhs) {δ : List Sym} (h : Yields P [s] δ) : x ∈ δ → δ = [s] := by
  induction h with
  | refl => exact fun _ => rfl
  | step u y v rhs _ hp ih =>
    intro hm
    have hm : x ∈ u ++ v := by
      have := hx y rhs hp
      simp only [List.mem_append] at hm ⊢
      rcases hm with h | h | h
      · exact .inl h
      · exact absurd h this
      · exact .inr h
    have := ih (by simp only [List.mem_append, List.mem_cons] at hm ⊢; rcases hm with h | h <;> simp [h])
    have hlen := congrArg List.length this
    have hpos := List.length_pos_of_mem hm
    simp at hlen hpos
    omega

/-- A grammar in which only rules for a symbol that is used nowhere begin with two symbols which can be empty. -/
theorem free_of_once (rs : List Ixml.Rule) (h : ∀ x rhs, GivenRules rs x rhs → ∀ y z rest, rhs = y :: z :: rest → Nullable (GivenRules rs) y → Nullable (GivenRules rs) z →
      ∀ x' rhs', GivenRules rs x' rhs' → x ∉ rhs') (text : List Nat) : Free rs text := by
  refine free_of_ends rs ?_ text
  rintro r0 h0 x rhs hx j' j hj hl hnull v c hy δ γ hagain
  cases j' with
  | zero =>
    rw [List.take_zero] at hy
    have := yields_gen hy
    generalize hv : v ++ [Sym.t c] = v' at this
    cases this
    simp at hv
  | succ j' =>
    match rhs, j, hl, hj with
    | y :: y' :: rest, j + 2, _, _ =>
      have := yields_once (h x _ hx y y' rest rfl (hnull y (by simp)) (hnull y' (by simp))) hagain (by simp)
      have := congrArg List.length this
      simp at this
      omega
    | [y], j, hl, hj => simp at hl; omega
    | [], j, hl, hj => simp at hl; omega
    | _, 0, _, hj => omega
    | _, 1, _, hj => omega

/-! ## C58 -/

/-- The tree derives the text. -/
theorem C58_tree (rs : List Ixml.Rule) (text : List Nat) (t : PT) (amb : Bool) (h : Fit rs) (ha : parseWith rs (tokens text) = some (.tree t amb)) :
    ∃ r0, rs.head? = some r0 ∧ Parses (allRules rs) [.n r0.name] [t] (tokens text) := by
  obtain ⟨R, fl, ff, hr, hy⟩ := parseWith_some ha
  obtain ⟨r0, h0⟩ := fit_head h
  obtain ⟨rfl, hp, hi, hn⟩ := fit_proper h h0 hr
  exact ⟨r0, h0, tspan_iff.1 (yaepParse_tree hp (tokens_nonneg text) hy).1⟩

/-- If the parser calls the text ambiguous there is a second tree. -/
theorem C58_ambiguous (rs : List Ixml.Rule) (text : List Nat) (t : PT) (h : Fit rs) (ha : parseWith rs (tokens text) = some (.tree t true)) :
    ∃ r0, rs.head? = some r0 ∧ ∃ u, u ≠ t ∧ Parses (allRules rs) [.n r0.name] [u] (tokens text) := by
  obtain ⟨R, fl, ff, hr, hy⟩ := parseWith_some ha
  obtain ⟨r0, h0⟩ := fit_head h
  obtain ⟨rfl, hp, hi, hn⟩ := fit_proper h h0 hr
  obtain ⟨u, h1, h2⟩ := (yaepParse_tree hp (tokens_nonneg text) hy).2 rfl
  exact ⟨r0, h0, u, h1, tspan_iff.1 h2⟩

/-- If the parser does not call the text ambiguous there is no second tree. -/
def C58_unambiguous : Prop :=
  ∀ (rs : List Ixml.Rule) (text : List Nat) (t : PT), Fit rs → parseWith rs (tokens text) = some (.tree t false) →
    ∀ r0, rs.head? = some r0 → ∀ u, Parses (allRules rs) [.n r0.name] [u] (tokens text) → u = t

/-- It is so in a text where no rule gets in its own way. -/
theorem C58_unambiguous_partial (rs : List Ixml.Rule) (text : List Nat) (t : PT) (h : Fit rs) (hf : Free rs text) (ha : parseWith rs (tokens text) = some (.tree t false))
    (r0 : Ixml.Rule) (h0 : rs.head? = some r0) (u : PT) (hu : Parses (allRules rs) [.n r0.name] [u] (tokens text)) : u = t := by
  obtain ⟨R, fl, ff, hr, hy⟩ := parseWith_some ha
  obtain ⟨rfl, hp, hi, hn⟩ := fit_proper h h0 hr
  have hL := lossless_of (text := tokens text) hp hi (by rw [← letters_eq]; exact hf r0 h0)
  have := yaepParse_answer hp (tokens_nonneg text) hL
  rw [hy] at this
  cases this with
  | tree _ _ _ h1 => exact h1.1 rfl u (tspan_iff.2 hu)

/-! ## C59 -/

/-- The reported place is the first one where the text cannot be continued: up to there it begins something that the grammar derives, and no text of the language begins with one
more of its characters. -/
def C59_first_error : Prop :=
  ∀ (rs : List Ixml.Rule) (text : List Nat) (k : Nat) (r0 : Ixml.Rule), Fit rs → rs.head? = some r0 → parseWith rs (tokens text) = some (.noTree k) →
    k ≤ text.length ∧ (∃ γ, Yields (GivenRules rs) [.n r0.name] (letters (text.take k) ++ γ)) ∧
      (k < text.length → ∀ text', text.take (k + 1) <+: text' → ¬ InLanguage rs text') ∧ (k = text.length → ¬ InLanguage rs text)

theorem tokens_take (text : List Nat) (k : Nat) : (tokens text).take k = tokens (text.take k) := by simp [tokens, List.map_take]

/-- What is in front of the reported place can be continued. -/
theorem C59_viable (rs : List Ixml.Rule) (text : List Nat) (k : Nat) (r0 : Ixml.Rule) (h : Fit rs) (h0 : rs.head? = some r0) (ha : parseWith rs (tokens text) = some (.noTree k)) :
    k ≤ text.length ∧ ∃ γ, Yields (GivenRules rs) [.n r0.name] (letters (text.take k) ++ γ) := by
  obtain ⟨R, fl, ff, hr, hy⟩ := parseWith_some ha
  obtain ⟨rfl, hp, hi, hn⟩ := fit_proper h h0 hr
  obtain ⟨h1, h2, _⟩ := noTree_cases hp hi (tokens_nonneg text) hy
  rw [tokens_take, ← letters_eq] at h2
  exact ⟨by simpa [tokens] using h1, h2⟩

/-- `C59_first_error` for the texts in which no rule gets in its own way. -/
theorem C59_first_error_partial (rs : List Ixml.Rule) (text : List Nat) (k : Nat) (h : Fit rs) (ha : parseWith rs (tokens text) = some (.noTree k)) :
    (k < text.length → ∀ text', Free rs text' → text.take (k + 1) <+: text' → ¬ InLanguage rs text') ∧ (k = text.length → Free rs text → ¬ InLanguage rs text) := by
  constructor
  · rintro hk text' hf hpre hin
    obtain ⟨R, fl, ff, hr, hy⟩ := parseWith_some ha
    obtain ⟨r0, h0⟩ := fit_head h
    obtain ⟨_, hp, hi, hn⟩ := fit_proper h h0 hr
    have hy' : yaepParse ⟨R, fl, ff⟩ (tokens text') = .noTree k := by
      refine noTree_prefix hp hi (tokens_nonneg text) hy (by simpa [tokens] using hk) ?_
      rw [tokens_take]
      obtain ⟨rest, rfl⟩ := hpre
      exact ⟨tokens rest, by simp [tokens]⟩
    have ha' : parseWith rs (tokens text') = some (.noTree k) := by
      unfold parseWith
      rw [hr]
      simp only [hy']
    exact (C57_exact_partial rs text' _ h hf ha').2.1 ⟨k, rfl⟩ hin
  · intro _ hf
    exact (C57_exact_partial rs text _ h hf ha).2.1 ⟨k, rfl⟩

/-! ## Concrete cases -/

def isTree (amb : Bool) : Option Parse → Bool
  | some (.tree _ a) => a == amb
  | _ => false
def isNoTree (k : Nat) : Option Parse → Bool
  | some (.noTree k') => k' == k
  | _ => false
def isAssertion : Option Parse → Bool
  | some (.stopped .assertion) => true
  | _ => false
theorem isTree_some {amb : Bool} {a : Option Parse} (h : isTree amb a = true) : ∃ t, a = some (.tree t amb) := by
  unfold isTree at h
  split at h
  · next t a => exact ⟨t, by rw [eq_of_beq h]⟩
  · cases h
theorem isNoTree_some {k : Nat} {a : Option Parse} (h : isNoTree k a = true) : a = some (.noTree k) := by
  unfold isNoTree at h
  split at h
  · rw [eq_of_beq h]
  · cases h
theorem isAssertion_some {a : Option Parse} (h : isAssertion a = true) : a = some (.stopped .assertion) := by
  unfold isAssertion at h
  split at h
  · rfl
  · cases h

/-- `goodText` with `xyx`, and with `xyy`. -/
theorem good_fit : Fit goodRules := by
  refine ⟨⟨by simp [goodRules], ?_⟩, ?_⟩ <;> simp [goodRules, hidden]
theorem good_tree : ∃ t, parseWith goodRules (tokens [120, 121, 120]) = some (.tree t false) := isTree_some (by decide +kernel)
theorem good_noTree : parseWith goodRules (tokens [120, 121, 121]) = some (.noTree 2) := isNoTree_some (by decide +kernel)

theorem good_terminal (x : Sym) (h : Nullable (GivenRules goodRules) x) : x = .n b#"s" ∨ x = .n b#"|0" ∨ x = .n b#"|1" := by
  refine gen_nil (E := fun x => x = .n b#"s" ∨ x = .n b#"|0" ∨ x = .n b#"|1") ?_ (yields_gen h) rfl x (by simp)
  rintro x rhs ⟨r, hr, rfl, rfl⟩ hall
  simp only [goodRules, List.mem_cons, List.not_mem_nil, or_false] at hr
  rcases hr with rfl | rfl | rfl | rfl | rfl | rfl | rfl <;> simp_all [hidden]

theorem good_free (text : List Nat) : Free goodRules text := by
  refine free_of_single goodRules ?_ text
  rintro x rhs ⟨r, hr, rfl, rfl⟩ y z rest e hy hz
  simp only [goodRules, List.mem_cons, List.not_mem_nil, or_false] at hr
  have h1 := good_terminal y hy
  have h2 := good_terminal z hz
  rcases hr with rfl | rfl | rfl | rfl | rfl | rfl | rfl <;> simp [hidden] at e
  · obtain ⟨rfl, rfl, _⟩ := e
    simp at h2
  · obtain ⟨rfl, rfl, _⟩ := e
    simp at h1

/-- `s:"a"?,"b"?,"c".` with `bc`. -/
def optsRules : List Ixml.Rule :=
  [⟨b#"s", none, 0, [⟨b#'-', .n b#"|0"⟩, ⟨b#'-', .n b#"|1"⟩, ⟨0, .t 99⟩]⟩, hidden b#"|0" [⟨0, .t 97⟩], hidden b#"|0" [], hidden b#"|1" [⟨0, .t 98⟩], hidden b#"|1" []]
theorem opts_free (text : List Nat) : Free optsRules text := by
  refine free_of_once optsRules ?_ text
  rintro x rhs ⟨r, hr, rfl, rfl⟩ y z rest e _ _ x' rhs' ⟨r', hr', rfl, rfl⟩
  simp only [optsRules, List.mem_cons, List.not_mem_nil, or_false] at hr hr'
  rcases hr with rfl | rfl | rfl | rfl | rfl <;> simp [hidden] at e
  rcases hr' with rfl | rfl | rfl | rfl | rfl <;> simp [hidden]
theorem opts_fit : Fit optsRules := by
  refine ⟨⟨by simp [optsRules], ?_⟩, ?_⟩ <;> simp [optsRules, hidden]
theorem opts_tree : ∃ t, parseWith optsRules (tokens [98, 99]) = some (.tree t false) := isTree_some (by decide +kernel)

/-- `e:e,"+",e;"n".` with `n+n+n` is ambiguous. -/
def sumRules : List Ixml.Rule := [⟨b#"e", none, 0, [⟨0, .n b#"e"⟩, ⟨0, .t 43⟩, ⟨0, .n b#"e"⟩]⟩, ⟨b#"e", none, 0, [⟨0, .t 110⟩]⟩]
theorem sum_fit : Fit sumRules := by
  refine ⟨⟨by simp [sumRules], ?_⟩, ?_⟩ <;> simp [sumRules]
theorem sum_tree : ∃ t, parseWith sumRules (tokens [110, 43, 110, 43, 110]) = some (.tree t true) := isTree_some (by decide +kernel)

/-- `s:a,"q"|"b",a,"r".a:b,c,"d".b:"b"|.c:.` -/
def lostText : List Byte := b#"s:a,\"q\"|\"b\",a,\"r\".a:b,c,\"d\".b:\"b\"|.c:."
def lostRules : List Ixml.Rule :=
  [⟨b#"s", none, 0, [⟨0, .n b#"a"⟩, ⟨0, .t 113⟩]⟩, ⟨b#"s", none, 0, [⟨0, .t 98⟩, ⟨0, .n b#"a"⟩, ⟨0, .t 114⟩]⟩, ⟨b#"a", none, 0, [⟨0, .n b#"b"⟩, ⟨0, .n b#"c"⟩, ⟨0, .t 100⟩]⟩,
   ⟨b#"b", none, 0, [⟨0, .t 98⟩]⟩, ⟨b#"b", none, 0, []⟩, ⟨b#"c", none, 0, []⟩]

theorem given_of {rs : List Ixml.Rule} (r : Ixml.Rule) (h : r ∈ rs) : GivenRules rs (.n r.name) (r.rhs.map fun t => t.sym) := ⟨r, h, rfl, rfl⟩

/-- The text `bdr` belongs to the language of `lostText` but is refused at `r`. -/
theorem C57_false_lost : (∃ st, readGrammar lostText = .ok st ∧ grammarFor st [98, 100, 114] = some lostRules) ∧ Fit lostRules ∧ InLanguage lostRules [98, 100, 114] ∧
    parseWith lostRules (tokens [98, 100, 114]) = some (.noTree 2) := by
  refine ⟨⟨⟨[], lostRules, 5, 0, 0, []⟩, by rfl, by rfl⟩, ⟨⟨by simp [lostRules], ?_⟩, ?_⟩, ⟨lostRules[0], rfl, ?_⟩, isNoTree_some (by decide +kernel)⟩
  · simp [lostRules]
  · simp [lostRules]
  · have h1 : Yields (GivenRules lostRules) [.n b#"s"] ([.t 98] ++ .n b#"a" :: [.t 114]) := Yields.rule (given_of (rs := lostRules) lostRules[1] (by simp [lostRules]))
    have h2 : Yields (GivenRules lostRules) [.n b#"s"] ([.t 98] ++ .n b#"b" :: [.n b#"c", .t 100, .t 114]) :=
      Yields.step (P := GivenRules lostRules) (α := [Sym.n b#"s"]) [.t 98] (.n b#"a") [.t 114] _ h1 (given_of (rs := lostRules) lostRules[2] (by simp [lostRules]))
    have h3 : Yields (GivenRules lostRules) [.n b#"s"] ([.t 98] ++ .n b#"c" :: [.t 100, .t 114]) :=
      Yields.step (P := GivenRules lostRules) (α := [Sym.n b#"s"]) [.t 98] (.n b#"b") [.n b#"c", .t 100, .t 114] _ h2 (given_of (rs := lostRules) lostRules[4] (by simp [lostRules]))
    exact Yields.step (P := GivenRules lostRules) (α := [Sym.n b#"s"]) [.t 98] (.n b#"c") [.t 100, .t 114] _ h3 (given_of (rs := lostRules) lostRules[5] (by simp [lostRules]))

theorem C57_false : ¬ C57_exact := by
  intro h
  obtain ⟨_, h1, h2, h3⟩ := C57_false_lost
  obtain ⟨t, amb, e⟩ := (h _ _ _ h1 h3).2 h2
  cases e

theorem C59_false : ¬ C59_first_error := by
  intro h
  obtain ⟨_, h1, h2, h3⟩ := C57_false_lost
  exact (h _ _ _ _ h1 rfl h3).2.2.1 (by decide) _ (List.prefix_refl _) h2

/-- `s:a,"q"|"b",a.a:b,c.b:"b"|.c:.`: an assertion fails for the text `b`. -/
def brokenText : List Byte := b#"s:a,\"q\"|\"b\",a.a:b,c.b:\"b\"|.c:."
def brokenRules : List Ixml.Rule :=
  [⟨b#"s", none, 0, [⟨0, .n b#"a"⟩, ⟨0, .t 113⟩]⟩, ⟨b#"s", none, 0, [⟨0, .t 98⟩, ⟨0, .n b#"a"⟩]⟩, ⟨b#"a", none, 0, [⟨0, .n b#"b"⟩, ⟨0, .n b#"c"⟩]⟩,
   ⟨b#"b", none, 0, [⟨0, .t 98⟩]⟩, ⟨b#"b", none, 0, []⟩, ⟨b#"c", none, 0, []⟩]
theorem C57_false_assertion : (∃ st, readGrammar brokenText = .ok st ∧ grammarFor st [98] = some brokenRules) ∧ Fit brokenRules ∧
    parseWith brokenRules (tokens [98]) = some (.stopped .assertion) := by
  refine ⟨⟨⟨[], brokenRules, 5, 0, 0, []⟩, by rfl, by rfl⟩, ⟨⟨by simp [brokenRules], ?_⟩, ?_⟩, isAssertion_some (by decide +kernel)⟩
  · simp [brokenRules]
  · simp [brokenRules]

theorem C57_answers_false : ¬ C57_answers := by
  intro h
  obtain ⟨_, h1, h2⟩ := C57_false_assertion
  exact h _ _ _ h1 h2

/-- `s:a,"q"|"b",a,"r"|"b","d","r".a:b,c,"d".b:"b"|.c:.`: the text `bdr` has two trees and is not called ambiguous. -/
def twoText : List Byte := b#"s:a,\"q\"|\"b\",a,\"r\"|\"b\",\"d\",\"r\".a:b,c,\"d\".b:\"b\"|.c:."
def twoRules : List Ixml.Rule :=
  [⟨b#"s", none, 0, [⟨0, .n b#"a"⟩, ⟨0, .t 113⟩]⟩, ⟨b#"s", none, 0, [⟨0, .t 98⟩, ⟨0, .n b#"a"⟩, ⟨0, .t 114⟩]⟩, ⟨b#"s", none, 0, [⟨0, .t 98⟩, ⟨0, .t 100⟩, ⟨0, .t 114⟩]⟩,
   ⟨b#"a", none, 0, [⟨0, .n b#"b"⟩, ⟨0, .n b#"c"⟩, ⟨0, .t 100⟩]⟩, ⟨b#"b", none, 0, [⟨0, .t 98⟩]⟩, ⟨b#"b", none, 0, []⟩, ⟨b#"c", none, 0, []⟩]
theorem C58_false_two : (∃ st, readGrammar twoText = .ok st ∧ grammarFor st [98, 100, 114] = some twoRules) ∧ Fit twoRules ∧
    (∃ t, parseWith twoRules (tokens [98, 100, 114]) = some (.tree t false)) ∧
    Parses (allRules twoRules) [.n b#"s"] [.node 3 [.leaf 98, .leaf 100, .leaf 114]] (tokens [98, 100, 114]) ∧
    Parses (allRules twoRules) [.n b#"s"] [.node 2 [.leaf 98, .node 4 [.node 6 [], .node 7 [], .leaf 100], .leaf 114]] (tokens [98, 100, 114]) := by
  refine ⟨⟨⟨[], twoRules, 6, 0, 0, []⟩, by rfl, by rfl⟩, ⟨⟨by simp [twoRules], ?_⟩, ?_⟩, isTree_some (by decide +kernel), ?_, ?_⟩
  · simp [twoRules]
  · simp [twoRules]
  · exact .node 3 ⟨b#"s", [.t 98, .t 100, .t 114]⟩ _ [98, 100, 114] [] [] [] rfl (.leaf _ _ _ _ (.leaf _ _ _ _ (.leaf _ _ _ _ .nil))) .nil
  · have hb : Parses (allRules twoRules) [.n b#"b", .n b#"c", .t 100] [.node 6 [], .node 7 [], .leaf 100] [100] :=
      .node 6 ⟨b#"b", []⟩ [] [] _ _ [100] rfl .nil (.node 7 ⟨b#"c", []⟩ [] [] _ _ [100] rfl .nil (.leaf _ _ _ _ .nil))
    exact .node 2 ⟨b#"s", [.t 98, .n b#"a", .t 114]⟩ _ [98, 100, 114] [] [] [] rfl
      (.leaf _ _ _ _ (.node 4 ⟨b#"a", [.n b#"b", .n b#"c", .t 100]⟩ _ [100] [.t 114] [.leaf 114] [114] rfl hb (.leaf _ _ _ _ .nil))) .nil

theorem C58_false : ¬ C58_unambiguous := by
  intro h
  obtain ⟨_, h1, ⟨t, h2⟩, h3, h4⟩ := C58_false_two
  have e1 := h _ _ _ h1 h2 _ rfl _ h3
  have e2 := h _ _ _ h1 h2 _ rfl _ h4
  rw [← e1] at e2
  cases e2

end Xmq.Props
