import Verif.Lemmas.YaepSets
/-!
# The flags of the symbols
-/
namespace Xmq.Yaep
open Xmq.Ixml (Sym)
open Xmq.Spec Xmq.Cfg

/-- The grammar that a list of rules stands for. -/
def Prods (R : List Rule) (x : Sym) (rhs : List Sym) : Prop := ∃ r ∈ R, x = .n r.lhs ∧ rhs = r.rhs

/-- The symbol is a terminal. -/
def IsTerm (x : Sym) : Prop := ∃ c, x = .t c

/-! ## Nonterminals -/

theorem addName_mem {l : List (List Byte)} {n m : List Byte} : m ∈ addName l n ↔ m ∈ l ∨ m = n := by
  unfold addName
  split
  · next h => exact ⟨.inl, fun h' => h'.elim id (fun e => e ▸ h)⟩
  · simp

theorem names_rhs : ∀ {rhs : List Sym} {l : List (List Byte)} {m : List Byte},
    m ∈ rhs.foldl (fun l x => match x with | .n n => addName l n | .t _ => l) l ↔ m ∈ l ∨ Sym.n m ∈ rhs
  | [], l, m => by simp
  | x :: rhs, l, m => by
    rw [List.foldl_cons, names_rhs]
    cases x with
    | t c => simp
    | n a =>
      simp only [addName_mem, List.mem_cons, Sym.n.injEq]
      grind

theorem names_rules : ∀ {R : List Rule} {l : List (List Byte)} {m : List Byte},
    m ∈ R.foldl (fun l r => r.rhs.foldl (fun l x => match x with | .n n => addName l n | .t _ => l) (addName l r.lhs)) l ↔
      m ∈ l ∨ ∃ r ∈ R, m = r.lhs ∨ Sym.n m ∈ r.rhs
  | [], l, m => by simp
  | r :: R, l, m => by
    rw [List.foldl_cons, names_rules, names_rhs, addName_mem]
    simp only [List.mem_cons, exists_eq_or_imp]
    grind

theorem mem_nonterms {R : List Rule} {m : List Byte} : m ∈ nonterms R ↔ ∃ r ∈ R, m = r.lhs ∨ Sym.n m ∈ r.rhs := by
  exact (names_rules (R := R) (l := []) (m := m)).trans (by simp)

theorem mem_rulesOf {R : List Rule} {n : List Byte} {r : Rule} : r ∈ rulesOf R n ↔ r ∈ R ∧ r.lhs = n := by
  simp [rulesOf]

theorem mem_visits {R : List Rule} {r : Rule} : r ∈ visits R ↔ r ∈ R := by
  unfold visits
  simp only [List.mem_flatMap, mem_rulesOf]
  constructor
  · rintro ⟨_, _, h, _⟩; exact h
  · intro h; exact ⟨r.lhs, mem_nonterms.2 ⟨r, h, .inl rfl⟩, h, rfl⟩

theorem prods_term {R : List Rule} {c : Int} {rhs : List Sym} : ¬ Prods R (.t c) rhs := by
  rintro ⟨_, _, h, _⟩; cases h

theorem prods_of {R : List Rule} {r : Rule} (h : r ∈ R) : Prods R (.n r.lhs) r.rhs := ⟨r, h, rfl, rfl⟩

theorem term_not_nullable {R : List Rule} {c : Int} : ¬ Nullable (Prods R) (.t c) := by
  intro h
  have := gen_nil (E := fun x => ¬ IsTerm x) (P := Prods R) (by rintro x rhs ⟨r, _, rfl, _⟩ _ ⟨c, h⟩; cases h) (yields_gen h) rfl (.t c) (by simp)
  exact this ⟨c, rfl⟩

/-! ## Rounds -/

/-- What a flag says. -/
def Means (R : List Rule) : Flag → Prop
  | .empty x => Nullable (Prods R) x ∧ x ∈ symbols R
  | .derives x => Productive (Prods R) IsTerm x ∧ x ∈ symbols R
  | .access x => Reachable (Prods R) (.n axiomName) x ∧ (x ∈ symbols R ∨ x = .n axiomName)

theorem lhs_symbols {R : List Rule} {r : Rule} (h : r ∈ R) : Sym.n r.lhs ∈ symbols R :=
  List.mem_flatMap.2 ⟨r, h, by simp⟩

theorem rhs_symbols {R : List Rule} {r : Rule} (h : r ∈ R) {x : Sym} (hx : x ∈ r.rhs) : x ∈ symbols R :=
  List.mem_flatMap.2 ⟨r, h, by simp [hx]⟩

theorem reachable_rhs {R : List Rule} {r : Rule} (h : r ∈ R) {s : Sym} (hs : Reachable (Prods R) s (.n r.lhs)) {x : Sym} (hx : x ∈ r.rhs) :
    Reachable (Prods R) s x := by
  obtain ⟨u, v, hy⟩ := hs
  obtain ⟨a, b, e⟩ := List.append_of_mem hx
  have := Yields.step u _ v _ hy (prods_of h)
  rw [e] at this
  exact ⟨u ++ a, b ++ v, by simpa using this⟩

theorem isT_iff {x : Sym} : isT x = true ↔ IsTerm x := by
  cases x with
  | t c => simp [isT, IsTerm]
  | n a => simp [isT, IsTerm]

/-- The three steps of a rule. -/
def stepAccess (st : List Flag × Bool) (r : Rule) : List Flag × Bool :=
  if .access (.n r.lhs) ∈ st.1 then r.rhs.foldl (fun st x => add (.access x) st) st else st
def stepEmpty (st : List Flag × Bool) (r : Rule) : List Flag × Bool :=
  if r.rhs.all fun x => .empty x ∈ st.1 then add (.empty (.n r.lhs)) st else st
def stepDerives (st : List Flag × Bool) (r : Rule) : List Flag × Bool :=
  if r.rhs.all fun x => isT x || .derives x ∈ st.1 then add (.derives (.n r.lhs)) st else st

theorem visitRule_eq (st : List Flag × Bool) (r : Rule) : visitRule st r = stepDerives (stepEmpty (stepAccess st r) r) r := rfl

theorem grow_access {R : List Rule} {r : Rule} (hr : r ∈ R) (st : List Flag × Bool) : Grow (Means R) st (stepAccess st r) := by
  unfold stepAccess
  split
  · next h =>
    have : ∀ (l : List Sym) (s : List Flag × Bool), (∀ x ∈ l, x ∈ r.rhs) → Flag.access (.n r.lhs) ∈ s.1 → Grow (Means R) s (l.foldl (fun st x => add (.access x) st) s) := by
      intro l
      induction l with
      | nil => exact fun _ _ _ => .refl
      | cons x l ih =>
        intro s hl hs
        have h1 : Grow (Means R) s (add (.access x) s) := .one _ fun hS =>
          ⟨reachable_rhs hr (hS _ hs).1 (hl x (by simp)), .inl (rhs_symbols hr (hl x (by simp)))⟩
        exact h1.trans (ih _ (fun y hy => hl y (by simp [hy])) (h1.mono _ hs))
    exact this r.rhs st (fun _ h => h) h
  · exact .refl

theorem grow_empty {R : List Rule} {r : Rule} (hr : r ∈ R) (st : List Flag × Bool) : Grow (Means R) st (stepEmpty st r) := by
  unfold stepEmpty
  split
  · next h =>
    refine .one _ fun hS => ⟨?_, lhs_symbols hr⟩
    refine Yields.trans (Yields.rule (prods_of hr)) (yields_nulls fun x hx => ?_)
    have := List.all_eq_true.1 h x hx
    exact (hS _ (of_decide_eq_true this)).1
  · exact .refl

theorem grow_derives {R : List Rule} {r : Rule} (hr : r ∈ R) (st : List Flag × Bool) : Grow (Means R) st (stepDerives st r) := by
  unfold stepDerives
  split
  · next h =>
    refine .one _ fun hS => ⟨?_, lhs_symbols hr⟩
    have : ∀ x ∈ r.rhs, Productive (Prods R) IsTerm x := by
      intro x hx
      have := List.all_eq_true.1 h x hx
      rcases (Bool.or_eq_true _ _).mp this with h | h
      · exact ⟨[x], by simpa using isT_iff.1 h, .refl⟩
      · exact (hS _ (of_decide_eq_true h)).1
    obtain ⟨w, h1, h2⟩ := productive_all this
    exact ⟨w, h1, Yields.trans (Yields.rule (prods_of hr)) h2⟩
  · exact .refl

theorem grow_visitRule {R : List Rule} {r : Rule} (hr : r ∈ R) (st : List Flag × Bool) : Grow (Means R) st (visitRule st r) := by
  rw [visitRule_eq]
  exact ((grow_access hr st).trans (grow_empty hr _)).trans (grow_derives hr _)

/-- Nothing is left to be added. -/
structure Closed (R : List Rule) (fl : List Flag) : Prop where
  access : ∀ r ∈ R, .access (.n r.lhs) ∈ fl → ∀ x ∈ r.rhs, .access x ∈ fl
  empty : ∀ r ∈ R, (∀ x ∈ r.rhs, .empty x ∈ fl) → .empty (.n r.lhs) ∈ fl
  derives : ∀ r ∈ R, (∀ x ∈ r.rhs, IsTerm x ∨ .derives x ∈ fl) → .derives (.n r.lhs) ∈ fl

theorem closed_of_fixed {R : List Rule} {fl : List Flag} (h : (visits R).foldl visitRule (fl, false) = (fl, false)) : Closed R fl := by
  have hf : ∀ r ∈ R, stepAccess (fl, false) r = (fl, false) ∧ stepEmpty (fl, false) r = (fl, false) ∧ stepDerives (fl, false) r = (fl, false) := by
    intro r hr
    have e := fixed_foldl (S := Means R) (fun x hx s => grow_visitRule (mem_visits.1 hx) s) rfl h r (mem_visits.2 hr)
    rw [visitRule_eq] at e
    have e1 := (grow_access hr (fl, false)).fixed ((grow_empty hr _).trans (grow_derives hr _)) e rfl
    rw [e1] at e
    have e2 := (grow_empty hr (fl, false)).fixed (grow_derives hr _) e rfl
    rw [e2] at e
    exact ⟨e1, e2, e⟩
  refine ⟨fun r hr ha x hx => ?_, fun r hr ha => ?_, fun r hr ha => ?_⟩
  · have e := (hf r hr).1
    unfold stepAccess at e
    rw [if_pos ha] at e
    have : ∀ x ∈ r.rhs, ∀ s, Grow (fun _ => True) s (add (Flag.access x) s) := fun x _ s => .one _ fun _ => trivial
    exact add_fixed rfl (fixed_foldl this rfl e x hx)
  · have e := (hf r hr).2.1
    unfold stepEmpty at e
    rw [if_pos (List.all_eq_true.2 fun x hx => decide_eq_true (ha x hx))] at e
    exact add_fixed rfl e
  · have e := (hf r hr).2.2
    unfold stepDerives at e
    rw [if_pos (List.all_eq_true.2 fun x hx => ?_)] at e
    · exact add_fixed rfl e
    · rcases ha x hx with h | h
      · simp [isT_iff.2 h]
      · simp [h]

def allFlags (R : List Rule) : List Flag :=
  (symbols R).map .empty ++ (symbols R).map .derives ++ (.access (.n axiomName) :: (symbols R).map .access)

theorem setFlags_some (R : List Rule) : ∃ fl, setFlags R = some fl ∧ .access (.n axiomName) ∈ fl ∧ (∀ f ∈ fl, Means R f) ∧ Closed R fl := by
  have hg : ∀ s, Grow (Means R) s ((visits R).foldl visitRule s) := fun s => grow_foldl fun x hx s => grow_visitRule (mem_visits.1 hx) s
  have hU : ∀ f, Means R f → f ∈ allFlags R := by
    intro f hf
    unfold allFlags
    cases f with
    | empty x => simp [hf.2]
    | derives x => simp [hf.2]
    | access x =>
      rcases hf.2 with h | h
      · simp [h]
      · simp [h]
  obtain ⟨fl, h1, h2, h3, h4⟩ := repeatUntil_some hg hU (3 * (symbols R).length + 2) [.access (.n axiomName)] (by simp) (by
      intro y hy
      rw [List.mem_singleton.1 hy]
      exact ⟨⟨[], [], .refl⟩, .inr rfl⟩) (by simp [allFlags]; omega)
  exact ⟨fl, h1, h2 _ (by simp), h3, closed_of_fixed h4⟩

/-! ## The flags are exact -/

theorem empty_iff {R : List Rule} {fl : List Flag} (hm : ∀ f ∈ fl, Means R f) (hc : Closed R fl) (x : Sym) : .empty x ∈ fl ↔ Nullable (Prods R) x := by
  refine ⟨fun h => (hm _ h).1, fun h => ?_⟩
  exact gen_nil (E := fun x => Flag.empty x ∈ fl) (by rintro x rhs ⟨r, hr, rfl, rfl⟩ h; exact hc.empty r hr h) (yields_gen h) rfl x (by simp)

theorem derives_iff {R : List Rule} {fl : List Flag} (hm : ∀ f ∈ fl, Means R f) (hc : Closed R fl) (n : List Byte) :
    .derives (.n n) ∈ fl ↔ Productive (Prods R) IsTerm (.n n) := by
  refine ⟨fun h => (hm _ h).1, fun ⟨w, hw, h⟩ => ?_⟩
  have := gen_terms (T := IsTerm) (D := fun x => IsTerm x ∨ Flag.derives x ∈ fl) (fun x h => .inl h)
    (by rintro x rhs ⟨r, hr, rfl, rfl⟩ h; exact .inr (hc.derives r hr h)) (yields_gen h) hw (.n n) (by simp)
  rcases this with ⟨c, h⟩ | h
  · cases h
  · exact h

theorem access_iff {R : List Rule} {fl : List Flag} (ha : .access (.n axiomName) ∈ fl) (hm : ∀ f ∈ fl, Means R f) (hc : Closed R fl) (x : Sym) :
    .access x ∈ fl ↔ Reachable (Prods R) (.n axiomName) x := by
  refine ⟨fun h => (hm _ h).1, fun ⟨u, v, h⟩ => ?_⟩
  have : ∀ δ, Yields (Prods R) [.n axiomName] δ → ∀ y ∈ δ, Flag.access y ∈ fl := by
    intro δ h
    induction h with
    | refl => intro y hy; rw [List.mem_singleton.1 hy]; exact ha
    | step u x v rhs _ hp ih =>
      obtain ⟨r, hr, rfl, rfl⟩ := hp
      intro y hy
      rcases List.mem_append.1 hy with h | h
      · exact ih y (by simp [h])
      · rcases List.mem_append.1 h with h | h
        · exact hc.access r hr (ih _ (by simp)) y h
        · exact ih y (by simp [h])
  exact this _ h x (by simp)

end Xmq.Yaep
