import Verif.Lemmas.YaepLoop
import Verif.Lemmas.YaepFirst
import Verif.Lemmas.IxmlRuleNames
/-!
# C55, C56: what the Earley parser finds out about a grammar before it parses

`Yields`, `Nullable`, … are those of textbooks (Spec/Cfg).  The parser itself is in Props/Earley.
-/
namespace Xmq.Props
open Xmq Xmq.Ixml Xmq.Spec Xmq.Yaep Xmq.Cfg

/-- The grammar as it comes from the reader of invisible XML. -/
def GivenRules (rs : List Ixml.Rule) (x : Sym) (rhs : List Sym) : Prop := ∃ r ∈ rs, x = .n r.name ∧ rhs = r.rhs.map fun t => t.sym

/-- There is a rule, the names `error` and `$S` are not used, and no code is negative. -/
def Usable (rs : List Ixml.Rule) : Prop :=
  rs ≠ [] ∧ ∀ r ∈ rs, r.name ≠ b#"error" ∧ r.name ≠ b#"$S" ∧ ∀ t ∈ r.rhs, t.sym ≠ .n b#"error" ∧ ∀ c, t.sym = .t c → 0 ≤ c

/-! ## The rules -/

theorem symOf_id {x : Sym} (h : x ≠ .n b#"error") : symOf x = x := by
  cases x with
  | t c => rfl
  | n n =>
    exact if_neg (fun e => h (by rw [e]))

/-- The given rules without marks. -/
def plainRules (rs : List Ixml.Rule) : List Yaep.Rule := rs.map fun r => ⟨r.name, r.rhs.map fun t => t.sym⟩

theorem readRules_eq (r0 : Ixml.Rule) (rs : List Ixml.Rule) (h : Usable (r0 :: rs)) :
    readRules (r0 :: rs) = some (⟨axiomName, [.n r0.name, eof]⟩ :: plainRules (r0 :: rs) ++ [⟨axiomName, [errorTerm, eof]⟩]) := by
  obtain ⟨_, hn⟩ := h
  have hmap : ∀ r ∈ r0 :: rs, (r.rhs.map fun t => symOf t.sym) = r.rhs.map fun t => t.sym := by
    intro r hr
    refine List.map_congr_left fun t ht => symOf_id ((hn r hr).2.2 t ht).1
  have hown : ((r0 :: rs).map fun r => (⟨r.name, r.rhs.map fun t => symOf t.sym⟩ : Yaep.Rule)) = plainRules (r0 :: rs) :=
    List.map_congr_left fun r hr => by rw [hmap r hr]
  have hcond : ((r0 :: rs).any (fun r => r.name = b#"error") || decide (r0.name = axiomName)) = false := by
    rw [Bool.or_eq_false_iff, List.any_eq_false]
    exact ⟨fun r hr => by simpa using (hn r hr).1, decide_eq_false (hn r0 (by simp)).2.1⟩
  have hneg : ((r0 :: rs).any fun r => r.rhs.any fun t => negative t.sym) = false := by
    rw [List.any_eq_false]
    intro r hr h
    obtain ⟨t, ht, h⟩ := List.any_eq_true.1 h
    have := ((hn r hr).2.2 t ht).2
    cases e : t.sym with
    | t c =>
      rw [e] at h
      have h1 := this c e
      have h2 : c < 0 := of_decide_eq_true h
      omega
    | n a => rw [e] at h; cases h
  have hrec : ((plainRules (r0 :: rs)).any fun r => r.lhs = r0.name && r.rhs.head? = some errorTerm) = false := by
    rw [List.any_eq_false]
    intro q hq h
    obtain ⟨r, hr, rfl⟩ := List.mem_map.1 hq
    rw [Bool.and_eq_true, decide_eq_true_eq, decide_eq_true_eq] at h
    obtain ⟨rest, hrest⟩ := List.head?_eq_some_iff.1 h.2
    have : errorTerm ∈ r.rhs.map fun t => t.sym := by
      rw [show (r.rhs.map fun t => t.sym) = _ from hrest]
      exact List.mem_cons_self ..
    obtain ⟨t, ht, e⟩ := List.mem_map.1 this
    have := ((hn r hr).2.2 t ht).2 (-2) e
    omega
  unfold readRules
  dsimp only
  rw [hneg, hcond, hown, hrec]
  rfl

/-- The parser works with the given rules and those of its own axiom. -/
theorem C55_rules (rs : List Ixml.Rule) (h : Usable rs) : ∃ R, readRules rs = some R ∧ ∃ r0, rs.head? = some r0 ∧
    ∀ x rhs, Prods R x rhs ↔ GivenRules rs x rhs ∨ x = .n b#"$S" ∧ (rhs = [.n r0.name, .t (-1)] ∨ rhs = [.t (-2), .t (-1)]) := by
  cases rs with
  | nil => exact absurd rfl h.1
  | cons r0 rs =>
    have hg : ∀ x rhs, Prods (plainRules (r0 :: rs)) x rhs ↔ GivenRules (r0 :: rs) x rhs := by
      intro x rhs
      constructor
      · rintro ⟨q, hq, h1, h2⟩
        obtain ⟨r, hr, rfl⟩ := List.mem_map.1 hq
        exact ⟨r, hr, h1, h2⟩
      · rintro ⟨r, hr, h1, h2⟩
        exact ⟨_, List.mem_map.2 ⟨r, hr, rfl⟩, h1, h2⟩
    refine ⟨_, readRules_eq r0 rs h, r0, rfl, fun x rhs => ?_⟩
    constructor
    · rintro ⟨q, hq, h1, h2⟩
      rcases List.mem_append.1 hq with hq | hq
      · rcases List.mem_cons.1 hq with rfl | hq
        · exact .inr ⟨h1, .inl h2⟩
        · exact .inl ((hg x rhs).1 ⟨q, hq, h1, h2⟩)
      · rw [List.mem_singleton] at hq
        subst hq
        exact .inr ⟨h1, .inr h2⟩
    · rintro (h | ⟨rfl, rfl | rfl⟩)
      · obtain ⟨q, hq, h1, h2⟩ := (hg x rhs).2 h
        exact ⟨q, List.mem_append_left _ (List.mem_cons_of_mem _ hq), h1, h2⟩
      · exact ⟨⟨axiomName, [.n r0.name, eof]⟩, List.mem_append_left _ (List.mem_cons_self ..), rfl, rfl⟩
      · exact ⟨⟨axiomName, [errorTerm, eof]⟩, List.mem_append_right _ (List.mem_singleton.2 rfl), rfl, rfl⟩

/-! ## Loops in the given rules and in those of the parser -/

theorem given_nonterm {rs : List Ixml.Rule} {x : Sym} {rhs : List Sym} (h : GivenRules rs x rhs) : ∃ n, x = .n n := by
  obtain ⟨r, _, e, _⟩ := h
  exact ⟨_, e⟩

section
variable {rs : List Ixml.Rule} {R : List Yaep.Rule} {s0 : List Byte}

theorem nullable_given (hR : ∀ x rhs, Prods R x rhs → GivenRules rs x rhs ∨ x = .n b#"$S" ∧ .t (-1) ∈ rhs) {x : Sym}
    (h : Nullable (Prods R) x) : Nullable (GivenRules rs) x := by
  refine gen_nil (E := Nullable (GivenRules rs)) ?_ (yields_gen h) rfl x (by simp)
  intro x rhs hp hr
  rcases hR x rhs hp with h | ⟨_, h⟩
  · exact Yields.trans (Yields.rule h) (yields_nulls hr)
  · have := gen_nil (E := fun x => ∃ n, x = Sym.n n) (fun x rhs hp _ => given_nonterm hp) (yields_gen (hr _ h)) rfl (.t (-1)) (by simp)
    obtain ⟨n, e⟩ := this
    cases e

theorem yields_more {P Q : Sym → List Sym → Prop} (h : ∀ x rhs, P x rhs → Q x rhs) {α β : List Sym} (hy : Yields P α β) : Yields Q α β := by
  induction hy with
  | refl => exact .refl
  | step u x v rhs _ hp ih => exact .step u x v rhs ih (h x rhs hp)

theorem sole_given (hR : ∀ x rhs, Prods R x rhs → GivenRules rs x rhs ∨ x = .n b#"$S" ∧ .t (-1) ∈ rhs) {x y : Sym} (h : Sole (Prods R) x y) :
    Sole (GivenRules rs) x y ∨ y = .t (-1) := by
  obtain ⟨u, v, hp, hu, hv⟩ := h
  rcases hR x _ hp with h | ⟨_, h⟩
  · exact .inl ⟨u, v, h, fun z hz => nullable_given hR (hu z hz), fun z hz => nullable_given hR (hv z hz)⟩
  · simp only [List.mem_append, List.mem_cons] at h
    rcases h with h | h | h
    · exact absurd (hu _ h) term_not_nullable
    · exact .inr h.symm
    · exact absurd (hv _ h) term_not_nullable

theorem chain_given (hR : ∀ x rhs, Prods R x rhs → GivenRules rs x rhs ∨ x = .n b#"$S" ∧ .t (-1) ∈ rhs) {x z : Sym} (h : Chain (Prods R) x z) :
    (∃ n, z = .n n) → Chain (GivenRules rs) x z := by
  induction h with
  | one h =>
    rintro ⟨n, rfl⟩
    rcases sole_given hR h with h | h
    · exact .one h
    · cases h
  | cons h h2 ih =>
    intro hz
    rcases sole_given hR h with h | h
    · exact .cons h (ih hz)
    · obtain ⟨n, e⟩ := chain_nonterm h2
      rw [e] at h
      cases h

theorem loops_given (hR : ∀ x rhs, Prods R x rhs → GivenRules rs x rhs ∨ x = .n b#"$S" ∧ .t (-1) ∈ rhs) (hG : ∀ x rhs, GivenRules rs x rhs → Prods R x rhs) (x : Sym) :
    Loops (Prods R) x ↔ Loops (GivenRules rs) x := by
  constructor
  · intro h
    exact loops_iff.2 (chain_given hR (loops_iff.1 h) (chain_nonterm (loops_iff.1 h)))
  · rintro ⟨rhs, hp, h⟩
    exact ⟨rhs, hG _ _ hp, yields_more hG h⟩

end

/-! ## C55 -/

/-- A grammar that could be read can be parsed with. -/
def C55_always_usable : Prop :=
  ∀ (text : List Byte) (st : St) (content : List Nat) (rs : List Ixml.Rule), readGrammar text = .ok st → grammarFor st content = some rs →
    ∃ R fl ff, readYaep rs = .accepted R fl ff

/-- The parts of `checkGrammar`. -/
theorem check_parts (R : List Yaep.Rule) : ∃ fl l ff, setFlags R = some fl ∧ setLoop R fl = some l ∧ setFF R fl = some ff ∧
      ((∃ n ∈ nonterms R, n ∈ l) ↔ ∃ x, Loops (Prods R) x) ∧
      (∀ x, .empty x ∈ fl ↔ Nullable (Prods R) x) ∧ (∀ n, .derives (.n n) ∈ fl ↔ Productive (Prods R) IsTerm (.n n)) ∧
      (∀ x, .access x ∈ fl ↔ Reachable (Prods R) (.n axiomName) x) ∧
      (∀ n c, .first n c ∈ ff ↔ Begins (Prods R) [.n n] (.t c)) ∧ (∀ n c, .follow n c ∈ ff ↔ Follows (Prods R) (.n n) (.t c)) ∧
      ∀ lhs c xs, c ∈ lookahead fl ff lhs xs ↔ Begins (Prods R) xs (.t c) ∨ (Yields (Prods R) xs [] ∧ Follows (Prods R) (.n lhs) (.t c)) := by
  obtain ⟨fl, h1, ha, hm, hc⟩ := setFlags_some R
  have he := empty_iff hm hc
  obtain ⟨l, h2, hl⟩ := setLoop_exact he
  obtain ⟨ff, h3, hfm, hfc⟩ := setFF_some he
  exact ⟨fl, l, ff, h1, h2, h3, hl, he, derives_iff hm hc, access_iff ha hm hc, first_iff he hfm hfc, follow_iff he hfm hfc,
    fun lhs c xs => lookahead_iff he hfm hfc lhs c xs⟩

/-- The answer follows from what the rules can derive. -/
theorem check_answer (R : List Yaep.Rule) : ∃ fl ff, setFlags R = some fl ∧ setFF R fl = some ff ∧
    ((¬ Productive (Prods R) IsTerm (.n axiomName) ∧ checkGrammar R = .derivesNothing) ∨
     (Productive (Prods R) IsTerm (.n axiomName) ∧ (∃ x, Loops (Prods R) x) ∧ ∃ n, checkGrammar R = .loop n) ∨
     (Productive (Prods R) IsTerm (.n axiomName) ∧ (¬ ∃ x, Loops (Prods R) x) ∧ checkGrammar R = .accepted R fl ff)) := by
  obtain ⟨fl, l, ff, h1, h2, h3, hl, _, hd, _⟩ := check_parts R
  refine ⟨fl, ff, h1, h3, ?_⟩
  unfold checkGrammar
  rw [h1]
  dsimp only
  rw [h2]
  dsimp only
  by_cases hp : Flag.derives (.n axiomName) ∈ fl
  · rw [if_pos hp]
    right
    cases hf : (nonterms R).find? fun n => n ∈ l with
    | some n =>
      left
      refine ⟨(hd _).1 hp, hl.1 ⟨n, List.mem_of_find?_eq_some hf, ?_⟩, n, rfl⟩
      have := List.find?_some hf
      exact of_decide_eq_true this
    | none =>
      right
      dsimp only
      rw [h3]
      refine ⟨(hd _).1 hp, fun h => ?_, rfl⟩
      obtain ⟨n, hn, hnl⟩ := hl.2 h
      have := List.find?_eq_none.1 hf n hn
      exact this (decide_eq_true hnl)
  · rw [if_neg hp]
    exact .inl ⟨fun h => hp ((hd _).2 h), rfl⟩

/-- The checks come to an end. -/
theorem C55_ends (rs : List Ixml.Rule) : readYaep rs ≠ .outOfFuel := by
  unfold readYaep
  cases readRules rs with
  | none => simp
  | some R =>
    obtain ⟨fl, ff, _, _, h | h | h⟩ := check_answer R
    · dsimp only; rw [h.2]; simp
    · obtain ⟨_, _, n, h⟩ := h
      dsimp only; rw [h]; simp
    · dsimp only; rw [h.2.2]; simp

/-- With the guard `Usable` the parser takes a grammar exactly if no symbol derives itself, and refuses it as a loop otherwise. -/
theorem accepted_iff (rs : List Ixml.Rule) (h : Usable rs) :
    ((∃ R fl ff, readYaep rs = .accepted R fl ff) ↔ ¬ ∃ x, Loops (GivenRules rs) x) ∧
      ((∃ n, readYaep rs = .loop n) ↔ ∃ x, Loops (GivenRules rs) x) := by
  obtain ⟨R, hR, r0, _, hP⟩ := C55_rules rs h
  have hloop : (∃ x, Loops (Prods R) x) ↔ ∃ x, Loops (GivenRules rs) x := by
    have := loops_given (rs := rs) (R := R) (fun x rhs hp => ((hP x rhs).1 hp).imp id fun ⟨h1, h2⟩ => ⟨h1, by rcases h2 with rfl | rfl <;> simp⟩)
      (fun x rhs hg => (hP x rhs).2 (.inl hg))
    simp only [this]
  have hd : Productive (Prods R) IsTerm (.n axiomName) :=
    ⟨[.t (-2), .t (-1)], by simp [IsTerm], Yields.rule ((hP _ _).2 (.inr ⟨rfl, .inr rfl⟩))⟩
  have hr : readYaep rs = checkGrammar R := by unfold readYaep; rw [hR]
  rw [hr, ← hloop]
  obtain ⟨fl, ff, _, _, h | ⟨_, hl, n, h⟩ | ⟨_, hl, h⟩⟩ := check_answer R
  · exact absurd hd h.1
  · rw [h]
    exact ⟨⟨fun ⟨_, _, _, e⟩ => (by cases e), fun h => absurd hl h⟩, ⟨fun _ => hl, fun _ => ⟨n, rfl⟩⟩⟩
  · rw [h]
    exact ⟨⟨fun _ => hl, fun _ => ⟨R, fl, ff, rfl⟩⟩, ⟨fun ⟨_, e⟩ => (by cases e), fun h => absurd h hl⟩⟩

/-- What is missing for `C55_always_usable`: a grammar without the name `error` and without negative codes is accepted exactly if no symbol derives itself in its
rules, and refused as a loop otherwise. -/
theorem C55_accepted_partial (text : List Byte) (st : St) (content : List Nat) (rs : List Ixml.Rule) (h : readGrammar text = .ok st)
    (hg : grammarFor st content = some rs)
    (hn : ∀ r ∈ rs, r.name ≠ b#"error" ∧ ∀ t ∈ r.rhs, t.sym ≠ .n b#"error" ∧ ∀ c, t.sym = .t c → 0 ≤ c) :
    ((∃ R fl ff, readYaep rs = .accepted R fl ff) ↔ ¬ ∃ x, Loops (GivenRules rs) x) ∧
      ((∃ n, readYaep rs = .loop n) ↔ ∃ x, Loops (GivenRules rs) x) := by
  obtain ⟨h1, h2⟩ := grammarFor_named h hg
  refine accepted_iff rs ⟨h1, fun r hr => ⟨(hn r hr).1, fun e => h2 r hr ?_, (hn r hr).2⟩⟩
  rw [e]
  rfl

/-- `s:a*.a:"x",b?.b:"y".` -/
def goodText : List Byte := b#"s:a*.a:\"x\",b?.b:\"y\"."
def goodRules : List Ixml.Rule :=
  [⟨b#"s", none, 0, [⟨b#'-', .n b#"|0"⟩]⟩, hidden b#"|0" [], hidden b#"|0" [⟨b#'-', .n b#"|0"⟩, ⟨0, .n b#"a"⟩],
   ⟨b#"a", none, 0, [⟨0, .t 120⟩, ⟨b#'-', .n b#"|1"⟩]⟩, hidden b#"|1" [⟨0, .n b#"b"⟩], hidden b#"|1" [], ⟨b#"b", none, 0, [⟨0, .t 121⟩]⟩]

def isAccepted : Answer → Bool
  | .accepted .. => true
  | _ => false
def loopName : Answer → Option (List Byte)
  | .loop n => some n
  | _ => none
def isBad : Answer → Bool
  | .badRules => true
  | _ => false
theorem isAccepted_some {a : Answer} (h : isAccepted a = true) : ∃ R fl ff, a = .accepted R fl ff := by
  cases a <;> first | exact ⟨_, _, _, rfl⟩ | cases h
theorem loopName_some {a : Answer} {n : List Byte} (h : loopName a = some n) : a = .loop n := by
  cases a <;> cases h <;> rfl
theorem isBad_some {a : Answer} (h : isBad a = true) : a = .badRules := by
  cases a <;> first | rfl | cases h

/-- A concrete case of the guard that is accepted. -/
theorem good_accepted : ∃ st, readGrammar goodText = .ok st ∧ grammarFor st [120, 121] = some goodRules ∧
    (∀ r ∈ goodRules, r.name ≠ b#"error" ∧ ∀ t ∈ r.rhs, t.sym ≠ .n b#"error" ∧ ∀ c, t.sym = .t c → 0 ≤ c) ∧
    ∃ R fl ff, readYaep goodRules = .accepted R fl ff := by
  refine ⟨⟨[], goodRules, 6, 2, 0, []⟩, by rfl, by rfl, ?_, isAccepted_some (by decide +kernel)⟩
  simp [goodRules, hidden]

/-- A repeated expression that can be empty, `s:(x?)*.x:"a".`, is refused. -/
def repText : List Byte := b#"s:(x?)*.x:\"a\"."
def repRules : List Ixml.Rule :=
  [⟨b#"s", none, 0, [⟨b#'-', .n b#"|2"⟩]⟩, hidden b#"|0" [⟨b#'-', .n b#"|1"⟩], hidden b#"|1" [⟨0, .n b#"x"⟩], hidden b#"|1" [],
   hidden b#"|2" [], hidden b#"|2" [⟨b#'-', .n b#"|2"⟩, ⟨0, .n b#"|0"⟩], ⟨b#"x", none, 0, [⟨0, .t 97⟩]⟩]
theorem C55_false_repetition : ∃ st, readGrammar repText = .ok st ∧ grammarFor st [97] = some repRules ∧ readYaep repRules = .loop b#"|2" :=
  ⟨⟨[], repRules, 6, 3, 0, []⟩, by rfl, by rfl, loopName_some (by decide +kernel)⟩

/-- A rule named `error` is refused. -/
theorem C55_false_error : ∃ st rs, readGrammar b#"error:\"a\"." = .ok st ∧ grammarFor st [97] = some rs ∧ readYaep rs = .badRules :=
  ⟨⟨[], [⟨b#"error", none, 0, [⟨0, .t 97⟩]⟩], 0, 0, 0, []⟩, [⟨b#"error", none, 0, [⟨0, .t 97⟩]⟩], by rfl, by rfl, isBad_some (by decide +kernel)⟩

/-- A code of 32 bits is refused. -/
theorem C55_false_negative : ∃ st rs, readGrammar b#"s:#ffffffff." = .ok st ∧ grammarFor st [97] = some rs ∧ readYaep rs = .badRules :=
  ⟨⟨[], [⟨b#"s", none, 0, [⟨0, .t (-1)⟩]⟩], 0, 0, 0, []⟩, [⟨b#"s", none, 0, [⟨0, .t (-1)⟩]⟩], by rfl, by rfl, isBad_some (by decide +kernel)⟩

theorem C55_false : ¬ C55_always_usable := by
  intro h
  obtain ⟨st, rs, h1, h2, h3⟩ := C55_false_error
  obtain ⟨R, fl, ff, h4⟩ := h _ st [97] rs h1 h2
  rw [h3] at h4
  cases h4

/-- `s:"x",a|a.a:b.b:b;"y".` -/
def blameText : List Byte := b#"s:\"x\",a|a.a:b.b:b;\"y\"."
def blameRules : List Ixml.Rule :=
  [⟨b#"s", none, 0, [⟨0, .t 120⟩, ⟨0, .n b#"a"⟩]⟩, ⟨b#"s", none, 0, [⟨0, .n b#"a"⟩]⟩, ⟨b#"a", none, 0, [⟨0, .n b#"b"⟩]⟩,
   ⟨b#"b", none, 0, [⟨0, .n b#"b"⟩]⟩, ⟨b#"b", none, 0, [⟨0, .t 121⟩]⟩]

/-- The message of a refusal can blame a nonterminal that does not derive itself. -/
theorem C55_false_message : ∃ st, readGrammar blameText = .ok st ∧ grammarFor st [120] = some blameRules ∧ readYaep blameRules = .loop b#"a" ∧
    ¬ Loops (GivenRules blameRules) (.n b#"a") := by
  refine ⟨⟨[], blameRules, 4, 0, 0, []⟩, by rfl, by rfl, loopName_some (by decide +kernel), ?_⟩
  have hrule : ∀ x rhs, GivenRules blameRules x rhs → x = .n b#"a" ∨ x = .n b#"b" → ∀ y ∈ rhs, y = .n b#"b" ∨ y = .t 121 := by
    rintro x rhs ⟨r, hr, rfl, rfl⟩ hx y hy
    simp only [blameRules, List.mem_cons, List.not_mem_nil, or_false] at hr
    rcases hr with rfl | rfl | rfl | rfl | rfl <;> simp_all
  rintro ⟨rhs, hp, h⟩
  have : ∀ δ, Yields (GivenRules blameRules) rhs δ → ∀ y ∈ δ, y = .n b#"b" ∨ y = .t 121 := by
    intro δ h
    induction h with
    | refl => exact hrule _ _ hp (.inl rfl)
    | step u x v r2 _ hp2 ih =>
      intro y hy
      rcases List.mem_append.1 hy with hy | hy
      · exact ih y (by simp [hy])
      · rcases List.mem_append.1 hy with hy | hy
        · rcases ih x (by simp) with hx | hx
          · exact hrule _ _ hp2 (.inr hx) y hy
          · obtain ⟨n, e⟩ := given_nonterm hp2
            rw [hx] at e
            cases e
        · exact ih y (by simp [hy])
  have := this _ h (.n b#"a") (by simp)
  simp at this

/-! ## C56 -/

/-- The flags and sets of an accepted grammar say what they should. -/
theorem C56_exact (rs : List Ixml.Rule) (R : List Yaep.Rule) (fl : List Flag) (ff : List FF) (h : readYaep rs = .accepted R fl ff) :
    readRules rs = some R ∧
      (∀ x, .empty x ∈ fl ↔ Nullable (Prods R) x) ∧ (∀ n, .derives (.n n) ∈ fl ↔ Productive (Prods R) IsTerm (.n n)) ∧
      (∀ x, .access x ∈ fl ↔ Reachable (Prods R) (.n b#"$S") x) ∧
      (∀ n c, .first n c ∈ ff ↔ Begins (Prods R) [.n n] (.t c)) ∧ (∀ n c, .follow n c ∈ ff ↔ Follows (Prods R) (.n n) (.t c)) := by
  unfold readYaep at h
  cases hR : readRules rs with
  | none => rw [hR] at h; cases h
  | some R' =>
    rw [hR] at h
    dsimp only at h
    obtain ⟨fl', ff', h1, h3, h' | ⟨_, _, n, h'⟩ | ⟨_, _, h'⟩⟩ := check_answer R'
    · rw [h'.2] at h; cases h
    · rw [h'] at h; cases h
    · rw [h'] at h
      cases h
      obtain ⟨fl', l, ff', e1, _, e3, _, g1, g2, g3, g4, g5, _⟩ := check_parts R
      rw [h1] at e1
      cases e1
      rw [h3] at e3
      cases e3
      exact ⟨rfl, g1, g2, g3, g4, g5⟩

/-- The lookahead set of a rule with the dot in front of `xs` has exactly the terminals that can come next. -/
theorem C56_lookahead (rs : List Ixml.Rule) (R : List Yaep.Rule) (fl : List Flag) (ff : List FF) (h : readYaep rs = .accepted R fl ff)
    (lhs : List Byte) (xs : List Sym) (c : Int) :
    c ∈ lookahead fl ff lhs xs ↔ Begins (Prods R) xs (.t c) ∨ (Yields (Prods R) xs [] ∧ Follows (Prods R) (.n lhs) (.t c)) := by
  unfold readYaep at h
  cases hR : readRules rs with
  | none => rw [hR] at h; cases h
  | some R' =>
    rw [hR] at h
    dsimp only at h
    obtain ⟨fl', ff', h1, h3, h' | ⟨_, _, n, h'⟩ | ⟨_, _, h'⟩⟩ := check_answer R'
    · rw [h'.2] at h; cases h
    · rw [h'] at h; cases h
    · rw [h'] at h
      cases h
      obtain ⟨fl', l, ff', e1, _, e3, _, _, _, _, _, _, g⟩ := check_parts R
      rw [h1] at e1
      cases e1
      rw [h3] at e3
      cases e3
      exact g lhs c xs

end Xmq.Props
