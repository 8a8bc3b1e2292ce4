import Verif.Lemmas.IxmlAll
import Verif.Lemmas.IxmlRuleNames
import Verif.Spec.IxmlNames
/-!
# The symbols in the rules of an ixml grammar
-/
namespace Xmq.Ixml
open Xmq.Spec Xmq.Spec.Ixml

/-- A name that the Earley parser does not use itself. -/
def Plain (n : List Byte) : Prop := n ≠ b#"$S" ∧ n ≠ b#"error"

/-- A character, or a nonterminal with such a name. -/
def PlainSym : Sym → Prop
  | .t c => 0 ≤ c
  | .n n => Plain n

def PlainTerms (ts : List Term) : Prop := ∀ t ∈ ts, PlainSym t.sym

theorem plain_gen (n : Nat) : Plain (genName n) := by
  unfold Plain genName
  simp

theorem plain_set (cs : CSet) : Plain (setName cs) := by
  unfold Plain setName
  split <;> simp

theorem plain_ins (x : List Byte) : Plain (b#"|+" ++ x) := by
  unfold Plain
  simp

theorem plain_symOf {ts : List Term} (h : PlainTerms ts) : PlainSym (symOf ts) := by
  unfold symOf
  split
  · next t => exact h t (by simp)
  · exact ⟨by simp, by simp⟩

theorem plain_nil : PlainTerms [] := by intro t h; cases h
theorem plain_cons {t : Term} {ts : List Term} (h : PlainSym t.sym) (hs : PlainTerms ts) : PlainTerms (t :: ts) := by
  intro x hx
  rcases List.mem_cons.1 hx with rfl | hx
  · exact h
  · exact hs x hx
theorem plain_one {t : Term} (h : PlainSym t.sym) : PlainTerms [t] := plain_cons h plain_nil
theorem plain_append {a b : List Term} (ha : PlainTerms a) (hb : PlainTerms b) : PlainTerms (a ++ b) := by
  intro x hx
  rcases List.mem_append.1 hx with hx | hx
  · exact ha x hx
  · exact hb x hx

def PlainRules (R : List Rule) : Prop := ∀ r ∈ R, Plain r.name ∧ PlainTerms r.rhs

theorem plains_nil : PlainRules [] := by intro t h; cases h
theorem plains_cons {r : Rule} {R : List Rule} (h : Plain r.name ∧ PlainTerms r.rhs) (hs : PlainRules R) : PlainRules (r :: R) := by
  intro x hx
  rcases List.mem_cons.1 hx with rfl | hx
  · exact h
  · exact hs x hx
theorem plains_append {a b : List Rule} (ha : PlainRules a) (hb : PlainRules b) : PlainRules (a ++ b) := by
  intro x hx
  rcases List.mem_append.1 hx with hx | hx
  · exact ha x hx
  · exact hb x hx

theorem plain_hidden {n : Nat} {ts : List Term} (h : PlainTerms ts) : Plain (hidden (genName n) ts).name ∧ PlainTerms (hidden (genName n) ts).rhs := ⟨plain_gen n, h⟩

theorem comp_plain (r : Rx) : ∀ (nm : List Byte) (mk : Byte) (g : Nat) (m : Byte), Plain nm → Refs Plain r → PlainTerms (comp nm mk r g m).ts ∧ PlainRules (comp nm mk r g m).new := by
  induction r with
  | lit m cs =>
    intro nm mk g m' hn _
    unfold comp
    split
    · exact ⟨plain_nil, plains_nil⟩
    · exact ⟨plain_one (Int.natCast_nonneg _), plains_nil⟩
    · refine ⟨plain_one (plain_gen g), plains_cons (plain_hidden ?_) plains_nil⟩
      intro t ht
      obtain ⟨c, _, rfl⟩ := List.mem_map.1 ht
      exact Int.natCast_nonneg c
  | set m ex ms =>
    intro nm mk g m' hn _
    exact ⟨plain_one (plain_set _), plains_nil⟩
  | ref m n al =>
    intro nm mk g m' hn h
    exact ⟨plain_one h, plains_nil⟩
  | ins cs =>
    intro nm mk g m' hn _
    exact ⟨plain_one (plain_ins _), plains_cons ⟨plain_ins _, plain_nil⟩ plains_nil⟩
  | group r ih =>
    intro nm mk g m' hn h
    by_cases hr : r = .eps
    · subst hr
      exact ⟨plain_nil, plains_nil⟩
    · rw [comp]
      · obtain ⟨h1, h2⟩ := ih (genName g) (b#'-') (g + 1) m' (plain_gen g) h
        exact ⟨plain_one (plain_gen g), plains_cons (plain_hidden h1) h2⟩
      · exact hr
  | opt f ih =>
    intro nm mk g m' hn h
    obtain ⟨h1, h2⟩ := ih nm mk g m' hn h
    exact ⟨plain_one (plain_gen _), plains_append h2 (plains_cons (plain_hidden (plain_one (plain_symOf h1))) (plains_cons (plain_hidden plain_nil) plains_nil))⟩
  | plus f ih =>
    intro nm mk g m' hn h
    obtain ⟨h1, h2⟩ := ih nm mk g m' hn h
    exact ⟨plain_one (plain_gen _), plains_append h2 (plains_cons (plain_hidden (plain_one (plain_symOf h1)))
      (plains_cons (plain_hidden (plain_cons (plain_gen _) (plain_one (plain_symOf h1)))) plains_nil))⟩
  | star f ih =>
    intro nm mk g m' hn h
    obtain ⟨h1, h2⟩ := ih nm mk g m' hn h
    exact ⟨plain_one (plain_gen _), plains_append h2 (plains_cons (plain_hidden plain_nil)
      (plains_cons (plain_hidden (plain_cons (plain_gen _) (plain_one (plain_symOf h1)))) plains_nil))⟩
  | plusSep f s ih1 ih2 =>
    intro nm mk g m' hn h
    obtain ⟨h1, h2⟩ := ih1 nm mk g m' hn h.1
    obtain ⟨h3, h4⟩ := ih2 nm mk (comp nm mk f g m').gen (comp nm mk f g m').mark hn h.2
    exact ⟨plain_one (plain_gen _), plains_append (plains_append h2 h4) (plains_cons (plain_hidden (plain_one (plain_symOf h1)))
      (plains_cons (plain_hidden (plain_cons (plain_gen _) (plain_cons (plain_symOf h3) (plain_one (plain_symOf h1))))) plains_nil))⟩
  | starSep f s ih1 ih2 =>
    intro nm mk g m' hn h
    obtain ⟨h1, h2⟩ := ih1 nm mk g m' hn h.1
    obtain ⟨h3, h4⟩ := ih2 nm mk (comp nm mk f g m').gen (comp nm mk f g m').mark hn h.2
    exact ⟨plain_one (plain_gen _), plains_append (plains_append (plains_append h2 h4) (plains_cons (plain_hidden (plain_one (plain_symOf h1)))
      (plains_cons (plain_hidden (plain_cons (plain_gen _) (plain_cons (plain_symOf h3) (plain_one (plain_symOf h1))))) plains_nil)))
      (plains_cons (plain_hidden (plain_one (plain_gen _))) (plains_cons (plain_hidden plain_nil) plains_nil))⟩
  | eps =>
    intro nm mk g m' hn _
    exact ⟨plain_nil, plains_nil⟩
  | seq a b ih1 ih2 =>
    intro nm mk g m' hn h
    obtain ⟨h1, h2⟩ := ih1 nm mk g m' hn h.1
    obtain ⟨h3, h4⟩ := ih2 nm mk (comp nm mk a g m').gen (comp nm mk a g m').mark hn h.2
    exact ⟨plain_append h1 h3, plains_append h2 h4⟩
  | alt a b ih1 ih2 =>
    intro nm mk g m' hn h
    obtain ⟨h1, h2⟩ := ih1 nm mk g m' hn h.1
    obtain ⟨h3, h4⟩ := ih2 nm mk (comp nm mk a g m').gen (comp nm mk a g m').mark hn h.2
    exact ⟨h1, plains_append h2 (plains_cons ⟨hn, h3⟩ h4)⟩

theorem compRules_plain : ∀ (g : List GRule) (k : Nat) (m : Byte), AllNames Plain g → PlainRules (compRules g k m).1
  | [], _, _, _ => plains_nil
  | r :: rs, k, m, h => by
    rw [compRules]
    obtain ⟨h0, h1⟩ := h r (by simp)
    obtain ⟨h2, h3⟩ := comp_plain r.body r.name r.mark k m h0 h1
    exact plains_cons ⟨h0, h2⟩ (plains_append h3 (compRules_plain rs _ _ fun r hr => h r (List.mem_cons_of_mem _ hr)))

theorem isName_dollar {n : List Byte} (h : IsName n) : n ≠ b#"$S" := by
  obtain ⟨c, t, rfl, hc, _⟩ := h
  intro e
  injection e with e _
  subst e
  unfold IsLetter at hc
  revert hc
  decide

theorem wnaming_name {lim : Bool} {m : Byte} {n : List Byte} {al : Option (List Byte)} {t : List Byte} (h : WNaming lim m n al t) : IsName n := by
  obtain ⟨_, _, _, _, h, _, _⟩ := h
  exact h

theorem w_refs {lim : Bool} {c : Cls} {r : Rx} {t : List Byte} (h : W lim c r t) : Refs IsName r := by
  induction h with
  | lit | enc | incl | excl | ins | insEnc | eps => trivial
  | ref m n al t h => exact wnaming_name h
  | group r _ _ _ _ _ _ _ ih => exact ih
  | one f t _ ih => exact ih
  | opt f _ _ _ _ _ ih => exact ih
  | plus f _ _ _ _ _ ih => exact ih
  | star f _ _ _ _ _ ih => exact ih
  | plusSep f s _ _ _ _ _ _ _ ih1 ih2 => exact ⟨ih1, ih2⟩
  | starSep f s _ _ _ _ _ _ _ ih1 ih2 => exact ⟨ih1, ih2⟩
  | last r t _ ih => exact ih
  | seq a b _ _ _ _ _ _ _ ih1 ih2 => exact ⟨ih1, ih2⟩
  | alone r t _ ih => exact ih
  | alt a b _ _ _ _ _ _ _ _ _ ih1 ih2 => exact ⟨ih1, ih2⟩

theorem refs_and {P Q T : List Byte → Prop} (h : ∀ n, P n → Q n → T n) : ∀ r : Rx, Refs P r → Refs Q r → Refs T r
  | .ref _ n _, hp, hq => h n hp hq
  | .group r, hp, hq => refs_and h r hp hq
  | .opt r, hp, hq => refs_and h r hp hq
  | .plus r, hp, hq => refs_and h r hp hq
  | .star r, hp, hq => refs_and h r hp hq
  | .plusSep a b, hp, hq => ⟨refs_and h a hp.1 hq.1, refs_and h b hp.2 hq.2⟩
  | .starSep a b, hp, hq => ⟨refs_and h a hp.1 hq.1, refs_and h b hp.2 hq.2⟩
  | .seq a b, hp, hq => ⟨refs_and h a hp.1 hq.1, refs_and h b hp.2 hq.2⟩
  | .alt a b, hp, hq => ⟨refs_and h a hp.1 hq.1, refs_and h b hp.2 hq.2⟩
  | .lit .., _, _ => trivial
  | .set .., _, _ => trivial
  | .ins .., _, _ => trivial
  | .eps, _, _ => trivial

/-- A written grammar without the name `error`. -/
theorem grammar_plain {g : List GRule} {text : List Byte} (h : WGrammar true g text) (he : AllNames (· ≠ b#"error") g) (content : List Nat) :
    ∃ st R, readGrammar text = .ok st ∧ grammarFor st content = some R ∧ R ≠ [] ∧ PlainRules R := by
  obtain ⟨st, R, e1, e2, _⟩ := grammar_enc h content
  refine ⟨st, R, e1, e2, (grammarFor_named e1 e2).1, ?_⟩
  obtain ⟨cur, gen, m, e⟩ := readGrammar_read h
  rw [e1] at e
  have e : st = ⟨[], (compRules g 0 0).1, cur, gen, m, (compRules g 0 0).2⟩ := by injection e
  have hw : ∀ r ∈ g, Written r := by
    obtain ⟨s, p, t, hs, hp, ht, hx⟩ := h
    exact wrules_written ht
  have hn : AllNames Plain g := by
    intro r hr
    obtain ⟨h1, _, t, ht⟩ := hw r hr
    exact ⟨⟨isName_dollar h1, (he r hr).1⟩, refs_and (fun n a b => ⟨isName_dollar a, b⟩) _ (w_refs ht) (he r hr).2⟩
  unfold grammarFor at e2
  split at e2
  · cases e2
  · next l hl =>
    cases e2
    refine plains_append ?_ ?_
    · rw [e]
      exact compRules_plain g 0 0 hn
    · intro r hr
      obtain ⟨x, hx, hrx⟩ := List.mem_flatten.1 hr
      obtain ⟨cs, hcs, e⟩ := mapM_mem hl x hx
      unfold setRules at e
      obtain ⟨codes, _, rfl⟩ := Option.map_eq_some_iff.1 e
      obtain ⟨c, _, rfl⟩ := List.mem_map.1 hrx
      exact ⟨plain_set cs, plain_one (Int.natCast_nonneg c)⟩

end Xmq.Ixml
