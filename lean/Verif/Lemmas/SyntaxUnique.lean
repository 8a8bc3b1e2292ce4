import Verif.Spec.Syntax
/-!
# The grammar of the tokens is unambiguous
-/
namespace Xmq
open Spec

/-- The first token, if any, is of none of the kinds. -/
def NotHead (ks : List Kind) : List Tok → Prop
  | [] => True
  | t :: _ => t.kind ∉ ks

theorem NotHead.mono {ks ls : List Kind} {r : List Tok} (h : NotHead ls r) (hs : ∀ k ∈ ks, k ∈ ls) : NotHead ks r := by
  cases r with
  | nil => trivial
  | cons t u => exact fun hm => h (hs _ hm)

/-- The tokens of kind `P` are read in one way, when what follows starts with none of the kinds. -/
def OneWay {α : Type} (P : List Tok → α → Prop) (ks : List Kind) : Prop :=
  ∀ {ts ts' r r' : List Tok} {x x' : α}, P ts x → P ts' x' → ts ++ r = ts' ++ r' → NotHead ks r → NotHead ks r' → x = x' ∧ r = r'

theorem compound_oneWay (attr : Bool) : OneWay (Compound attr)
    [.attr_value_compound_quote, .element_value_compound_quote, .attr_value_compound_entity, .element_value_compound_entity] := by
  intro ts ts' r r' x x' h
  induction h generalizing ts' x' with
  | nil =>
    intro h' e hr hr'
    cases h' with
    | nil => exact ⟨rfl, e⟩
    | quote t v ts vs hk =>
      simp only [List.nil_append] at e
      subst e
      exact absurd (by cases attr <;> simp_all) hr
    | entity t v ts vs hk =>
      simp only [List.nil_append] at e
      subst e
      exact absurd (by cases attr <;> simp_all) hr
  | quote t v ts vs hk hv _ ih =>
    intro h' e hr hr'
    cases h' with
    | nil =>
      simp only [List.nil_append] at e
      subst e
      exact absurd (by rw [hk]; cases attr <;> simp) hr'
    | quote t' v' ts' vs' hk' hv' h' =>
      simp only [List.cons_append, List.cons.injEq] at e
      obtain ⟨rfl, e⟩ := e
      obtain ⟨rfl, h2⟩ := ih h' e hr hr'
      rw [hv] at hv'; cases hv'
      exact ⟨rfl, h2⟩
    | entity t' v' ts' vs' hk' hv' h' =>
      simp only [List.cons_append, List.cons.injEq] at e
      obtain ⟨rfl, e⟩ := e
      rw [hk] at hk'
      cases attr <;> cases hk'
  | entity t v ts vs hk hv _ ih =>
    intro h' e hr hr'
    cases h' with
    | nil =>
      simp only [List.nil_append] at e
      subst e
      exact absurd (by rw [hk]; cases attr <;> simp) hr'
    | entity t' v' ts' vs' hk' hv' h' =>
      simp only [List.cons_append, List.cons.injEq] at e
      obtain ⟨rfl, e⟩ := e
      obtain ⟨rfl, h2⟩ := ih h' e hr hr'
      rw [hv] at hv'; cases hv'
      exact ⟨rfl, h2⟩
    | quote t' v' ts' vs' hk' hv' h' =>
      simp only [List.cons_append, List.cons.injEq] at e
      obtain ⟨rfl, e⟩ := e
      rw [hk] at hk'
      cases attr <;> cases hk'

theorem value_oneWay (attr : Bool) : OneWay (Value attr) [] := by
  intro ts ts' r r' x x' h h' e _ _
  cases h with
  | plain t hk =>
    cases h' <;> simp only [List.cons_append, List.cons.injEq, List.nil_append] at e <;> obtain ⟨rfl, e⟩ := e
    · exact ⟨rfl, e⟩
    all_goals
      exfalso
      cases attr <;> simp_all
  | quoted t s hk hv =>
    cases h' <;> simp only [List.cons_append, List.cons.injEq, List.nil_append] at e <;> obtain ⟨rfl, e⟩ := e
    case quoted hk' hv' =>
      rw [hv] at hv'; cases hv'
      exact ⟨rfl, e⟩
    all_goals
      exfalso
      cases attr <;> simp_all
  | ref t v hk hv =>
    cases h' <;> simp only [List.cons_append, List.cons.injEq, List.nil_append] at e <;> obtain ⟨rfl, e⟩ := e
    case ref hk' hv' =>
      rw [hv] at hv'; cases hv'
      exact ⟨rfl, e⟩
    all_goals
      exfalso
      cases attr <;> simp_all
  | many l q ts vs hl hq hc =>
    cases h' <;> simp only [List.cons_append, List.cons.injEq, List.nil_append] at e <;> obtain ⟨rfl, e⟩ := e
    case many q' ts' vs' hq' hc' hl' =>
      simp only [List.append_assoc, List.cons_append, List.nil_append] at e
      obtain ⟨rfl, e⟩ := compound_oneWay attr hc hc' e (by simp [NotHead, hq]) (by simp [NotHead, hq'])
      cases e
      exact ⟨rfl, rfl⟩
    all_goals
      exfalso
      cases attr <;> simp_all

theorem maybeValue_oneWay (attr : Bool) : OneWay (MaybeValue attr) [.equals] := by
  intro ts ts' r r' x x' h h' e hr hr'
  cases h with
  | none =>
    cases h' with
    | none => exact ⟨rfl, e⟩
    | some q us v hq hv =>
      simp only [List.nil_append] at e
      subst e
      exact absurd (by simp [hq]) hr
  | some q us v hq hv =>
    cases h' with
    | none =>
      simp only [List.nil_append] at e
      subst e
      exact absurd (by simp [hq]) hr'
    | some q' us' v' hq' hv' =>
      simp only [List.cons_append, List.cons.injEq] at e
      obtain ⟨rfl, e⟩ := e
      obtain ⟨rfl, h2⟩ := value_oneWay attr hv hv' e (by cases r <;> simp [NotHead]) (by cases r' <;> simp [NotHead])
      exact ⟨rfl, h2⟩

/-- A value does not begin with a colon. -/
theorem maybeValue_head {attr : Bool} {ts r : List Tok} {v : Option SVal} (h : MaybeValue attr ts v) (ks : List Kind) (he : .equals ∉ ks)
    (hr : NotHead ks r) : NotHead ks (ts ++ r) := by
  cases h with
  | none => exact hr
  | some q us v hq hv => show q.kind ∉ ks; rw [hq]; exact he

theorem attribute_oneWay : OneWay Attribute [.equals, .ns_colon] := by
  intro ts ts' r r' x x' h h' e hr hr'
  have n1 := hr.mono (ks := [.equals]) (by simp)
  have n2 := hr'.mono (ks := [.equals]) (by simp)
  have n3 := hr.mono (ks := [.ns_colon]) (by simp)
  have n4 := hr'.mono (ks := [.ns_colon]) (by simp)
  cases h with
  | plain k us v hk hv =>
    cases h' <;> simp only [List.cons_append, List.cons.injEq] at e <;> obtain ⟨rfl, e⟩ := e
    case plain hv' hk' =>
      obtain ⟨rfl, h2⟩ := maybeValue_oneWay true hv hv' e n1 n2
      exact ⟨rfl, h2⟩
    all_goals simp_all
  | prefixed p c k us v hp hc hk hv =>
    cases h' <;> simp only [List.cons_append, List.cons.injEq] at e <;> obtain ⟨rfl, e⟩ := e
    case prefixed c' k' us' v' hc' hk' hv' hp' =>
      obtain ⟨rfl, rfl, e⟩ := e
      obtain ⟨rfl, h2⟩ := maybeValue_oneWay true hv hv' e n1 n2
      exact ⟨rfl, h2⟩
    all_goals simp_all
  | declDefault k us v hk hv =>
    cases h' <;> simp only [List.cons_append, List.cons.injEq] at e <;> obtain ⟨rfl, e⟩ := e
    case declDefault hv' hk' =>
      obtain ⟨rfl, h2⟩ := maybeValue_oneWay true hv hv' e n1 n2
      exact ⟨rfl, h2⟩
    case declPrefix c' p' us' v' hc' hp' hv' hx' =>
      have := maybeValue_head hv [.ns_colon] (by simp) n3
      rw [e] at this
      exact absurd (by simp [hc']) this
    all_goals simp_all
  | declPrefix k c p us v hk hc hp hv =>
    cases h' <;> simp only [List.cons_append, List.cons.injEq] at e <;> obtain ⟨rfl, e⟩ := e
    case declPrefix c' p' us' v' hc' hp' hv' hx' =>
      obtain ⟨rfl, rfl, e⟩ := e
      obtain ⟨rfl, h2⟩ := maybeValue_oneWay true hv hv' e n1 n2
      exact ⟨rfl, h2⟩
    case declDefault us' v' hv' hx' =>
      have := maybeValue_head hv' [.ns_colon] (by simp) n4
      rw [← e] at this
      exact absurd (by simp [hc]) this
    all_goals simp_all

theorem attribute_head {ts : List Tok} {a : SAttr} (h : Attribute ts a) : ∃ t u, ts = t :: u ∧
    (t.kind = .attr_key ∨ t.kind = .attr_ns ∨ t.kind = .ns_declaration) := by
  cases h <;> exact ⟨_, _, rfl, by simp_all⟩

theorem attributes_head {ts r : List Tok} {as : List SAttr} (h : Attributes ts as)
    (hr : NotHead [.equals, .ns_colon, .attr_key, .attr_ns, .ns_declaration] r) : NotHead [.equals, .ns_colon] (ts ++ r) := by
  cases h with
  | nil => exact hr.mono (by simp)
  | cons ts us a as ha _ =>
    obtain ⟨t, u, rfl, ht⟩ := attribute_head ha
    show t.kind ∉ _
    rcases ht with ht | ht | ht <;> simp [ht]

theorem attributes_oneWay : OneWay Attributes [.equals, .ns_colon, .attr_key, .attr_ns, .ns_declaration] := by
  intro ts ts' r r' x x' h
  induction h generalizing ts' x' with
  | nil =>
    intro h' e hr hr'
    cases h' with
    | nil => exact ⟨rfl, e⟩
    | cons ts us a as ha _ =>
      obtain ⟨t, u, rfl, ht⟩ := attribute_head ha
      simp only [List.nil_append, List.cons_append] at e
      subst e
      exact absurd (by rcases ht with ht | ht | ht <;> simp [ht]) hr
  | cons ts us a as ha hs ih =>
    intro h' e hr hr'
    cases h' with
    | nil =>
      obtain ⟨t, u, rfl, ht⟩ := attribute_head ha
      simp only [List.nil_append, List.cons_append] at e
      subst e
      exact absurd (by rcases ht with ht | ht | ht <;> simp [ht]) hr'
    | cons ts' us' a' as' ha' hs' =>
      simp only [List.append_assoc] at e
      obtain ⟨rfl, e⟩ := attribute_oneWay ha ha' e (attributes_head hs hr) (attributes_head hs' hr')
      obtain ⟨rfl, e⟩ := ih hs' e hr hr'
      exact ⟨rfl, e⟩

theorem maybeAttributes_oneWay : OneWay MaybeAttributes [.apar_left] := by
  intro ts ts' r r' x x' h h' e hr hr'
  cases h with
  | none =>
    cases h' with
    | none => exact ⟨rfl, e⟩
    | some l q us as hl hq hs =>
      simp only [List.nil_append] at e
      subst e
      exact absurd (by simp [hl]) hr
  | some l q us as hl hq hs =>
    cases h' with
    | none =>
      simp only [List.nil_append] at e
      subst e
      exact absurd (by simp [hl]) hr'
    | some l' q' us' as' hl' hq' hs' =>
      simp only [List.cons_append, List.cons.injEq, List.append_assoc, List.nil_append] at e
      obtain ⟨rfl, e⟩ := e
      obtain ⟨rfl, e⟩ := attributes_oneWay hs hs' e (by simp [NotHead, hq]) (by simp [NotHead, hq'])
      cases e
      exact ⟨rfl, rfl⟩

theorem elemName_head {ts : List Tok} {pre name} (h : ElemNameToks ts pre name) : ∃ t u, ts = t :: u ∧
    (t.kind = .element_name ∨ t.kind = .element_key ∨ t.kind = .element_ns) := by
  cases h with
  | plain k hk => exact ⟨_, _, rfl, by rcases hk with hk | hk <;> simp [hk]⟩
  | prefixed p c k hp => exact ⟨_, _, rfl, by simp [hp]⟩

theorem elemName_oneWay {ts ts' r r' : List Tok} {p n p' n'} (h : ElemNameToks ts p n) (h' : ElemNameToks ts' p' n') (e : ts ++ r = ts' ++ r') :
    p = p' ∧ n = n' ∧ r = r' := by
  cases h with
  | plain k hk =>
    cases h' <;> simp only [List.cons_append, List.cons.injEq, List.nil_append] at e <;> obtain ⟨rfl, e⟩ := e
    · exact ⟨rfl, rfl, e⟩
    · rename_i hp
      rcases hk with hk | hk <;> rw [hk] at hp <;> cases hp
  | prefixed p c k hp hc hk =>
    cases h' <;> simp only [List.cons_append, List.cons.injEq, List.nil_append] at e <;> obtain ⟨rfl, e⟩ := e
    · rename_i hk'
      rcases hk' with hk' | hk' <;> rw [hp] at hk' <;> cases hk'
    · obtain ⟨rfl, rfl, e⟩ := e
      exact ⟨rfl, rfl, e⟩

theorem continuations_oneWay : OneWay Continuations [.comment_continuation] := by
  intro ts ts' r r' x x' h
  induction h generalizing ts' x' with
  | nil =>
    intro h' e hr hr'
    cases h' with
    | nil => exact ⟨rfl, e⟩
    | cons t s us ss hk =>
      simp only [List.nil_append] at e
      subst e
      exact absurd (by simp [hk]) hr
  | cons t s us ss hk hv _ ih =>
    intro h' e hr hr'
    cases h' with
    | nil =>
      simp only [List.nil_append] at e
      subst e
      exact absurd (by simp [hk]) hr'
    | cons t' s' us' ss' hk' hv' h' =>
      simp only [List.cons_append, List.cons.injEq] at e
      obtain ⟨rfl, e⟩ := e
      obtain ⟨rfl, e⟩ := ih h' e hr hr'
      rw [hv] at hv'; cases hv'
      exact ⟨rfl, e⟩

/-- What begins or continues a node. -/
def nodeKinds : List Kind :=
  [.quote, .entity, .comment, .element_name, .element_key, .element_ns, .equals, .apar_left, .brace_left, .comment_continuation]

theorem doc_head {ts r : List Tok} {d : List SNode} (h : Doc ts d) (hr : NotHead nodeKinds r) :
    NotHead [.equals, .apar_left, .brace_left, .comment_continuation] (ts ++ r) := by
  have el : ∀ {ns u : List Tok} {p n}, ElemNameToks ns p n → NotHead [.equals, .apar_left, .brace_left, .comment_continuation] (ns ++ u) := by
    intro ns u p n hn
    obtain ⟨t, v, rfl, ht⟩ := elemName_head hn
    show t.kind ∉ _
    rcases ht with ht | ht | ht <;> simp [ht]
  cases h with
  | nil => exact hr.mono (by simp [nodeKinds])
  | quote t v ts d hk => show t.kind ∉ _; simp [hk]
  | entity t v ts d hk => show t.kind ∉ _; simp [hk]
  | comment t c cs ss ts d hk => show t.kind ∉ _; simp [hk]
  | plain ns as vs pre name attrs value ts d hn => rw [List.append_assoc]; exact el hn
  | braces ns as pre name attrs l q bs kids ts d hn => rw [List.append_assoc]; exact el hn

/-- The first token of a node that is not empty. -/
theorem doc_first {ts : List Tok} {d : List SNode} (h : Doc ts d) : (ts = [] ∧ d = []) ∨ ∃ t u, ts = t :: u ∧ t.kind ∈ nodeKinds := by
  have el : ∀ {ns u : List Tok} {p n}, ElemNameToks ns p n → ∃ t w, ns ++ u = t :: w ∧ t.kind ∈ nodeKinds := by
    intro ns u p n hn
    obtain ⟨t, v, rfl, ht⟩ := elemName_head hn
    exact ⟨t, _, rfl, by rcases ht with ht | ht | ht <;> simp [ht, nodeKinds]⟩
  cases h with
  | nil => exact .inl ⟨rfl, rfl⟩
  | quote t v ts d hk => exact .inr ⟨_, _, rfl, by simp [hk, nodeKinds]⟩
  | entity t v ts d hk => exact .inr ⟨_, _, rfl, by simp [hk, nodeKinds]⟩
  | comment t c cs ss ts d hk => exact .inr ⟨_, _, rfl, by simp [hk, nodeKinds]⟩
  | plain ns as vs pre name attrs value ts d hn => exact .inr (el hn)
  | braces ns as pre name attrs l q bs kids ts d hn => exact .inr (el hn)

theorem doc_oneWay : OneWay Doc nodeKinds := by
  intro ts ts' r r' x x' h
  have ek : ∀ {ns u : List Tok} {p n} {t : Tok} {w : List Tok}, ElemNameToks ns p n → ns ++ u = t :: w →
      t.kind ≠ .quote ∧ t.kind ≠ .entity ∧ t.kind ≠ .comment := by
    intro ns u p n t w hn e
    obtain ⟨t', v, rfl, ht⟩ := elemName_head hn
    simp only [List.cons_append, List.cons.injEq] at e
    obtain ⟨rfl, -⟩ := e
    rcases ht with ht | ht | ht <;> simp [ht]
  induction h generalizing ts' x' r r' with
  | nil =>
    intro h' e hr hr'
    rcases doc_first h' with ⟨rfl, rfl⟩ | ⟨t, u, rfl, ht⟩
    · exact ⟨rfl, e⟩
    · simp only [List.nil_append, List.cons_append] at e
      subst e
      exact absurd ht hr
  | quote t v ts d hk hv _ ih =>
    intro h' e hr hr'
    generalize hz : ts' = z at h'
    cases h' with
    | nil => subst hz; simp only [List.nil_append] at e; subst e; exact absurd (by simp [hk, nodeKinds]) hr'
    | quote t' v' ts' d' hk' hv' h' =>
      subst hz
      simp only [List.cons_append, List.cons.injEq] at e
      obtain ⟨rfl, e⟩ := e
      obtain ⟨rfl, e⟩ := ih h' e hr hr'
      rw [hv] at hv'; cases hv'
      exact ⟨rfl, e⟩
    | entity t' v' ts' d' hk' =>
      subst hz
      simp only [List.cons_append, List.cons.injEq] at e
      rw [e.1, hk'] at hk; cases hk
    | comment t' c cs ss ts' d' hk' =>
      subst hz
      simp only [List.cons_append, List.cons.injEq] at e
      rw [e.1, hk'] at hk; cases hk
    | plain ns as vs pre name attrs value ts d hn =>
      subst hz
      rw [List.append_assoc] at e
      exact absurd hk (ek hn e.symm).1
    | braces ns as pre name attrs l q bs kids ts d hn =>
      subst hz
      rw [List.append_assoc] at e
      exact absurd hk (ek hn e.symm).1
  | entity t v ts d hk hv _ ih =>
    intro h' e hr hr'
    generalize hz : ts' = z at h'
    cases h' with
    | nil => subst hz; simp only [List.nil_append] at e; subst e; exact absurd (by simp [hk, nodeKinds]) hr'
    | entity t' v' ts' d' hk' hv' h' =>
      subst hz
      simp only [List.cons_append, List.cons.injEq] at e
      obtain ⟨rfl, e⟩ := e
      obtain ⟨rfl, e⟩ := ih h' e hr hr'
      rw [hv] at hv'; cases hv'
      exact ⟨rfl, e⟩
    | quote t' v' ts' d' hk' =>
      subst hz
      simp only [List.cons_append, List.cons.injEq] at e
      rw [e.1, hk'] at hk; cases hk
    | comment t' c cs ss ts' d' hk' =>
      subst hz
      simp only [List.cons_append, List.cons.injEq] at e
      rw [e.1, hk'] at hk; cases hk
    | plain ns as vs pre name attrs value ts d hn =>
      subst hz
      rw [List.append_assoc] at e
      exact absurd hk (ek hn e.symm).2.1
    | braces ns as pre name attrs l q bs kids ts d hn =>
      subst hz
      rw [List.append_assoc] at e
      exact absurd hk (ek hn e.symm).2.1
  | comment t c cs ss ts d hk hv hcs hd ih =>
    intro h' e hr hr'
    generalize hz : ts' = z at h'
    cases h' with
    | nil => subst hz; simp only [List.nil_append] at e; subst e; exact absurd (by simp [hk, nodeKinds]) hr'
    | comment t' c' cs' ss' ts' d' hk' hv' hcs' h' =>
      subst hz
      simp only [List.cons_append, List.cons.injEq, List.append_assoc] at e
      obtain ⟨rfl, e⟩ := e
      obtain ⟨rfl, e⟩ := continuations_oneWay hcs hcs' e ((doc_head hd hr).mono (by simp)) ((doc_head h' hr').mono (by simp))
      obtain ⟨rfl, e⟩ := ih h' e hr hr'
      rw [hv] at hv'; cases hv'
      exact ⟨rfl, e⟩
    | quote t' v' ts' d' hk' =>
      subst hz
      simp only [List.cons_append, List.cons.injEq] at e
      rw [e.1, hk'] at hk; cases hk
    | entity t' v' ts' d' hk' =>
      subst hz
      simp only [List.cons_append, List.cons.injEq] at e
      rw [e.1, hk'] at hk; cases hk
    | plain ns as vs pre name attrs value ts d hn =>
      subst hz
      rw [List.append_assoc] at e
      exact absurd hk (ek hn e.symm).2.2
    | braces ns as pre name attrs l q bs kids ts d hn =>
      subst hz
      rw [List.append_assoc] at e
      exact absurd hk (ek hn e.symm).2.2
  | plain ns as vs pre name attrs value ts d hn ha hv hd ih =>
    intro h' e hr hr'
    have hh := doc_head hd hr
    generalize hz : ts' = z at h'
    cases h' with
    | nil =>
      subst hz
      obtain ⟨t, u, rfl, ht⟩ := elemName_head hn
      simp only [List.nil_append, List.cons_append] at e
      subst e
      exact absurd (by rcases ht with ht | ht | ht <;> simp [ht, nodeKinds]) hr'
    | quote t' v' ts' d' hk' => subst hz; rw [List.append_assoc] at e; exact absurd hk' (ek hn e).1
    | entity t' v' ts' d' hk' => subst hz; rw [List.append_assoc] at e; exact absurd hk' (ek hn e).2.1
    | comment t' c cs ss ts' d' hk' => subst hz; rw [List.append_assoc] at e; exact absurd hk' (ek hn e).2.2
    | plain ns' as' vs' pre' name' attrs' value' ts' d' hn' ha' hv' hd' =>
      subst hz
      have hh' := doc_head hd' hr'
      simp only [List.append_assoc] at e
      obtain ⟨rfl, rfl, e⟩ := elemName_oneWay hn hn' e
      obtain ⟨rfl, e⟩ := maybeAttributes_oneWay ha ha' e (maybeValue_head hv _ (by simp) (hh.mono (by simp)))
        (maybeValue_head hv' _ (by simp) (hh'.mono (by simp)))
      obtain ⟨rfl, e⟩ := maybeValue_oneWay false hv hv' e (hh.mono (by simp)) (hh'.mono (by simp))
      obtain ⟨rfl, e⟩ := ih hd' e hr hr'
      exact ⟨rfl, e⟩
    | braces ns' as' pre' name' attrs' l' q' bs' kids' ts' d' hn' ha' hl' hq' hb' hd' =>
      subst hz
      simp only [List.append_assoc, List.cons_append] at e
      obtain ⟨rfl, rfl, e⟩ := elemName_oneWay hn hn' e
      obtain ⟨rfl, e⟩ := maybeAttributes_oneWay ha ha' e (maybeValue_head hv _ (by simp) (hh.mono (by simp))) (by simp [NotHead, hl'])
      have := maybeValue_head hv [.brace_left] (by simp) (hh.mono (by simp))
      rw [e] at this
      exact absurd (by simp [hl']) this
  | braces ns as pre name attrs l q bs kids ts d hn ha hl hq hb hd ihb ih =>
    intro h' e hr hr'
    have hh := doc_head hd hr
    generalize hz : ts' = z at h'
    cases h' with
    | nil =>
      subst hz
      obtain ⟨t, u, rfl, ht⟩ := elemName_head hn
      simp only [List.nil_append, List.cons_append] at e
      subst e
      exact absurd (by rcases ht with ht | ht | ht <;> simp [ht, nodeKinds]) hr'
    | quote t' v' ts' d' hk' => subst hz; rw [List.append_assoc] at e; exact absurd hk' (ek hn e).1
    | entity t' v' ts' d' hk' => subst hz; rw [List.append_assoc] at e; exact absurd hk' (ek hn e).2.1
    | comment t' c cs ss ts' d' hk' => subst hz; rw [List.append_assoc] at e; exact absurd hk' (ek hn e).2.2
    | plain ns' as' vs' pre' name' attrs' value' ts' d' hn' ha' hv' hd' =>
      subst hz
      have hh' := doc_head hd' hr'
      simp only [List.append_assoc, List.cons_append] at e
      obtain ⟨rfl, rfl, e⟩ := elemName_oneWay hn hn' e
      obtain ⟨rfl, e⟩ := maybeAttributes_oneWay ha ha' e (by simp [NotHead, hl]) (maybeValue_head hv' _ (by simp) (hh'.mono (by simp)))
      have := maybeValue_head hv' [.brace_left] (by simp) (hh'.mono (by simp))
      rw [← e] at this
      exact absurd (by simp [hl]) this
    | braces ns' as' pre' name' attrs' l' q' bs' kids' ts' d' hn' ha' hl' hq' hb' hd' =>
      subst hz
      simp only [List.append_assoc, List.cons_append] at e
      obtain ⟨rfl, rfl, e1⟩ := elemName_oneWay hn hn' e
      obtain ⟨rfl, e2⟩ := maybeAttributes_oneWay ha ha' e1 (by simp [NotHead, hl]) (by simp [NotHead, hl'])
      obtain ⟨rfl, e4⟩ := ihb hb' (List.cons.inj e2).2 (by simp [NotHead, hq, nodeKinds]) (by simp [NotHead, hq', nodeKinds])
      obtain ⟨rfl, e6⟩ := ih hd' (List.cons.inj e4).2 hr hr'
      exact ⟨rfl, e6⟩

theorem doc_unique {ts : List Tok} {d d' : List SNode} (h : Doc ts d) (h' : Doc ts d') : d = d' :=
  (doc_oneWay h h' (r := []) (r' := []) rfl trivial trivial).1

end Xmq
