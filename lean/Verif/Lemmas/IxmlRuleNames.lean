import Verif.Model.Ixml
/-!
# The names of the rules that are read
-/
namespace Xmq.Ixml

/-- What holds of the result of a step, if there is one. -/
def Post {α : Type} (r : Res α) (P : α → Prop) : Prop := ∀ a, r = .ok a → P a

theorem Post.ok {α : Type} {a : α} {P : α → Prop} (h : P a) : Post (.ok a) P := fun b e => by cases e; exact h
theorem Post.err {α : Type} {P : α → Prop} : Post (.err : Res α) P := fun _ e => by cases e
theorem Post.abort {α : Type} {P : α → Prop} : Post (.abort : Res α) P := fun _ e => by cases e
theorem Post.bind {α β : Type} {r : Res α} {P : α → Prop} {f : α → Res β} {Q : β → Prop} (h : Post r P) (hf : ∀ a, P a → Post (f a) Q) : Post (r >>= f) Q := by
  cases r with
  | ok a => exact hf a (h a rfl)
  | _ => intro b e; cases e
theorem Post.any {α : Type} {r : Res α} : Post r (fun _ => True) := fun _ _ => trivial

/-- No rule is named like something of the parser's own, and there are at least `k` rules. -/
def Named (k : Nat) (st : St) : Prop := (∀ r ∈ st.rules, r.name.head? ≠ some (b#'$')) ∧ k ≤ st.rules.length

theorem modify_name {l : List Rule} {i : Nat} {f : Rule → Rule} (hf : ∀ r, (f r).name = r.name) {r : Rule} (h : r ∈ l.modify i f) : ∃ q ∈ l, q.name = r.name := by
  obtain ⟨j, hj⟩ := List.mem_iff_getElem?.1 h
  rw [List.getElem?_modify] at hj
  cases e : l[j]? with
  | none => rw [e] at hj; cases hj
  | some q =>
    rw [e] at hj
    refine ⟨q, List.mem_of_getElem? e, ?_⟩
    simp at hj
    split at hj
    · rw [← hj, hf]
    · rw [← hj]

theorem Named.modify {k : Nat} {st st' : St} (h : Named k st) {i : Nat} {f : Rule → Rule} (hf : ∀ r, (f r).name = r.name) (e : st'.rules = st.rules.modify i f) : Named k st' := by
  refine ⟨fun r hr => ?_, by rw [e, List.length_modify]; exact h.2⟩
  rw [e] at hr
  obtain ⟨q, hq, e⟩ := modify_name hf hr
  rw [← e]
  exact h.1 q hq

theorem Named.same {k : Nat} {st st' : St} (h : Named k st) (e : st'.rules = st.rules) : Named k st' := by
  unfold Named
  rw [e]
  exact h

theorem Named.add {k : Nat} {st : St} (h : Named k st) (ts : List Term) : Named k (st.add ts) := h.modify (i := st.cur) (f := fun r => { r with rhs := r.rhs ++ ts }) (fun _ => rfl) rfl

theorem Named.push {k : Nat} {st : St} (h : Named k st) {rs : List Rule} (hr : ∀ r ∈ rs, r.name.head? ≠ some (b#'$')) : Named k (st.push rs) := by
  refine ⟨fun r hm => ?_, by show k ≤ (st.rules ++ rs).length; rw [List.length_append]; have := h.2; omega⟩
  rcases List.mem_append.1 hm with hm | hm
  · exact h.1 r hm
  · exact hr r hm

theorem genName_dollar (n : Nat) : (genName n).head? ≠ some (b#'$') := by
  unfold genName
  simp

theorem pop_named {k : Nat} {st : St} (h : Named k st) : Post st.pop (fun r => Named k r.2) := by
  unfold St.pop
  split
  · exact .abort
  · split
    · exact .abort
    · exact .ok (h.modify (i := st.cur) (f := fun r => { r with rhs := r.rhs.dropLast }) (fun _ => rfl) rfl)

theorem makeOptional_named {k : Nat} {st : St} (h : Named k st) : Post (makeOptional st) (Named k) := by
  unfold makeOptional
  refine (pop_named h).bind fun ⟨x, s⟩ hs => .ok ?_
  exact (Named.push (Named.add hs _) (rs := [hidden (genName s.gen) [⟨s.mark, x⟩], hidden (genName s.gen) []]) (by simp [hidden, genName_dollar])).same rfl

theorem makeRepeat_named {k : Nat} {st : St} (h : Named k st) (fm : Byte) : Post (makeRepeat st fm) (Named k) := by
  unfold makeRepeat
  refine (pop_named h).bind fun ⟨x, s⟩ hs => .ok ?_
  exact (Named.push (Named.add hs _) (rs := [hidden (genName s.gen) [⟨fm, x⟩], hidden (genName s.gen) [⟨b#'-', .n (genName s.gen)⟩, ⟨fm, x⟩]]) (by simp [hidden, genName_dollar])).same rfl

theorem makeRepeatZero_named {k : Nat} {st : St} (h : Named k st) (fm : Byte) : Post (makeRepeatZero st fm) (Named k) := by
  unfold makeRepeatZero
  refine (pop_named h).bind fun ⟨x, s⟩ hs => .ok ?_
  exact (Named.push (Named.add hs _) (rs := [hidden (genName s.gen) [], hidden (genName s.gen) [⟨b#'-', .n (genName s.gen)⟩, ⟨fm, x⟩]]) (by simp [hidden, genName_dollar])).same rfl

theorem makeRepeatInfix_named {k : Nat} {st : St} (h : Named k st) (fm im : Byte) : Post (makeRepeatInfix st fm im) (Named k) := by
  unfold makeRepeatInfix
  refine (pop_named h).bind fun ⟨y, s⟩ hs => (pop_named hs).bind fun ⟨x, u⟩ hu => .ok ?_
  exact (Named.push (Named.add hu _) (rs := [hidden (genName u.gen) [⟨fm, x⟩], hidden (genName u.gen) [⟨b#'-', .n (genName u.gen)⟩, ⟨im, y⟩, ⟨fm, x⟩]]) (by simp [hidden, genName_dollar])).same rfl

theorem makeRepeatZeroInfix_named {k : Nat} {st : St} (h : Named k st) (fm im : Byte) : Post (makeRepeatZeroInfix st fm im) (Named k) := by
  unfold makeRepeatZeroInfix
  exact (makeRepeatInfix_named h fm im).bind fun s hs => makeOptional_named (hs.same rfl)

theorem addLiteral_named {k : Nat} {st : St} (h : Named k st) (cs : List Int) : Named k (addLiteral st cs) := by
  unfold addLiteral
  split
  · exact h
  · exact h.add _
  · exact (Named.push (h.add _) (rs := [hidden (genName st.gen) (cs.map fun c => ⟨st.mark, .t c⟩)]) (by simp [hidden, genName_dollar])).same rfl

theorem insertion_named {k : Nat} {st : St} (h : Named k st) : Post (insertion st) (Named k) := by
  unfold insertion
  refine Post.any.bind fun s _ => ?_
  split
  · refine Post.any.bind fun ⟨cs, u⟩ _ => ?_
    simp only
    split
    · exact .abort
    · exact .ok (((h.push (rs := [_]) (by simp)).add _).same rfl)
  · split
    · exact Post.any.bind fun _ _ => .abort
    · exact .err

theorem terminal_named {k : Nat} {st : St} (h : Named k st) : Post (terminal st) (Named k) := by
  unfold terminal
  split
  · split
    · exact Post.any.bind fun u _ => Post.any.bind fun ⟨cs, v⟩ _ => Post.any.bind fun w _ => .ok (addLiteral_named (by exact h.same rfl) _)
    · exact Post.any.bind fun ⟨m, v, u⟩ _ => .ok (addLiteral_named (by exact h.same rfl) _)
  · exact Post.any.bind fun ⟨cs, m, u⟩ _ => .ok ((h.add _).same rfl)

theorem run_named (k : Nat) : ∀ (n : Nat) (j : Job) (st : St), Named k st → Post (run n j st) (Named k) := by
  intro n
  induction n with
  | zero => intro j st _ a e; cases e
  | succ n ih =>
    intro j st h
    cases j with
    | alts =>
      rw [run]
      refine Post.any.bind fun s _ => ?_
      simp only
      split
      · exact .ok (by exact h.same rfl)
      · have tail : ∀ st' : St, Named k st' → Post (if peek st'.rest = b#'.' ∨ peek st'.rest = b#')' then .ok st'
            else if peek st'.rest = b#'|' ∨ peek st'.rest = b#';' then do
              let s ← ws (st'.rest.drop 1)
              match st'.rules[st'.cur]? with
              | none => .abort
              | some r => run n .alts { st' with rest := s, rules := st'.rules ++ [⟨r.name, none, r.mark, []⟩], cur := st'.rules.length }
            else .err) (Named k) := by
          intro st' h'
          split
          · exact .ok h'
          · split
            · refine Post.any.bind fun u _ => ?_
              split
              · exact .abort
              · next r hr =>
                refine ih .alts _ ((Named.push h' (rs := [⟨r.name, none, r.mark, []⟩]) ?_).same rfl)
                intro q hq
                rw [List.mem_singleton.1 hq]
                exact h'.1 r (List.mem_of_getElem? hr)
            · exact .err
        split
        · exact tail _ (by exact h.same rfl)
        · split
          · exact (ih .alt _ (by exact h.same rfl)).bind fun st' h' => Post.any.bind fun u _ => tail _ (by exact h'.same rfl)
          · exact .err
    | alt =>
      rw [run]
      split
      · refine (ih .term st h).bind fun st' h' => Post.any.bind fun s _ => ?_
        simp only
        split
        · exact .ok (by exact h'.same rfl)
        · exact Post.any.bind fun u _ => ih .alt _ (by exact h'.same rfl)
      · exact .err
    | term =>
      rw [run]
      split
      · refine (ih .factor st h).bind fun st' h' => ?_
        simp only
        split
        · exact Post.any.bind fun s _ => makeOptional_named (by exact h'.same rfl)
        · split
          · split
            · refine Post.any.bind fun s _ => (ih .factor _ (by exact h'.same rfl)).bind fun st2 h2 => ?_
              split
              · exact (makeRepeatInfix_named h2 _ _).bind fun st3 h3 => Post.any.bind fun u _ => .ok (by exact h3.same rfl)
              · exact (makeRepeatZeroInfix_named h2 _ _).bind fun st3 h3 => Post.any.bind fun u _ => .ok (by exact h3.same rfl)
            · split
              · exact (makeRepeat_named (by exact h'.same rfl) _).bind fun st3 h3 => Post.any.bind fun u _ => .ok (by exact h3.same rfl)
              · exact (makeRepeatZero_named (by exact h'.same rfl) _).bind fun st3 h3 => Post.any.bind fun u _ => .ok (by exact h3.same rfl)
          · exact Post.any.bind fun u _ => .ok (by exact h'.same rfl)
      · exact .abort
    | factor =>
      rw [run]
      split
      · have fin : ∀ st' : St, Named k st' → Post (do let s ← ws st'.rest; Res.ok { st' with rest := s }) (Named k) :=
          fun st' h' => Post.any.bind fun u _ => .ok (by exact h'.same rfl)
        split
        · exact (terminal_named h).bind fin
        · split
          · exact Post.any.bind fun ⟨m, nm, al, s⟩ _ => fin _ ((h.add _).same rfl)
          · split
            · exact (insertion_named h).bind fin
            · exact (ih .group st h).bind fin
      · exact .abort
    | group =>
      rw [run]
      refine Post.any.bind fun s _ => ?_
      have fin : ∀ st' : St, Named k st' → Post (if peek st'.rest = b#')' then do
          let s ← ws (st'.rest.drop 1)
          Res.ok { st' with rest := s }
          else .err) (Named k) := by
        intro st' h'
        split
        · exact Post.any.bind fun u _ => .ok (by exact h'.same rfl)
        · exact .err
      split
      · refine (ih .alts _ (by exact (Named.push (h.add _) (rs := [hidden (genName st.gen) []]) (by simp [hidden, genName_dollar])).same rfl)).bind fun st' h' => ?_
        exact fin _ (by exact h'.same rfl)
      · split
        · exact fin _ (by exact h.same rfl)
        · exact .err

theorem name_dollar (s : List Byte) : Post (name s) (fun r => r.1.head? ≠ some (b#'$')) := by
  unfold name
  split
  · next h =>
    refine .ok ?_
    cases s with
    | nil => simp
    | cons c s =>
      intro e
      simp at e
      subst e
      rw [peek_cons] at h
      exact absurd h (by decide)
  · exact .abort

theorem naming_dollar (s : List Byte) : Post (naming s) (fun r => r.2.1.head? ≠ some (b#'$')) := by
  unfold naming
  split
  · refine Post.any.bind fun u _ => ?_
    split
    · refine (name_dollar u).bind fun ⟨nm, v⟩ hv => Post.any.bind fun w _ => ?_
      split
      · exact Post.any.bind fun x _ => Post.any.bind fun ⟨al, y⟩ _ => Post.any.bind fun z _ => .ok hv
      · exact .ok hv
    · exact .err
  · exact .abort

theorem rule_named {k n : Nat} {st : St} (h : Named k st) : Post (rule n st) (Named (k + 1)) := by
  unfold rule
  refine (naming_dollar st.rest).bind fun ⟨m, nm, al, s⟩ hs => Post.any.bind fun u _ => ?_
  split
  · refine Post.any.bind fun v _ => ?_
    refine (run_named (k + 1) n .alts _ ?_).bind fun st' h' => ?_
    · refine ⟨fun r hr => ?_, by simp only [List.length_append, List.length_singleton]; have := h.2; omega⟩
      rcases List.mem_append.1 hr with hr | hr
      · exact h.1 r hr
      · rw [List.mem_singleton.1 hr]; exact hs
    · split
      · exact Post.any.bind fun w _ => .ok (by exact h'.same rfl)
      · exact .err
  · exact .err

theorem Named.less {k l : Nat} {st : St} (h : Named k st) (hl : l ≤ k) : Named l st := ⟨h.1, Nat.le_trans hl h.2⟩

theorem rulesLoop_named (n : Nat) : ∀ (j k : Nat) (st : St), Named k st → Post (rulesLoop n j st) (fun st' => Named (if isNaming (peek st.rest) then k + 1 else k) st')
  | 0, _, _, _ => fun _ e => by cases e
  | j + 1, k, st, h => by
    rw [rulesLoop]
    split
    · next hn =>
      refine (rule_named h).bind fun st' h' => fun a e => ?_
      have := rulesLoop_named n j (k + 1) st' h' a e
      split at this
      · exact this.less (by omega)
      · exact this
    · exact .ok h

theorem readGrammar_named (text : List Byte) : Post (readGrammar text) (Named 1) := by
  unfold readGrammar
  simp only
  refine Post.any.bind fun s _ => ?_
  have fin : ∀ u, Post (if isNaming (peek u) then do
      let st ← rulesLoop (8 * text.length + 8) (8 * text.length + 8) ⟨u, [], 0, 0, 0, []⟩
      let s ← ws st.rest
      if s = [] then Res.ok { st with rest := s } else .err
      else .err) (Named 1) := by
    intro u
    split
    · next hn =>
      refine (rulesLoop_named _ _ 0 ⟨u, [], 0, 0, 0, []⟩ ⟨by simp, by simp⟩).bind fun st hst => Post.any.bind fun v _ => ?_
      simp only [hn, if_true] at hst
      split
      · exact .ok (hst.same rfl)
      · exact .err
    · exact .err
  split
  · exact Post.any.bind fun v _ => Post.any.bind fun u _ => fin u
  · exact fin s

theorem mapM_mem {α β : Type} {f : α → Option β} : ∀ {l : List α} {r : List β}, l.mapM f = some r → ∀ x ∈ r, ∃ a ∈ l, f a = some x
  | [], r, h, x, hx => by
    rw [List.mapM_nil] at h
    cases h
    cases hx
  | a :: l, r, h, x, hx => by
    rw [List.mapM_cons] at h
    cases e : f a with
    | none => rw [e] at h; cases h
    | some b =>
      rw [e] at h
      cases e2 : l.mapM f with
      | none => rw [e2] at h; cases h
      | some r2 =>
        rw [e2] at h
        cases h
        rcases List.mem_cons.1 hx with rfl | hx
        · exact ⟨a, by simp, e⟩
        · obtain ⟨y, hy, e3⟩ := mapM_mem e2 x hx
          exact ⟨y, by simp [hy], e3⟩

theorem setName_dollar (cs : CSet) : (setName cs).head? ≠ some (b#'$') := by
  unfold setName
  split <;> simp

/-- The rules that are handed to the parser. -/
theorem grammarFor_named {text : List Byte} {st : St} {content : List Nat} {rs : List Rule} (h : readGrammar text = .ok st) (hg : grammarFor st content = some rs) :
    rs ≠ [] ∧ ∀ r ∈ rs, r.name.head? ≠ some (b#'$') := by
  have hn := readGrammar_named text st h
  unfold grammarFor at hg
  split at hg
  · cases hg
  · next l hl =>
    cases hg
    constructor
    · intro e
      have := hn.2
      rw [(List.append_eq_nil_iff.1 e).1] at this
      simp at this
    · intro r hr
      rcases List.mem_append.1 hr with hr | hr
      · exact hn.1 r hr
      · obtain ⟨x, hx, hrx⟩ := List.mem_flatten.1 hr
        obtain ⟨cs, hcs, e⟩ := mapM_mem hl x hx
        unfold setRules at e
        obtain ⟨codes, _, rfl⟩ := Option.map_eq_some_iff.1 e
        obtain ⟨c, _, rfl⟩ := List.mem_map.1 hrx
        exact setName_dollar cs

end Xmq.Ixml
