import Verif.Model.Earley
import Verif.Lemmas.YaepSets
/-!
# Expanding a set of the Earley parser
-/
namespace Xmq.Yaep
open Xmq.Ixml (Sym)

variable {g : Gram}

/-! ## Dotted rules -/

/-- The dot is inside the rule. -/
def Gram.Valid (g : Gram) (d : Dotted) : Prop := d.rule < g.rules.length ∧ d.dot ≤ (g.rhs d.rule).length

def Dotted.succ (d : Dotted) : Dotted := ⟨d.rule, d.dot + 1⟩

theorem rhs_of_lt {r : Nat} (h : r < g.rules.length) : g.rhs r = (g.rules[r]).rhs := by
  unfold Gram.rhs
  rw [List.getElem?_eq_getElem h]
  rfl

theorem rhs_of_le {r : Nat} (h : g.rules.length ≤ r) : g.rhs r = [] := by
  unfold Gram.rhs
  rw [List.getElem?_eq_none h]
  rfl

theorem next_valid {d : Dotted} {x : Sym} (h : g.next d = some x) : g.Valid d.succ := by
  unfold Gram.next at h
  have h1 := (List.getElem?_eq_some_iff.1 h).1
  refine ⟨?_, h1⟩
  rcases Nat.lt_or_ge d.rule g.rules.length with h2 | h2
  · exact h2
  · rw [rhs_of_le h2] at h1
    simp at h1

theorem next_tail {d : Dotted} {x : Sym} (h : g.next d = some x) : g.tail d = x :: g.tail d.succ := by
  unfold Gram.next at h
  unfold Gram.tail Dotted.succ
  obtain ⟨h1, h2⟩ := List.getElem?_eq_some_iff.1 h
  rw [List.drop_eq_getElem_cons h1, h2]

theorem tail_next {d : Dotted} {x : Sym} {xs : List Sym} (h : g.tail d = x :: xs) : g.next d = some x := by
  unfold Gram.tail at h
  unfold Gram.next
  have := List.getElem?_drop (xs := g.rhs d.rule) (i := d.dot) (j := 0)
  rw [h] at this
  simpa using this.symm

theorem mem_ruleIds {a : List Byte} {r : Nat} : r ∈ g.ruleIds a ↔ r < g.rules.length ∧ g.lhs r = a := by
  simp [Gram.ruleIds]

/-- All dotted rules. -/
def Gram.dotted (g : Gram) : List Dotted := (List.range g.rules.length).flatMap fun r => (List.range ((g.rhs r).length + 1)).map fun j => ⟨r, j⟩

theorem mem_dotted {d : Dotted} : d ∈ g.dotted ↔ g.Valid d := by
  unfold Gram.dotted Gram.Valid
  simp only [List.mem_flatMap, List.mem_range, List.mem_map]
  constructor
  · rintro ⟨r, hr, j, hj, rfl⟩
    exact ⟨hr, by simpa using Nat.lt_succ_iff.1 hj⟩
  · rintro ⟨h1, h2⟩
    exact ⟨d.rule, h1, d.dot, by omega, rfl⟩

theorem dotted_length : g.dotted.length = g.size := by
  unfold Gram.dotted Gram.size
  rw [List.length_flatMap]
  congr 1
  apply List.ext_getElem
  · simp
  · intro i h1 h2
    simp only [List.length_map, List.length_range] at h1 h2
    simp [rhs_of_lt h1]

/-! ## Not yet started dotted rules -/

theorem mem_skips {r : Nat} : ∀ {xs : List Sym} {j : Nat} {e : Dotted},
    e ∈ skips g r xs j ↔ ∃ n, n < xs.length ∧ e = ⟨r, j + n + 1⟩ ∧ ∀ x ∈ xs.take (n + 1), g.empty x = true
  | [], j, e => by simp [skips]
  | x :: xs, j, e => by
    unfold skips
    by_cases hx : g.empty x = true
    · rw [if_pos hx, List.mem_cons, mem_skips]
      constructor
      · rintro (rfl | ⟨n, h1, rfl, h2⟩)
        · exact ⟨0, by simp, rfl, by simpa using hx⟩
        · refine ⟨n + 1, by simpa using h1, by simp; omega, ?_⟩
          intro y hy
          rw [List.take_succ_cons, List.mem_cons] at hy
          rcases hy with rfl | hy
          · exact hx
          · exact h2 y hy
      · rintro ⟨n, h1, rfl, h2⟩
        cases n with
        | zero => exact .inl rfl
        | succ n =>
          right
          refine ⟨n, by simpa using h1, by simp; omega, fun y hy => h2 y ?_⟩
          rw [List.take_succ_cons]
          exact List.mem_cons_of_mem _ hy
    · rw [if_neg hx]
      constructor
      · simp
      · rintro ⟨n, _, _, h2⟩
        exact absurd (h2 x (by simp)) hx

theorem mem_addNys {l : List (Dotted × Nat)} {p q : Dotted × Nat} : q ∈ addNys l p ↔ q ∈ l ∨ q = p := by
  unfold addNys
  split
  · next h => exact ⟨.inl, fun h' => h'.elim id fun e => e ▸ h⟩
  · simp

theorem mem_foldNys {id : Nat} {q : Dotted × Nat} : ∀ {es : List Dotted} {l : List (Dotted × Nat)},
    q ∈ es.foldl (fun l e => addNys l (e, id)) l ↔ q ∈ l ∨ ∃ e ∈ es, q = (e, id)
  | [], l => by simp
  | e :: es, l => by
    rw [List.foldl_cons, mem_foldNys, mem_addNys]
    simp only [List.mem_cons]
    constructor
    · rintro ((h | h) | ⟨e', h1, h2⟩)
      · exact .inl h
      · exact .inr ⟨e, .inl rfl, h⟩
      · exact .inr ⟨e', .inr h1, h2⟩
    · rintro (h | ⟨e', rfl | h1, h2⟩)
      · exact .inl (.inl h)
      · exact .inl (.inr h2)
      · exact .inr ⟨e', h1, h2⟩

theorem mem_addAllNys {q : Dotted × Nat} : ∀ {ds : List Dotted} {id : Nat} {l : List (Dotted × Nat)},
    q ∈ addAllNys g ds id l ↔ q ∈ l ∨ ∃ i d, ds[i]? = some d ∧ q.1 ∈ skips g d.rule (g.tail d) d.dot ∧ q.2 = id + i
  | [], id, l => by simp [addAllNys]
  | d :: ds, id, l => by
    unfold addAllNys
    rw [mem_addAllNys, mem_foldNys]
    constructor
    · rintro ((h | ⟨e, h1, rfl⟩) | ⟨i, d', h1, h2, h3⟩)
      · exact .inl h
      · exact .inr ⟨0, d, rfl, h1, rfl⟩
      · exact .inr ⟨i + 1, d', by simpa using h1, h2, by omega⟩
    · rintro (h | ⟨i, d', h1, h2, h3⟩)
      · exact .inl (.inl h)
      · cases i with
        | zero =>
          obtain rfl : d = d' := by simpa using h1
          exact .inl (.inr ⟨q.1, h2, by rw [← Nat.add_zero id, ← h3]⟩)
        | succ i => exact .inr ⟨i, d', by simpa using h1, h2, by omega⟩

theorem addNys_nodup {l : List (Dotted × Nat)} {p : Dotted × Nat} (h : l.Nodup) : (addNys l p).Nodup := by
  unfold addNys
  split
  · exact h
  · next h' =>
    rw [List.nodup_append]
    refine ⟨h, by simp, ?_⟩
    intro a ha b hb
    rw [List.mem_singleton] at hb
    subst hb
    rintro rfl
    exact h' ha

theorem foldNys_nodup {id : Nat} : ∀ {es : List Dotted} {l : List (Dotted × Nat)}, l.Nodup → (es.foldl (fun l e => addNys l (e, id)) l).Nodup
  | [], _, h => h
  | e :: es, l, h => by
    rw [List.foldl_cons]
    exact foldNys_nodup (addNys_nodup h)

theorem addAllNys_nodup : ∀ {ds : List Dotted} {id : Nat} {l : List (Dotted × Nat)}, l.Nodup → (addAllNys g ds id l).Nodup
  | [], _, _, h => h
  | _ :: _, _, _, h => by
    unfold addAllNys
    exact addAllNys_nodup (foldNys_nodup h)

/-- A dotted rule with a parent: the parent's dot moved over empty symbols. -/
def Skipped (g : Gram) (d e : Dotted) : Prop := e.rule = d.rule ∧ d.dot < e.dot ∧ g.Valid e ∧ ∀ x ∈ (g.tail d).take (e.dot - d.dot), g.empty x = true

theorem skipped_iff {d e : Dotted} : e ∈ skips g d.rule (g.tail d) d.dot ↔ Skipped g d e := by
  rw [mem_skips]
  constructor
  · rintro ⟨n, h1, rfl, h2⟩
    have hl : d.dot + n < (g.rhs d.rule).length := by
      unfold Gram.tail at h1
      rw [List.length_drop] at h1
      omega
    refine ⟨rfl, by simp; omega, ⟨?_, by simp; omega⟩, ?_⟩
    · rcases Nat.lt_or_ge d.rule g.rules.length with h | h
      · exact h
      · rw [rhs_of_le h] at hl
        simp at hl
    · simpa [Nat.add_assoc, Nat.add_sub_cancel_left] using h2
  · rintro ⟨h1, h2, ⟨h3, h4⟩, h5⟩
    refine ⟨e.dot - d.dot - 1, ?_, ?_, ?_⟩
    · unfold Gram.tail
      rw [List.length_drop]
      rw [h1] at h4
      omega
    · cases e
      simp only at *
      subst h1
      congr 1
      omega
    · rwa [show e.dot - d.dot - 1 + 1 = e.dot - d.dot by omega]

/-! ## Initial dotted rules -/

/-- The dotted rules in which `set_add_initial_dotted_rule` searches. -/
def Core.rest (c : Core) : List Dotted := c.nys.map Prod.fst ++ c.initial

/-- A core grows by initial dotted rules with the property `Q`. -/
structure Grows (Q : Dotted → Prop) (c c' : Core) : Prop where
  started : c'.started = c.started
  nys : c'.nys = c.nys
  more : ∃ l, c'.initial = c.initial ++ l ∧ ∀ d ∈ l, Q d
  nodup : c.initial.Nodup → (∀ d ∈ c.initial, d ∉ c.nys.map Prod.fst) → c'.initial.Nodup ∧ ∀ d ∈ c'.initial, d ∉ c'.nys.map Prod.fst

theorem Grows.refl {Q : Dotted → Prop} (c : Core) : Grows Q c c := ⟨rfl, rfl, ⟨[], by simp, by simp⟩, fun h1 h2 => ⟨h1, h2⟩⟩

theorem Grows.trans {Q : Dotted → Prop} {c c' c'' : Core} (h1 : Grows Q c c') (h2 : Grows Q c' c'') : Grows Q c c'' := by
  obtain ⟨l, e1, q1⟩ := h1.more
  obtain ⟨m, e2, q2⟩ := h2.more
  refine ⟨h2.started.trans h1.started, h2.nys.trans h1.nys, ⟨l ++ m, by rw [e2, e1, List.append_assoc], ?_⟩, ?_⟩
  · intro d hd
    rcases List.mem_append.1 hd with h | h
    · exact q1 d h
    · exact q2 d h
  · intro a b
    obtain ⟨a', b'⟩ := h1.nodup a b
    exact h2.nodup a' b'

theorem Grows.rest_mono {Q : Dotted → Prop} {c c' : Core} (h : Grows Q c c') {d : Dotted} (hd : d ∈ c.rest) : d ∈ c'.rest := by
  obtain ⟨l, e, _⟩ := h.more
  unfold Core.rest at *
  rw [h.nys, e]
  rcases List.mem_append.1 hd with hd | hd
  · exact List.mem_append_left _ hd
  · exact List.mem_append_right _ (List.mem_append_left _ hd)

theorem Grows.all_get {Q : Dotted → Prop} {c c' : Core} (h : Grows Q c c') {i : Nat} {d : Dotted} (hd : c.all[i]? = some d) : c'.all[i]? = some d := by
  obtain ⟨l, e, _⟩ := h.more
  unfold Core.all at *
  rw [h.nys, h.started, e, ← List.append_assoc]
  rw [List.getElem?_append_left (List.getElem?_eq_some_iff.1 hd).1]
  exact hd

theorem Grows.all_take {Q : Dotted → Prop} {c c' : Core} (h : Grows Q c c') {i : Nat} (hi : i ≤ c.all.length) : c'.all.take i = c.all.take i := by
  obtain ⟨l, e, _⟩ := h.more
  unfold Core.all at *
  rw [h.nys, h.started, e, ← List.append_assoc, List.take_append_of_le_length hi]

theorem grows_addInitial {Q : Dotted → Prop} {c : Core} {d : Dotted} (h : Q d) : Grows Q c (addInitial c d) ∧ d ∈ (addInitial c d).rest := by
  unfold addInitial
  split
  · next hd => exact ⟨.refl c, hd⟩
  · next hd =>
    refine ⟨⟨rfl, rfl, ⟨[d], rfl, by simpa using h⟩, ?_⟩, by simp [Core.rest]⟩
    intro h1 h2
    simp only [List.mem_append, not_or] at hd
    refine ⟨?_, ?_⟩
    · simp only
      rw [List.nodup_append]
      refine ⟨h1, by simp, ?_⟩
      intro a ha b hb
      rw [List.mem_singleton] at hb
      subst hb
      rintro rfl
      exact hd.2 ha
    · intro e he
      simp only [List.mem_append, List.mem_singleton] at he
      rcases he with he | rfl
      · exact h2 e he
      · exact hd.1

theorem grows_foldInitial {Q : Dotted → Prop} : ∀ {rs : List Nat} {c : Core}, (∀ r ∈ rs, Q ⟨r, 0⟩) →
    Grows Q c (rs.foldl (fun c r => addInitial c ⟨r, 0⟩) c) ∧ ∀ r ∈ rs, ⟨r, 0⟩ ∈ (rs.foldl (fun c r => addInitial c ⟨r, 0⟩) c).rest
  | [], c, _ => ⟨.refl c, by simp⟩
  | r :: rs, c, h => by
    rw [List.foldl_cons]
    obtain ⟨h1, h2⟩ := grows_addInitial (Q := Q) (c := c) (h r (by simp))
    obtain ⟨h3, h4⟩ := grows_foldInitial (Q := Q) (rs := rs) (c := addInitial c ⟨r, 0⟩) (fun r hr => h r (List.mem_cons_of_mem _ hr))
    refine ⟨h1.trans h3, ?_⟩
    intro r' hr'
    rcases List.mem_cons.1 hr' with rfl | hr'
    · exact h3.rest_mono h2
    · exact h4 r' hr'

/-- The dotted rule at place `i` has been visited. -/
def Visited (g : Gram) (c : Core) (i : Nat) (d : Dotted) : Prop :=
  (∀ a, g.next d = some (.n a) → ∀ r ∈ g.ruleIds a, ⟨r, 0⟩ ∈ c.rest) ∧
  ∀ x, g.next d = some x → g.empty x = true → c.started.length + c.nys.length ≤ i → d.succ ∈ c.rest

theorem Visited.mono {Q : Dotted → Prop} {c c' : Core} (h : Grows Q c c') {i : Nat} {d : Dotted} (hv : Visited g c i d) : Visited g c' i d := by
  refine ⟨fun a ha r hr => h.rest_mono (hv.1 a ha r hr), fun x hx he hi => h.rest_mono (hv.2 x hx he ?_)⟩
  rwa [h.started, h.nys] at hi

/-- What may be added because of `d`. -/
def Steps (g : Gram) (Q : Dotted → Prop) (c : Core) : Prop :=
  ∀ i d, c.all[i]? = some d → (∀ a, g.next d = some (.n a) → ∀ r ∈ g.ruleIds a, Q ⟨r, 0⟩) ∧
    ∀ x, g.next d = some x → g.empty x = true → c.started.length + c.nys.length ≤ i → Q d.succ

theorem grows_predict {Q : Dotted → Prop} {c : Core} {i : Nat} {d : Dotted} {x : Sym} (hx : g.next d = some x)
    (hq : ∀ a, g.next d = some (.n a) → ∀ r ∈ g.ruleIds a, Q ⟨r, 0⟩) (hb : ∀ j e, j < i → c.all[j]? = some e → Visited g c j e) :
    Grows Q c (predict g c i x) ∧ ∀ a, x = .n a → ∀ r ∈ g.ruleIds a, ⟨r, 0⟩ ∈ (predict g c i x).rest := by
  cases x with
  | t c' => exact ⟨.refl c, fun a h => by cases h⟩
  | n a =>
    dsimp only [predict]
    split
    · next h =>
      refine ⟨.refl c, ?_⟩
      rintro _ ⟨⟩ r hr
      obtain ⟨e, he, hn⟩ := List.any_eq_true.1 h
      obtain ⟨j, hj, hje⟩ := List.getElem_of_mem he
      rw [List.length_take] at hj
      rw [List.getElem_take] at hje
      have hje' : c.all[j]? = some e := List.getElem?_eq_some_iff.2 ⟨by omega, hje⟩
      exact (hb j e (by omega) hje').1 a (of_decide_eq_true hn) r hr
    · obtain ⟨h1, h2⟩ := grows_foldInitial (Q := Q) (rs := g.ruleIds a) (c := c) (hq a hx)
      exact ⟨h1, by rintro _ ⟨⟩ r hr; exact h2 r hr⟩

theorem grows_step {Q : Dotted → Prop} {c : Core} {i : Nat} {d : Dotted} (hd : c.all[i]? = some d) (hs : Steps g Q c)
    (hb : ∀ j e, j < i → c.all[j]? = some e → Visited g c j e) :
    Grows Q c (expandStep g c i d) ∧ Visited g (expandStep g c i d) i d := by
  unfold expandStep
  cases hx : g.next d with
  | none => exact ⟨.refl c, fun a h => by rw [hx] at h; (cases h), fun x h => by rw [hx] at h; cases h⟩
  | some x =>
    dsimp only
    obtain ⟨h1, h2⟩ := grows_predict (Q := Q) hx (hs i d hd).1 hb
    have hlen : (predict g c i x).started.length + (predict g c i x).nys.length = c.started.length + c.nys.length := by rw [h1.started, h1.nys]
    split
    · next h =>
      rw [Bool.and_eq_true, decide_eq_true_eq] at h
      obtain ⟨h3, h4⟩ := grows_addInitial (Q := Q) (c := predict g c i x) (d := d.succ) ((hs i d hd).2 x hx h.1 (by omega))
      refine ⟨h1.trans h3, ?_, ?_⟩
      · intro a ha r hr
        rw [hx] at ha
        cases ha
        exact h3.rest_mono (h2 a rfl r hr)
      · intro y hy _ _
        exact h4
    · next h =>
      refine ⟨h1, ?_, ?_⟩
      · intro a ha r hr
        rw [hx] at ha
        cases ha
        exact h2 a rfl r hr
      · intro y hy he hi
        rw [hx] at hy
        cases hy
        exact absurd (by rw [Bool.and_eq_true, decide_eq_true_eq]; exact ⟨he, hi⟩) h

theorem all_length (c : Core) : c.all.length = c.started.length + c.nys.length + c.initial.length := by
  simp [Core.all, Nat.add_assoc]

/-- The loop ends with everything visited; what is added has every property that is handed on. -/
theorem expandLoop_some : ∀ (n i : Nat) (c : Core), i ≤ c.all.length → c.started.length + c.nys.length + g.size + 1 ≤ n + i →
    c.initial.Nodup → (∀ d ∈ c.initial, d ∉ c.nys.map Prod.fst) → (∀ d ∈ c.initial, g.Valid d) →
    (∀ j e, j < i → c.all[j]? = some e → Visited g c j e) →
    ∃ c', expandLoop g n i c = some c' ∧ c'.started = c.started ∧ c'.nys = c.nys ∧ (∃ l, c'.initial = c.initial ++ l) ∧ c'.initial.Nodup ∧
      (∀ d ∈ c'.initial, d ∉ c'.nys.map Prod.fst) ∧ (∀ d ∈ c'.initial, g.Valid d) ∧ (∀ j e, c'.all[j]? = some e → Visited g c' j e) ∧
      ∀ Q : Dotted → Prop, (∀ d ∈ c.initial, Q d) →
        (∀ d ∈ c.started ++ c.nys.map Prod.fst, ∀ a, g.next d = some (.n a) → ∀ r ∈ g.ruleIds a, Q ⟨r, 0⟩) →
        (∀ d a, d ∈ c'.initial → Q d → g.next d = some (.n a) → ∀ r ∈ g.ruleIds a, Q ⟨r, 0⟩) →
        (∀ d x, d ∈ c'.initial → Q d → g.next d = some x → g.empty x = true → Q d.succ) → ∀ d ∈ c'.initial, Q d
  | 0, i, c, hi, hn, hnd, hdis, hval, hb => by
    exfalso
    have : c.initial.length ≤ g.size := by
      rw [← dotted_length]
      exact nodup_length_le hnd fun d hd => mem_dotted.2 (hval d hd)
    rw [all_length] at hi
    omega
  | n + 1, i, c, hi, hn, hnd, hdis, hval, hb => by
    unfold expandLoop
    cases hd : c.all[i]? with
    | none =>
      refine ⟨c, rfl, rfl, rfl, ⟨[], by simp⟩, hnd, hdis, hval, ?_, ?_⟩
      · intro j e he
        refine hb j e ?_ he
        have h1 := List.getElem?_eq_none_iff.1 hd
        have h2 := (List.getElem?_eq_some_iff.1 he).1
        omega
      · intro Q hQ _ _ _ d hd
        exact hQ d hd
    | some d =>
      dsimp only
      have hstep : ∀ Q, Steps g Q c → _ := fun Q hs => grows_step (Q := Q) hd hs hb
      obtain ⟨hg, hv⟩ := hstep (fun e => g.Valid e) (by
        intro j e he
        refine ⟨?_, ?_⟩
        · intro a _ r hr
          exact ⟨(mem_ruleIds.1 hr).1, Nat.zero_le _⟩
        · intro x hx _ _
          exact next_valid hx)
      have hlt := (List.getElem?_eq_some_iff.1 hd).1
      obtain ⟨l, el, ql⟩ := hg.more
      have hlen : (expandStep g c i d).all.length = c.all.length + l.length := by
        rw [all_length, all_length, hg.started, hg.nys, el, List.length_append]
        omega
      obtain ⟨nd1, dis1⟩ := hg.nodup hnd hdis
      obtain ⟨c', h1, h2, h3, ⟨l', h4⟩, h5, h6, h7, h8, h9⟩ := expandLoop_some n (i + 1) (expandStep g c i d) (by omega)
        (by rw [hg.started, hg.nys]; omega) nd1 dis1
        (by rw [el]; intro e he; rcases List.mem_append.1 he with he | he; exact hval e he; exact ql e he)
        (by
          intro j e hj he
          rcases Nat.lt_succ_iff_lt_or_eq.1 hj with hj | rfl
          · have : c.all[j]? = some e := by
              have h := hg.all_get (i := j) (d := c.all[j]'(by omega)) (List.getElem?_eq_getElem (by omega))
              rw [he] at h
              rw [List.getElem?_eq_getElem (by omega), ← Option.some.inj h]
            exact (hb j e hj this).mono hg
          · have h := hg.all_get hd
            rw [he] at h
            obtain rfl := Option.some.inj h
            exact hv)
      refine ⟨c', h1, h2.trans hg.started, h3.trans hg.nys, ⟨l ++ l', by rw [h4, el, List.append_assoc]⟩, h5, h6, h7, h8, ?_⟩
      intro Q hQ hQ0 hQ1 hQ2
      have hini : ∀ {j : Nat} {e : Dotted}, c.all[j]? = some e → e ∉ c.started ++ c.nys.map Prod.fst ∨ c.started.length + c.nys.length ≤ j → e ∈ c.initial := by
        intro j e he h
        unfold Core.all at he
        rcases h with h | h
        · rcases List.mem_append.1 (List.mem_of_getElem? he) with h' | h'
          · exact absurd h' h
          · exact h'
        · rw [List.getElem?_append_right (by simpa using h)] at he
          exact List.mem_of_getElem? he
      have hin' : ∀ e ∈ c.initial, e ∈ c'.initial := by
        intro e he
        rw [h4, el]
        exact List.mem_append_left _ (List.mem_append_left _ he)
      have hs : Grows Q c (expandStep g c i d) := (hstep Q (by
        intro j e he
        refine ⟨fun a ha r hr => ?_, fun x hx hem hij => ?_⟩
        · by_cases hm : e ∈ c.started ++ c.nys.map Prod.fst
          · exact hQ0 e hm a ha r hr
          · have := hini he (.inl hm)
            exact hQ1 e a (hin' e this) (hQ e this) ha r hr
        · have := hini he (.inr hij)
          exact hQ2 e x (hin' e this) (hQ e this) hx hem)).1
      obtain ⟨m, em, qm⟩ := hs.more
      refine h9 Q ?_ ?_ hQ1 hQ2
      · intro e he
        rw [em] at he
        rcases List.mem_append.1 he with he | he
        · exact hQ e he
        · exact qm e he
      · rw [hs.started, hs.nys]
        exact hQ0

end Xmq.Yaep
