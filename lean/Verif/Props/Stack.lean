import Verif.Model.Stack
/-!
# C21: the stack is a list
-/
namespace Xmq.Props
open Xmq

/-- The abstract stack: a list, top first. -/
def listStep {α : Type} (l : List α) : StackOp α → Option (List α × Option α)
  | .push x => some (x :: l, none)
  | .pop => match l with | [] => none | x :: t => some (t, some x)
  | .rock => match l.getLast? with | none => none | some x => some (l.dropLast, some x)

/-- A sequence of calls on the abstract stack. -/
def listRun {α : Type} (l : List α) : List (StackOp α) → Option (List α × List (Option α))
  | [] => some (l, [])
  | op :: ops =>
    match listStep l op with
    | none => none
    | some (l', r) => (listRun l' ops).map fun q => (q.1, r :: q.2)

/-- The cells form a chain. -/
def Chain {α : Type} (h : Nat → Option (Cell α)) : List (Nat × α) → Prop
  | [] => True
  | (p, x) :: t => h p = some ⟨x, (t.head?).map Prod.fst⟩ ∧ Chain h t

/-- The concrete stack represents the list of the second components. -/
structure Repr {α : Type} (s : Stack α) (l : List (Nat × α)) : Prop where
  chain : Chain s.heap l
  nodup : (l.map Prod.fst).Nodup
  fresh : ∀ p, (s.heap p).isSome → p < s.next
  live : ∀ p, (s.heap p).isSome → p ∈ l.map Prod.fst
  top : s.top = l.head?.map Prod.fst
  bottom : l ≠ [] → s.bottom = l.getLast?.map Prod.fst
  size : s.size = l.length

theorem chain_mem {α : Type} {h : Nat → Option (Cell α)} {l : List (Nat × α)} (hc : Chain h l) :
    ∀ q ∈ l, ∃ b, h q.1 = some ⟨q.2, b⟩ := by
  induction l with
  | nil => simp
  | cons a t ih =>
    intro q hq
    rcases List.mem_cons.1 hq with rfl | hq
    · exact ⟨_, hc.1⟩
    · exact ih hc.2 q hq

theorem chain_congr {α : Type} {h h' : Nat → Option (Cell α)} {l : List (Nat × α)}
    (he : ∀ p ∈ l.map Prod.fst, h p = h' p) (hc : Chain h l) : Chain h' l := by
  induction l with
  | nil => trivial
  | cons a t ih =>
    refine ⟨?_, ih (fun p hp => he p (by simp at hp ⊢; exact Or.inr hp)) hc.2⟩
    rw [← he a.1 (by simp)]; exact hc.1

theorem repr_create (α : Type) : Repr (stackCreate α) [] :=
  ⟨trivial, by simp, by simp [stackCreate], by simp [stackCreate], rfl, by simp, rfl⟩

theorem repr_push {α : Type} {s : Stack α} {l : List (Nat × α)} (h : Repr s l) (x : α) :
    Repr (stackPush s x) ((s.next, x) :: l) := by
  have hfr : s.next ∉ l.map Prod.fst := by
    intro hm
    obtain ⟨q, hq, he⟩ := List.mem_map.1 hm
    obtain ⟨b, hb⟩ := chain_mem h.chain q hq
    have := h.fresh q.1 (by simp [hb])
    omega
  have hcong : ∀ c, Chain (heapSet s.heap s.next c) l := fun c => chain_congr (fun p hp => by
    have : p ≠ s.next := fun e => hfr (e ▸ hp)
    simp [heapSet, this]) h.chain
  unfold stackPush
  have htop := h.top
  cases hl : l with
  | nil =>
    subst hl
    simp at htop
    simp only [htop]
    refine ⟨⟨by simp [heapSet], trivial⟩, by simp, ?_, ?_, by simp, by simp, by simp [h.size]⟩
    · intro p hp; simp only [heapSet] at hp; split at hp
      · simp; omega
      · have := h.fresh p hp; simp; omega
    · intro p hp; simp only [heapSet] at hp; split at hp
      · simp [*]
      · have := h.live p hp; simp at this
  | cons a t =>
    subst hl
    simp at htop
    simp only [htop]
    refine ⟨⟨by simp [heapSet], hcong _⟩, ?_, ?_, ?_, by simp, ?_, by simp [h.size]⟩
    · rw [List.map_cons, List.nodup_cons]; exact ⟨hfr, h.nodup⟩
    · intro p hp; simp only [heapSet] at hp; split at hp
      · simp; omega
      · have := h.fresh p hp; simp; omega
    · intro p hp; simp only [heapSet] at hp; split at hp
      · simp [*]
      · have := h.live p hp; simp at this ⊢; exact Or.inr this
    · intro _
      rw [List.getLast?_cons_cons]; exact h.bottom (by simp)

theorem repr_pop {α : Type} {s : Stack α} {p : Nat} {x : α} {l : List (Nat × α)} (h : Repr s ((p, x) :: l)) :
    ∃ s', stackPop s = some (x, s') ∧ Repr s' l := by
  have hp := h.chain.1
  have htop := h.top
  have hnd := h.nodup
  rw [List.map_cons, List.nodup_cons] at hnd
  simp at htop
  refine ⟨{ s with heap := heapSet s.heap p none, top := l.head?.map Prod.fst, size := s.size - 1 },
    by simp only [stackPop, htop, hp], ?_, hnd.2, ?_, ?_, rfl, ?_, ?_⟩
  · exact chain_congr (fun q hq => by
      have : q ≠ p := fun e => hnd.1 (e ▸ hq)
      simp [heapSet, this]) h.chain.2
  · intro q hq; simp only [heapSet] at hq; split at hq
    · simp at hq
    · exact h.fresh q hq
  · intro q hq; simp only [heapSet] at hq; split at hq
    · simp at hq
    · have := h.live q hq
      simp only [List.map_cons, List.mem_cons] at this
      rcases this with h1 | h1
      · contradiction
      · exact h1
  · intro hne
    have := h.bottom (by simp)
    cases l with
    | nil => exact absurd rfl hne
    | cons a t => rw [this, List.getLast?_cons_cons]
  · simp [h.size]

theorem findAbove_spec {α : Type} {h : Nat → Option (Cell α)} (pre : List (Nat × α)) (a e : Nat × α)
    (hc : Chain h (pre ++ [a, e])) (hnd : ((pre ++ [a, e]).map Prod.fst).Nodup) (k : Nat) (hk : pre.length < k) :
    findElementAbove h e.1 k ((pre ++ [a, e]).head?.map Prod.fst) = some (some a.1) := by
  induction pre generalizing k with
  | nil =>
    obtain ⟨k, rfl⟩ : ∃ j, k = j + 1 := ⟨k - 1, by omega⟩
    have := hc.1
    simp [findElementAbove] at this ⊢
    simp [this]
  | cons b t ih =>
    obtain ⟨k, rfl⟩ : ∃ j, k = j + 1 := ⟨k - 1, by simp at hk; omega⟩
    have h1 := hc.1
    have := ih hc.2 (by simp at hnd ⊢; exact hnd.2) k (by simp at hk; omega)
    simp only [List.cons_append, List.head?_cons, Option.map_some, findElementAbove, h1]
    rw [if_neg]
    exact this
    intro he
    cases t with
    | nil => simp at he hnd; grind
    | cons c t => simp at he hnd; exact absurd he hnd.2.1.2.2

theorem chain_dropLast {α : Type} {h : Nat → Option (Cell α)} (pre : List (Nat × α)) (a e : Nat × α)
    (hc : Chain h (pre ++ [a, e])) (hnd : ((pre ++ [a, e]).map Prod.fst).Nodup) :
    Chain (heapSet (heapSet h a.1 (some ⟨a.2, none⟩)) e.1 none) (pre ++ [a]) := by
  induction pre with
  | nil =>
    refine ⟨?_, trivial⟩
    simp at hnd
    simp [heapSet, hnd]
  | cons b t ih =>
    refine ⟨?_, ih hc.2 (by simp at hnd ⊢; exact hnd.2)⟩
    have h1 := hc.1
    have hb : b.1 ≠ a.1 ∧ b.1 ≠ e.1 := by
      simp only [List.cons_append, List.map_cons, List.nodup_cons, List.map_append, List.mem_append, List.map_nil,
        List.mem_cons, List.not_mem_nil, or_false] at hnd
      constructor <;> intro he <;> exact hnd.1 (by simp [he])
    simp only [heapSet, hb.1, hb.2, if_false]
    rw [List.append_eq] at h1 ⊢
    rw [h1]
    cases t <;> rfl

theorem repr_rock {α : Type} {s : Stack α} {l : List (Nat × α)} {e : Nat × α} (h : Repr s (l ++ [e])) :
    ∃ s', stackRock s = some (e.2, s') ∧ Repr s' l := by
  have hb := h.bottom (by simp)
  simp at hb
  rcases List.eq_nil_or_concat l with rfl | ⟨pre, a, rfl⟩
  · obtain ⟨s', h1, h2⟩ := repr_pop (p := e.1) (x := e.2) (l := []) h
    refine ⟨s', ?_, h2⟩
    have : s.size = 1 := by simp [h.size]
    simp [stackRock, hb, this, h1]
  · rw [List.concat_eq_append] at h ⊢
    rw [List.append_assoc, List.singleton_append] at h
    have hsz : s.size = pre.length + 2 := by simp [h.size]
    obtain ⟨be, hhe⟩ := chain_mem h.chain e (by simp)
    obtain ⟨ba, hha⟩ := chain_mem h.chain a (by simp)
    have hf := findAbove_spec pre a e h.chain h.nodup s.size (by omega)
    rw [← h.top] at hf
    have hnd := h.nodup
    have hsub : ((pre ++ [a]).map Prod.fst).Nodup := by
      have e2 : pre ++ [a, e] = (pre ++ [a]) ++ [e] := by simp
      rw [e2, List.map_append, List.nodup_append] at hnd
      exact hnd.1
    refine ⟨{ s with heap := heapSet (heapSet s.heap a.1 (some ⟨a.2, none⟩)) e.1 none, bottom := some a.1, size := s.size - 1 }, by
      simp only [stackRock, hb]
      rw [if_neg (by omega), if_neg (by omega)]
      simp only [hhe, hf, hha], ?_, hsub, ?_, ?_, ?_, ?_, ?_⟩
    · exact chain_dropLast pre a e h.chain h.nodup
    · intro q hq; simp only [heapSet] at hq; split at hq
      · simp at hq
      · split at hq
        · rename_i h2; subst h2; exact h.fresh a.1 (by simp [hha])
        · exact h.fresh q hq
    · intro q hq; simp only [heapSet] at hq; split at hq
      · simp at hq
      · split at hq
        · rename_i h2; simp [h2]
        · have := h.live q hq
          simp at this ⊢
          grind
    · have := h.top
      rw [this]; cases pre <;> simp
    · intro _; simp
    · simp [h.size]

theorem refine_run {α : Type} (ops : List (StackOp α)) (s : Stack α) (l : List (Nat × α)) (h : Repr s l) :
    match listRun (l.map Prod.snd) ops with
    | none => stackRun s ops = none
    | some (m, outs) => ∃ s' l', stackRun s ops = some (s', outs) ∧ Repr s' l' ∧ l'.map Prod.snd = m := by
  induction ops generalizing s l with
  | nil => exact ⟨s, l, rfl, h, rfl⟩
  | cons op ops ih =>
    have hstep : match listStep (l.map Prod.snd) op with
        | none => stackStep s op = none
        | some (m, r) => ∃ s' l', stackStep s op = some (s', r) ∧ Repr s' l' ∧ l'.map Prod.snd = m := by
      cases op with
      | push x => exact ⟨_, _, rfl, repr_push h x, rfl⟩
      | pop =>
        cases l with
        | nil => have := h.top; simp at this; simp [listStep, stackStep, stackPop, this]
        | cons a t =>
          obtain ⟨s', h1, h2⟩ := repr_pop h
          exact ⟨s', t, by simp [stackStep, h1], h2, rfl⟩
      | rock =>
        rcases List.eq_nil_or_concat l with rfl | ⟨pre, a, rfl⟩
        · have := h.size
          simp [listStep, stackStep, stackRock, this]
          cases s.bottom <;> rfl
        · rw [List.concat_eq_append] at h ⊢
          obtain ⟨s', h1, h2⟩ := repr_rock h
          simp only [listStep, List.map_append, List.map_cons, List.map_nil, List.getLast?_concat, List.dropLast_concat]
          exact ⟨s', pre, by simp [stackStep, h1], h2, rfl⟩
    simp only [listRun]
    cases hs : listStep (l.map Prod.snd) op with
    | none => rw [hs] at hstep; simp only at hstep ⊢; simp [stackRun, hstep]
    | some q =>
      obtain ⟨m, r⟩ := q
      rw [hs] at hstep
      obtain ⟨s', l', h1, h2, h3⟩ := hstep
      have := ih s' l' h2
      rw [h3] at this
      simp only
      cases hr : listRun m ops with
      | none => rw [hr] at this; simp only [Option.map_none]; simp [stackRun, h1, this]
      | some q2 =>
        rw [hr] at this
        obtain ⟨s2, l2, h4, h5, h6⟩ := this
        simp only [Option.map_some]
        exact ⟨s2, l2, by simp [stackRun, h1, h4], h5, h6⟩

/-- **C21**.  Any sequence of push, pop and rock on a new stack gives exactly the results of the same sequence on a list
    (push and pop at the front, rock at the back), and aborts exactly when the list operation has no element to
    return.  In particular no dangling pointer is ever used, although `stack_pop` leaves `bottom` dangling. -/
theorem C21_stack_is_list {α : Type} (ops : List (StackOp α)) :
    (stackRun (stackCreate α) ops).map Prod.snd = (listRun [] ops).map Prod.snd := by
  have := refine_run ops (stackCreate α) [] (repr_create α)
  simp only [List.map_nil] at this
  cases hr : listRun ([] : List α) ops with
  | none => rw [hr] at this; simp only at this; simp [this]
  | some q =>
    obtain ⟨m, outs⟩ := q
    rw [hr] at this
    obtain ⟨s', l', h1, -, -⟩ := this
    simp [h1]

example : (listRun ([] : List Nat) [.push 1, .push 2, .pop, .pop, .push 3, .push 4, .rock, .rock]).map Prod.snd =
    some [none, none, some 2, some 1, none, none, some 3, some 4] := by decide

/-- **C21** (size and memory).  After any sequence of calls the size is the number of elements of the list, exactly
    that many heap cells are allocated, and `stack_free` releases all of them, touching no dangling pointer. -/
theorem C21_size_and_free {α : Type} (ops : List (StackOp α)) (s : Stack α) (outs : List (Option α))
    (h : stackRun (stackCreate α) ops = some (s, outs)) :
    ∃ l, listRun [] ops = some (l, outs) ∧ s.size = l.length ∧
      (∃ addrs : List Nat, addrs.Nodup ∧ addrs.length = l.length ∧ ∀ p, (s.heap p).isSome ↔ p ∈ addrs) ∧
      ∃ h', stackFree s.size s.heap s.top = some h' ∧ ∀ p, h' p = none := by
  have := refine_run ops (stackCreate α) [] (repr_create α)
  simp only [List.map_nil] at this
  cases hr : listRun ([] : List α) ops with
  | none => rw [hr] at this; simp only at this; rw [this] at h; cases h
  | some q =>
    obtain ⟨m, outs'⟩ := q
    rw [hr] at this
    obtain ⟨s', l', h1, h2, h3⟩ := this
    rw [h1] at h; simp at h
    obtain ⟨rfl, rfl⟩ := h
    refine ⟨m, rfl, by rw [h2.size, ← h3]; simp, ⟨l'.map Prod.fst, h2.nodup, by rw [← h3]; simp, fun p => ⟨h2.live p, ?_⟩⟩, ?_⟩
    · intro hp
      obtain ⟨q, hq, rfl⟩ := List.mem_map.1 hp
      obtain ⟨b, hb⟩ := chain_mem h2.chain q hq
      simp [hb]
    · have key : ∀ (l : List (Nat × α)) (hp : Nat → Option (Cell α)), Chain hp l → (l.map Prod.fst).Nodup →
          (∀ p, (hp p).isSome → p ∈ l.map Prod.fst) → 
          ∃ h', stackFree l.length hp (l.head?.map Prod.fst) = some h' ∧ ∀ p, h' p = none := by
        intro l
        induction l with
        | nil =>
          intro hp _ _ hl
          refine ⟨hp, rfl, fun p => ?_⟩
          cases hh : hp p with
          | none => rfl
          | some c => have := hl p (by simp [hh]); simp at this
        | cons a t ih =>
          intro hp hc hn hl
          rw [List.map_cons, List.nodup_cons] at hn
          have := ih (heapSet hp a.1 none) (chain_congr (fun q hq => by
            have : q ≠ a.1 := fun e => hn.1 (e ▸ hq)
            simp [heapSet, this]) hc.2) hn.2 (by
              intro p hp'
              simp only [heapSet] at hp'
              split at hp'
              · simp at hp'
              · have := hl p hp'
                simp only [List.map_cons, List.mem_cons] at this
                rcases this with h | h
                · contradiction
                · exact h)
          obtain ⟨h', h1, h2⟩ := this
          refine ⟨h', ?_, h2⟩
          simp only [List.length_cons, List.head?_cons, Option.map_some, stackFree, hc.1]
          exact h1
      have := key l' _ h2.chain h2.nodup h2.live
      rwa [← h2.size, ← h2.top] at this

end Xmq.Props
