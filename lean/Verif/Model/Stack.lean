import Verif.Basic
/-!
# The stack (parts/stack.c) over an explicit heap

Elements live in a heap: a partial map from addresses to cells.  `malloc` takes a fresh address, `free` removes the
cell.  Reading or writing through an address without a cell (a dangling pointer), and a failing `assert`, give `none`.
-/
namespace Xmq

/-- `struct StackElement`, parts/stack.h 27-32. -/
structure Cell (α : Type) where
  data : α
  below : Option Nat

/-- `struct Stack`, parts/stack.h 34-40, together with the heap.  `next` is the next fresh address. -/
structure Stack (α : Type) where
  heap : Nat → Option (Cell α)
  next : Nat
  bottom : Option Nat
  top : Option Nat
  size : Nat

/-- Store a cell / remove a cell. -/
def heapSet {α : Type} (h : Nat → Option (Cell α)) (p : Nat) (c : Option (Cell α)) : Nat → Option (Cell α) :=
  fun q => if q = p then c else h q

/-- `stack_create`, parts/stack.c 34-39. -/
def stackCreate (α : Type) : Stack α := ⟨fun _ => none, 0, none, none, 0⟩

/-- `stack_push`, parts/stack.c 56-72. -/
def stackPush {α : Type} (s : Stack α) (data : α) : Stack α :=
  let e := s.next
  match s.top with
  | none => { heap := heapSet s.heap e (some ⟨data, none⟩), next := e + 1, bottom := some e, top := some e, size := s.size + 1 }
  | some t => { s with heap := heapSet s.heap e (some ⟨data, some t⟩), next := e + 1, top := some e, size := s.size + 1 }

/-- `stack_pop`, parts/stack.c 74-85.  `bottom` is not updated. -/
def stackPop {α : Type} (s : Stack α) : Option (α × Stack α) :=
  match s.top with
  | none => none
  | some e =>
    match s.heap e with
    | none => none
    | some c => some (c.data, { s with heap := heapSet s.heap e none, top := c.below, size := s.size - 1 })

/-- `find_element_above`, parts/stack.c 87-99; `k` bounds the loop iterations.  The inner option is the
    returned pointer. -/
def findElementAbove {α : Type} (h : Nat → Option (Cell α)) (b : Nat) : Nat → Option Nat → Option (Option Nat)
  | _, none => some none
  | 0, some _ => none
  | k + 1, some e =>
    match h e with
    | none => none
    | some c => if c.below = some b then some (some e) else findElementAbove h b k c.below

/-- `stack_rock`, parts/stack.c 101-120. -/
def stackRock {α : Type} (s : Stack α) : Option (α × Stack α) :=
  match s.bottom with
  | none => none
  | some e =>
    if s.size = 0 then none
    else if s.size = 1 then stackPop s
    else
      match s.heap e with
      | none => none
      | some c =>
        match findElementAbove s.heap e s.size s.top with
        | some (some a) =>
          match s.heap a with
          | none => none
          | some ca =>
            some (c.data, { s with heap := heapSet (heapSet s.heap a (some { ca with below := none })) e none,
                                   bottom := some a, size := s.size - 1 })
        | _ => none

/-- The calls a user can make. -/
inductive StackOp (α : Type)
  | push (x : α)
  | pop
  | rock

/-- One call: the new stack and the returned element, if the call returns one. -/
def stackStep {α : Type} (s : Stack α) : StackOp α → Option (Stack α × Option α)
  | .push x => some (stackPush s x, none)
  | .pop => (stackPop s).map fun r => (r.2, some r.1)
  | .rock => (stackRock s).map fun r => (r.2, some r.1)

/-- A sequence of calls: the final stack and all results.  `none`: some call aborted. -/
def stackRun {α : Type} (s : Stack α) : List (StackOp α) → Option (Stack α × List (Option α))
  | [] => some (s, [])
  | op :: ops =>
    match stackStep s op with
    | none => none
    | some (s', r) => (stackRun s' ops).map fun q => (q.1, r :: q.2)

/-- The loop of `stack_free`, parts/stack.c 45-51: free all elements from the top; the remaining heap.
    `none`: a dangling pointer is used. -/
def stackFree {α : Type} : Nat → (Nat → Option (Cell α)) → Option Nat → Option (Nat → Option (Cell α))
  | _, h, none => some h
  | 0, _, some _ => none
  | k + 1, h, some e =>
    match h e with
    | none => none
    | some c => stackFree k (heapSet h e none) c.below

end Xmq
