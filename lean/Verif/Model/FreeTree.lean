import Verif.Basic
/-!
# Giving back a parse tree (parts/yaep.c 7342-7497)

The result of the Earley parser is a graph in which nodes and names are shared.  `yaepFreeTree` first makes a tree of it and then gives
back its nodes.  A node is a number; so is the block of a name.  An assertion that fails, a null pointer that is followed, a block
that is used after or given back after it was given back are undefined (`none`).
-/
namespace Xmq.FreeTree

/-- `YaepTreeNode`, parts/yaep.h: `leaf` stands for `YAEP_NIL`, `YAEP_ERROR` and `YAEP_TERM`. -/
inductive Cell
  | leaf
  | anode (name : Option Nat) (kids : List Nat)
  | alt (node : Option Nat) (next : Option Nat)
  deriving DecidableEq, Repr

/-- The memory during `free_tree_reduce`: the nodes, the bit `_yaep_VISITED` of their types, and whether a name begins with NUL. -/
structure St where
  heap : Nat → Cell
  visited : Nat → Bool
  blank : Nat → Bool

/-- A value changed at one place. -/
def put {α : Type} (f : Nat → α) (n : Nat) (v : α) : Nat → α := fun m => if m = n then v else f m

/-- The loop over the children, parts/yaep.c 7372-7398, with `free_tree_reduce` as `rec`; the children that become NULL are left out, as
    the second loop (7385-7398) does, which keeps the order of the others. -/
def reduceKids (rec : St → Nat → Option St) (st : St) : List Nat → Option (St × List Nat)
  | [] => some (st, [])
  | c :: r =>
    if st.visited c then reduceKids rec st r
    else match rec st c with
      | none => none
      | some st' => match reduceKids rec st' r with
        | none => none
        | some (st'', ks) => some (st'', c :: ks)

/-- The loop over the alternatives that were visited, parts/yaep.c 7410-7415. -/
def skipVisited (st : St) : Nat → Option Nat → Option (Option Nat)
  | _, none => some none
  | 0, some _ => none
  | f + 1, some m =>
    if st.visited m then
      match st.heap m with
      | .alt _ nx => skipVisited st f nx
      | _ => none
    else some (some m)

/-- `free_tree_reduce`, parts/yaep.c 7342-7425.  The new name and children of a node are stored when its children are done; nothing
    reads them before. -/
def reduce : Nat → St → Nat → Option St
  | 0, _, _ => none
  | f + 1, st, n =>
    if st.visited n then none
    else
      let st1 := { st with visited := put st.visited n true }
      match st.heap n with
      | .leaf => some st1
      | .anode none _ => none
      | .anode (some nm) kids =>
        match reduceKids (reduce f) { st1 with blank := put st.blank nm true } kids with
        | none => none
        | some (st2, ks) => some { st2 with heap := put st2.heap n (.anode (if st.blank nm then none else some nm) ks) }
      | .alt none _ => none
      | .alt (some s) nx =>
        match (if st1.visited s then some (st1, none) else (reduce f st1 s).map fun st2 => (st2, some s)) with
        | none => none
        | some (st2, s') =>
          match skipVisited st2 f nx with
          | none => none
          | some none => some { st2 with heap := put st2.heap n (.alt s' none) }
          | some (some m) =>
            match reduce f st2 m with
            | none => none
            | some st3 => some { st3 with heap := put st3.heap n (.alt s' (some m)) }

/-- What was given back: nodes and names, in order. -/
structure Freed where
  nodes : List Nat
  names : List Nat
  deriving DecidableEq, Repr

/-- `parse_free` of a node. -/
def freeNode (fr : Freed) (n : Nat) : Option Freed :=
  if n ∈ fr.nodes then none else some { fr with nodes := fr.nodes ++ [n] }

/-- `parse_free` of a name; of NULL it does nothing. -/
def freeName (fr : Freed) : Option Nat → Option Freed
  | none => some fr
  | some x => if x ∈ fr.names then none else some { fr with names := fr.names ++ [x] }

/-- The loop over the children, parts/yaep.c 7458-7461. -/
def sweepKids (rec : Freed → Nat → Option Freed) (fr : Freed) : List Nat → Option Freed
  | [] => some fr
  | c :: r => match rec fr c with
    | none => none
    | some fr' => sweepKids rec fr' r

/-- `free_tree_sweep`, parts/yaep.c 7427-7476, without the calls of `termcb`, which is NULL (xmq.c 4651). -/
def sweep (st : St) : Nat → Freed → Nat → Option Freed
  | 0, _, _ => none
  | f + 1, fr, n =>
    if n ∈ fr.nodes then none
    else if st.visited n = false then none
    else match st.heap n with
      | .leaf => freeNode fr n
      | .anode nm kids =>
        match freeName fr nm with
        | none => none
        | some fr1 => match sweepKids (sweep st f) fr1 kids with
          | none => none
          | some fr2 => freeNode fr2 n
      | .alt s nx =>
        match (match s with | none => some fr | some s => sweep st f fr s) with
        | none => none
        | some fr1 => match freeNode fr1 n with
          | none => none
          | some fr2 => match nx with
            | none => some fr2
            | some m => sweep st f fr2 m

/-- `yaepFreeTree`, parts/yaep.c 7478-7497; `blank` says which names have no characters.  The fuel bounds the depth of the recursion. -/
def freeTree (fuel : Nat) (heap : Nat → Cell) (blank : Nat → Bool) (root : Nat) : Option Freed :=
  match reduce fuel ⟨heap, fun _ => false, blank⟩ root with
  | none => none
  | some st => sweep st fuel ⟨[], []⟩ root

end Xmq.FreeTree
