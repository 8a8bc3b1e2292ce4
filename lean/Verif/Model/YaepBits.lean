import Verif.Basic
/-!
# Sets of terminals and of items in the Earley parser (parts/yaep.c 2250-2260, 3402-3535, 4028-4093)
-/
namespace Xmq.Yaep

/-- `terminal_bitset_t` is a `long int` of 64 bits, parts/yaep.c 2256.  (`1 << 63` is not defined for it in C; it is
    taken to be the highest bit.) -/
abbrev Word := BitVec 64

/-- `CALC_NUM_ELEMENTS`, parts/yaep.c 2259. -/
def numElements (n : Nat) : Nat := (n + 8 * 8 - 1) / (8 * 8)

/-- `terminal_bitset_clear`, parts/yaep.c 3420-3431, of a set from `terminal_bitset_create` (3402-3418). -/
def bitsClear (n : Nat) : List Word := List.replicate (numElements n) 0#64

/-- `terminal_bitset_fill`, parts/yaep.c 3433-3444. -/
def bitsFill (n : Nat) : List Word := List.replicate (numElements n) (-1#64)

/-- `terminal_bitset_copy`, parts/yaep.c 3447-3459, and what is behind it; `none` for a read outside. -/
def bitsCopy (n : Nat) (src : List Word) : Option (List Word) :=
  if src.length < numElements n then none else some (src.take (numElements n))

/-- The loop of `terminal_bitset_or`, parts/yaep.c 3471-3478, for the given number of words. -/
def bitsOrLoop : Nat → List Word → List Word → Option (List Word × Bool)
  | 0, set, _ => some (set, false)
  | n + 1, a :: set, b :: op =>
    (bitsOrLoop n set op).map fun r => ((a ||| b) :: r.1, decide ((a ||| b) ≠ a) || r.2)
  | _ + 1, _, _ => none

/-- `terminal_bitset_or`, parts/yaep.c 3462-3480. -/
def bitsOr (n : Nat) (set op : List Word) : Option (List Word × Bool) := bitsOrLoop (numElements n) set op

/-- The word and the bit of a terminal, parts/yaep.c 3493-3494. -/
def bitOf (num : Nat) : Word := 1#64 <<< (num % (8 * 8))

/-- `terminal_bitset_up`, parts/yaep.c 3483-3499; `none` for the assertion. -/
def bitsUp (n : Nat) (set : List Word) (num : Nat) : Option (List Word × Bool) :=
  if num < n then
    match set[num / (8 * 8)]? with
    | none => none
    | some w => some (set.set (num / (8 * 8)) (w ||| bitOf num), if w &&& bitOf num ≠ 0#64 then false else true)
  else none

/-- `terminal_bitset_down`, parts/yaep.c 3502-3518. -/
def bitsDown (n : Nat) (set : List Word) (num : Nat) : Option (List Word × Bool) :=
  if num < n then
    match set[num / (8 * 8)]? with
    | none => none
    | some w => some (set.set (num / (8 * 8)) (w &&& ~~~ bitOf num), if w &&& bitOf num ≠ 0#64 then true else false)
  else none

/-- `terminal_bitset_test`, parts/yaep.c 3521-3534. -/
def bitsTest (n : Nat) (set : List Word) (num : Nat) : Option Bool :=
  if num < n then (set[num / (8 * 8)]?).map fun w => decide (w &&& bitOf num ≠ 0#64) else none

/-- Uses of sets, which are numbered. -/
inductive BOp where
  | clear (r : Nat)
  | fill (r : Nat)
  | copy (r s : Nat)
  | or (r s : Nat)
  | up (r num : Nat)
  | down (r num : Nat)
  | test (r num : Nat)
deriving Repr, DecidableEq

/-- One set is replaced. -/
def putSet {β : Type} (f : Nat → β) (r : Nat) (v : β) : Nat → β := fun i => if i = r then v else f i

/-- One use: the sets and the answer. -/
def bstep (n : Nat) (f : Nat → List Word) : BOp → Option ((Nat → List Word) × Bool)
  | .clear r => some (putSet f r (bitsClear n), false)
  | .fill r => some (putSet f r (bitsFill n), false)
  | .copy r s => (bitsCopy n (f s)).map fun v => (putSet f r v, false)
  | .or r s => (bitsOr n (f r) (f s)).map fun v => (putSet f r v.1, v.2)
  | .up r num => (bitsUp n (f r) num).map fun v => (putSet f r v.1, v.2)
  | .down r num => (bitsDown n (f r) num).map fun v => (putSet f r v.1, v.2)
  | .test r num => (bitsTest n (f r) num).map fun b => (f, b)

/-- All answers. -/
def brun (n : Nat) : (Nat → List Word) → List BOp → Option (List Bool)
  | _, [] => some []
  | f, op :: ops =>
    match bstep n f op with
    | none => none
    | some (f', b) => (brun n f' ops).map (b :: ·)

/-! ## The set of items with lengths -/

/-- `dotted_rule_matched_length_vec_vlo` and `..._generation`, parts/yaep.c 2892-2895: for each item and length the
    generation in which the pair was inserted.  The generation is an `int`; that it overflows after 2^31 sets is left
    out. -/
structure ItemSet where
  vec : List (List Nat)
  generation : Nat
deriving Repr, DecidableEq

/-- `dotted_rule_matched_length_set_init`, parts/yaep.c 4029-4034. -/
def itemsInit : ItemSet := ⟨[], 0⟩

/-- `clear_dotted_rule_matched_length_set`, parts/yaep.c 4040-4043. -/
def itemsClear (t : ItemSet) : ItemSet := { t with generation := t.generation + 1 }

/-- `VLO_EXPAND` with the loops of parts/yaep.c 4060-4068 and 4075-4081: the vector gets `i + 1` entries at least. -/
def growTo {β : Type} (d : β) (i : Nat) (l : List β) : List β :=
  if l.length ≤ i then l ++ List.replicate (i + 1 - l.length) d else l

/-- `dotted_rule_matched_length_test_and_set`, parts/yaep.c 4051-4093. -/
def itemsTestAndSet (t : ItemSet) (id dist : Nat) : ItemSet × Bool :=
  let vec := growTo [] id t.vec
  let lens := growTo 0 dist (vec[id]?.getD [])
  let vec := vec.set id lens
  if lens[dist]?.getD 0 = t.generation then ({ t with vec := vec }, true)
  else ({ t with vec := vec.set id (lens.set dist t.generation) }, false)

/-- `clear`: `none`; insertion of a pair: `some`.  The answers of the insertions. -/
def itemsRun : ItemSet → List (Option (Nat × Nat)) → List Bool
  | _, [] => []
  | t, none :: ops => itemsRun (itemsClear t) ops
  | t, some p :: ops => (itemsTestAndSet t p.1 p.2).2 :: itemsRun (itemsTestAndSet t p.1 p.2).1 ops

end Xmq.Yaep
