import Verif.Model.Sort
/-!
# The hash table of the Earley parser (parts/yaep.c 1585-1842, the same code as yaep/src/hashtab.c)

Open addressing with double hashing.  Simplified: the indices are natural numbers, so the sum of an index and the
step does not wrap (it needs more than 2^31 entries to do so), and the counters for debugging are left out.
-/
namespace Xmq.Yaep

/-- The loop over `i` of `higher_prime_number`, parts/yaep.c 1636-1640: whether it ended with `i * i > number`. -/
def noDivisor (number i : Nat) : Bool :=
  if h : i * i ≤ number then
    if number % i = 0 then false else noDivisor number (i + 2)
  else true
termination_by number + 1 - i
decreasing_by
  have : i ≤ i * i := Nat.le_mul_self i
  omega

/-- The loop over `number` of `higher_prime_number`, parts/yaep.c 1634-1641. -/
def primeFrom : Nat → Nat → Option Nat
  | 0, _ => none
  | n + 1, number => if noDivisor number 3 then some number else primeFrom n (number + 2)

/-- `higher_prime_number`, parts/yaep.c 1629-1642. -/
def higherPrime (number : Nat) : Option Nat := primeFrom (number + 3) (number / 2 * 2 + 3)

/-- One entry: `EMPTY_ENTRY`, `DELETED_ENTRY` or an element, parts/yaep.c 1617-1624. -/
inductive HSlot (α : Type) where
  | empty
  | deleted
  | el (a : α)
deriving Repr, DecidableEq

/-- `hash_table_t`, parts/yaep.c 351-377; `elements` and `deleted` are `number_of_elements` and
    `number_of_deleted_elements`. -/
structure HTable (α : Type) where
  slots : List (HSlot α)
  elements : Nat
  deleted : Nat
deriving Repr, DecidableEq

/-- `create_hash_table`, parts/yaep.c 1650-1675. -/
def hcreate (α : Type) (size : Nat) : Option (HTable α) :=
  (higherPrime size).map fun p => ⟨List.replicate p .empty, 0, 0⟩

/-- `empty_hash_table`, parts/yaep.c 1680-1691. -/
def hclear {α : Type} (t : HTable α) : HTable α := ⟨List.replicate t.slots.length .empty, 0, 0⟩

/-- Where the search of an entry ended: at an equal element, or at an empty entry, with the first deleted entry seen
    on the way. -/
inductive HProbe where
  | found (i : Nat)
  | free (i : Nat) (firstDeleted : Option Nat)
deriving Repr, DecidableEq

/-- The loop of `find_hash_table_entry`, parts/yaep.c 1774-1803.  `none` is an access outside the table or a search
    that has not ended after as many steps as there are entries. -/
def hprobe {α : Type} (eq : α → α → Bool) (slots : List (HSlot α)) (x : α) (step : Nat) :
    Nat → Nat → Option Nat → Option HProbe
  | 0, _, _ => none
  | n + 1, i, fd =>
    let next := if i + step ≥ slots.length then i + step - slots.length else i + step
    match slots[i]? with
    | none => none
    | some .empty => some (.free i fd)
    | some (.el a) => if eq a x then some (.found i) else hprobe eq slots x step n next fd
    | some .deleted => hprobe eq slots x step n next (if fd = none then some i else fd)

/-- `find_hash_table_entry` after the test for expansion, parts/yaep.c 1768-1804: the table and the entry returned. -/
def hfindIn {α : Type} (hash : α → UInt32) (eq : α → α → Bool) (t : HTable α) (x : α) (reserve : Bool) :
    Option (HTable α × Nat) :=
  if t.slots.length < 3 then none
  else
    match hprobe eq t.slots x (1 + (hash x).toNat % (t.slots.length - 2)) t.slots.length
        ((hash x).toNat % t.slots.length) none with
    | none => none
    | some (.found i) => some (t, i)
    | some (.free i fd) =>
      if reserve then
        match fd with
        | some d => some ({ t with slots := t.slots.set d .empty, elements := t.elements + 1 }, d)
        | none => some ({ t with elements := t.elements + 1 }, i)
      else some (t, i)

/-- The test for expansion, parts/yaep.c 1766. -/
def hcrowded {α : Type} (t : HTable α) : Bool := t.slots.length / 4 ≤ t.elements / 3

/-- The loop of `expand_hash_table`, parts/yaep.c 1721-1728.  `none` also for a new table that would be expanded
    itself, and for the assertion of 1726. -/
def htransfer {α : Type} (hash : α → UInt32) (eq : α → α → Bool) : List (HSlot α) → HTable α → Option (HTable α)
  | [], new => some new
  | .el a :: rest, new =>
    if hcrowded new then none
    else
      match hfindIn hash eq new a true with
      | none => none
      | some (new', i) =>
        match new'.slots[i]? with
        | some .empty => htransfer hash eq rest { new' with slots := new'.slots.set i (.el a) }
        | _ => none
  | .empty :: rest, new => htransfer hash eq rest new
  | .deleted :: rest, new => htransfer hash eq rest new

/-- `expand_hash_table`, parts/yaep.c 1710-1732. -/
def hexpand {α : Type} (hash : α → UInt32) (eq : α → α → Bool) (t : HTable α) : Option (HTable α) :=
  match hcreate α (t.elements * 2) with
  | none => none
  | some new => htransfer hash eq t.slots new

/-- `find_hash_table_entry`, parts/yaep.c 1756-1805. -/
def hfind {α : Type} (hash : α → UInt32) (eq : α → α → Bool) (t : HTable α) (x : α) (reserve : Bool) :
    Option (HTable α × Nat) :=
  if hcrowded t then
    match hexpand hash eq t with
    | none => none
    | some t' => hfindIn hash eq t' x reserve
  else hfindIn hash eq t x reserve

/-- What an entry holds for its reader: NULL or an element; the mark of a deleted one is no pointer to an element. -/
def hread {α : Type} (t : HTable α) (i : Nat) : Option (Option α) :=
  match t.slots[i]? with
  | some .empty => some none
  | some (.el a) => some (some a)
  | _ => none

/-- A search as in `symb_find_by_repr`, parts/yaep.c 3117-3126. -/
def hlookup {α : Type} (hash : α → UInt32) (eq : α → α → Bool) (t : HTable α) (x : α) :
    Option (HTable α × Option α) :=
  match hfind hash eq t x false with
  | none => none
  | some (t', i) => (hread t' i).map fun r => (t', r)

/-- An insertion as in `set_insert`, parts/yaep.c 4265-4277: the element that was there already, or the new one is
    written into the empty entry. -/
def hinsert {α : Type} (hash : α → UInt32) (eq : α → α → Bool) (t : HTable α) (x : α) :
    Option (HTable α × Option α) :=
  match hfind hash eq t x true with
  | none => none
  | some (t', i) =>
    match hread t' i with
    | none => none
    | some none => some ({ t' with slots := t'.slots.set i (.el x) }, none)
    | some (some a) => some (t', some a)

/-- `remove_element_from_hash_table_entry`, parts/yaep.c 1812-1823; `none` for its assertion. -/
def hremove {α : Type} (hash : α → UInt32) (eq : α → α → Bool) (t : HTable α) (x : α) : Option (HTable α) :=
  match hfind hash eq t x false with
  | none => none
  | some (t', i) =>
    match t'.slots[i]? with
    | some (.el _) => some { t' with slots := t'.slots.set i .deleted, deleted := t'.deleted + 1 }
    | _ => none

/-- `hash_table_elements_number`, parts/yaep.c 1837-1842. -/
def hcount {α : Type} (t : HTable α) : Nat := t.elements - t.deleted

/-- What users of a table do with it. -/
inductive HOp (α : Type) where
  | lookup (x : α)
  | insert (x : α)
  | remove (x : α)
  /-- An entry is reserved but nothing is written into it, as in parts/yaep.c 6615-6620. -/
  | reserve (x : α)
  | clear
deriving Repr

/-- One use of the table: the table and the answer. -/
def hstep {α : Type} (hash : α → UInt32) (eq : α → α → Bool) (t : HTable α) : HOp α → Option (HTable α × Option α)
  | .lookup x => hlookup hash eq t x
  | .insert x => hinsert hash eq t x
  | .remove x => (hremove hash eq t x).map fun t' => (t', none)
  | .reserve x =>
    match hfind hash eq t x true with
    | none => none
    | some (t', i) => (hread t' i).map fun r => (t', r)
  | .clear => some (hclear t, none)

/-- Uses one after another: the answers and the numbers of elements after each. -/
def hrun {α : Type} (hash : α → UInt32) (eq : α → α → Bool) : HTable α → List (HOp α) → Option (List (Option α × Nat))
  | _, [] => some []
  | t, op :: ops =>
    match hstep hash eq t op with
    | none => none
    | some (t', r) => (hrun hash eq t' ops).map ((r, hcount t') :: ·)

/-! ## Hashes and equalities of the tables -/

/-- `jauquet_prime_mod32` and `hash_shift`, parts/yaep.c 2290-2293, and the loop that all hashes share. -/
def hmix (h n : UInt32) : UInt32 := h * 611 + n

/-- `symb_repr_hash`, parts/yaep.c 3056-3067: `char` is signed, so a byte above 127 is sign extended. -/
def symbReprHash (repr : List Byte) : UInt32 :=
  repr.foldl (fun h b => hmix h (if b < 128 then b.toUInt32 else b.toUInt32 ||| 0xFFFFFF00)) 2053222611

/-- `symb_repr_eq`, parts/yaep.c 3069-3075. -/
def symbReprEq (a b : List Byte) : Bool := strcmp a b = 0

/-- `vect_ids_hash`, parts/yaep.c 4443-4452; so are `terminal_bitset_hash` (3349-3361), `dotted_rules_hash`
    (3907-3919) and `setup_set_matched_lengths_hash` (4220-4235) for a vector of numbers. -/
def vectIdsHash (v : List UInt32) : UInt32 := v.foldl hmix 2053222611

/-- The loop of `vect_ids_eq`, parts/yaep.c 4458-4461, for vectors of the same length. -/
def sameIds : List UInt32 → List UInt32 → Bool
  | a :: v, b :: w => if a ≠ b then false else sameIds v w
  | _, _ => true

/-- `vect_ids_eq`, parts/yaep.c 4454-4463; `set_core_eq` (3935-3956) and `matched_lengths_eq` (3965-3987) do the same. -/
def vectIdsEq (v w : List UInt32) : Bool := if v.length ≠ w.length then false else sameIds v w

/-- `core_term_lookahead_hash`, parts/yaep.c 4007-4014, for the hashes of core and lengths, the number of the terminal
    and the lookahead.  A set is named by a number that stands for its address, and carries the two hashes. -/
structure CoreTermLookahead where
  set : Nat
  term : UInt32
  lookahead : UInt32
deriving Repr, DecidableEq

/-- `core_term_lookahead_hash`, parts/yaep.c 4007-4014; `hashes` is what the fields of the set hold. -/
def coreTermLookaheadHash (hashes : Nat → UInt32 × UInt32) (e : CoreTermLookahead) : UInt32 :=
  hmix (hmix (hmix (hashes e.set).1 (hashes e.set).2) e.term) e.lookahead

/-- `core_term_lookahead_eq`, parts/yaep.c 4017-4027. -/
def coreTermLookaheadEq (a b : CoreTermLookahead) : Bool :=
  a.set == b.set && a.term == b.term && a.lookahead == b.lookahead

end Xmq.Yaep
