import Verif.Model.Sort
/-!
# Hash map from C strings to values (parts/hashmap.c)

A chain of nodes is a list of key/value pairs in the order of the `next_` pointers; the table is a list of chains.
-/
namespace Xmq

/-- `hash_code`, parts/hashmap.c 58-72: `size_t` is 64 bits wide and `char` is signed, so a byte above 127 is
    sign extended before it is added. -/
def hashCode (s : List Byte) : UInt64 :=
  s.foldl (fun (hash : UInt64) (b : Byte) =>
    let c : UInt64 := if b < 128 then b.toUInt64 else b.toUInt64 ||| 0xFFFFFFFFFFFFFF00
    c + (hash <<< 6) + (hash <<< 16) - hash) 0

/-- `struct HashMap`, parts/hashmap.c 37-42; `maxSize` is the number of chains. -/
structure HashMap (α : Type) where
  size : Nat
  maxSize : Nat
  nodes : List (List (List Byte × α))

/-- `hashmap_create`, parts/hashmap.c 83-93. -/
def hashmapCreate (α : Type) (maxSize : Nat) : HashMap α := ⟨0, maxSize, List.replicate maxSize []⟩

/-- The walk along a chain of `hashmap_put`, parts/hashmap.c 137-153: the new chain and whether a node was added. -/
def chainPut {α : Type} (key : List Byte) (val : α) : List (List Byte × α) → List (List Byte × α) × Bool
  | [] => ([(key, val)], true)
  | (k, v) :: t =>
    if strcmp k key = 0 then ((k, val) :: t, false)
    else
      let r := chainPut key val t
      ((k, v) :: r.1, r.2)

/-- The walk along a chain of `hashmap_get`, parts/hashmap.c 162-171. -/
def chainGet {α : Type} (key : List Byte) : List (List Byte × α) → Option α
  | [] => none
  | (k, v) :: t => if strcmp k key = 0 then some v else chainGet key t

/-- `hashmap_put`, parts/hashmap.c 119-155.  The outer `none` is a division by zero or an access outside the table.
    An empty slot (127-135) gets the same one-node chain as the general case. -/
def hashmapPut {α : Type} (m : HashMap α) (key : List Byte) (val : α) : Option (HashMap α) :=
  if m.maxSize = 0 then none
  else
    let index := (hashCode key).toNat % m.maxSize
    (m.nodes[index]?).map fun chain =>
      let r := chainPut key val chain
      ⟨if r.2 then m.size + 1 else m.size, m.maxSize, m.nodes.set index r.1⟩

/-- `hashmap_get`, parts/hashmap.c 157-172. -/
def hashmapGet {α : Type} (m : HashMap α) (key : List Byte) : Option (Option α) :=
  if m.maxSize = 0 then none
  else (m.nodes[(hashCode key).toNat % m.maxSize]?).map (chainGet key)

/-- Successive puts. -/
def hashmapPuts {α : Type} (m : HashMap α) : List (List Byte × α) → Option (HashMap α)
  | [] => some m
  | (k, v) :: t => (hashmapPut m k v).bind fun m => hashmapPuts m t

/-- `struct HashMapIterator`, parts/hashmap.c 44-49; `node` is the chain from the current node on (empty for NULL),
    `next` is `offset_ + 1`. -/
structure HashMapIter (α : Type) where
  next : Nat
  node : List (List Byte × α)

/-- `hashmap_iterate`, parts/hashmap.c 198-206. -/
def hashmapIterate (α : Type) : HashMapIter α := ⟨0, []⟩

/-- The do-while loop of `hashmap_next_key_value`, parts/hashmap.c 220-224, over the remaining slots; returns the
    offset where it stops and the chain there. -/
def skipEmpty {α : Type} (o : Nat) : List (List (List Byte × α)) → Nat × List (List Byte × α)
  | [] => (o, [])
  | [] :: t => skipEmpty (o + 1) t
  | (n :: c) :: _ => (o, n :: c)

/-- `hashmap_next_key_value`, parts/hashmap.c 208-232; the second component is the result, `none` for `false`. -/
def hashmapNext {α : Type} (m : HashMap α) (i : HashMapIter α) : HashMapIter α × Option (List Byte × α) :=
  match i.node.tail with
  | n :: c => (⟨i.next, n :: c⟩, some n)
  | [] =>
    let r := skipEmpty i.next (m.nodes.drop i.next)
    (⟨r.1 + 1, r.2⟩, r.2.head?)

/-- The loop `while (hashmap_next_key_value(i, &key, &val))` of the users, e.g. xmq-cli.c 2064; `none`: not finished
    within the bound. -/
def hashmapAll {α : Type} (m : HashMap α) : Nat → HashMapIter α → Option (List (List Byte × α))
  | 0, _ => none
  | fuel + 1, i =>
    match hashmapNext m i with
    | (_, none) => some []
    | (i', some kv) => (hashmapAll m fuel i').map (kv :: ·)

end Xmq
