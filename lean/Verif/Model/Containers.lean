import Verif.Basic
/-!
# Vector (parts/vector.c), memory buffer (parts/membuffer.c)

An allocated block of `n` slots is a list of length `n`; a slot that has not been written since it was allocated
is `none`.  Writing or reading outside the block gives `none` for the whole operation, as does a failing `assert`.
-/
namespace Xmq

/-- Write a slot of a block; `none` outside the block. -/
def blockWrite {α : Type} (b : List (Option α)) (i : Nat) (x : Option α) : Option (List (Option α)) :=
  if i < b.length then some (b.set i x) else none

/-- `realloc` to `n` slots: keeps the common prefix, new slots are not initialised. -/
def blockRealloc {α : Type} (b : List (Option α)) (n : Nat) : List (Option α) :=
  b.take n ++ List.replicate (n - b.length) none

/-- `struct Vector`, parts/vector.h; `elements_size` is kept separately from the block itself. -/
structure Vector (α : Type) where
  elements : List (Option α)
  size : Nat
  elementsSize : Nat

/-- `vector_create`, parts/vector.c 33-40. -/
def vectorCreate (α : Type) : Vector α := ⟨List.replicate 16 none, 0, 16⟩

/-- `vector_push_back`, parts/vector.c 67-86. -/
def vectorPushBack {α : Type} (v : Vector α) (x : α) : Option (Vector α) :=
  let size := v.size + 1
  let es := if size > v.elementsSize then (if v.elementsSize ≥ 1024 then v.elementsSize + 1024 else v.elementsSize * 2)
    else v.elementsSize
  let els := if size > v.elementsSize then blockRealloc v.elements es else v.elements
  (blockWrite els (size - 1) (some x)).map fun els => ⟨els, size, es⟩

/-- `vector_pop_back`, parts/vector.c 88-96.  The slot is overwritten with NULL, modelled as an empty slot. -/
def vectorPopBack {α : Type} (v : Vector α) : Option (α × Vector α) :=
  if v.size > 0 then
    match v.elements[v.size - 1]? with
    | some (some r) => (blockWrite v.elements (v.size - 1) none).map fun els => (r, ⟨els, v.size - 1, v.elementsSize⟩)
    | _ => none
  else none

/-- `vector_element_at`, parts/vector.c 98-103. -/
def vectorElementAt {α : Type} (v : Vector α) (i : Nat) : Option α :=
  if i < v.size then (v.elements[i]?).join else none

/-- The calls a user can make. -/
inductive VectorOp (α : Type)
  | push (x : α)
  | pop
  | get (i : Nat)

/-- One call. -/
def vectorStep {α : Type} (v : Vector α) : VectorOp α → Option (Vector α × Option α)
  | .push x => (vectorPushBack v x).map fun v => (v, none)
  | .pop => (vectorPopBack v).map fun r => (r.2, some r.1)
  | .get i => (vectorElementAt v i).map fun r => (v, some r)

/-- A sequence of calls; `none`: some call aborted or went outside its memory. -/
def vectorRun {α : Type} (v : Vector α) : List (VectorOp α) → Option (Vector α × List (Option α))
  | [] => some (v, [])
  | op :: ops =>
    match vectorStep v op with
    | none => none
    | some (v', r) => (vectorRun v' ops).map fun q => (q.1, r :: q.2)

/-- `struct MemBuffer`, parts/membuffer.h. -/
structure MemBuffer where
  buffer : List (Option Byte)
  used : Nat
  max : Nat

/-- `new_membuffer`, parts/membuffer.c 35-41. -/
def newMembuffer : MemBuffer := ⟨[], 0, 0⟩

/-- `pick_buffer_new_size`, parts/membuffer.c 66-82; `none` for the failing asserts. -/
def pickBufferNewSize (max used add : Nat) : Option Nat :=
  if used ≤ max then
    let max := if used + add > max then max + 1024 else max
    let max := if used + add > max then max + add else max
    if used + add ≤ max then some max else none
  else none

/-- `memcpy` into a block. -/
def blockCopy (b : List (Option Byte)) (i : Nat) : List Byte → Option (List (Option Byte))
  | [] => some b
  | c :: t => (blockWrite b i (some c)).bind fun b => blockCopy b (i + 1) t

/-- `membuffer_append_region`, parts/membuffer.c 84-97; also the shared part of `membuffer_append_char`
    (124-134), `membuffer_append_int` (136-147) and `membuffer_append_pointer` (176-187), which differ only in
    the source and number of the bytes. -/
def membufferAppendRegion (mb : MemBuffer) (s : List Byte) : Option MemBuffer :=
  (pickBufferNewSize mb.max mb.used s.length).bind fun max =>
    let buffer := if max > mb.max then blockRealloc mb.buffer max else mb.buffer
    (blockCopy buffer mb.used s).map fun b => ⟨b, mb.used + s.length, if max > mb.max then max else mb.max⟩

/-- The loop of `membuffer_append`, parts/membuffer.c 105-121; `to` is the offset of the next write, `s` the bytes
    of the NUL terminated string. -/
def membufferAppendLoop (mb : MemBuffer) (to : Nat) : List Byte → Option MemBuffer
  | [] => some { mb with used := to }
  | c :: t =>
    if to ≥ mb.max then
      (pickBufferNewSize mb.max to 1).bind fun max =>
        (blockWrite (blockRealloc mb.buffer max) to (some c)).bind fun b => membufferAppendLoop ⟨b, to, max⟩ (to + 1) t
    else (blockWrite mb.buffer to (some c)).bind fun b => membufferAppendLoop { mb with buffer := b } (to + 1) t

/-- `membuffer_append`, parts/membuffer.c 99-122. -/
def membufferAppend (mb : MemBuffer) (s : List Byte) : Option MemBuffer := membufferAppendLoop mb mb.used s

/-- `membuffer_drop_last_null`, parts/membuffer.c 154-162. -/
def membufferDropLastNull (mb : MemBuffer) : Option MemBuffer :=
  if mb.used > 0 then
    match mb.buffer[mb.used - 1]? with
    | some (some c) => some (if c == 0 then { mb with used := mb.used - 1 } else mb)
    | _ => none
  else some mb

/-- `membuffer_append_entity`, parts/membuffer.c 164-174. -/
def membufferAppendEntity (mb : MemBuffer) (c : Byte) : Option MemBuffer :=
  if c == b#' ' then membufferAppend mb b#"&#32;"
  else if c == b#'\n' then membufferAppend mb b#"&#10;"
  else if c == b#'\t' then membufferAppend mb b#"&#9;"
  else if c == b#'\r' then membufferAppend mb b#"&#13;"
  else none

/-- The calls a user can make.  `chr` stands for `membuffer_append_char`; `null` for `membuffer_append_null`. -/
inductive MemOp
  | region (s : List Byte)
  | str (s : List Byte)
  | chr (c : Byte)
  | null
  | dropNull
  | entity (c : Byte)

/-- One call. -/
def membufferStep (mb : MemBuffer) : MemOp → Option MemBuffer
  | .region s => membufferAppendRegion mb s
  | .str s => membufferAppend mb s
  | .chr c => membufferAppendRegion mb [c]
  | .null => membufferAppendRegion mb [0]
  | .dropNull => membufferDropLastNull mb
  | .entity c => membufferAppendEntity mb c

/-- A sequence of calls. -/
def membufferRun (mb : MemBuffer) : List MemOp → Option MemBuffer
  | [] => some mb
  | op :: ops => (membufferStep mb op).bind fun mb => membufferRun mb ops

/-- `free_membuffer_but_return_trimmed_content`, parts/membuffer.c 44-50: the returned block. -/
def membufferContent (mb : MemBuffer) : List (Option Byte) := blockRealloc mb.buffer mb.used

/-- `membuffer_back`, parts/membuffer.c 194-198. -/
def membufferBack (mb : MemBuffer) : Option Byte :=
  if mb.used = 0 then some 0 else (mb.buffer[mb.used - 1]?).join

end Xmq
