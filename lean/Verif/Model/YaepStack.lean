import Verif.Basic
/-!
# Memory of the Earley parser: stacks of objects and objects of variable length

parts/yaep.c 628-892 and 1895-2015 (`os_t`), 945-1182 and 2067-2133 (`vlo_t`).  Everything the parser makes (grammar, sets, parse tree)
is in these.

Memory is a function from blocks and offsets to bytes.  An offset is taken from the aligned beginning of the segment, which is a
multiple of 8; that the block is large enough for it is `C98_segment_fits`.  A read or write outside of a block, or in a block that was
freed, is undefined (`none`).  Memory does not run out (`yaep_malloc` does not return then), and lengths do not reach the range of
`size_t`.
-/
namespace Xmq.YaepStack

/-- Memory: block, offset. -/
abbrev Mem := Nat → Nat → Byte

/-- The bytes from an offset on. -/
def readAt (m : Mem) (id off n : Nat) : List Byte := (List.range n).map fun i => m id (off + i)

/-- `memcpy` to an offset. -/
def writeAt (m : Mem) (id off : Nat) (bs : List Byte) : Mem :=
  fun i j => if i = id ∧ off ≤ j ∧ j < off + bs.length then bs.getD (j - off) 0 else m i j

/-- `_OS_ALIGNED_ADDRESS`, parts/yaep.c 656-658, with the alignment 8 of a `double`. -/
def aligned (a : Nat) : Nat := (a + 7) / 8 * 8

/-- A block of the chain of segments: which, and its `segment_length`. -/
abbrev Segment := Nat × Nat

/-- `os_t`, parts/yaep.c 685-705.  `segs` is the chain from `os_current_segment` on; `next` numbers the blocks. -/
structure OS where
  initial : Nat
  segs : List Segment
  next : Nat
  start : Nat
  stop : Nat
  segStop : Nat
  mem : Mem

/-- `_OS_create_function`, parts/yaep.c 1895-1906. -/
def create (m : Mem) (initial : Nat) : OS :=
  let l := if initial = 0 then 512 else initial
  { initial := l, segs := [(0, l)], next := 1, start := 0, stop := 0, segStop := l, mem := m }

/-- `_OS_expand_memory`, parts/yaep.c 1983-2015. -/
def expandMemory (os : OS) (add : Nat) : Option OS :=
  match os.segs with
  | [] => none
  | (cur, clen) :: rest =>
    let len := os.stop - os.start
    let l := len + add
    let l := l + (l / 2 + 1)
    let l := if l < 512 then 512 else l
    if len ≠ 0 ∧ os.start + len > clen then none
    else if len > l then none
    else some { os with
      segs := (os.next, l) :: (if os.start = 0 then rest else (cur, clen) :: rest)
      next := os.next + 1
      start := 0
      stop := len
      segStop := l
      mem := writeAt os.mem os.next 0 (readAt os.mem cur os.start len) }

/-- Bytes written at the end of the top object. -/
def writeTop (os : OS) (bs : List Byte) : Option OS :=
  match os.segs with
  | [] => none
  | (cur, clen) :: _ =>
    if bs ≠ [] ∧ os.stop + bs.length > clen then none
    else some { os with stop := os.stop + bs.length, mem := writeAt os.mem cur os.stop bs }

/-- `OS_TOP_ADD_MEMORY`, parts/yaep.c 861-873; also `OS_TOP_EXPAND` (832-842) followed by the bytes that the caller stores there. -/
def addMemory (os : OS) (bs : List Byte) : Option OS :=
  if os.stop + bs.length > os.segStop then
    match expandMemory os bs.length with
    | some os' => writeTop os' bs
    | none => none
  else writeTop os bs

/-- `OS_TOP_ADD_BYTE`, parts/yaep.c 847-856. -/
def addByte (os : OS) (b : Byte) : Option OS :=
  if os.stop ≥ os.segStop then
    match expandMemory os 1 with
    | some os' => writeTop os' [b]
    | none => none
  else writeTop os [b]

/-- `OS_TOP_SHORTEN`, parts/yaep.c 814-825. -/
def shorten (os : OS) (n : Nat) : OS :=
  if os.stop - os.start < n then { os with stop := os.start } else { os with stop := os.stop - n }

/-- `OS_TOP_NULLIFY`, parts/yaep.c 734-741. -/
def nullify (os : OS) : OS := { os with stop := os.start }

/-- `_OS_add_string_function`, parts/yaep.c 1958-1973; the string without its end marker. -/
def addString (os : OS) (s : List Byte) : Option OS :=
  let os := if os.stop ≠ os.start then shorten os 1 else os
  addMemory os (s ++ [0])

/-- `OS_TOP_FINISH`, parts/yaep.c 749-758. -/
def finish (os : OS) : OS := { os with start := aligned os.stop, stop := aligned os.stop }

/-- `_OS_empty_function`, parts/yaep.c 1932-1952: only the last segment of the chain stays. -/
def empty (os : OS) : Option OS :=
  match os.segs.getLast? with
  | none => none
  | some s => some { os with segs := [s], start := 0, stop := 0, segStop := os.initial }

/-- What a caller keeps of an object: block, offset (`OS_TOP_BEGIN`) and length. -/
structure Handle where
  id : Nat
  off : Nat
  len : Nat
  deriving DecidableEq, Repr

/-- The top object, parts/yaep.c 769 and 781. -/
def topHandle (os : OS) : Handle :=
  ⟨match os.segs with | [] => 0 | s :: _ => s.1, os.start, os.stop - os.start⟩

/-- The bytes of an object. -/
def Handle.bytes (m : Mem) (h : Handle) : List Byte := readAt m h.id h.off h.len

/-- The uses of a stack. -/
inductive Op
  | add (bs : List Byte)
  | byte (b : Byte)
  | str (s : List Byte)
  | shorten (n : Nat)
  | nullify
  | finish
  | empty
  deriving DecidableEq, Repr

/-- One use; the handles of the objects finished are kept, until the stack is emptied. -/
def step : OS × List Handle → Op → Option (OS × List Handle)
  | (os, hs), .add bs => (addMemory os bs).map (·, hs)
  | (os, hs), .byte b => (addByte os b).map (·, hs)
  | (os, hs), .str s => (addString os s).map (·, hs)
  | (os, hs), .shorten n => some (shorten os n, hs)
  | (os, hs), .nullify => some (nullify os, hs)
  | (os, hs), .finish => some (finish os, hs ++ [topHandle os])
  | (os, _), .empty => (empty os).map (·, [])

/-- Many uses. -/
def run (s : OS × List Handle) : List Op → Option (OS × List Handle)
  | [] => some s
  | o :: r => match step s o with
    | some s' => run s' r
    | none => none

/-! ## Objects of variable length -/

/-- `vlo_t`, parts/yaep.c 975-985: the memory, its length, and the length of the object. -/
structure VLO where
  mem : Nat → Byte
  cap : Nat
  len : Nat

/-- `VLO_CREATE`, parts/yaep.c 996-1010. -/
def vloCreate (m : Nat → Byte) (initial : Nat) : VLO := ⟨m, if initial ≠ 0 then initial else 512, 0⟩

/-- `yaep_realloc`: the bytes that fit stay, the others are unknown. -/
def vloRealloc (v : VLO) (junk : Nat → Byte) (cap : Nat) : VLO :=
  { v with mem := fun i => if i < min v.cap cap then v.mem i else junk i, cap := cap }

/-- `_VLO_expand_memory`, parts/yaep.c 2117-2133. -/
def vloExpand (v : VLO) (junk : Nat → Byte) (add : Nat) : VLO :=
  let l := v.len + add
  vloRealloc v junk (l + (l / 2 + 1))

/-- Bytes written at the end. -/
def vloWrite (v : VLO) (bs : List Byte) : Option VLO :=
  if bs ≠ [] ∧ v.len + bs.length > v.cap then none
  else some { v with
    mem := fun j => if v.len ≤ j ∧ j < v.len + bs.length then bs.getD (j - v.len) 0 else v.mem j
    len := v.len + bs.length }

/-- `VLO_ADD_MEMORY`, parts/yaep.c 1154-1166, and `VLO_EXPAND` (1123-1133) followed by the bytes that the caller stores there. -/
def vloAdd (v : VLO) (junk : Nat → Byte) (bs : List Byte) : Option VLO :=
  vloWrite (if v.len + bs.length > v.cap then vloExpand v junk bs.length else v) bs

/-- `VLO_ADD_BYTE`, parts/yaep.c 1139-1148. -/
def vloByte (v : VLO) (junk : Nat → Byte) (b : Byte) : Option VLO :=
  vloWrite (if v.len ≥ v.cap then vloExpand v junk 1 else v) [b]

/-- `VLO_SHORTEN`, parts/yaep.c 1105-1116. -/
def vloShorten (v : VLO) (n : Nat) : VLO := if v.len < n then { v with len := 0 } else { v with len := v.len - n }

/-- `_VLO_add_string_function`, parts/yaep.c 2095-2108. -/
def vloString (v : VLO) (junk : Nat → Byte) (s : List Byte) : Option VLO :=
  vloAdd (if v.len ≠ 0 then vloShorten v 1 else v) junk (s ++ [0])

/-- `_VLO_tailor_function`, parts/yaep.c 2072-2088. -/
def vloTailor (v : VLO) (junk : Nat → Byte) : VLO := vloRealloc v junk (if v.len = 0 then 1 else v.len)

/-- The uses of an object of variable length; `junk` is what memory newly got contains. -/
inductive VOp
  | add (junk : Nat → Byte) (bs : List Byte)
  | byte (junk : Nat → Byte) (b : Byte)
  | str (junk : Nat → Byte) (s : List Byte)
  | shorten (n : Nat)
  | nullify
  | tailor (junk : Nat → Byte)

/-- One use. -/
def vloStep (v : VLO) : VOp → Option VLO
  | .add j bs => vloAdd v j bs
  | .byte j b => vloByte v j b
  | .str j s => vloString v j s
  | .shorten n => some (vloShorten v n)
  | .nullify => some { v with len := 0 }
  | .tailor j => some (vloTailor v j)

/-- Many uses. -/
def vloRun (v : VLO) : List VOp → Option VLO
  | [] => some v
  | o :: r => match vloStep v o with
    | some v' => vloRun v' r
    | none => none

end Xmq.YaepStack
