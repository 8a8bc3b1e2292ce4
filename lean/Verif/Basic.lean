/-!
# Basic notions shared by the whole model

A C `char` is modelled as a byte (`UInt8`).  A C buffer `[start, stop)` is modelled as the
list of its bytes; a pointer into it is modelled as the remaining suffix.
-/

namespace Xmq

/-- One C `char`. -/
abbrev Byte := UInt8

/-- `b#'x'` is the byte value of the ASCII character `x`, as a numeral. -/
syntax:max "b#" char : term
macro_rules
  | `(b# $c:char) => do
    let n := c.getChar.toNat
    `((($(Lean.quote n)) : UInt8))

/-- `b#"abc"` is the list of bytes of an ASCII string literal. -/
syntax:max "b#" str : term
macro_rules
  | `(b# $s:str) => do
    let l := s.getString.toList.map (fun c => c.toNat)
    let elems ← l.toArray.mapM (fun n => `((($(Lean.quote n)) : UInt8)))
    `(([$elems,*] : List UInt8))

/-- To prove something for every byte it is enough to check the 256 values. -/
theorem forall_byte {P : Byte → Prop} (h : ∀ n : Fin 256, P (UInt8.ofNat n.val)) (b : Byte) : P b := by
  have := h ⟨b.toNat, b.toNat_lt⟩
  simpa using this

/-- The byte at the parser position; the byte at `stop` is the terminating NUL that the
    xmq API relies on (see DESIGN.md). -/
def peek : List Byte → Byte
  | [] => 0
  | c :: _ => c

@[simp] theorem peek_nil : peek [] = 0 := rfl
@[simp] theorem peek_cons (c : Byte) (l : List Byte) : peek (c :: l) = c := rfl

end Xmq
