import Verif.Model.Earley
/-!
# From characters to terminals (parts/yaep.c 3129-3156, 3276-3305, 3760-3773, 5394-5404)

The terminals of the grammar, of the error and of the end are put into a vector that is indexed by the code.
-/
namespace Xmq.Yaep

/-- `symb_code_trans_vect` with its bounds, parts/yaep.c 2483-2485.  A cell that was never written is `none`: the
    memory comes from `malloc` (1460-1472) and is not cleared. -/
structure CodeVect where
  start : Int
  stop : Int
  cells : List (Option Int)
deriving Repr, DecidableEq

/-- The first loop of `symb_finish_adding_terms`, parts/yaep.c 3282-3286: the smallest and the largest code. -/
def codeBounds : List Int → Option (Int × Int)
  | [] => none
  | c :: cs => some (cs.foldl (fun b d => (if b.1 > d then d else b.1, if b.2 < d then d else b.2)) (c, c))

/-- The second loop, parts/yaep.c 3299-3302; a terminal is named by its code. -/
def fillCodes (start : Int) : List Int → List (Option Int) → List (Option Int)
  | [], cells => cells
  | c :: cs, cells => fillCodes start cs (cells.set (c - start).toNat (some c))

/-- `symb_finish_adding_terms`, parts/yaep.c 3276-3305.  `none`: one of the assertions of 3287-3288 fails;
    `MAX_SYMB_CODE_TRANS_VECT_SIZE` is 200000 (2269).  (The difference of two codes far apart overflows an `int`; this
    is `none` as well.) -/
def codeVect (codes : List Int) : Option CodeVect :=
  match codeBounds codes with
  | none => none
  | some (lo, hi) =>
    if hi - lo < 200000 then
      some ⟨lo, hi + 1, fillCodes lo codes (List.replicate (hi - lo + 1).toNat none)⟩
    else none

/-- What `symb_find_by_code` finds. -/
inductive CodeFound where
  | null
  | symbol (c : Int)
  /-- A pointer that was never written. -/
  | undefined
deriving Repr, DecidableEq

/-- `symb_find_by_code`, parts/yaep.c 3129-3146, once the vector is there. -/
def findByCode (v : CodeVect) (code : Int) : CodeFound :=
  if code < v.start ∨ code ≥ v.stop then .null
  else
    match v.cells[(code - v.start).toNat]? with
    | some (some c) => .symbol c
    | _ => .undefined

/-- The reading of all characters. -/
inductive ReadText where
  | tokens (l : List Int)
  /-- `YAEP_INVALID_TOKEN_CODE`: "syntax error at offset". -/
  | invalid (offset : Nat)
  /-- An undefined pointer is taken for a symbol. -/
  | undefined
deriving Repr, DecidableEq

/-- `read_input` with `tok_add`, parts/yaep.c 5394-5404 and 3760-3773; the text is given as code points. -/
def readText (v : CodeVect) (acc : List Int) : List Int → ReadText
  | [] =>
    match findByCode v (-1) with
    | .null => .invalid acc.length
    | .symbol c => .tokens (acc ++ [c])
    | .undefined => .undefined
  | c :: cs =>
    match findByCode v c with
    | .null => .invalid acc.length
    | .symbol d => readText v (acc ++ [d]) cs
    | .undefined => .undefined

/-- The codes of all terminals of a grammar: those of the rules, that of the error (parts/yaep.c 5145) and that of the
    end marker (5191).  The terminals of the rules come from a hash map, in no particular order. -/
def grammarCodes (rs : List Ixml.Rule) : List Int :=
  (rs.flatMap fun r => r.rhs.filterMap fun t => match t.sym with
    | .t c => some c
    | .n _ => none) ++ [-2, -1]

end Xmq.Yaep
