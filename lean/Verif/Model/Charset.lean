import Verif.Model.Unicode
import Verif.Model.Utf8
/-!
# Character sets of ixml grammars (parts/ixml.c 1715-1869)
-/
namespace Xmq

/-- Outcome of scanning the content, parts/ixml.c 1723-1748. -/
inductive ScanOutcome where
  /-- The code points of the content, in order (the entries of `used` that are set). -/
  | used (cs : List Nat)
  /-- "broken utf8" and `exit(1)`. -/
  | broken
  /-- `used[uc] = 1` outside the 0x110000 bytes allocated for `used`. -/
  | outside (c : Nat)
deriving DecidableEq, Repr

/-- The scanning loop of `scan_content_fixup_charsets`, parts/ixml.c 1723-1748.  `acc`: the code points seen, latest first. -/
def scanLoop : Nat → List Byte → List Nat → ScanOutcome
  | 0, _, _ => .broken
  | fuel + 1, s, acc =>
    if s = [] then .used acc.reverse
    else
      let d := decodeUtf8 s
      if d.ok = false then .broken
      else if d.char ≥ 0x110000 then .outside d.char
      else scanLoop fuel (s.drop d.len) (d.char :: acc)

/-- Scanning the content. -/
def scanContent (s : List Byte) : ScanOutcome := scanLoop (s.length + 1) s []

/-- `IXMLCharsetPart`, parts/xmq_internals.h 222-231: a range or, if the name is not empty, a category. -/
inductive CharsetPart where
  | range (from_ to_ : Int)
  | category (name : String)
deriving DecidableEq, Repr

/-- `p->from .. p->to`, parts/ixml.c 1774-1780, restricted to the used characters; the C loop runs
    over all values of the range, here only over those in 0..0x10ffff, as only they pass the test. -/
def rangeCodes (used : Nat → Bool) (a b : Int) : List Nat :=
  (List.range 0x110000).filter fun c => a ≤ (c : Int) && (c : Int) ≤ b && used c

/-- The tables of a category part; `none`: a category or part that is not known (NULL dereference or `exit(1)`), parts/ixml.c 1784-1795. -/
def partTables (name : String) : Option (List (List Int)) :=
  match categoryParts name with
  | none => none
  | some ps => ps.mapM categoryPart

/-- The characters of one part for which rules are added when including, parts/ixml.c 1766-1807. -/
def includePart (used : Nat → Bool) : CharsetPart → Option (List Nat)
  | .range a b => some (rangeCodes used a b)
  | .category n =>
    match partTables n with
    | none => none
    | some ts => some (ts.flatMap fun t => (t.filter fun c => 0 ≤ c && c ≤ 0x10ffff && used c.toNat).map Int.toNat)

/-- The inclusion loop: the characters for which `add_single_char_rule` is called, in order. -/
def includeCodes (used : Nat → Bool) (cs : List CharsetPart) : Option (List Nat) :=
  match cs.mapM (includePart used) with
  | none => none
  | some l => some l.flatten

/-- Looking for a character in the tables of a category, parts/ixml.c 1822-1840. -/
def inTables (c : Int) : List (List Int) → Option Bool
  | [] => some false
  | t :: ts =>
    match categoryHasCode c t with
    | none => none
    | some true => some true
    | some false => inTables c ts

/-- Whether one part excludes a character, parts/ixml.c 1819-1853. -/
def partExcludes (c : Nat) : CharsetPart → Option Bool
  | .range a b => some (a ≤ (c : Int) && (c : Int) ≤ b)
  | .category n =>
    match partTables n with
    | none => none
    | some ts => inTables c ts

/-- Whether some part excludes a character.  After a category that excludes it the C code goes on with the next part
    (its `break` leaves the inner loop only); this does not change the result. -/
def excluded (c : Nat) : List CharsetPart → Option Bool
  | [] => some false
  | p :: ps =>
    match partExcludes c p, excluded c ps with
    | some a, some b => some (a || b)
    | _, _ => none

/-- The exclusion loop, parts/ixml.c 1812-1860. -/
def excludeCodes (used : Nat → Bool) (cs : List CharsetPart) : Option (List Nat) :=
  ((List.range 0x110000).filter used).mapM (fun c => (excluded c cs).map fun b => (c, b)) |>.map
    fun l => (l.filter fun p => !p.2).map (·.1)

end Xmq
