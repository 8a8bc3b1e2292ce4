import Verif.Model.Charset
import Verif.Spec.Pieces
/-!
# Reading ixml grammars and building the rules for the Earley parser (parts/ixml.c 180-1650, 1653-1715, 2016-2268)

The reader walks over the grammar text and, as it goes, appends rules (a name and the symbols of one alternative) to
`state->ixml_rules`.  The line and column of the state serve error messages only and are left out.  Each function takes the text
not yet read; the byte behind the text is the terminating NUL.
-/
namespace Xmq.Ixml

/-- What a step of the reader can end in. -/
inductive Res (α : Type) where
  | ok (a : α)
  /-- `longjmp` with XMQ_ERROR_IXML_SYNTAX_ERROR. -/
  | err
  /-- A failing assertion, a NULL pointer used, or `exit(1)`. -/
  | abort
  /-- An endless loop of the C code. -/
  | hang
  /-- The bound on the recursion of the model is used up. -/
  | fuel
deriving DecidableEq, Repr

/-- One step after the other. -/
def Res.bind {α β : Type} : Res α → (α → Res β) → Res β
  | .ok a, f => f a
  | .err, _ => .err
  | .abort, _ => .abort
  | .hang, _ => .hang
  | .fuel, _ => .fuel

instance : Monad Res where
  pure := .ok
  bind := Res.bind

/-- A symbol of a rule: a terminal ("#%x", the code) or the name of a nonterminal. -/
inductive Sym where
  | t (code : Int)
  | n (name : List Byte)
deriving DecidableEq, Repr

/-- `IXMLTerm`, parts/xmq_internals.h 259-266; mark 0: none given. -/
structure Term where
  mark : Byte
  sym : Sym
deriving DecidableEq, Repr

/-- `IXMLRule`, parts/xmq_internals.h 268-274: one alternative of a rule. -/
structure Rule where
  name : List Byte
  alias : Option (List Byte)
  mark : Byte
  rhs : List Term
deriving DecidableEq, Repr

/-- `IXMLCharset` with the mark in front of it. -/
structure CSet where
  mark : Byte
  exclude : Bool
  parts : List CharsetPart
deriving DecidableEq, Repr

/-- The parts of `XMQParseState` the reader uses.  `cur` is the index in `rules` of `state->ixml_rule`;
    the stack of rules is the C stack of the model (a rule is pushed and popped within one function).
    `sets`: the members of `ixml_non_terminals` that have a character set. -/
structure St where
  rest : List Byte
  rules : List Rule
  cur : Nat
  gen : Nat
  mark : Byte
  sets : List CSet
deriving DecidableEq, Repr

/-! ## Classes of bytes, parts/ixml.c 197-458 -/

def isMark (c : Byte) : Bool := c == b#'@' || c == b#'^' || c == b#'-'
def isTmark (c : Byte) : Bool := c == b#'^' || c == b#'-'
def isNameStart (c : Byte) : Bool := (c ≥ b#'a' && c ≤ b#'z') || (c ≥ b#'A' && c ≤ b#'Z') || c == b#'_'
def isNameFollower (c : Byte) : Bool :=
  (c ≥ b#'a' && c ≤ b#'z') || (c ≥ b#'A' && c ≤ b#'Z') || c == b#'_' || c == b#'-' || (c ≥ b#'0' && c ≤ b#'9')
def isNaming (c : Byte) : Bool := isNameStart c || isMark c
def isHex (c : Byte) : Bool := (c ≥ b#'A' && c ≤ b#'F') || (c ≥ b#'a' && c ≤ b#'f') || (c ≥ b#'0' && c ≤ b#'9')
def isWs (c : Byte) : Bool := c == b#' ' || c == 9 || c == 10 || c == 13 || c == b#'{' || c == b#'}'
def isQuote (c : Byte) : Bool := c == b#'"' || c == 39
/-- `is_ixml_alt_start`, parts/ixml.c 207-220. -/
def isAltStart (c : Byte) : Bool :=
  c == b#'+' || c == b#'#' || c == b#'(' || c == b#'"' || c == 39 || c == b#'[' || c == b#'~' || isMark c || isNameStart c

/-! ## Looking ahead, parts/ixml.c 1564-1642 -/

/-- `skip_comment`, parts/ixml.c 1564-1577, at the `{`.  `none`: the comment is not closed and `*i` is not moved. -/
def skipComment : Nat → List Byte → Option (List Byte)
  | 0, _ => none
  | n + 1, s =>
    let j := s.drop 1
    let j := if peek j = b#'{' then (skipComment n j).getD j else j
    if peek j = b#'}' then some (j.drop 1)
    else if peek j = 0 then none
    else skipComment n j

/-- `skip_whitespace`, parts/ixml.c 1631-1641.  A comment that is not closed is not skipped, so the loop does not end. -/
def skipWsLoop : Nat → List Byte → Res (List Byte)
  | 0, _ => .fuel
  | n + 1, s =>
    if isWs (peek s) then
      if peek s = b#'{' then
        match skipComment (s.length + 1) s with
        | none => .hang
        | some s' => skipWsLoop n s'
      else skipWsLoop n (s.drop 1)
    else .ok s

def skipWs (s : List Byte) : Res (List Byte) := skipWsLoop (s.length + 1) s

/-- `skip_encoded`, parts/ixml.c 1579-1586. -/
def skipEncoded (s : List Byte) : List Byte :=
  if peek s = b#'#' then (s.drop 1).dropWhile isHex else s

/-- The loops of `skip_string`, parts/ixml.c 1600-1628; the test for a doubled quote can not succeed there. -/
def skipStringTo (q : Byte) : List Byte → Option (List Byte)
  | [] => none
  | c :: s => if c = q then some s else if c = 0 then none else skipStringTo q s

/-- `skip_string`, parts/ixml.c 1600-1628. -/
def skipString (s : List Byte) : List Byte :=
  if isQuote (peek s) then (skipStringTo (peek s) (s.drop 1)).getD s else s

/-- `skip_tmark`, parts/ixml.c 1630-1640: a mark and the bytes of whitespace behind it (of a comment only the braces). -/
def skipTmark (s : List Byte) : List Byte :=
  if isTmark (peek s) then (s.drop 1).dropWhile isWs else s

/-- `is_ixml_charset_start`, parts/ixml.c 229-241. -/
def isCharsetStart (s : List Byte) : Bool :=
  let i := skipTmark s
  let i := if peek i = b#'~' then i.drop 1 else i
  peek (i.dropWhile isWs) == b#'['

/-- `is_ixml_code_start`, parts/ixml.c 243-256. -/
def codeStart (s : List Byte) : Nat :=
  let a := peek s
  let b := peek (s.drop 1)
  if a ≥ b#'A' && a ≤ b#'Z' then
    if (b ≥ b#'a' && b ≤ b#'z') || b == b#'C' then 2 else 1
  else 0

/-- `is_ixml_encoded_start`, parts/ixml.c 263-273. -/
def isEncodedStart (s : List Byte) : Bool := peek (skipTmark s) == b#'#'
/-- `is_ixml_quoted_start`, parts/ixml.c 405-413. -/
def isQuotedStart (s : List Byte) : Bool := isQuote (peek (skipTmark s))
/-- `is_ixml_literal_start`, parts/ixml.c 312-319. -/
def isLiteralStart (s : List Byte) : Bool := isQuotedStart s || isEncodedStart s
/-- `is_ixml_terminal_start`, parts/ixml.c 428-434. -/
def isTerminalStart (s : List Byte) : Bool := isEncodedStart s || isLiteralStart s || isCharsetStart s
/-- `is_ixml_factor_start`, parts/ixml.c 275-282. -/
def isFactorStart (s : List Byte) : Bool :=
  isTerminalStart s || isNaming (peek s) || peek s == b#'+' || peek s == b#'('

/-- `is_ixml_range_start`, parts/ixml.c 359-385. -/
def isRangeStart (s : List Byte) : Res Bool :=
  if isQuote (peek s) then do
    let j ← skipWs (skipString s)
    .ok (peek j == b#'-')
  else if isEncodedStart s then do
    let j ← skipWs (skipEncoded s)
    .ok (peek j == b#'-')
  else .ok false

/-- `is_ixml_prolog_start`, parts/ixml.c 353-357. -/
def isPrologStart (s : List Byte) : Bool := s.take 4 == b#"ixml" && isWs (peek (s.drop 4))

/-! ## The tokens of a grammar -/

/-- `parse_ixml_comment`, parts/ixml.c 721-746, behind the `{`.  After a comment inside it one more byte is taken unseen, unless
    it is the `}`. -/
def commentLoop : Nat → List Byte → Res (List Byte)
  | 0, _ => .fuel
  | n + 1, s =>
    if peek s = 0 then .err
    else do
      let s ← if peek s = b#'{' then commentLoop n (s.drop 1) else .ok s
      if peek s = b#'}' then .ok (s.drop 1) else commentLoop n (s.drop 1)

/-- The loop of `parse_ixml_whitespace`, parts/ixml.c 1390-1410. -/
def wsLoop : Nat → List Byte → Res (List Byte)
  | 0, _ => .fuel
  | n + 1, s =>
    if isWs (peek s) then
      if peek s = b#'{' then do
        let s ← commentLoop (s.length + 1) (s.drop 1)
        wsLoop n s
      else wsLoop n (s.drop 1)
    else .ok s

/-- `parse_ixml_whitespace`. -/
def ws (s : List Byte) : Res (List Byte) := wsLoop (s.length + 1) s

/-- `parse_ixml_hex`, parts/ixml.c 905-920: `(int)strtol(hex, NULL, 16)`. -/
def hexInt (ds : List Byte) : Int :=
  let v : Nat := ds.foldl (fun acc c => acc * 16 + (if c ≤ b#'9' then c.toNat - 48 else if c ≤ b#'F' then c.toNat - 55 else c.toNat - 87)) 0
  let w : Nat := (min v (2 ^ 63 - 1)) % 2 ^ 32
  if w < 2 ^ 31 then (w : Int) else (w : Int) - 2 ^ 32

/-- `parse_ixml_encoded`, parts/ixml.c 748-789: the mark, the value and the rest. -/
def encoded (s : List Byte) : Res (Byte × Int × List Byte) := do
  let m := if isTmark (peek s) then peek s else 0
  let s ← ws (if isTmark (peek s) then s.drop 1 else s)
  if peek s = b#'#' then
    let s := s.drop 1
    if isHex (peek s) then do
      let r ← ws (s.dropWhile isHex)
      .ok (m, hexInt (s.takeWhile isHex), r)
    else .err
  else .abort

/-- The loop of `parse_ixml_string`, parts/ixml.c 1257-1293. -/
def stringLoop (q : Byte) : Nat → List Byte → List Nat → Res (List Nat × List Byte)
  | 0, _, _ => .fuel
  | n + 1, s, acc =>
    if peek s = 0 then .err
    else if peek s = q ∧ peek (s.drop 1) ≠ q then .ok (acc.reverse, s.drop 1)
    else
      let s := if peek s = q then s.drop 1 else s
      let d := decodeUtf8 s
      if d.ok then stringLoop q n (s.drop d.len) (d.char :: acc)
      else .abort

/-- `parse_ixml_string`, parts/ixml.c 1246-1298: the code points of a string.  The C result is an array that ends at the first 0. -/
def string (s : List Byte) : Res (List Nat × List Byte) :=
  if isQuote (peek s) then do
    let r ← stringLoop (peek s) (s.length + 1) (s.drop 1) []
    .ok (r.1.takeWhile (· ≠ 0), r.2)
  else .abort

/-- `parse_ixml_name`, parts/ixml.c 989-1004. -/
def name (s : List Byte) : Res (List Byte × List Byte) :=
  if isNameStart (peek s) then .ok (s.take 1 ++ (s.drop 1).takeWhile isNameFollower, (s.drop 1).dropWhile isNameFollower)
  else .abort

/-- `parse_ixml_naming`, parts/ixml.c 1006-1049, with `parse_ixml_alias`, 497-511: mark, name, alias and the rest. -/
def naming (s : List Byte) : Res (Byte × List Byte × Option (List Byte) × List Byte) :=
  if isNaming (peek s) then do
    let m := if isMark (peek s) then peek s else 0
    let s ← ws (if isMark (peek s) then s.drop 1 else s)
    if isNameStart (peek s) then do
      let (nm, s) ← name s
      let s ← ws s
      if peek s = b#'>' then do
        let s ← ws (s.drop 1)
        let (al, s) ← name s
        let s ← ws s
        .ok (m, nm, some al, s)
      else .ok (m, nm, none, s)
    else .err
  else .abort

/-- The first end of a range, parts/ixml.c 1122-1135: the code, the mark and the rest. -/
def rangeFrom (s : List Byte) (mark : Byte) : Res (Int × Byte × List Byte) :=
  if isQuote (peek s) then do
    let (cs, s) ← string s
    .ok (((cs.headD 0 : Nat) : Int), mark, s)
  else do
    let (m, v, s) ← encoded s
    .ok (v, m, s)

/-- The second end of a range, parts/ixml.c 1143-1160. -/
def rangeTo (s : List Byte) (mark : Byte) : Res (Int × Byte × List Byte) :=
  if isQuote (peek s) then do
    let (cs, s) ← string s
    .ok (((cs.headD 0 : Nat) : Int), mark, s)
  else if isEncodedStart s then do
    let (m, v, s) ← encoded s
    .ok (v, m, s)
  else .err

/-- `parse_ixml_range`, parts/ixml.c 1118-1164: from, to, the mark set by the numbers in it, and the rest. -/
def range (s : List Byte) (mark : Byte) : Res (Int × Int × Byte × List Byte) := do
  let (a, mark, s) ← rangeFrom s mark
  let s ← ws s
  if peek s = b#'-' then do
    let s ← ws (s.drop 1)
    let (b, mark, s) ← rangeTo s mark
    let s ← ws s
    .ok (a, b, mark, s)
  else .abort

/-- The bytes of a category name as the string the tables are keyed with. -/
def catName (bs : List Byte) : String := String.ofList (bs.map fun b => Char.ofNat b.toNat)

/-- One member of a character set, parts/ixml.c 642-700: the parts it adds, the mark and the rest. -/
def member (s : List Byte) (mark : Byte) : Res (List CharsetPart × Byte × List Byte) := do
  if (← isRangeStart s) then do
    let (a, b, mark, s) ← range s mark
    .ok ([.range a b], mark, s)
  else if isEncodedStart s then do
    let (m, v, s) ← encoded s
    .ok ([.range v v], m, s)
  else if codeStart s > 0 then
    let c := catName (s.take (codeStart s))
    if categoryParts c = none then .err
    else do
      let s ← ws (s.drop (codeStart s))
      .ok ([.category c], mark, s)
  else if isQuote (peek s) then do
    let (cs, s) ← string s
    let s ← ws s
    .ok (cs.map fun (c : Nat) => .range c c, mark, s)
  else .ok ([], mark, s)

/-- The loop of `parse_ixml_charset`, parts/ixml.c 635-709. -/
def charsetLoop : Nat → List Byte → Byte → List CharsetPart → Res (List CharsetPart × Byte × List Byte)
  | 0, _, _, _ => .fuel
  | n + 1, s, mark, acc =>
    if peek s = 0 then .err
    else do
      let (ps, mark, s) ← member s mark
      let acc := acc ++ ps
      if peek s = b#']' then .ok (acc, mark, s.drop 1)
      else if peek s = b#';' ∨ peek s = b#'|' then do
        let s ← ws (s.drop 1)
        charsetLoop n s mark acc
      else .err

/-- If `b`, one byte and the whitespace behind it. -/
def wsAfter (b : Bool) (s : List Byte) : Res (List Byte) := if b then ws (s.drop 1) else .ok s

/-- `parse_ixml_charset`, parts/ixml.c 605-719, without the rule it adds: the set, the mark and the rest. -/
def charset (s : List Byte) (mark : Byte) : Res (CSet × Byte × List Byte) := do
  let tmark := if isTmark (peek s) then peek s else 0
  let s ← wsAfter (isTmark (peek s)) s
  let ex := peek s == b#'~'
  let s ← wsAfter ex s
  if peek s = b#'[' then do
    let s ← ws (s.drop 1)
    let (ps, mark, s) ← charsetLoop (s.length + 1) s mark []
    .ok (⟨tmark, ex, ps⟩, mark, s)
  else .abort

/-! ## Names -/

/-- One digit as `%d` and `%x` print it. -/
def digitByte (d : Nat) : Byte := if d < 10 then UInt8.ofNat (48 + d) else UInt8.ofNat (87 + d)

/-- The digits of `n`.  The second argument bounds their number. -/
def digits (base : Nat) : Nat → Nat → List Byte
  | 0, _ => []
  | k + 1, n => if n < base then [digitByte n] else digits base k (n / base) ++ [digitByte (n % base)]

/-- `%x`. -/
def hexStr (n : Nat) : List Byte := digits 16 (n + 1) n

/-- `snprintf(s, 16, "#%x", v)`; a negative number is printed as its 32 bits. -/
def hexCode (v : Int) : List Byte := b#'#' :: hexStr (v % 2 ^ 32).toNat

/-- One part in the name of a character set, parts/ixml.c 2044-2060; the 16 bytes of `s` cut off long ranges. -/
def partName : CharsetPart → List Byte
  | .category c => c.toList.map fun c => UInt8.ofNat c.toNat
  | .range a b => if a ≠ b then (hexCode a ++ b#'-' :: hexCode b).take 15 else (hexCode a).take 15

/-- The parts of the name, separated by semicolons. -/
def partNames : List CharsetPart → List Byte
  | [] => []
  | [p] => partName p
  | p :: q :: ps => partName p ++ b#';' :: partNames (q :: ps)

/-- `generate_charset_terminal_name`, parts/ixml.c 2024-2063.  The 1024 bytes allocated for the name are not modelled. -/
def setName (cs : CSet) : List Byte :=
  (if cs.exclude then b#"~" else []) ++ b#'[' :: (if cs.mark ≠ 0 then [cs.mark] else []) ++ partNames cs.parts ++ b#"]"

/-- `generate_rule_name`, parts/ixml.c 2016-2022. -/
def genName (n : Nat) : List Byte := b#'|' :: digits 10 (n + 1) n

/-! ## Building rules -/

/-- `add_yaep_term_to_rule`, parts/ixml.c 1653-1663, to the rule with index `i`. -/
def addTerms (i : Nat) (ts : List Term) (rules : List Rule) : List Rule :=
  rules.modify i fun r => { r with rhs := r.rhs ++ ts }

def St.add (st : St) (ts : List Term) : St := { st with rules := addTerms st.cur ts st.rules }

/-- `vector_push_back(state->ixml_rules, …)`. -/
def St.push (st : St) (rs : List Rule) : St := { st with rules := st.rules ++ rs }

/-- `vector_pop_back(state->ixml_rule->rhs_terms)`: fails if there is none. -/
def St.pop (st : St) : Res (Sym × St) :=
  match st.rules[st.cur]? with
  | none => .abort
  | some r =>
    match r.rhs.getLast? with
    | none => .abort
    | some t => .ok (t.sym, { st with rules := st.rules.modify st.cur fun r => { r with rhs := r.rhs.dropLast } })

/-- A rule made by the reader: no alias, mark `-`. -/
def hidden (nm : List Byte) (ts : List Term) : Rule := ⟨nm, none, b#'-', ts⟩

/-- `make_last_term_optional`, parts/ixml.c 2065-2107. -/
def makeOptional (st : St) : Res St := do
  let (x, st) ← st.pop
  let nm := genName st.gen
  .ok { (st.add [⟨b#'-', .n nm⟩]).push [hidden nm [⟨st.mark, x⟩], hidden nm []] with gen := st.gen + 1 }

/-- `make_last_term_repeat`, parts/ixml.c 2109-2155. -/
def makeRepeat (st : St) (fm : Byte) : Res St := do
  let (x, st) ← st.pop
  let nm := genName st.gen
  .ok { (st.add [⟨b#'-', .n nm⟩]).push [hidden nm [⟨fm, x⟩], hidden nm [⟨b#'-', .n nm⟩, ⟨fm, x⟩]] with gen := st.gen + 1 }

/-- `make_last_term_repeat_infix`, parts/ixml.c 2157-2207. -/
def makeRepeatInfix (st : St) (fm im : Byte) : Res St := do
  let (y, st) ← st.pop
  let (x, st) ← st.pop
  let nm := genName st.gen
  .ok { (st.add [⟨b#'-', .n nm⟩]).push [hidden nm [⟨fm, x⟩], hidden nm [⟨b#'-', .n nm⟩, ⟨im, y⟩, ⟨fm, x⟩]] with gen := st.gen + 1 }

/-- `make_last_term_repeat_zero`, parts/ixml.c 2209-2252. -/
def makeRepeatZero (st : St) (fm : Byte) : Res St := do
  let (x, st) ← st.pop
  let nm := genName st.gen
  .ok { (st.add [⟨b#'-', .n nm⟩]).push [hidden nm [], hidden nm [⟨b#'-', .n nm⟩, ⟨fm, x⟩]] with gen := st.gen + 1 }

/-- `make_last_term_repeat_zero_infix`, parts/ixml.c 2254-2259. -/
def makeRepeatZeroInfix (st : St) (fm im : Byte) : Res St := do
  let st ← makeRepeatInfix st fm im
  makeOptional { st with mark := b#'-' }

/-- The terminals of a literal are added to the rule, more than one as a rule of their own, parts/ixml.c 800-829. -/
def addLiteral (st : St) (cs : List Int) : St :=
  match cs with
  | [] => st
  | [c] => st.add [⟨st.mark, .t c⟩]
  | cs =>
    let nm := genName st.gen
    { (st.add [⟨b#'-', .n nm⟩]).push [hidden nm (cs.map fun c => ⟨st.mark, .t c⟩)] with gen := st.gen + 1 }

/-- The code points of an insertion as UTF-8, parts/ixml.c 938-951. -/
def encodeAll : List Nat → Option (List Byte)
  | [] => some []
  | c :: cs =>
    match encodeUtf8 c, encodeAll cs with
    | some a, some b => some (a ++ b)
    | _, _ => none

/-- `add_insertion_rule`, parts/ixml.c 1699-1713. -/
def addInsertion (st : St) (bs : List Byte) : St :=
  (st.push [⟨b#"|+" ++ bs, none, b#' ', []⟩]).add [⟨0, .n (b#"|+" ++ bs)⟩]

/-! ## Expressions -/

/-- The functions that call each other. -/
inductive Job where
  | alts | alt | term | factor | group
deriving DecidableEq, Repr

/-- `parse_ixml_insertion`, parts/ixml.c 922-969.  For `+#hex` the value is appended to `state->ixml_tmp_terminals`, which is NULL here. -/
def insertion (st : St) : Res St := do
  let s ← ws (st.rest.drop 1)
  if isQuote (peek s) then do
    let (cs, s) ← string s
    match encodeAll cs with
    | none => .abort
    | some bs => .ok { addInsertion st bs with rest := s }
  else if isEncodedStart s then do
    let _ ← encoded s
    .abort
  else .err

/-- `parse_ixml_terminal` 1373-1388, `parse_ixml_literal` 971-987, `parse_ixml_quoted` 1166-1197 and the terminals in `parse_ixml_factor`, 796-832. -/
def terminal (st : St) : Res St :=
  if isLiteralStart st.rest then
    if isQuotedStart st.rest then do
      let m := if isTmark (peek st.rest) then peek st.rest else 0
      let s ← wsAfter (isTmark (peek st.rest)) st.rest
      let (cs, s) ← string s
      let s ← ws s
      .ok (addLiteral { st with rest := s, mark := m } (cs.map fun (c : Nat) => (c : Int)))
    else do
      let (m, v, s) ← encoded st.rest
      .ok (addLiteral { st with rest := s, mark := m } [v])
  else do
    let (cs, mark, s) ← charset st.rest st.mark
    .ok { st.add [⟨cs.mark, .n (setName cs)⟩] with rest := s, mark := mark, sets := st.sets ++ [cs] }

/-- The mutually recursive part of the reader. -/
def run : Nat → Job → St → Res St
  | 0, _, _ => .fuel
  /- `parse_ixml_alts`, parts/ixml.c 553-603. -/
  | n + 1, .alts, st => do
    let s ← ws st.rest
    let st := { st with rest := s }
    if peek s = 0 ∨ peek s = b#'.' ∨ peek s = b#')' then .ok st
    else do
      let st ← if peek s = b#'|' then .ok st
        else if isAltStart (peek s) then do
          let st ← run n .alt st
          let s ← ws st.rest
          .ok { st with rest := s }
        else .err
      let c := peek st.rest
      if c = b#'.' ∨ c = b#')' then .ok st
      else if c = b#'|' ∨ c = b#';' then do
        let s ← ws (st.rest.drop 1)
        match st.rules[st.cur]? with
        | none => .abort
        | some r => run n .alts { st with rest := s, rules := st.rules ++ [⟨r.name, none, r.mark, []⟩], cur := st.rules.length }
      else .err
  /- `parse_ixml_alt`, parts/ixml.c 513-551. -/
  | n + 1, .alt, st =>
    if isAltStart (peek st.rest) then do
      let st ← run n .term st
      let s ← ws st.rest
      let c := peek s
      if c = b#';' ∨ c = b#'|' ∨ c = b#')' ∨ c = b#'.' then .ok { st with rest := s }
      else do
        let s ← ws (if c = b#',' then s.drop 1 else s)
        run n .alt { st with rest := s }
    else .err
  /- `parse_ixml_term`, parts/ixml.c 1300-1371. -/
  | n + 1, .term, st =>
    if isFactorStart st.rest then do
      let st ← run n .factor st
      let fm := st.mark
      let c := peek st.rest
      if c = b#'?' then do
        let s ← ws (st.rest.drop 1)
        makeOptional { st with rest := s }
      else if c = b#'*' ∨ c = b#'+' then
        let s := st.rest.drop 1
        if peek s = c then do
          let s ← ws (s.drop 1)
          let st ← run n .factor { st with rest := s }
          let st ← if c = b#'+' then makeRepeatInfix st fm st.mark else makeRepeatZeroInfix st fm st.mark
          let s ← ws st.rest
          .ok { st with rest := s }
        else do
          let st ← if c = b#'+' then makeRepeat { st with rest := s } fm else makeRepeatZero { st with rest := s } fm
          let s ← ws st.rest
          .ok { st with rest := s }
      else do
        let s ← ws st.rest
        .ok { st with rest := s }
    else .abort
  /- `parse_ixml_factor`, parts/ixml.c 791-854, and `parse_ixml_term_nonterminal`, 1051-1061. -/
  | n + 1, .factor, st =>
    if isFactorStart st.rest then do
      let st ← if isTerminalStart st.rest then terminal st
        else if isNaming (peek st.rest) then do
          let (m, nm, _, s) ← naming st.rest
          .ok { st.add [⟨m, .n nm⟩] with rest := s, mark := m }
        else if peek st.rest = b#'+' then insertion st
        else run n .group st
      let s ← ws st.rest
      .ok { st with rest := s }
    else .abort
  /- `parse_ixml_group`, parts/ixml.c 856-903. -/
  | n + 1, .group, st => do
    let s ← ws (st.rest.drop 1)
    let st ← if isAltStart (peek s) then do
        let nm := genName st.gen
        let inner := { (st.add [⟨b#'-', .n nm⟩]).push [hidden nm []] with gen := st.gen + 1, cur := st.rules.length, rest := s }
        let inner ← run n .alts inner
        .ok { inner with cur := st.cur }
      else if peek s = b#')' then .ok { st with rest := s }
      else .err
    if peek st.rest = b#')' then do
      let s ← ws (st.rest.drop 1)
      .ok { st with rest := s }
    else .err

/-- `parse_ixml_rule`, parts/ixml.c 1199-1244. -/
def rule (n : Nat) (st : St) : Res St := do
  let (m, nm, al, s) ← naming st.rest
  let s ← ws s
  if peek s = b#'=' ∨ peek s = b#':' then do
    let s ← ws (s.drop 1)
    let st ← run n .alts { st with rules := st.rules ++ [⟨nm, al, m, []⟩], cur := st.rules.length, rest := s }
    if peek st.rest = b#'.' then do
      let s ← ws (st.rest.drop 1)
      .ok { st with rest := s }
    else .err
  else .err

/-- The rules of a grammar, parts/ixml.c 488-491. -/
def rulesLoop (n : Nat) : Nat → St → Res St
  | 0, _ => .fuel
  | k + 1, st =>
    if isNaming (peek st.rest) then do
      let st ← rule n st
      rulesLoop n k st
    else .ok st

/-- `parse_ixml_prolog`, parts/ixml.c 1063-1115. -/
def prolog (s : List Byte) : Res (List Byte) := do
  let s ← ws (s.drop 4)
  if s.take 7 = b#"version" then do
    let s := s.drop 7
    if isWs (peek s) then do
      let s ← ws s
      if isQuote (peek s) then do
        let (_, s) ← string s
        let s ← ws s
        if peek s = b#'.' then .ok (s.drop 1) else .err
      else .err
    else .err
  else .err

/-- `parse_ixml`, parts/ixml.c 465-495, called from `ixml_build_yaep_grammar`, 1510-1562. -/
def readGrammar (text : List Byte) : Res St := do
  let n := 8 * text.length + 8
  let s ← ws text
  let s ← if isPrologStart s then do
      let s ← prolog s
      ws s
    else .ok s
  if isNaming (peek s) then do
    let st ← rulesLoop n n ⟨s, [], 0, 0, 0, []⟩
    let s ← ws st.rest
    if s = [] then .ok { st with rest := s } else .err
  else .err

/-! ## The grammar for a given content -/

/-- The rules for the characters of one set, `scan_content_fixup_charsets`, parts/ixml.c 1750-1866, with `add_single_char_rule`, 1683-1697. -/
def setRules (used : Nat → Bool) (cs : CSet) : Option (List Rule) :=
  (if cs.exclude then excludeCodes used cs.parts else includeCodes used cs.parts).map fun l =>
    l.map fun (c : Nat) => hidden (setName cs) [⟨if cs.mark = b#'-' then b#'-' else 0, .t c⟩]

/-- The rules handed to the Earley parser for a content with the code points `content`. -/
def grammarFor (st : St) (content : List Nat) : Option (List Rule) :=
  match st.sets.mapM (setRules fun c => content.contains c) with
  | none => none
  | some l => some (st.rules ++ l.flatten)

/-- The start symbol: the left side of the first rule that is handed over, yaep/src/yaep.c 3042-3066. -/
def startOf (rules : List Rule) : Option (List Byte) := rules.head?.map fun r => r.name

/-! ## Parse trees and the document -/

/-- A parse tree as the Earley parser delivers it: `YAEP_TERM` and `YAEP_ANODE` with the marks of parts/yaep.c 6808-6811 and 7004-7008. -/
inductive Tree where
  | term (mark : Byte) (code : Nat)
  | node (name : List Byte) (mark : Byte) (children : List Tree)
deriving Repr

/-- `Derives rules ts trees w`: the trees are parse trees of the symbols `ts` for the characters `w`.  The name of a node is the
    `abs_node` given in `ixml_to_yaep_read_rule`, parts/ixml.c 1430-1490; the mark of the symbol comes before that of the rule. -/
inductive Derives (rules : List Rule) : List Term → List Tree → List Nat → Prop
  | nil : Derives rules [] [] []
  | term (m : Byte) (c : Nat) (ts : List Term) (trees : List Tree) (w : List Nat) :
      Derives rules ts trees w → Derives rules (⟨m, .t c⟩ :: ts) (.term m c :: trees) (c :: w)
  | node (m : Byte) (r : Rule) (kids : List Tree) (u : List Nat) (ts : List Term) (trees : List Tree) (w : List Nat) :
      r ∈ rules → Derives rules r.rhs kids u → Derives rules ts trees w →
      Derives rules (⟨m, .n r.name⟩ :: ts) (.node (r.alias.getD r.name) (if m ≠ 0 then m else r.mark) kids :: trees) (u ++ w)

/-- The bytes of a character; `encode_utf8` fails above 0x10ffff. -/
def codeBytes (c : Nat) : List Byte := (encodeUtf8 c).getD []

mutual
/-- `collect_text`, xmq.c 4444-4472. -/
def collectText : Tree → List Byte
  | .term m c => if m ≠ b#'-' then codeBytes c else []
  | .node _ _ ts => collectTexts ts
def collectTexts : List Tree → List Byte
  | [] => []
  | t :: ts => collectText t ++ collectTexts ts
end

mutual
/-- `generate_dom_from_yaep_node`, xmq.c 4474-4592, for trees without ambiguous nodes: what is added to the node, in order. -/
def pieces : Tree → List Piece
  | .term m c => if m ≠ b#'-' then [.text (codeBytes c)] else []
  | .node nm m ts =>
    if nm.take 2 = b#"|+" then [.text (nm.drop 2)]
    else if m = b#'-' then piecesList ts
    else if m = b#'@' then [.attr nm (collectTexts ts)]
    else [.elem nm (piecesList ts)]
def piecesList : List Tree → List Piece
  | [] => []
  | t :: ts => pieces t ++ piecesList ts
end

end Xmq.Ixml
