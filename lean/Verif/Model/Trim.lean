import Verif.Model.Delimiters
/-!
# Removal of incidental indentation (xmq.c 1156-1550)

The region `start..stop` is a list of bytes.  `next` is the byte at `stop`, which `find_line` reads when the region ends
with a carriage return.
-/
namespace Xmq

/-- Space or tab. -/
def isBlank (c : Byte) : Bool := c == b#' ' || c == b#'\t'

/-- Result of `find_line`: the returned bool, `*indent`, `*after_last_non_space - start`, `*eol - start`. -/
structure LineInfo where
  nl : Bool
  indent : Nat
  keep : Nat
  len : Nat
deriving DecidableEq, Repr

/-- The first loop of `find_line`, xmq.c 1173-1178: the indentation with a tab counted as 8. -/
def blankWidth : List Byte → Nat
  | [] => 0
  | c :: t => if isBlank c then (if c == b#' ' then 1 else 8) + blankWidth t else 0

/-- The second loop of `find_line`, xmq.c 1182-1193: found newline, `lnws` and `i` relative to the start. -/
def scanEol (next : Byte) : List Byte → Nat → Nat → Bool × Nat × Nat
  | [], lnws, i => (false, lnws, i)
  | c :: t, lnws, i =>
    if c == b#'\n' || c == b#'\r' then (true, lnws, if c == b#'\r' && t.headD next == b#'\n' then i + 2 else i + 1)
    else scanEol next t (if isBlank c then lnws else i + 1) (i + 1)

/-- `find_line`, xmq.c 1159-1199.  With a carriage return as last byte and `next` a line feed, `*eol` is `stop+1`. -/
def findLine (next : Byte) (s : List Byte) : LineInfo :=
  let r := scanEol next (s.dropWhile isBlank) 0 (s.takeWhile isBlank).length
  ⟨r.1, blankWidth s, r.2.1, r.2.2⟩

/-- The loop over the lines that finds the incidental indentation, xmq.c 1457-1475.  `incidental` is `none` for
    `(size_t)-1`.  Each iteration consumes at least one byte, so `fuel` is the number of bytes. -/
def findIncidental (next : Byte) (ignoreFirst : Bool) : Nat → Bool → Option Nat → List Byte → Option Nat
  | 0, _, inc, _ => inc
  | fuel + 1, first, inc, s =>
    match s with
    | [] => inc
    | _ :: _ =>
      let l := findLine next s
      let less := match inc with | none => true | some n => l.indent < n
      let inc := if l.keep != 0 && less && (!first || ignoreFirst) then some l.indent else inc
      findIncidental next ignoreFirst fuel (if l.keep != 0 then false else first) inc (s.drop l.len)

/-- The loop that skips the incidental indentation, xmq.c 1517-1527: how many bytes are skipped.  It reads on over
    other characters; `none` when it leaves the readable memory `s`. -/
def skipIncidental : Nat → List Byte → Option Nat
  | 0, _ => some 0
  | _ + 1, [] => none
  | n + 1, c :: t =>
    if c == b#' ' then (skipIncidental n t).map (· + 1)
    else if c == b#'\t' then (if n + 1 ≥ 8 then (skipIncidental (n + 1 - 8) t).map (· + 1) else some 1)
    else (skipIncidental (n + 1) t).map (· + 1)

/-- The loop that copies the lines, xmq.c 1508-1543.  `tail` is the memory after `stop` that may still be read. -/
def copyLines (next : Byte) (tail : List Byte) (ignoreFirst : Bool) (inc : Nat) : Nat → Bool → List Byte → Option (List Byte)
  | 0, _, _ => some []
  | fuel + 1, first, s =>
    match s with
    | [] => some []
    | _ :: _ =>
      let l := findLine next s
      let skip := if !first || ignoreFirst then skipIncidental inc (s ++ tail) else some 0
      skip.bind fun i =>
        let content := (s.take l.keep).drop i
        let i := if i < l.keep then l.keep else i
        let ending := if l.nl then [b#'\n'] else (s.take l.len).drop i
        (copyLines next tail ignoreFirst inc fuel false (s.drop l.len)).map fun rest => content ++ ending ++ rest

/-- The part of `xmq_trim_quote` from xmq.c 1447 on, with `s` the remaining `start..stop`.  The allocated size is that
    of xmq.c 1490; writing beyond it gives `none`.  An `incidental` that is still `(size_t)-1` gives `none` too. -/
def trimLines (indent : Nat) (space next : Byte) (tail s : List Byte) (ignoreFirst : Bool) (prependNls appendNls : Nat) :
    Option (List Byte) :=
  let inc := findIncidental next ignoreFirst s.length true (if ignoreFirst then none else some indent) s
  inc.bind fun inc =>
    let prependSpaces := if !ignoreFirst && indent ≥ inc then indent - inc else 0
    let n := s.length + prependSpaces + prependNls + appendNls + 1
    (copyLines next tail ignoreFirst inc s.length true s).bind fun body =>
      let out := (if space != 0 then List.replicate prependSpaces space else []) ++ List.replicate prependNls b#'\n' ++
        body ++ List.replicate appendNls b#'\n'
      if out.length + 1 ≤ n then some out else none

/-- The loop over the leading whitespace lines, xmq.c 1435-1445: (`start` relative to the old `start`,
    `prepend_newlines`). -/
def leadingLines : List Byte → Nat → Nat → Nat → Nat × Nat
  | [], _, start, nls => (start, nls)
  | c :: t, i, start, nls =>
    if c == b#'\n' then leadingLines t (i + 1) (i + 1) (nls + 1)
    else if c != b#' ' && c != b#'\t' && c != b#'\r' then (start, nls)
    else leadingLines t (i + 1) start nls

/-- `xmq_trim_quote` after the special case, xmq.c 1369-1550. -/
def trimQuoteAt (indent : Nat) (space next : Byte) (s : List Byte) : Option (List Byte) :=
  let l := findLine next s
  if !l.nl then some s
  else
    let ending := hasEndingNlSpace s
    -- xmq.c 1399-1413: trim all whitespace from the end and count the line feeds.
    let body := if ending.isSome then (s.reverse.dropWhile isXmlWhitespace).reverse else s
    let trimmed := s.drop body.length
    let nls := if ending.isSome then trimmed.count b#'\n' else 0
    let appendNls := nls - 1
    if body.isEmpty then some (List.replicate appendNls b#'\n')
    else
      let tail := trimmed ++ [next]
      match hasLeadingSpaceNl body with
      | none => trimLines indent space next tail body false 0 appendNls
      | some _ =>
        let r := leadingLines (body.drop l.len) 0 0 0
        trimLines indent space next tail (body.drop (l.len + r.1)) true r.2 appendNls

/-- `xmq_trim_quote`, xmq.c 1353-1550.  The result is the produced bytes without the terminating NUL; `none`: a read
    outside the quote or a write outside the allocation (or a failing assert of `find_line`).
    `strndup` at xmq.c 1395 would stop at a NUL byte; texts do not contain one. -/
def trimQuote (indent : Nat) (space next : Byte) (s : List Byte) : Option (List Byte) :=
  if indent = 0 ∧ space = 0 then
    -- xmq.c 1356-1368: take the indentation from the second line.
    let l := findLine next s
    if l.nl && l.len != s.length then
      if l.len ≤ s.length then trimQuoteAt (findLine next (s.drop l.len)).indent space next s else none
    else trimQuoteAt 0 space next s
  else trimQuoteAt indent space next s

/-- `xmq_un_quote`, xmq.c 1264-1280. -/
def unQuote (indent : Nat) (space next : Byte) (s : List Byte) (removeQs : Bool) : Option (List Byte) :=
  if removeQs then
    let r := stripDelims b#'\'' s
    trimQuote (indent + r.1) space (if r.1 = 0 then next else b#'\'') r.2
  else trimQuote indent space next s

end Xmq
