import Verif.Model.Earley
/-!
# The tables of the Earley parser (yaep/src/yaep.c)

The parser keeps one exemplar of equal sets and of equal cores, compares sets by their addresses, and remembers which set came from
which one over which terminal.  Model/Earley does without; here are the tables.  An address of a set is its position in `pool`.
Hash tables are searched for an equal entry, as `find_hash_table_entry` does.
-/
namespace Xmq.Yaep
open Xmq.Ixml (Sym)

/-- `set_insert` and `expand_new_start_set` if it tells that the core is new, yaep.c 2113-2192, 3296-3420 and 3566-3570.  The tables
`set_of_cores` and `set_of_tuples_core_matched_lengths` both hold sets; lists of lengths are compared by value
(`set_of_matched_lengthses` has one exemplar of equal lists). -/
def intern (g : Gram) (pool : List SSet) (l : List Item) : Except Stop (List SSet × Nat) :=
  match pool.find? fun s => s.core.started = l.map Prod.fst with
  | some s =>
    match pool.findIdx? fun t => t.core = s.core ∧ t.lens = l.map Prod.snd with
    | some i => .ok (pool, i)
    | none => .ok (pool ++ [⟨s.core, l.map Prod.snd⟩], pool.length)
  | none =>
    match expand g (l.map Prod.fst) with
    | none => .error .outOfFuel
    | some c => .ok (pool ++ [⟨c, l.map Prod.snd⟩], pool.length)

/-- `YaepStateSetTermLookAhead`, yaep.c 517-536: the key, the results with their places, and the slot for the next one.  The slots are filled
one after another, so those in use are a list. -/
structure Goto where
  set : Nat
  term : Int
  look : Option Int
  results : List (Nat × Nat)
  curr : Nat
deriving DecidableEq, Repr

/-- `MAX_CACHED_GOTO_RESULTS`, yaep.c 155. -/
def maxGoto : Nat := 3

/-- The loop of `check_cached_transition_set`, yaep.c 3787-3803, over the lengths from the last to the first; `ids` are the addresses in
`state_sets`.  `none`: something before the array is read. -/
def sameOrigins (ids : List Nat) (place : Nat) : List Nat → Option Bool
  | [] => some true
  | m :: ms =>
    if m ≤ 1 then sameOrigins ids place ms
    else if ids.length < m ∨ place + 1 < m then none
    else if ids[ids.length - m]? = ids[place + 1 - m]? then sameOrigins ids place ms
    else some false

/-- The loop over the results in `lookup_cached_set`, yaep.c 3871-3887. -/
def tryResults (pool : List SSet) (ids : List Nat) : List (Nat × Nat) → Except Stop (Option Nat)
  | [] => .ok none
  | (r, place) :: rest =>
    match pool[r]? with
    | none => .error .assertion
    | some s =>
      match sameOrigins ids place s.lens.reverse with
      | none => .error .assertion
      | some true => .ok (some r)
      | some false => tryResults pool ids rest

/-- The entry for a key, if there is one: `find_hash_table_entry` with `core_term_lookahead_eq`, yaep.c 1880-1891. -/
def findGoto (table : List Goto) (set : Nat) (c : Int) (la : Option Int) : Option Nat :=
  table.findIdx? fun e => e.set = set ∧ e.term = c ∧ e.look = la

/-- `save_cached_set`, yaep.c 3897-3905. -/
def Goto.save (e : Goto) (r place : Nat) : Goto :=
  { e with results := if e.curr < e.results.length then e.results.set e.curr (r, place) else e.results ++ [(r, place)], curr := (e.curr + 1) % maxGoto }

/-- `perform_parse` with its tables, yaep.c 3922-3967. -/
def tableLoop (g : Gram) : List Goto → List SSet → List Nat → Nat → List Int → Except Stop (List SSet × List Nat × Bool)
  | _, pool, ids, _, [] => .ok (pool, ids, true)
  | table, pool, ids, set, c :: cs =>
    let i := (findGoto table set c cs.head?).getD table.length
    let table := if i < table.length then table else table ++ [⟨set, c, cs.head?, [], 0⟩]
    match tryResults pool ids ((table[i]?.map Goto.results).getD []) with
    | .error e => .error e
    | .ok (some r) => tableLoop g table pool (ids ++ [r]) r cs
    | .ok none =>
      match pool[set]? with
      | none => .error .assertion
      | some s =>
        if predictions g s (.t c) = [] then .ok (pool, ids, false)
        else
          match completeLoop g cs.head? (ids.filterMap fun j => pool[j]?) (g.size * (ids.length + 1) + 1) 0 ((predictions g s (.t c)).foldl (shift g cs.head? 1) []) with
          | .error e => .error e
          | .ok l =>
            match intern g pool l with
            | .error e => .error e
            | .ok (pool, r) => tableLoop g (table.modify i fun e => e.save r (ids.length - 1)) pool (ids ++ [r]) r cs

/-- `perform_parse`, yaep.c 3907-3977, with its tables. -/
def performTables (g : Gram) (tokens : List Int) : Except Stop (List SSet × Bool) :=
  match intern g [] ((g.ruleIds axiomName).map fun r => (⟨r, 0⟩, 0)) with
  | .error e => .error e
  | .ok (pool, r) =>
    match tableLoop g [] pool [r] r tokens with
    | .error e => .error e
    | .ok (pool, ids, b) => .ok (ids.filterMap fun j => pool[j]?, b)

/-- `yaepParse`, yaep.c 5063-5184, with the tables of `perform_parse`. -/
def yaepTables (g : Gram) (text : List Int) : Parse :=
  match performTables g (text ++ [-1]) with
  | .error e => .stopped e
  | .ok (sets, _) =>
    if isParse g sets then
      match build g sets (treeFuel g text.length) 0 1 0 (sets.length - 2) [] with
      | .error e => .stopped e
      | .ok ([t], amb) => .tree t amb
      | .ok _ => .stopped .assertion
    else .noTree (sets.length - 1)

/-- `yaep_read_grammar` and then `yaepParse`, xmq.c 4606-4641, with the tables. -/
def parseTables (rs : List Ixml.Rule) (text : List Int) : Option Parse :=
  match readYaep rs with
  | .accepted rules flags ff => some (yaepTables ⟨rules, flags, ff⟩ text)
  | _ => none

end Xmq.Yaep
