import Verif.Model.Yaep
/-!
# The Earley parser (yaep/src/yaep.c)

Lookahead level 1 (yaep.c 2654; xmq.c never changes it), one parse, no error recovery: `xmqParseBufferWithIXML` without flags.  Pointers to rules
are numbers of rules.  The tables that share equal sets, cores and vectors (yaep.c 2117-2193, 2504-2562) are not modelled: equal values are equal.
-/
namespace Xmq.Yaep
open Xmq.Ixml (Sym)

/-- What `yaep_read_grammar` leaves behind. -/
structure Gram where
  rules : List Rule
  flags : List Flag
  ff : List FF

/-- `YaepDottedRule`, yaep.c 398-431: the rule and the dot.  The context is 0 with lookahead level 1. -/
structure Dotted where
  rule : Nat
  dot : Nat
deriving DecidableEq, Repr

/-- A dotted rule and its matched length. -/
abbrev Item := Dotted × Nat

/-- How the parser can stop other than with an answer. -/
inductive Stop where
  | outOfFuel
  /-- An assertion fails, or memory outside an array is read. -/
  | assertion
deriving DecidableEq, Repr

def Gram.rhs (g : Gram) (r : Nat) : List Sym := (g.rules[r]?.map Rule.rhs).getD []
def Gram.lhs (g : Gram) (r : Nat) : List Byte := (g.rules[r]?.map Rule.lhs).getD []
/-- The symbol behind the dot. -/
def Gram.next (g : Gram) (d : Dotted) : Option Sym := (g.rhs d.rule)[d.dot]?
/-- The symbols behind the dot. -/
def Gram.tail (g : Gram) (d : Dotted) : List Sym := (g.rhs d.rule).drop d.dot
def Gram.empty (g : Gram) (x : Sym) : Bool := isEmpty g.flags x
/-- `empty_tail_p`, yaep.c 1658-1703. -/
def Gram.emptyTail (g : Gram) (d : Dotted) : Bool := (g.tail d).all g.empty
/-- The field `lookahead` of a dotted rule. -/
def Gram.look (g : Gram) (d : Dotted) : List Int := lookahead g.flags g.ff (g.lhs d.rule) (g.tail d)
/-- The numbers of the rules of a nonterminal, latest first: the list `lhs_next`, yaep.c 1551-1552. -/
def Gram.ruleIds (g : Gram) (a : List Byte) : List Nat := ((List.range g.rules.length).filter fun r => g.lhs r = a).reverse
/-- How many dotted rules there are, yaep.c 1735-1736. -/
def Gram.size (g : Gram) : Nat := (g.rules.map fun r => r.rhs.length + 1).sum

/-! ## Sets -/

/-- `YaepStateSetCore`, yaep.c 433-481.  `nys`: not yet started, with the number of the parent. -/
structure Core where
  started : List Dotted
  nys : List (Dotted × Nat)
  initial : List Dotted
deriving DecidableEq, Repr

/-- `dotted_rules`: the numbers of dotted rules are positions in this list. -/
def Core.all (c : Core) : List Dotted := c.started ++ c.nys.map Prod.fst ++ c.initial

/-- `YaepStateSet`, yaep.c 483-500. -/
structure SSet where
  core : Core
  lens : List Nat
deriving DecidableEq, Repr

/-- The dotted rules of a set in the order of their numbers, each with its matched length as yaep.c 3486-3497, 3545-3556 and 4707-4724 find it:
that of the dotted rule itself, that of its parent, or 0. -/
def SSet.items (s : SSet) : List Item :=
  s.core.started.zip s.lens ++ s.core.nys.map (fun p => (p.1, (s.lens[p.2]?).getD 0)) ++ s.core.initial.map fun d => (d, 0)

/-- `predictions` of `core_symb_ids_find`, yaep.c 3316-3343. -/
def predictions (g : Gram) (s : SSet) (x : Sym) : List Item := s.items.filter fun p => g.next p.1 = some x
/-- `completions` of `core_symb_ids_find`, yaep.c 3354-3368. -/
def completions (g : Gram) (s : SSet) (a : List Byte) : List Item :=
  s.items.filter fun p => p.1.dot = (g.rhs p.1.rule).length && g.lhs p.1.rule = a

/-! ## Expanding a set -/

/-- The loop of `add_predicted_not_yet_started_dotted_rules`, yaep.c 3285-3289. -/
def skips (g : Gram) (r : Nat) : List Sym → Nat → List Dotted
  | [], _ => []
  | x :: xs, j => if g.empty x then ⟨r, j + 1⟩ :: skips g r xs (j + 1) else []

/-- `set_add_nys_dotted_rule`, yaep.c 2029-2066. -/
def addNys (l : List (Dotted × Nat)) (p : Dotted × Nat) : List (Dotted × Nat) := if p ∈ l then l else l ++ [p]

/-- The first loop of `expand_new_start_set`, yaep.c 3303-3306. -/
def addAllNys (g : Gram) : List Dotted → Nat → List (Dotted × Nat) → List (Dotted × Nat)
  | [], _, l => l
  | d :: ds, id, l => addAllNys g ds (id + 1) ((skips g d.rule (g.tail d) d.dot).foldl (fun l e => addNys l (e, id)) l)

/-- `set_add_initial_dotted_rule`, yaep.c 2071-2088.  The search covers the dotted rules that have a parent. -/
def addInitial (c : Core) (d : Dotted) : Core :=
  if d ∈ c.nys.map Prod.fst ++ c.initial then c else { c with initial := c.initial ++ [d] }

/-- The rules of a nonterminal that stands behind a dot for the first time, yaep.c 3318-3332. -/
def predict (g : Gram) (c : Core) (i : Nat) : Sym → Core
  | .t _ => c
  | .n a => if (c.all.take i).any (fun e => g.next e = some (.n a)) then c else (g.ruleIds a).foldl (fun c r => addInitial c ⟨r, 0⟩) c

/-- The body of the second loop of `expand_new_start_set`, yaep.c 3309-3351. -/
def expandStep (g : Gram) (c : Core) (i : Nat) (d : Dotted) : Core :=
  match g.next d with
  | none => c
  | some x =>
    if g.empty x && (predict g c i x).started.length + (predict g c i x).nys.length ≤ i then addInitial (predict g c i x) ⟨d.rule, d.dot + 1⟩
    else predict g c i x

/-- The second loop of `expand_new_start_set`; the list grows while it is visited. -/
def expandLoop (g : Gram) : Nat → Nat → Core → Option Core
  | 0, _, _ => none
  | n + 1, i, c =>
    match c.all[i]? with
    | none => some c
    | some d => expandLoop g n (i + 1) (expandStep g c i d)

/-- `expand_new_start_set`, yaep.c 3296-3420. -/
def expand (g : Gram) (started : List Dotted) : Option Core :=
  expandLoop g (started.length + (addAllNys g started 0 []).length + g.size + 1) 0 ⟨started, addAllNys g started 0 [], []⟩

def makeSet (g : Gram) (l : List Item) : Except Stop SSet :=
  match expand g (l.map Prod.fst) with
  | none => .error .outOfFuel
  | some c => .ok ⟨c, l.map Prod.snd⟩

/-- `build_start_set`, yaep.c 3423-3450. -/
def startSet (g : Gram) : Except Stop SSet := makeSet g ((g.ruleIds axiomName).map fun r => (⟨r, 0⟩, 0))

/-! ## The next set -/

/-- The test of the lookahead, yaep.c 3480-3485; `none`: there is no next terminal. -/
def admits (g : Gram) (la : Option Int) (d : Dotted) : Bool :=
  match la with
  | none => true
  | some c => c ∈ g.look d || (-2) ∈ g.look d

/-- One prediction is moved over its symbol, yaep.c 3474-3504 and 3531-3562, unless the pair is there (`dotted_rule_matched_length_test_and_set`,
yaep.c 1920-1961). -/
def shift (g : Gram) (la : Option Int) (m : Nat) (l : List Item) (p : Item) : List Item :=
  if admits g la ⟨p.1.rule, p.1.dot + 1⟩ then
    if (⟨p.1.rule, p.1.dot + 1⟩, p.2 + m) ∈ l then l else l ++ [(⟨p.1.rule, p.1.dot + 1⟩, p.2 + m)]
  else l

/-- The second loop of `complete_and_predict_new_state_set`, yaep.c 3507-3565, for the set after `sets`; the list grows while it is visited. -/
def completeLoop (g : Gram) (la : Option Int) (sets : List SSet) : Nat → Nat → List Item → Except Stop (List Item)
  | 0, _, _ => .error .outOfFuel
  | n + 1, i, l =>
    match l[i]? with
    | none => .ok l
    | some (d, m) =>
      if g.emptyTail d then
        if m = 0 ∨ sets.length < m then .error .assertion
        else
          match sets[sets.length - m]? with
          | none => .error .assertion
          | some prev =>
            if predictions g prev (.n (g.lhs d.rule)) = [] then
              if completions g prev (g.lhs d.rule) = [] ∧ g.lhs d.rule = axiomName then completeLoop g la sets n (i + 1) l else .error .assertion
            else completeLoop g la sets n (i + 1) ((predictions g prev (.n (g.lhs d.rule))).foldl (shift g la m) l)
      else completeLoop g la sets n (i + 1) l

/-- `complete_and_predict_new_state_set`, yaep.c 3452-3571; `set` is the last one of `sets`. -/
def nextSet (g : Gram) (la : Option Int) (sets : List SSet) (set : SSet) (c : Int) : Except Stop SSet :=
  match completeLoop g la sets (g.size * (sets.length + 1) + 1) 0 ((predictions g set (.t c)).foldl (shift g la 1) []) with
  | .error e => .error e
  | .ok l => makeSet g l

/-- `perform_parse` from the first set on, yaep.c 3922-3967: the sets, and whether all tokens were consumed. -/
def parseLoop (g : Gram) : List SSet → SSet → List Int → Except Stop (List SSet × Bool)
  | sets, _, [] => .ok (sets, true)
  | sets, set, c :: cs =>
    if predictions g set (.t c) = [] then .ok (sets, false)
    else
      match nextSet g cs.head? sets set c with
      | .error e => .error e
      | .ok s => parseLoop g (sets ++ [s]) s cs

/-- `perform_parse`, yaep.c 3907-3977. -/
def performParse (g : Gram) (tokens : List Int) : Except Stop (List SSet × Bool) :=
  match startSet g with
  | .error e => .error e
  | .ok s => parseLoop g [s] s tokens

/-! ## The tree -/

/-- A parse tree: the number of the rule at each node. -/
inductive PT where
  | leaf (c : Int)
  | node (r : Nat) (kids : List PT)
deriving Repr

/-- The test for a parse in `build_parse_tree`, yaep.c 4533-4544. -/
def isParse (g : Gram) (sets : List SSet) : Bool :=
  match sets.getLast? with
  | none => false
  | some s =>
    match s.items with
    | [] => false
    | (d, m) :: _ => m = sets.length - 1 && g.lhs d.rule = axiomName && d.dot = (g.rhs d.rule).length

/-- The check that the nonterminal `a` from `j` on continues the rule `r` which began at `from_`, yaep.c 4735-4764. -/
def continues (g : Gram) (sets : List SSet) (r pos from_ : Nat) (a : List Byte) (j : Nat) : Bool :=
  match sets[j]? with
  | none => false
  | some s => (predictions g s (.n a)).any fun p => p.1 = ⟨r, pos⟩ && p.2 + from_ = j

/-- The completions of the nonterminal `a` that are taken into account, yaep.c 4706-4768: the rule and where it begins. -/
def candidates (g : Gram) (sets : List SSet) (r pos from_ k : Nat) (a : List Byte) : List (Nat × Nat) :=
  match sets[k]? with
  | none => []
  | some s => ((completions g s a).map fun p => (p.1.rule, k - p.2)).filter fun q => continues g sets r pos from_ a q.2

/-- The major loop of `build_parse_tree`, yaep.c 4588-4977: the first `pos` symbols of the rule `r`, from right to left; they span `from_` to `k`.
The stack of the code is that of the recursion.  The answer: the trees, and `ambiguous_p`. -/
def build (g : Gram) (sets : List SSet) : Nat → Nat → Nat → Nat → Nat → List PT → Except Stop (List PT × Bool)
  | 0, _, _, _, _, _ => .error .outOfFuel
  | _ + 1, _, 0, _, _, acc => .ok (acc, false)
  | n + 1, r, pos + 1, from_, k, acc =>
    match (g.rhs r)[pos]? with
    | none => .error .assertion
    | some (.t c) => build g sets n r pos from_ (k - 1) (.leaf c :: acc)
    | some (.n a) =>
      match candidates g sets r pos from_ k a with
      | [] => .error .assertion
      | (r', j) :: others =>
        match build g sets n r' (g.rhs r').length j k [] with
        | .error e => .error e
        | .ok (kids, amb) =>
          match build g sets n r pos from_ j (.node r' kids :: acc) with
          | .error e => .error e
          | .ok (ts, amb') => .ok (ts, amb || amb' || !others.isEmpty)

/-- The answer of `yaepParse`. -/
inductive Parse where
  /-- A tree and `ambiguous_p`. -/
  | tree (t : PT) (ambiguous : Bool)
  /-- `root` is NULL; the syntax error is at this token. -/
  | noTree (token : Nat)
  | stopped (s : Stop)
deriving Repr

/-- Enough for every tree. -/
def treeFuel (g : Gram) (n : Nat) : Nat := (n + 2) * ((nonterms g.rules).length + 2) * (g.size + 2)

/-- `yaepParse`, yaep.c 5063-5184, for the tokens of the text and the end marker; `build_parse_tree`, yaep.c 4508-5026.  The first rule of the
axiom has the order 0, -1 (yaep.c 3052-3057): the tree is that of its first symbol. -/
def yaepParse (g : Gram) (text : List Int) : Parse :=
  match performParse g (text ++ [-1]) with
  | .error e => .stopped e
  | .ok (sets, _) =>
    if isParse g sets then
      match build g sets (treeFuel g text.length) 0 1 0 (sets.length - 2) [] with
      | .error e => .stopped e
      | .ok ([t], amb) => .tree t amb
      | .ok _ => .stopped .assertion
    else .noTree (sets.length - 1)

/-- `yaep_read_grammar` and then `yaepParse`, xmq.c 4606-4641.  `none`: the grammar is refused. -/
def parseWith (rs : List Ixml.Rule) (text : List Int) : Option Parse :=
  match readYaep rs with
  | .accepted rules flags ff => some (yaepParse ⟨rules, flags, ff⟩ text)
  | _ => none

/-! ## Marks and names -/

mutual
/-- The node for the symbol with the given mark: its name, code and mark, yaep.c 4653-4680 and 4812-4845. -/
def dress (own : List Ixml.Rule) (m : Byte) : PT → Ixml.Tree
  | .leaf c => .term m c.toNat
  | .node r kids =>
    match own[r - 1]? with
    | none => .node [] 0 []
    | some ρ => .node (ρ.alias.getD ρ.name) (if m ≠ 0 then m else ρ.mark) (dressAll own ρ.rhs kids)
def dressAll (own : List Ixml.Rule) : List Ixml.Term → List PT → List Ixml.Tree
  | t :: ts, k :: ks => dress own t.mark k :: dressAll own ts ks
  | _, _ => []
end

end Xmq.Yaep
