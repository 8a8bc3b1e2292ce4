import Verif.Model.Ixml
/-!
# Reading a grammar into the Earley parser (yaep/src/yaep.c)

The symbols, the rules and the checks of `yaep_read_grammar`; not the parser itself.
-/
namespace Xmq.Yaep
open Xmq.Ixml (Sym)

/-- `YaepRule`, yaep.c 536-585, as far as the checks use it. -/
structure Rule where
  lhs : List Byte
  rhs : List Sym
deriving DecidableEq, Repr

/-- `AXIOM_NAME`, yaep.c 2944. -/
def axiomName : List Byte := b#"$S"
/-- `END_MARKER_CODE`, yaep.c 2949. -/
def eof : Sym := .t (-1)
/-- `TERM_ERROR_CODE`, yaep.c 2950. -/
def errorTerm : Sym := .t (-2)

/-- `symb_find_by_repr`, yaep.c 3067-3073: the name `error` is that of a terminal. -/
def symOf : Sym → Sym
  | .n n => if n = b#"error" then errorTerm else .n n
  | .t c => .t c

/-- A terminal with a negative code. -/
def negative : Sym → Bool
  | .t c => c < 0
  | .n _ => false

/-- The reading of terminals and rules in `yaep_read_grammar`, yaep.c 2984-3142.  `none`: a code is negative, there is no rule, `error` stands on a
left side, or the first rule is named like the axiom. -/
def readRules : List Ixml.Rule → Option (List Rule)
  | [] => none
  | r0 :: rs =>
    if (r0 :: rs).any (fun r => r.rhs.any fun t => negative t.sym) then none
    else if (r0 :: rs).any (fun r => r.name = b#"error") || r0.name = axiomName then none
    else
      let own := (r0 :: rs).map fun r => ⟨r.name, r.rhs.map fun t => symOf t.sym⟩
      let recover := own.any fun r => r.lhs = r0.name && r.rhs.head? = some errorTerm
      some (⟨axiomName, [.n r0.name, eof]⟩ :: own ++ (if recover then [] else [⟨axiomName, [errorTerm, eof]⟩]))

/-! ## Nonterminals and terminals -/

/-- A name is added unless it is there, `symb_add_nonterm`, yaep.c 1071-1103. -/
def addName (l : List (List Byte)) (n : List Byte) : List (List Byte) := if n ∈ l then l else l ++ [n]

/-- The nonterminals in the order in which they are met, yaep.c 3022-3073.  (The axiom comes second in the code; the order plays no role in the results.) -/
def nonterms (rules : List Rule) : List (List Byte) :=
  rules.foldl (fun l r => r.rhs.foldl (fun l x => match x with | .n n => addName l n | .t _ => l) (addName l r.lhs)) []

/-- The rules of a nonterminal: the list `lhs_next`, latest first, yaep.c 1551-1552. -/
def rulesOf (rules : List Rule) (n : List Byte) : List Rule := (rules.filter fun r => r.lhs = n).reverse

/-- All rules in the order in which the checks visit them. -/
def visits (rules : List Rule) : List Rule := (nonterms rules).flatMap (rulesOf rules)

/-- The codes of the terminals in the rules. -/
def codes (rules : List Rule) : List Int :=
  rules.flatMap fun r => r.rhs.filterMap fun x => match x with | .t c => some c | .n _ => none

/-! ## Flags -/

/-- A flag is raised: `changed_p |= flag ^ 1; flag = 1`. -/
def add {α : Type} [DecidableEq α] (x : α) (st : List α × Bool) : List α × Bool := if x ∈ st.1 then st else (x :: st.1, true)

/-- `do … while (changed_p)`.  `none`: out of fuel. -/
def repeatUntil {α : Type} (round : List α × Bool → List α × Bool) : Nat → List α → Option (List α)
  | 0, _ => none
  | n + 1, s => if (round (s, false)).2 then repeatUntil round n (round (s, false)).1 else some (round (s, false)).1

/-- The flags `empty_p`, `derivation_p` and `access_p` that are raised. -/
inductive Flag where
  | empty (x : Sym)
  | derives (x : Sym)
  | access (x : Sym)
deriving DecidableEq, Repr

def isT : Sym → Bool
  | .t _ => true
  | .n _ => false

/-- One rule in `set_empty_access_derives`, yaep.c 2812-2838. -/
def visitRule (st : List Flag × Bool) (r : Rule) : List Flag × Bool :=
  let st := if .access (.n r.lhs) ∈ st.1 then r.rhs.foldl (fun st x => add (.access x) st) st else st
  let st := if r.rhs.all fun x => .empty x ∈ st.1 then add (.empty (.n r.lhs)) st else st
  if r.rhs.all fun x => isT x || .derives x ∈ st.1 then add (.derives (.n r.lhs)) st else st

/-- All symbols of the rules. -/
def symbols (rules : List Rule) : List Sym := rules.flatMap fun r => .n r.lhs :: r.rhs

/-- `set_empty_access_derives`, yaep.c 2793-2841. -/
def setFlags (rules : List Rule) : Option (List Flag) :=
  repeatUntil (fun st => (visits rules).foldl visitRule st) (3 * (symbols rules).length + 2) [.access (.n axiomName)]

def isEmpty (fl : List Flag) (x : Sym) : Bool := .empty x ∈ fl

/-- The nonterminals of a right side for which all the other symbols can be empty, yaep.c 2855-2863 and 2877-2886. -/
def soles (fl : List Flag) (rhs : List Sym) : List (List Byte) :=
  (List.range rhs.length).filterMap fun i =>
    match rhs[i]? with
    | some (Sym.n a) => if (rhs.eraseIdx i).all (isEmpty fl) then some a else none
    | _ => none

/-- One nonterminal in the major cycle of `set_loop_p`, yaep.c 2871-2891. -/
def visitLoop (rules : List Rule) (fl : List Flag) (st : List (List Byte) × Bool) (n : List Byte) : List (List Byte) × Bool :=
  if n ∈ st.1 then
    if (rulesOf rules n).any fun r => (soles fl r.rhs).any fun a => a ∈ st.1 then st
    else (st.1.filter fun a => a ≠ n, true)
  else st

/-- `set_loop_p`, yaep.c 2844-2894: the nonterminals with `loop_p`. -/
def setLoop (rules : List Rule) (fl : List Flag) : Option (List (List Byte)) :=
  let l0 := rules.flatMap fun r => soles fl r.rhs
  repeatUntil (fun st => (nonterms rules).foldl (visitLoop rules fl) st) (l0.length + 1) l0

/-! ## FIRST and FOLLOW -/

inductive FF where
  | first (n : List Byte) (c : Int)
  | follow (n : List Byte) (c : Int)
deriving DecidableEq, Repr

def FF.firstOf (n : List Byte) : FF → Option Int
  | .first m c => if m = n then some c else none
  | .follow _ _ => none

def FF.followOf (n : List Byte) : FF → Option Int
  | .follow m c => if m = n then some c else none
  | .first _ _ => none

/-- `terminal_bitset_or`, yaep.c 1330-1349: all codes of `from` are added with `mk`. -/
def orSet (mk : Int → FF) (from_ : FF → Option Int) (st : List FF × Bool) : List FF × Bool :=
  (st.1.filterMap from_).foldl (fun st c => add (mk c) st) st

/-- What follows the nonterminal `a` in a rule, yaep.c 2760-2781. -/
def followLoop (em : Sym → Bool) (lhs a : List Byte) : List Sym → List FF × Bool → List FF × Bool
  | [], st => orSet (.follow a) (FF.followOf lhs) st
  | y :: ys, st =>
    let st := match y with
      | .t c => add (.follow a c) st
      | .n b => orSet (.follow a) (FF.firstOf b) st
    if em y then followLoop em lhs a ys st else st

/-- One rule in `create_first_follow_sets`, yaep.c 2739-2785. -/
def visitFF (em : Sym → Bool) (lhs : List Byte) : Bool → List Sym → List FF × Bool → List FF × Bool
  | _, [], st => st
  | cont, x :: rest, st =>
    let st := match x with
      | .t c => if cont then add (.first lhs c) st else st
      | .n a => followLoop em lhs a rest (if cont then orSet (.first lhs) (FF.firstOf a) st else st)
    visitFF em lhs (cont && em x) rest st

/-- `create_first_follow_sets`, yaep.c 2720-2789. -/
def setFF (rules : List Rule) (fl : List Flag) : Option (List FF) :=
  repeatUntil (fun st => (visits rules).foldl (fun st r => visitFF (isEmpty fl) r.lhs true r.rhs st) st)
    (2 * (nonterms rules).length * (codes rules).length + 2) []

/-- `dotted_rule_set_lookahead` with lookahead level 1, yaep.c 1658-1702: the codes, for the symbols behind the dot. -/
def lookahead (fl : List Flag) (ff : List FF) (lhs : List Byte) : List Sym → List Int
  | [] => ff.filterMap (FF.followOf lhs)
  | x :: xs =>
    (match x with
      | .t c => [c]
      | .n a => ff.filterMap (FF.firstOf a)) ++ (if isEmpty fl x then lookahead fl ff lhs xs else [])

/-! ## The whole -/

/-- What `yaep_read_grammar` answers. -/
inductive Answer where
  | accepted (rules : List Rule) (flags : List Flag) (ff : List FF)
  /-- `YAEP_NEGATIVE_TERM_CODE`, `YAEP_NO_RULES`, `YAEP_TERM_IN_RULE_LHS` or `YAEP_FIXED_NAME_USAGE`. -/
  | badRules
  /-- `YAEP_NONTERM_DERIVATION`. -/
  | derivesNothing
  /-- `YAEP_LOOP_NONTERM`, with the nonterminal named in the message. -/
  | loop (n : List Byte)
  | outOfFuel
deriving Repr

/-- `check_grammar` with `strict_p` 0, yaep.c 2898-2940. -/
def checkGrammar (rules : List Rule) : Answer :=
  match setFlags rules with
  | none => .outOfFuel
  | some fl =>
    match setLoop rules fl with
    | none => .outOfFuel
    | some l =>
      if .derives (.n axiomName) ∈ fl then
        match (nonterms rules).find? fun n => n ∈ l with
        | some n => .loop n
        | none =>
          match setFF rules fl with
          | none => .outOfFuel
          | some ff => .accepted rules fl ff
      else .derivesNothing

/-- `yaep_read_grammar`, yaep.c 2952-3180. -/
def readYaep (rs : List Ixml.Rule) : Answer :=
  match readRules rs with
  | none => .badRules
  | some rules => checkGrammar rules

end Xmq.Yaep
