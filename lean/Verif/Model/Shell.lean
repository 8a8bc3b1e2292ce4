import Verif.Model.Tree
/-!
# A shell command for each node (xmq-cli.c 2259-2300 and 3243-3445)

The command and the contents of the document are C strings, i.e. lists of bytes without NUL; the end of a list stands for the NUL.
Left out: what /bin/sh does with the command, fork and execve, and CDATA nodes (which have no name, so that `strcmp` in
`grab_content` gets NULL).
-/
namespace Xmq.Shell

/-- `shell_safe`, xmq-cli.c 3243-3251. -/
def shellSafe (c : Byte) : Bool :=
  if c ≥ b#'a' && c ≤ b#'z' then true
  else if c ≥ b#'A' && c ≤ b#'Z' then true
  else if c ≥ b#'0' && c ≤ b#'9' then true
  else if c == b#'_' then true
  else false

/-- One byte of a name in `make_shell_safe_name`, xmq-cli.c 3258-3261. -/
def safeByte (c : Byte) : Byte := if shellSafe c then c else b#'_'

/-- `make_shell_safe_name`, xmq-cli.c 3253-3264: the name returned, which is also what is written over the name in the command. -/
def makeShellSafeName : List Byte → List Byte
  | [] => []
  | c :: name => safeByte c :: makeShellSafeName name

/-- The loop of `grab_name`, xmq-cli.c 3275: the bytes before the brace, `none` if there is no brace. -/
def toBrace : List Byte → Option (List Byte)
  | [] => none
  | c :: s => if c == b#'}' then some [] else (toBrace s).map (c :: ·)

/-- `grab_name`, xmq-cli.c 3266-3286. -/
def grabName : List Byte → Option (List Byte)
  | c :: d :: s => if c != b#'$' then none else if d != b#'{' then none else toBrace s
  | _ => none

/-- `node->name` as libxml2 keeps it. -/
def nodeName : Node → List Byte
  | .text _ => b#"text"
  | .comment _ => b#"comment"
  | .entity n => n
  | .element n _ _ => n

/-- `node->children`; those of an entity reference are no text nodes and are left out. -/
def children : Node → List Node
  | .element _ _ ks => ks
  | _ => []

mutual
/-- `append_text_node`, xmq-cli.c 3288-3302. -/
def appendTextNode (buf : List Byte) : Node → List Byte
  | .text s => buf ++ s
  | .entity _ => buf ++ b#"TODO"
  | .element _ _ ks => appendTextChildren buf ks
  | .comment _ => buf
/-- `append_text_children`, xmq-cli.c 3304-3313. -/
def appendTextChildren (buf : List Byte) : List Node → List Byte
  | [] => buf
  | k :: ks => appendTextChildren (appendTextNode buf k) ks
end

/-- The inner loop of `grab_content`, xmq-cli.c 3335-3342. -/
def appendTexts (buf : List Byte) : List Node → List Byte
  | [] => buf
  | .text s :: js => appendTexts (buf ++ s) js
  | _ :: js => appendTexts buf js

/-- The outer loop of `grab_content`, xmq-cli.c 3329-3345. -/
def appendNamed (name buf : List Byte) : List Node → List Byte
  | [] => buf
  | i :: is => appendNamed name (if nodeName i == name then appendTexts buf (children i) else buf) is

/-- `grab_content`, xmq-cli.c 3315-3349. -/
def grabContent (n : Node) (name : List Byte) : List Byte :=
  if name == b#".." then nodeName n
  else if name == b#"." then appendTextNode [] n
  else appendNamed name [] (children n)

/-- The loop of `invoke_shell` over the command, xmq-cli.c 3375-3401.  The name is overwritten in place, so the loop goes on over the
    new bytes.  The result is the command as it is after the loop and what is added to the environment; `none` stands for using the
    node although it is NULL.  The first argument only bounds the recursion. -/
def shellLoop (n : Option Node) : Nat → List Byte → Option (List Byte × List (List Byte))
  | _, [] => some ([], [])
  | 0, _ :: _ => none
  | fuel + 1, c :: s =>
    if c == b#'$' then
      match grabName (c :: s) with
      | some name =>
        match n with
        | none => none
        | some m =>
          let safeName := makeShellSafeName name
          let content := grabContent m name
          (shellLoop (some m) fuel (b#'{' :: safeName ++ s.drop (1 + name.length))).map
            (fun r => (c :: r.1, (safeName ++ b#"=" ++ content) :: r.2))
      | none => (shellLoop n fuel s).map (fun r => (c :: r.1, r.2))
    else (shellLoop n fuel s).map (fun r => (c :: r.1, r.2))

/-- What `invoke_shell` hands to `execve`, xmq-cli.c 3356-3411: the third argument of /bin/sh and the environment. -/
structure Call where
  command : List Byte
  env : List (List Byte)
  deriving DecidableEq, Repr

/-- `invoke_shell`, xmq-cli.c 3356-3445, up to `execve`. -/
def invokeShell (environ : List (List Byte)) (n : Option Node) (shellCommand : List Byte) : Option Call :=
  (shellLoop n shellCommand.length shellCommand).map (fun r => ⟨r.1, environ ++ r.2⟩)

/-- The loop that goes up to an element in `cmd_for_each`, xmq-cli.c 2286-2290.  The list has the node and its ancestors; `none` is
    a node that is neither element, text, reference nor comment (an attribute or the document). -/
def goUp : List (Option Node) → Option Node
  | [] => none
  | some (.element n as ks) :: _ => some (.element n as ks)
  | _ :: up => goUp up

/-- The loop of `cmd_for_each`, xmq-cli.c 2279-2294: the calls in their order. -/
def forEach (environ : List (List Byte)) (shellCommand : List Byte) : List (List (Option Node)) → Option (List Call)
  | [] => some []
  | n :: ns =>
    match invokeShell environ (goUp n) shellCommand with
    | none => none
    | some c => (forEach environ shellCommand ns).map (c :: ·)

end Xmq.Shell
