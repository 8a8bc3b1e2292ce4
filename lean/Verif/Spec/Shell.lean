import Verif.Model.Tree
/-!
# Commands with references to nodes
-/
namespace Xmq.Spec.Shell

/-- A piece of a command: a byte that stays, or `${name}`. -/
inductive Piece where
  | byte (c : Byte)
  | ref (name : List Byte)
  deriving DecidableEq, Repr

/-- `s` begins with a reference that is closed somewhere. -/
def Opens (s : List Byte) : Prop := ∃ r, s = b#"${" ++ r ∧ b#'}' ∈ r

/-- The pieces of a command: from left to right, `${` together with everything up to the next `}` is a reference, all other bytes
    stand for themselves. -/
inductive Pieces : List Byte → List Piece → Prop
  | nil : Pieces [] []
  | byte {c s ps} : ¬ Opens (c :: s) → Pieces s ps → Pieces (c :: s) (.byte c :: ps)
  | ref {n s ps} : b#'}' ∉ n → Pieces s ps → Pieces (b#"${" ++ n ++ b#"}" ++ s) (.ref n :: ps)

/-- Letters, digits and the underscore: what may stand in the name of a variable. -/
def NameByte (c : Byte) : Prop :=
  (97 ≤ c.toNat ∧ c.toNat ≤ 122) ∨ (65 ≤ c.toNat ∧ c.toNat ≤ 90) ∨ (48 ≤ c.toNat ∧ c.toNat ≤ 57) ∨ c = b#'_'

instance (c : Byte) : Decidable (NameByte c) := by unfold NameByte; infer_instance

/-- The variable for a name: other bytes are replaced by underscores. -/
def varFor (name : List Byte) : List Byte := name.map (fun c => if NameByte c then c else b#'_')

/-- The command that is to be run. -/
def write : List Piece → List Byte
  | [] => []
  | .byte c :: ps => c :: write ps
  | .ref n :: ps => b#"${" ++ varFor n ++ b#"}" ++ write ps

/-- The names that are referred to. -/
def names : List Piece → List (List Byte)
  | [] => []
  | .byte _ :: ps => names ps
  | .ref n :: ps => n :: names ps

/-- An entry of the environment defines a variable. -/
def Defines (entry var value : List Byte) : Prop := entry = var ++ b#"=" ++ value

/-- Looking up the variable gives the value, no matter which of several entries is taken. -/
def Gives (env : List (List Byte)) (var value : List Byte) : Prop :=
  (∃ e ∈ env, Defines e var value) ∧ ∀ e ∈ env, ∀ v, Defines e var v → v = value

mutual
/-- The texts below a node, in document order. -/
def texts : Node → List (List Byte)
  | .text s => [s]
  | .element _ _ ks => textsIn ks
  | _ => []
/-- The texts below some nodes. -/
def textsIn : List Node → List (List Byte)
  | [] => []
  | k :: ks => texts k ++ textsIn ks
end

mutual
/-- There are no references below a node. -/
def NoRefs : Node → Prop
  | .text _ => True
  | .comment _ => True
  | .entity _ => False
  | .element _ _ ks => NoRefsIn ks
/-- There are no references below some nodes. -/
def NoRefsIn : List Node → Prop
  | [] => True
  | k :: ks => NoRefs k ∧ NoRefsIn ks
end

mutual
def decNoRefs : (n : Node) → Decidable (NoRefs n)
  | .text _ => isTrue trivial
  | .comment _ => isTrue trivial
  | .entity _ => isFalse id
  | .element _ _ ks => decNoRefsIn ks
def decNoRefsIn : (ks : List Node) → Decidable (NoRefsIn ks)
  | [] => isTrue trivial
  | k :: ks => match decNoRefs k, decNoRefsIn ks with
    | isTrue a, isTrue b => isTrue ⟨a, b⟩
    | isFalse a, _ => isFalse (fun h => a h.1)
    | _, isFalse b => isFalse (fun h => b h.2)
end

/-- There are only texts and comments among some nodes. -/
def OnlyTexts (ks : List Node) : Prop := ∀ k ∈ ks, match k with | .text _ => True | .comment _ => True | _ => False

/-- An element of that name. -/
def called (name : List Byte) : Node → Bool
  | .element m _ _ => m == name
  | _ => false

/-- The value that a name stands for, at an element: `..` is the name of the element, `.` all the text in it, any other name the
    text in the children of that name. -/
def Means : Node → List Byte → List Byte → Prop
  | .element t as ks, name, v =>
    (name = b#".." ∧ v = t) ∨
    (name = b#"." ∧ v = (texts (.element t as ks)).flatten) ∨
    (name ≠ b#".." ∧ name ≠ b#"." ∧
      v = (ks.filter (called name)).flatMap (fun k => (texts k).flatten))
  | _, _, _ => False

end Xmq.Spec.Shell
