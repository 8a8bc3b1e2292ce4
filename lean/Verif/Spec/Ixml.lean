import Verif.Spec.Pieces
import Verif.Spec.Utf8
/-!
# Invisible XML: expressions, how they are written, and what they mean

After the ixml specification (https://invisiblexml.org/1.0/, with the renaming and insertions of its successors).
-/
namespace Xmq.Spec.Ixml

/-! ## Expressions -/

/-- A member of a character set.  `num`: one end of the range is written as a number. -/
inductive Member where
  | chars (cs : List Nat)
  | code (c : Nat)
  | range (a b : Nat) (num : Bool)
  | cat (name : List Byte)
deriving Repr

/-- An expression.  Marks are bytes, 0 if there is none. -/
inductive Rx where
  /-- `"abc"` or `#41` -/
  | lit (mark : Byte) (cs : List Nat)
  /-- `["a"-"z"]`, with `~` in front of it if `exclude` -/
  | set (mark : Byte) (exclude : Bool) (ms : List Member)
  /-- The name of a rule, `@name>alias`. -/
  | ref (mark : Byte) (name : List Byte) (alias : Option (List Byte))
  /-- `+"abc"` -/
  | ins (cs : List Nat)
  | group (r : Rx)
  | opt (f : Rx)
  | plus (f : Rx)
  | star (f : Rx)
  | plusSep (f sep : Rx)
  | starSep (f sep : Rx)
  | eps
  | seq (a b : Rx)
  | alt (a b : Rx)
deriving Repr

/-- A rule. -/
structure GRule where
  mark : Byte
  name : List Byte
  alias : Option (List Byte)
  body : Rx

/-! ## Meaning -/

/-- The UTF-8 bytes of a code point. -/
def utf8 (c : Nat) : List Byte := (rfc3629 c).map UInt8.ofNat

mutual
/-- The text in a piece, without any markup. -/
def textOf : Piece → List Byte
  | .attr _ v => v
  | .elem _ ps => textsOf ps
  | .text b => b
def textsOf : List Piece → List Byte
  | [] => []
  | p :: ps => textOf p ++ textsOf ps
end

/-- What the content of a nonterminal becomes under its mark. -/
def wrap (mark : Byte) (name : List Byte) (ps : List Piece) : List Piece :=
  if mark = b#'-' then ps
  else if mark = b#'@' then [.attr name (textsOf ps)]
  else [.elem name ps]

/-- A character belongs to a member of a set; `cat` says which characters a category has. -/
def Member.has (cat : List Byte → Nat → Prop) (c : Nat) : Member → Prop
  | .chars cs => c ∈ cs
  | .code d => c = d
  | .range a b _ => a ≤ c ∧ c ≤ b
  | .cat n => cat n c

/-- `Out cat g r w ps`: the expression `r` of the grammar `g` matches the characters `w`, and the document gets `ps` for it. -/
inductive Out (cat : List Byte → Nat → Prop) (g : List GRule) : Rx → List Nat → List Piece → Prop
  | lit (m : Byte) (cs : List Nat) : Out cat g (.lit m cs) cs (if m = b#'-' then [] else cs.map fun c => .text (utf8 c))
  | set (m : Byte) (ex : Bool) (ms : List Member) (c : Nat) : c < 0x110000 → ((∃ x ∈ ms, x.has cat c) ↔ ex = false) →
      Out cat g (.set m ex ms) [c] (if m = b#'-' then [] else [.text (utf8 c)])
  | ref (m : Byte) (al : Option (List Byte)) (r : GRule) (w : List Nat) (ps : List Piece) : r ∈ g → Out cat g r.body w ps →
      Out cat g (.ref m r.name al) w (wrap (if m ≠ 0 then m else r.mark) ((al.or r.alias).getD r.name) ps)
  | ins (cs : List Nat) : Out cat g (.ins cs) [] [.text (cs.flatMap utf8)]
  | group (r : Rx) (w : List Nat) (ps : List Piece) : Out cat g r w ps → Out cat g (.group r) w ps
  | optNone (f : Rx) : Out cat g (.opt f) [] []
  | optSome (f : Rx) (w : List Nat) (ps : List Piece) : Out cat g f w ps → Out cat g (.opt f) w ps
  | plusOne (f : Rx) (w : List Nat) (ps : List Piece) : Out cat g f w ps → Out cat g (.plus f) w ps
  | plusMore (f : Rx) (u v : List Nat) (ps qs : List Piece) : Out cat g (.plus f) u ps → Out cat g f v qs → Out cat g (.plus f) (u ++ v) (ps ++ qs)
  | starNil (f : Rx) : Out cat g (.star f) [] []
  | starMore (f : Rx) (u v : List Nat) (ps qs : List Piece) : Out cat g (.star f) u ps → Out cat g f v qs → Out cat g (.star f) (u ++ v) (ps ++ qs)
  | plusSepOne (f s : Rx) (w : List Nat) (ps : List Piece) : Out cat g f w ps → Out cat g (.plusSep f s) w ps
  | plusSepMore (f s : Rx) (u v w : List Nat) (ps qs rs : List Piece) : Out cat g (.plusSep f s) u ps → Out cat g s v qs → Out cat g f w rs →
      Out cat g (.plusSep f s) (u ++ (v ++ w)) (ps ++ (qs ++ rs))
  | starSepNil (f s : Rx) : Out cat g (.starSep f s) [] []
  | starSepSome (f s : Rx) (w : List Nat) (ps : List Piece) : Out cat g (.plusSep f s) w ps → Out cat g (.starSep f s) w ps
  | eps : Out cat g .eps [] []
  | seq (a b : Rx) (u v : List Nat) (ps qs : List Piece) : Out cat g a u ps → Out cat g b v qs → Out cat g (.seq a b) (u ++ v) (ps ++ qs)
  | altL (a b : Rx) (w : List Nat) (ps : List Piece) : Out cat g a w ps → Out cat g (.alt a b) w ps
  | altR (a b : Rx) (w : List Nat) (ps : List Piece) : Out cat g b w ps → Out cat g (.alt a b) w ps

/-- The expression matches the characters. -/
def Matches (cat : List Byte → Nat → Prop) (g : List GRule) (r : Rx) (w : List Nat) : Prop := ∃ ps, Out cat g r w ps

/-! ## Writing

`lim = false` is the syntax of ixml with names of ASCII letters, digits, `_` and `-`.  `lim = true` leaves out what the reader
is known not to understand; each restriction is a condition `lim = true → …`. -/

/-- The inside of a comment; comments nest.  Restriction: two comments inside a comment do not touch. -/
inductive CBody (lim : Bool) : List Byte → Prop
  | nil : CBody lim []
  | char (c : Byte) (t : List Byte) : c ≠ 0 → c ≠ b#'{' → c ≠ b#'}' → CBody lim t → CBody lim (c :: t)
  | nest (b t : List Byte) : CBody lim b → CBody lim t → (lim = true → peek t ≠ b#'{') → CBody lim (b#'{' :: (b ++ b#'}' :: t))

/-- A space, tab or line end. -/
def Blank (c : Byte) : Prop := c = b#' ' ∨ c = 9 ∨ c = 10 ∨ c = 13

/-- Whitespace and comments, possibly none. -/
inductive S (lim : Bool) : List Byte → Prop
  | nil : S lim []
  | blank (c : Byte) (t : List Byte) : Blank c → S lim t → S lim (c :: t)
  | comment (b t : List Byte) : CBody lim b → S lim t → S lim (b#'{' :: (b ++ b#'}' :: t))

/-- Behind a mark or `~`.  Restriction: no comments there. -/
def Gap (lim : Bool) (t : List Byte) : Prop := S lim t ∧ (lim = true → ∀ c ∈ t, Blank c)

/-- The inside of a string in quotes `q`: a quote is doubled. -/
inductive Str (q : Byte) : List Nat → List Byte → Prop
  | nil : Str q [] []
  | char (c : Nat) (cs : List Nat) (t : List Byte) : 0 < c → c < 0x110000 → c ≠ q.toNat → Str q cs t → Str q (c :: cs) (utf8 c ++ t)
  | quote (cs : List Nat) (t : List Byte) : Str q cs t → Str q (q.toNat :: cs) (q :: q :: t)

/-- A string with its quotes. -/
inductive Quoted : List Nat → List Byte → Prop
  | mk (q : Byte) (cs : List Nat) (t : List Byte) : q = b#'"' ∨ q = 39 → Str q cs t → Quoted cs (q :: (t ++ [q]))

/-- A hexadecimal digit. -/
def hexVal (b : Byte) : Option Nat :=
  if 48 ≤ b.toNat ∧ b.toNat ≤ 57 then some (b.toNat - 48)
  else if 97 ≤ b.toNat ∧ b.toNat ≤ 102 then some (b.toNat - 87)
  else if 65 ≤ b.toNat ∧ b.toNat ≤ 70 then some (b.toNat - 55)
  else none

/-- Hexadecimal digits, most significant first. -/
inductive Hex : List Byte → Nat → Prop
  | one (b : Byte) (v : Nat) : hexVal b = some v → Hex [b] v
  | snoc (bs : List Byte) (n : Nat) (b : Byte) (v : Nat) : Hex bs n → hexVal b = some v → Hex (bs ++ [b]) (n * 16 + v)

/-- `#41`: a code point as a number. -/
inductive Encoded : Nat → List Byte → Prop
  | mk (c : Nat) (ds : List Byte) : 0 < c → c < 0x110000 → Hex ds c → Encoded c (b#'#' :: ds)

/-- One end of a range; the Boolean says whether it is a number.  Restriction `first`: the first end is not a doubled quote. -/
inductive End (first : Bool) : Nat → Bool → List Byte → Prop
  | chr (c : Nat) (t : List Byte) : Quoted [c] t → (first = true → t ≠ b#"\"\"\"\"" ∧ t ≠ b#"''''") → End first c false t
  | num (c : Nat) (t : List Byte) : Encoded c t → End first c true t

/-- The names of the categories of characters. -/
def catNames : List (List Byte) :=
  [b#"Lu", b#"Ll", b#"Lt", b#"LC", b#"Lm", b#"Lo", b#"L", b#"Mn", b#"Mc", b#"Me", b#"M", b#"Nd", b#"Nl", b#"No", b#"N",
   b#"Pc", b#"Pd", b#"Ps", b#"Pe", b#"Pi", b#"Pf", b#"Po", b#"P", b#"Sm", b#"Sc", b#"Sk", b#"So", b#"S",
   b#"Zs", b#"Zl", b#"Zp", b#"Z", b#"Cc", b#"Cf", b#"Cs", b#"Co", b#"Cn", b#"C"]

/-- A member of a character set with the whitespace behind it. -/
inductive WMember (lim : Bool) : Member → List Byte → Prop
  | chars (cs : List Nat) (t s : List Byte) : Quoted cs t → S lim s → WMember lim (.chars cs) (t ++ s)
  | code (c : Nat) (t s : List Byte) : Encoded c t → S lim s → WMember lim (.code c) (t ++ s)
  | range (a b : Nat) (na nb : Bool) (ta s1 s2 tb s3 : List Byte) : End lim a na ta → S lim s1 → S lim s2 → End false b nb tb → S lim s3 →
      WMember lim (.range a b (na || nb)) (ta ++ (s1 ++ b#'-' :: (s2 ++ (tb ++ s3))))
  | cat (n s : List Byte) : n ∈ catNames → S lim s → WMember lim (.cat n) (n ++ s)

/-- The members of a set, separated by `;` or `|`. -/
inductive WMembers (lim : Bool) : List Member → List Byte → Prop
  | nil : WMembers lim [] []
  | one (m : Member) (t : List Byte) : WMember lim m t → WMembers lim [m] t
  | cons (m : Member) (ms : List Member) (t s u : List Byte) (c : Byte) : WMember lim m t → c = b#';' ∨ c = b#'|' → S lim s → ms ≠ [] →
      WMembers lim ms u → WMembers lim (m :: ms) (t ++ c :: (s ++ u))

/-- A mark of a terminal with the whitespace behind it. -/
inductive WTmark (lim : Bool) : Byte → List Byte → Prop
  | none : WTmark lim 0 []
  | mk (m : Byte) (s : List Byte) : m = b#'^' ∨ m = b#'-' → Gap lim s → WTmark lim m (m :: s)

/-- A mark of a nonterminal with the whitespace behind it. -/
inductive WMark (lim : Bool) : Byte → List Byte → Prop
  | none : WMark lim 0 []
  | mk (m : Byte) (s : List Byte) : m = b#'@' ∨ m = b#'^' ∨ m = b#'-' → Gap lim s → WMark lim m (m :: s)

def IsLetter (c : Byte) : Prop := (97 ≤ c.toNat ∧ c.toNat ≤ 122) ∨ (65 ≤ c.toNat ∧ c.toNat ≤ 90) ∨ c = b#'_'

/-- A name: a letter or `_`, then letters, `_`, `-` and digits. -/
def IsName (n : List Byte) : Prop :=
  ∃ c t, n = c :: t ∧ IsLetter c ∧ ∀ d ∈ t, IsLetter d ∨ d = b#'-' ∨ (48 ≤ d.toNat ∧ d.toNat ≤ 57)

/-- An alias with the whitespace behind it, if there is one. -/
inductive WAlias (lim : Bool) : Option (List Byte) → List Byte → Prop
  | none : WAlias lim none []
  | some (a s1 s2 : List Byte) : S lim s1 → IsName a → S lim s2 → WAlias lim (some a) (b#'>' :: (s1 ++ (a ++ s2)))

/-- A mark, a name and an alias. -/
inductive WNaming (lim : Bool) : Byte → List Byte → Option (List Byte) → List Byte → Prop
  | mk (m : Byte) (n : List Byte) (al : Option (List Byte)) (tm s ta : List Byte) : WMark lim m tm → IsName n → S lim s → WAlias lim al ta →
      WNaming lim m n al (tm ++ (n ++ (s ++ ta)))

/-- An expression that is written without any symbol in it. -/
def Empty : Rx → Prop
  | .lit _ [] => True
  | .group .eps => True
  | _ => False

/-- The syntactic classes of expressions. -/
inductive Cls where
  | fac | term | seq | alts

/-- How an expression is written.  Restrictions: an empty alternative is only followed by `|` and is not the first of a group; nothing
    empty is repeated or optional; no `^` in front of a set; insertions are strings. -/
inductive W (lim : Bool) : Cls → Rx → List Byte → Prop
  | lit (m : Byte) (cs : List Nat) (tm t s : List Byte) : WTmark lim m tm → Quoted cs t → S lim s → W lim .fac (.lit m cs) (tm ++ (t ++ s))
  | enc (m : Byte) (c : Nat) (tm t s : List Byte) : WTmark lim m tm → Encoded c t → S lim s → W lim .fac (.lit m [c]) (tm ++ (t ++ s))
  | incl (m : Byte) (ms : List Member) (tm s1 t s2 : List Byte) : WTmark lim m tm → S lim s1 → WMembers lim ms t → S lim s2 →
      (lim = true → m ≠ b#'^') → W lim .fac (.set m false ms) (tm ++ b#'[' :: (s1 ++ (t ++ b#']' :: s2)))
  | excl (m : Byte) (ms : List Member) (tm gap s1 t s2 : List Byte) : WTmark lim m tm → Gap lim gap → S lim s1 → WMembers lim ms t → S lim s2 →
      (lim = true → m ≠ b#'^') → W lim .fac (.set m true ms) (tm ++ b#'~' :: (gap ++ b#'[' :: (s1 ++ (t ++ b#']' :: s2))))
  | ref (m : Byte) (n : List Byte) (al : Option (List Byte)) (t : List Byte) : WNaming lim m n al t → W lim .fac (.ref m n al) t
  | ins (cs : List Nat) (s1 t s2 : List Byte) : S lim s1 → Quoted cs t → S lim s2 → W lim .fac (.ins cs) (b#'+' :: (s1 ++ (t ++ s2)))
  | insEnc (c : Nat) (s1 t s2 : List Byte) : lim = false → S lim s1 → Encoded c t → S lim s2 → W lim .fac (.ins [c]) (b#'+' :: (s1 ++ (t ++ s2)))
  | group (r : Rx) (s1 t s2 : List Byte) : S lim s1 → W lim .alts r t → S lim s2 → (lim = true → ∀ b, r ≠ .alt .eps b) →
      W lim .fac (.group r) (b#'(' :: (s1 ++ (t ++ b#')' :: s2)))
  | one (f : Rx) (t : List Byte) : W lim .fac f t → W lim .term f t
  | opt (f : Rx) (t s : List Byte) : W lim .fac f t → S lim s → (lim = true → ¬ Empty f) → W lim .term (.opt f) (t ++ b#'?' :: s)
  | plus (f : Rx) (t s : List Byte) : W lim .fac f t → S lim s → (lim = true → ¬ Empty f) → W lim .term (.plus f) (t ++ b#'+' :: s)
  | star (f : Rx) (t s : List Byte) : W lim .fac f t → S lim s → (lim = true → ¬ Empty f) → W lim .term (.star f) (t ++ b#'*' :: s)
  | plusSep (f g : Rx) (t s u : List Byte) : W lim .fac f t → S lim s → W lim .fac g u → (lim = true → ¬ Empty f ∧ ¬ Empty g) →
      W lim .term (.plusSep f g) (t ++ b#'+' :: b#'+' :: (s ++ u))
  | starSep (f g : Rx) (t s u : List Byte) : W lim .fac f t → S lim s → W lim .fac g u → (lim = true → ¬ Empty f ∧ ¬ Empty g) →
      W lim .term (.starSep f g) (t ++ b#'*' :: b#'*' :: (s ++ u))
  | eps : W lim .seq .eps []
  | last (r : Rx) (t : List Byte) : W lim .term r t → W lim .seq r t
  | seq (a b : Rx) (t s u : List Byte) : W lim .term a t → S lim s → W lim .seq b u → b ≠ .eps → W lim .seq (.seq a b) (t ++ b#',' :: (s ++ u))
  | alone (r : Rx) (t : List Byte) : W lim .seq r t → W lim .alts r t
  | alt (a b : Rx) (c : Byte) (t s u : List Byte) : W lim .seq a t → c = b#';' ∨ c = b#'|' → S lim s → W lim .alts b u →
      (lim = true → a = .eps → c = b#'|') → W lim .alts (.alt a b) (t ++ c :: (s ++ u))

/-- A rule with the whitespace behind it. -/
inductive WRule (lim : Bool) : GRule → List Byte → Prop
  | mk (r : GRule) (tn : List Byte) (c : Byte) (s1 t s2 : List Byte) : WNaming lim r.mark r.name r.alias tn → c = b#'=' ∨ c = b#':' → S lim s1 →
      W lim .alts r.body t → S lim s2 → WRule lim r (tn ++ c :: (s1 ++ (t ++ b#'.' :: s2)))

inductive WRules (lim : Bool) : List GRule → List Byte → Prop
  | one (r : GRule) (t : List Byte) : WRule lim r t → WRules lim [r] t
  | cons (r : GRule) (rs : List GRule) (t u : List Byte) : WRule lim r t → WRules lim rs u → WRules lim (r :: rs) (t ++ u)

/-- The version declaration `ixml version "1.0".`, if there is one. -/
inductive WProlog (lim : Bool) : List Byte → Prop
  | none : WProlog lim []
  | mk (v s1 s2 t s3 s4 : List Byte) (cs : List Nat) : v = b#"ixml" → S lim s1 → s1 ≠ [] → S lim s2 → s2 ≠ [] → Quoted cs t → S lim s3 → S lim s4 →
      WProlog lim (v ++ (s1 ++ (b#"version" ++ (s2 ++ (t ++ (s3 ++ b#'.' :: s4))))))

/-- A grammar.  Restriction: the first rule, if there is no version declaration, does not start with `ixml` followed by whitespace or a brace. -/
inductive WGrammar (lim : Bool) : List GRule → List Byte → Prop
  | mk (g : List GRule) (s p t : List Byte) : S lim s → WProlog lim p → WRules lim g t →
      (lim = true → p = [] → ∀ c u, t = b#"ixml" ++ c :: u → ¬ (Blank c ∨ c = b#'{' ∨ c = b#'}')) → WGrammar lim g (s ++ (p ++ t))

/-! ## Marks the reader gets right

The reader keeps the mark it has read last in one place.  It uses it for a symbol that is repeated or optional, although the mark may belong
to something else. -/

/-- The member contains a number such as `#41`. -/
def Member.number : Member → Bool
  | .code _ => true
  | .range _ _ b => b
  | _ => false

/-- The mark read last, after the expression, if it was `k` before. -/
def markAfter : Rx → Byte → Byte
  | .lit m _, _ => m
  | .set _ _ ms, k => if ms.any Member.number then 0 else k
  | .ref m _ _, _ => m
  | .ins _, k => k
  | .group r, k => markAfter r k
  | .opt f, k => markAfter f k
  | .plus f, k => markAfter f k
  | .star f, k => markAfter f k
  | .plusSep f s, k => markAfter s (markAfter f k)
  | .starSep _ _, _ => b#'-'
  | .eps, k => k
  | .seq a b, k => markAfter b (markAfter a k)
  | .alt a b, k => markAfter b (markAfter a k)

/-- A repeated expression that has no mark of its own is not taken to be marked with `@` or `^`. -/
def Unmarked (k : Byte) : Rx → Prop
  | .lit _ cs => cs.length ≤ 1 ∨ k = 0 ∨ k = b#'-'
  | .set .. => k = 0 ∨ k = b#'-'
  | .group _ => k = 0 ∨ k = b#'-'
  | _ => True

/-- Every repeated expression has the right mark, and no reference renames. -/
def Tidy : Rx → Byte → Prop
  | .ref _ _ al, _ => al = none
  | .group r, k => Tidy r k
  | .opt f, k => Tidy f k ∧ Unmarked (markAfter f k) f
  | .plus f, k => Tidy f k ∧ Unmarked (markAfter f k) f
  | .star f, k => Tidy f k ∧ Unmarked (markAfter f k) f
  | .plusSep f s, k => (Tidy f k ∧ Unmarked (markAfter f k) f) ∧ Tidy s (markAfter f k) ∧ Unmarked (markAfter s (markAfter f k)) s
  | .starSep f s, k => (Tidy f k ∧ Unmarked (markAfter f k) f) ∧ Tidy s (markAfter f k) ∧ Unmarked (markAfter s (markAfter f k)) s
  | .seq a b, k => Tidy a k ∧ Tidy b (markAfter a k)
  | .alt a b, k => Tidy a k ∧ Tidy b (markAfter a k)
  | _, _ => True

/-- A reference in the expression is marked as an attribute. -/
def UsesAt : Rx → Prop
  | .ref m _ _ => m = b#'@'
  | .group r => UsesAt r
  | .opt f => UsesAt f
  | .plus f => UsesAt f
  | .star f => UsesAt f
  | .plusSep f s => UsesAt f ∨ UsesAt s
  | .starSep f s => UsesAt f ∨ UsesAt s
  | .seq a b => UsesAt a ∨ UsesAt b
  | .alt a b => UsesAt a ∨ UsesAt b
  | _ => False

/-- The expression has an insertion. -/
def Inserts : Rx → Prop
  | .ins _ => True
  | .group r => Inserts r
  | .opt f => Inserts f
  | .plus f => Inserts f
  | .star f => Inserts f
  | .plusSep f s => Inserts f ∨ Inserts s
  | .starSep f s => Inserts f ∨ Inserts s
  | .seq a b => Inserts a ∨ Inserts b
  | .alt a b => Inserts a ∨ Inserts b
  | _ => False

/-- The rules are tidy, and only rules with one alternative are renamed. -/
def TidyRules : List GRule → Byte → Prop
  | [], _ => True
  | r :: rs, k => (r.alias = none ∨ ∀ a b, r.body ≠ .alt a b) ∧ Tidy r.body k ∧ TidyRules rs (markAfter r.body k)

/-- A grammar for which the reader gets all marks and names right. -/
def TidyGrammar (g : List GRule) : Prop :=
  TidyRules g 0 ∧ ((∀ r ∈ g, r.mark ≠ b#'@' ∧ ¬ UsesAt r.body) ∨ ∀ r ∈ g, ¬ Inserts r.body)

end Xmq.Spec.Ixml
