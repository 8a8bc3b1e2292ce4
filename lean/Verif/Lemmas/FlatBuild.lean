import Verif.Model.Builder
/-!
# A builder that keeps prefixes, declarations, processing instructions and doctypes inside of the names

Used in proofs only.  The callbacks are run together with the parser in `Verif.Lemmas.Sem`.  With `Mode.qual = false` the
callbacks are those of `Verif.Model.Builder`.  With `Mode.qual = true` they build an auxiliary tree: an element `p:n` has the
name `p:n`, a declaration is an attribute `xmlns` or `xmlns:p`, a processing instruction is an element `?t`.  It gives up where
`Verif.Model.NsBuild` would have to treat such things differently.
-/
namespace Xmq

/-- Which of the two builders is meant. -/
class Mode where
  qual : Bool

/-- Unless something else is said, the builder of `Verif.Model.Builder`. -/
instance (priority := low) plainMode : Mode := ⟨false⟩

/-- The name of a declaration. -/
def specialAttr (n : List Byte) : Bool := n == b#"xmlns" || (b#"xmlns:").isPrefixOf n

/-- The name of a processing instruction or doctype. -/
def specialName (n : List Byte) : Bool := peek n == b#'!' || peek n == b#'?'

/-- The node added last is a declaration, a processing instruction or a doctype. -/
def special : List Open → Bool
  | [] => false
  | o :: _ =>
    if o.lastAttr then
      match o.attrs with
      | a :: _ => specialAttr a.name
      | [] => false
    else
      match o.kids with
      | .element n _ _ :: _ => specialName n
      | _ => false

/-- The node added last is a doctype. -/
def atDoctype : List Open → Bool
  | [] => false
  | o :: _ =>
    if o.lastAttr then false
    else
      match o.kids with
      | .element n _ _ :: _ => peek n == b#'!'
      | _ => false

/-- A new attribute. -/
def addAttr (st : List Open) (name : List Byte) : Option (List Open) :=
  match st with
  | [] => none
  | o :: st => some ({ o with attrs := ⟨name, []⟩ :: o.attrs, lastAttr := true } :: st)

/-- Give another name to the attribute added last. -/
def renameAttr (st : List Open) (name : List Byte) : Option (List Open) :=
  match st with
  | [] => none
  | o :: st =>
    match o.attrs with
    | [] => none
    | a :: as => some ({ o with attrs := ⟨name, a.value⟩ :: as } :: st)

/-- One callback.  The first component is the part of a name that has been seen. -/
def flatStep [Mode] (s : List Byte × List Open) (t : Tok) : Option (List Byte × List Open) :=
  if Mode.qual = false then (buildStep s.2 t).map fun b => (s.1, b)
  else
    match t.kind with
    | .element_ns => some (t.text ++ b#":", s.2)
    | .ns_colon => some (if s.1.isEmpty then b#":" else s.1, s.2)
    | .attr_ns =>
      if s.1 == b#":" then (renameAttr s.2 (b#"xmlns:" ++ t.text)).map fun b => ([], b) else some (t.text ++ b#":", s.2)
    | .ns_declaration => (addAttr s.2 b#"xmlns").map fun b => (s.1, b)
    | .attr_key =>
      if t.text.contains b#':' || specialAttr (s.1 ++ t.text) then none
      else (addAttr s.2 (s.1 ++ t.text)).map fun b => ([], b)
    | .element_name | .element_key =>
      if t.text.contains b#':' || (!s.1.isEmpty && (specialName s.1 || specialName t.text)) then none
      else (addTop s.2 (.element (s.1 ++ t.text) [] [])).map fun b => ([], b)
    | .brace_left | .apar_left | .cpar_left | .element_value_entity | .attr_value_entity =>
      if special s.2 then none else (buildStep s.2 t).map fun b => (s.1, b)
    | .element_value_quote => if atDoctype s.2 then none else (buildStep s.2 t).map fun b => (s.1, b)
    | _ => (buildStep s.2 t).map fun b => (s.1, b)

/-- A callback that leaves no part of a name behind. -/
def bstep [Mode] (b : List Open) (t : Tok) : Option (List Open) :=
  (flatStep ([], b) t).bind fun s => if s.1.isEmpty then some s.2 else none

variable [Mode]

/-- The callbacks that are the same in both builders. -/
theorem bstep_same (b : List Open) (t : Tok) (h : t.kind ∉ ([.element_ns, .ns_colon, .attr_ns, .ns_declaration, .attr_key, .element_name,
    .element_key, .brace_left, .apar_left, .cpar_left, .element_value_entity, .attr_value_entity, .element_value_quote] : List Kind)) :
    bstep b t = buildStep b t := by
  obtain ⟨kd, l, c, s⟩ := t
  unfold bstep flatStep
  split
  · cases hb : buildStep b ⟨kd, l, c, s⟩ <;> simp
  · cases kd <;> first
      | (exfalso; revert h; simp; done)
      | (simp only []; cases hb : buildStep b _ <;> simp)

theorem bstep_plain (b : List Open) (t : Tok) (h : special b = false) (hk : t.kind ∈ ([.brace_left, .apar_left, .cpar_left,
    .element_value_entity, .attr_value_entity] : List Kind)) : bstep b t = buildStep b t := by
  obtain ⟨kd, l, c, s⟩ := t
  unfold bstep flatStep
  split
  · cases hb : buildStep b ⟨kd, l, c, s⟩ <;> simp
  · simp at hk
    rcases hk with rfl | rfl | rfl | rfl | rfl <;> simp only [h, Bool.false_eq_true, if_false] <;> cases hb : buildStep b _ <;> simp

theorem bstep_quote (b : List Open) (t : Tok) (h : atDoctype b = false) (hk : t.kind = .element_value_quote) : bstep b t = buildStep b t := by
  obtain ⟨kd, l, c, s⟩ := t
  simp at hk; subst hk
  unfold bstep flatStep
  split
  · cases hb : buildStep b ⟨.element_value_quote, l, c, s⟩ <;> simp
  · simp only [h, Bool.false_eq_true, if_false]; cases hb : buildStep b _ <;> simp

theorem atDoctype_of_special (b : List Open) (h : special b = false) : atDoctype b = false := by
  unfold special at h
  unfold atDoctype
  split at h
  · rfl
  · split
    · rfl
    · rename_i hl
      rw [if_neg hl] at h
      split at h
      · simp [specialName] at h ⊢; exact h.1
      · rfl

end Xmq
