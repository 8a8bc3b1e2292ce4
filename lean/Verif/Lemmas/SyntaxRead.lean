import Verif.Spec.Syntax
/-!
# Finding the document that tokens stand for, for concrete cases
-/
namespace Xmq
open Spec

def cqKind (attr : Bool) : Kind := if attr then .attr_value_compound_quote else .element_value_compound_quote
def ceKind (attr : Bool) : Kind := if attr then .attr_value_compound_entity else .element_value_compound_entity
def vtKind (attr : Bool) : Kind := if attr then .attr_value_text else .element_value_text
def vqKind (attr : Bool) : Kind := if attr then .attr_value_quote else .element_value_quote
def veKind (attr : Bool) : Kind := if attr then .attr_value_entity else .element_value_entity

/-- Quotes and references. -/
def readCompound (attr : Bool) : List Tok → Option (List Val × List Tok)
  | [] => some ([], [])
  | t :: ts =>
    if t.kind = cqKind attr then
      match quoteVal t.col t.text, readCompound attr ts with
      | some v, some (vs, r) => some (v :: vs, r)
      | _, _ => none
    else if t.kind = ceKind attr then
      match entityVal t.text, readCompound attr ts with
      | some v, some (vs, r) => some (v :: vs, r)
      | _, _ => none
    else some ([], t :: ts)

theorem readCompound_sound (attr : Bool) : ∀ (ts : List Tok) {vs r}, readCompound attr ts = some (vs, r) →
    ∃ us, ts = us ++ r ∧ Compound attr us vs := by
  intro ts
  induction ts with
  | nil => intro vs r h; cases h; exact ⟨[], rfl, .nil⟩
  | cons t ts ih =>
    intro vs r h
    rw [readCompound] at h
    split at h
    · rename_i hk
      split at h
      · rename_i v vs' r' hv hr
        cases h
        obtain ⟨us, rfl, hc⟩ := ih hr
        exact ⟨t :: us, rfl, .quote t v us vs' hk hv hc⟩
      · cases h
    · split at h
      · rename_i hk
        split at h
        · rename_i v vs' r' hv hr
          cases h
          obtain ⟨us, rfl, hc⟩ := ih hr
          exact ⟨t :: us, rfl, .entity t v us vs' hk hv hc⟩
        · cases h
      · cases h; exact ⟨[], rfl, .nil⟩

/-- A value or nothing. -/
def readValue (attr : Bool) : List Tok → Option (Option SVal × List Tok)
  | [] => some (none, [])
  | e :: ts =>
    if e.kind = .equals then
      match ts with
      | [] => none
      | t :: ts =>
        if t.kind = vtKind attr then some (some (.plain t.text), ts)
        else if t.kind = vqKind attr then
          match quoteVal t.col t.text with
          | some (.text s) => some (some (.quoted s), ts)
          | _ => none
        else if t.kind = veKind attr then
          (entityVal t.text).map fun v => (some (.ref v), ts)
        else if t.kind = .cpar_left then
          match readCompound attr ts with
          | some (vs, r :: ts) => if r.kind = .cpar_right then some (some (.many vs), ts) else none
          | _ => none
        else none
    else some (none, e :: ts)

theorem readValue_sound (attr : Bool) {ts r v} (h : readValue attr ts = some (v, r)) : ∃ us, ts = us ++ r ∧ MaybeValue attr us v := by
  unfold readValue at h
  split at h
  · cases h; exact ⟨[], rfl, .none⟩
  · rename_i e ts
    split at h
    · rename_i he
      split at h
      · cases h
      · rename_i t ts
        split at h
        · rename_i hk
          cases h
          exact ⟨[e, t], rfl, .some e [t] _ he (.plain t hk)⟩
        · split at h
          · rename_i hk
            split at h
            · rename_i s hs
              cases h
              exact ⟨[e, t], rfl, .some e [t] _ he (.quoted t s hk hs)⟩
            · cases h
          · split at h
            · rename_i hk
              rw [Option.map_eq_some_iff] at h
              obtain ⟨w, hw, h⟩ := h
              cases h
              exact ⟨[e, t], rfl, .some e [t] _ he (.ref t w hk hw)⟩
            · split at h
              · rename_i hk
                split at h
                · rename_i vs q ts' hc
                  split at h
                  · rename_i hq
                    cases h
                    obtain ⟨us, rfl, hc'⟩ := readCompound_sound attr _ hc
                    exact ⟨e :: t :: (us ++ [q]), by simp, .some e _ _ he (.many t q us vs hk hq hc')⟩
                  · cases h
                · cases h
              · cases h
    · cases h; exact ⟨[], rfl, .none⟩

/-- An entry of an attribute list. -/
def readAttribute : List Tok → Option (SAttr × List Tok)
  | k :: ts =>
    if k.kind = .attr_key then (readValue true ts).map fun x => (.attr none k.text x.1, x.2)
    else
      match ts with
      | c :: p :: us =>
        if k.kind = .attr_ns ∧ c.kind = .ns_colon ∧ p.kind = .attr_key then
          (readValue true us).map fun x => (.attr (some k.text) p.text x.1, x.2)
        else if k.kind = .ns_declaration then
          if c.kind = .ns_colon ∧ p.kind = .attr_ns then (readValue true us).map fun x => (.decl (some p.text) x.1, x.2)
          else (readValue true (c :: p :: us)).map fun x => (.decl none x.1, x.2)
        else none
      | ts => if k.kind = .ns_declaration then (readValue true ts).map fun x => (.decl none x.1, x.2) else none
  | [] => none

theorem readAttribute_sound {ts r a} (h : readAttribute ts = some (a, r)) : ∃ us, ts = us ++ r ∧ Attribute us a := by
  unfold readAttribute at h
  split at h
  · rename_i k ts
    split at h
    · rename_i hk
      rw [Option.map_eq_some_iff] at h
      obtain ⟨⟨v, r'⟩, hv, h⟩ := h
      cases h
      obtain ⟨us, rfl, hv'⟩ := readValue_sound true hv
      exact ⟨k :: us, rfl, .plain k us v hk hv'⟩
    · split at h
      · rename_i c p us
        split at h
        · rename_i hk
          rw [Option.map_eq_some_iff] at h
          obtain ⟨⟨v, r'⟩, hv, h⟩ := h
          cases h
          obtain ⟨us, rfl, hv'⟩ := readValue_sound true hv
          exact ⟨k :: c :: p :: us, rfl, .prefixed k c p us v hk.1 hk.2.1 hk.2.2 hv'⟩
        · split at h
          · rename_i hk
            split at h
            · rename_i hc
              rw [Option.map_eq_some_iff] at h
              obtain ⟨⟨v, r'⟩, hv, h⟩ := h
              cases h
              obtain ⟨us, rfl, hv'⟩ := readValue_sound true hv
              exact ⟨k :: c :: p :: us, rfl, .declPrefix k c p us v hk hc.1 hc.2 hv'⟩
            · rw [Option.map_eq_some_iff] at h
              obtain ⟨⟨v, r'⟩, hv, h⟩ := h
              cases h
              obtain ⟨us, e, hv'⟩ := readValue_sound true hv
              exact ⟨k :: us, by rw [e]; rfl, .declDefault k us v hk hv'⟩
          · cases h
      · split at h
        · rename_i hk
          rw [Option.map_eq_some_iff] at h
          obtain ⟨⟨v, r'⟩, hv, h⟩ := h
          cases h
          obtain ⟨us, rfl, hv'⟩ := readValue_sound true hv
          exact ⟨k :: us, rfl, .declDefault k us v hk hv'⟩
        · cases h
  · cases h

/-- Entries of an attribute list. -/
def readAttributes : Nat → List Tok → List SAttr × List Tok
  | 0, ts => ([], ts)
  | n + 1, ts =>
    match readAttribute ts with
    | some (a, r) => ((a :: (readAttributes n r).1), (readAttributes n r).2)
    | none => ([], ts)

theorem readAttributes_sound : ∀ (n : Nat) (ts : List Tok), ∃ us, ts = us ++ (readAttributes n ts).2 ∧ Attributes us (readAttributes n ts).1 := by
  intro n
  induction n with
  | zero => intro ts; exact ⟨[], rfl, .nil⟩
  | succ n ih =>
    intro ts
    rw [readAttributes]
    split
    · rename_i a r h
      obtain ⟨us, e, ha⟩ := readAttribute_sound h
      obtain ⟨vs, e', hs⟩ := ih r
      exact ⟨us ++ vs, by rw [e, List.append_assoc, ← e'], .cons us vs a _ ha hs⟩
    · exact ⟨[], rfl, .nil⟩

/-- An attribute list or nothing. -/
def readMaybeAttributes (n : Nat) : List Tok → Option (Option (List SAttr) × List Tok)
  | [] => some (none, [])
  | l :: ts =>
    if l.kind = .apar_left then
      match (readAttributes n ts).2 with
      | r :: us => if r.kind = .apar_right then some (some (readAttributes n ts).1, us) else none
      | [] => none
    else some (none, l :: ts)

theorem readMaybeAttributes_sound {n ts r as} (h : readMaybeAttributes n ts = some (as, r)) : ∃ us, ts = us ++ r ∧ MaybeAttributes us as := by
  unfold readMaybeAttributes at h
  split at h
  · cases h; exact ⟨[], rfl, .none⟩
  · rename_i l ts
    split at h
    · rename_i hl
      split at h
      · rename_i q us hq
        split at h
        · rename_i hk
          cases h
          obtain ⟨vs, e, hs⟩ := readAttributes_sound n ts
          rw [hq] at e
          exact ⟨l :: (vs ++ [q]), by rw [e]; simp, .some l q vs _ hl hk hs⟩
        · cases h
      · cases h
    · cases h; exact ⟨[], rfl, .none⟩

/-- The name of an element. -/
def readName : List Tok → Option (Option (List Byte) × List Byte × List Tok)
  | k :: ts =>
    if k.kind = .element_name ∨ k.kind = .element_key then some (none, k.text, ts)
    else
      match ts with
      | c :: n :: us =>
        if k.kind = .element_ns ∧ c.kind = .ns_colon ∧ (n.kind = .element_name ∨ n.kind = .element_key) then some (some k.text, n.text, us)
        else none
      | _ => none
  | [] => none

theorem readName_sound {ts r p n} (h : readName ts = some (p, n, r)) : ∃ us, ts = us ++ r ∧ ElemNameToks us p n := by
  unfold readName at h
  split at h
  · rename_i k ts
    split at h
    · rename_i hk
      cases h
      exact ⟨[k], rfl, .plain k hk⟩
    · split at h
      · rename_i c m us
        split at h
        · rename_i hk
          cases h
          exact ⟨[k, c, m], rfl, .prefixed k c m hk.1 hk.2.1 hk.2.2⟩
        · cases h
      · cases h
  · cases h

/-- The continuations of a comment. -/
def readContinuations : List Tok → Option (List (List Byte) × List Tok)
  | [] => some ([], [])
  | t :: ts =>
    if t.kind = .comment_continuation then
      match continuationVal t, readContinuations ts with
      | some s, some (ss, r) => some (s :: ss, r)
      | _, _ => none
    else some ([], t :: ts)

theorem readContinuations_sound : ∀ (ts : List Tok) {ss r}, readContinuations ts = some (ss, r) → ∃ us, ts = us ++ r ∧ Continuations us ss := by
  intro ts
  induction ts with
  | nil => intro ss r h; cases h; exact ⟨[], rfl, .nil⟩
  | cons t ts ih =>
    intro ss r h
    rw [readContinuations] at h
    split at h
    · rename_i hk
      split at h
      · rename_i s ss' r' hs hr
        cases h
        obtain ⟨us, rfl, hc⟩ := ih hr
        exact ⟨t :: us, rfl, .cons t s us ss' hk hs hc⟩
      · cases h
    · cases h; exact ⟨[], rfl, .nil⟩

/-- Nodes, as long as there are any. -/
def readNodes : Nat → List Tok → Option (List SNode × List Tok)
  | 0, _ => none
  | _, [] => some ([], [])
  | n + 1, t :: ts =>
    if t.kind = .quote then
      match quoteVal t.col t.text, readNodes n ts with
      | some v, some (d, r) => some (.val v :: d, r)
      | _, _ => none
    else if t.kind = .entity then
      match entityVal t.text, readNodes n ts with
      | some v, some (d, r) => some (.val v :: d, r)
      | _, _ => none
    else if t.kind = .comment then
      match commentVal t, readContinuations ts with
      | some c, some (ss, us) => (readNodes n us).map fun x => (.comment (ss.foldl (fun c s => c ++ 10 :: s) c) :: x.1, x.2)
      | _, _ => none
    else
      match readName (t :: ts) with
      | none => some ([], t :: ts)
      | some (p, m, us) =>
        match readMaybeAttributes n us with
        | none => none
        | some (as, l :: vs) =>
          if l.kind = .brace_left then
            match readNodes n vs with
            | some (kids, q :: ws) =>
              if q.kind = .brace_right then (readNodes n ws).map fun x => (.element p m as none kids :: x.1, x.2) else none
            | _ => none
          else
            match readValue false (l :: vs) with
            | some (v, ws) => (readNodes n ws).map fun x => (.element p m as v [] :: x.1, x.2)
            | none => none
        | some (as, []) => some ([.element p m as none []], [])

theorem readNodes_sound : ∀ (n : Nat) (ts : List Tok) {d r}, readNodes n ts = some (d, r) → ∃ us, ts = us ++ r ∧ Doc us d := by
  intro n
  induction n with
  | zero => intro ts d r h; simp [readNodes] at h
  | succ n ih =>
    intro ts d r h
    cases ts with
    | nil => rw [readNodes] at h; cases h; exact ⟨[], rfl, .nil⟩; simp
    | cons t ts =>
      rw [readNodes] at h
      split at h
      · rename_i hk
        split at h
        · rename_i v d' r' hv hr
          cases h
          obtain ⟨us, rfl, hd⟩ := ih ts hr
          exact ⟨t :: us, rfl, .quote t v us d' hk hv hd⟩
        · cases h
      · split at h
        · rename_i hk
          split at h
          · rename_i v d' r' hv hr
            cases h
            obtain ⟨us, rfl, hd⟩ := ih ts hr
            exact ⟨t :: us, rfl, .entity t v us d' hk hv hd⟩
          · cases h
        · split at h
          · rename_i hk
            split at h
            · rename_i c ss us hc hs
              rw [Option.map_eq_some_iff] at h
              obtain ⟨⟨d', r'⟩, hd, h⟩ := h
              cases h
              obtain ⟨cs, rfl, hcs⟩ := readContinuations_sound ts hs
              obtain ⟨vs, rfl, hd'⟩ := ih us hd
              exact ⟨t :: (cs ++ vs), by simp, .comment t c cs ss vs d' hk hc hcs hd'⟩
            · cases h
          · split at h
            · cases h; exact ⟨[], rfl, .nil⟩
            · rename_i p m us hn
              obtain ⟨ns, e1, hn⟩ := readName_sound hn
              split at h
              · cases h
              · rename_i as l vs ha
                obtain ⟨as', e2, ha'⟩ := readMaybeAttributes_sound ha
                split at h
                · rename_i hl
                  split at h
                  · rename_i kids q ws hb
                    split at h
                    · rename_i hq
                      rw [Option.map_eq_some_iff] at h
                      obtain ⟨⟨d', r'⟩, hd, h⟩ := h
                      cases h
                      obtain ⟨bs, rfl, hb'⟩ := ih vs hb
                      obtain ⟨xs, rfl, hd'⟩ := ih ws hd
                      exact ⟨ns ++ (as' ++ (l :: (bs ++ q :: xs))), by rw [e1, e2]; simp,
                        .braces ns as' p m as l q bs kids xs d' hn ha' hl hq hb' hd'⟩
                    · cases h
                  · cases h
                · split at h
                  · rename_i v ws hv
                    rw [Option.map_eq_some_iff] at h
                    obtain ⟨⟨d', r'⟩, hd, h⟩ := h
                    cases h
                    obtain ⟨ys, e3, hv'⟩ := readValue_sound false hv
                    obtain ⟨xs, rfl, hd'⟩ := ih ws hd
                    exact ⟨ns ++ (as' ++ (ys ++ xs)), by rw [e1, e2, e3]; simp, .plain ns as' ys p m as v xs d' hn ha' hv' hd'⟩
                  · cases h
              · rename_i as ha
                cases h
                obtain ⟨as', e2, ha'⟩ := readMaybeAttributes_sound ha
                refine ⟨ns ++ as', by rw [e1, e2]; simp, ?_⟩
                have := Doc.plain ns as' [] p m as none [] [] hn ha' .none .nil
                simpa using this

/-- The document of a text, for concrete cases. -/
def docOf (input : List Byte) : Option (List SNode) :=
  match parseBuffer 300 input with
  | .ok st =>
    match readNodes 300 (noWs st.out.reverse) with
    | some (d, []) => some d
    | _ => none
  | _ => none

theorem docOf_sound {input : List Byte} {d : List SNode} (h : docOf input = some d) : ∃ toks, Tokenizes input toks ∧ Doc (noWs toks) d := by
  unfold docOf at h
  split at h
  · rename_i st hst
    split at h
    · rename_i d' hd
      cases h
      obtain ⟨us, e, hd⟩ := readNodes_sound 300 _ hd
      exact ⟨_, ⟨300, st, hst, rfl⟩, by rw [e, List.append_nil]; exact hd⟩
    · cases h
  · cases h

end Xmq
