import Verif.Lemmas.JsonRead
/-!
# The document made for a JSON value
-/
namespace Xmq
open Spec

/-- The attribute that keeps a key that is no name. -/
def keyAttrL (key : Option (List Byte)) : List Attr :=
  match (keyInfo key).unsafeKey with
  | some u => [⟨b#"_", [.text u]⟩]
  | none => []

/-- The attribute `S` of texts that look like something else. -/
def strAttrL (s : List Byte) : List Attr :=
  if !s.isEmpty && (jsonIsKeyword s || jsonIsNumber s) then [⟨b#"S", []⟩] else []

mutual
/-- The element for a value. -/
def toNode (key : Option (List Byte)) : JV → Node
  | .str s => .element (keyInfo key).name (keyAttrL key ++ strAttrL s) [.text s]
  | .num s => .element (keyInfo key).name (keyAttrL key) [.text s]
  | .bool true => .element (keyInfo key).name (keyAttrL key) [.text b#"true"]
  | .bool false => .element (keyInfo key).name (keyAttrL key) [.text b#"false"]
  | .null => .element (keyInfo key).name (keyAttrL key) [.text b#"null"]
  | .arr vs => .element (keyInfo key).name (keyAttrL key ++ [⟨b#"A", []⟩]) (elemNodes vs)
  | .obj ms => .element (keyInfo key).name (keyAttrL key) (membNodes ms)
/-- The elements for the elements of an array. -/
def elemNodes : JVs → List Node
  | .nil => []
  | .cons v vs => toNode none v :: elemNodes vs
/-- The elements for the members of an object. -/
def membNodes : JMs → List Node
  | .nil => []
  | .cons k v ms => toNode (some k) v :: membNodes ms
end

/-- What is needed of a key. -/
structure KeyFine (key : Option (List Byte)) : Prop where
  ns : (keyInfo key).ns = none
  keep : ∀ u, (keyInfo key).unsafeKey = some u → cstr u = u
  plain : ∀ s, strToks key s = (keyInfo key).nameToks ++
    parToks ((keyInfo key).keyAttr ++ (if !s.isEmpty && (jsonIsKeyword s || jsonIsNumber s) then [.tok .attr_key b#"S"] else [])) ++
      [.tok .element_value_text s]
  null : nullToks key = literalToks key b#"null"

theorem keyFine_none : KeyFine none where
  ns := rfl
  keep := by intro u h; cases h
  plain := by intro s; rfl
  null := rfl

/-- The callbacks for the name and the attributes. -/
theorem build_head (key : Option (List Byte)) (hk : KeyFine key) (extra : List (List Byte)) (he : extra.length ≤ 1) (o : Open) (st : List Open) :
    ((keyInfo key).nameToks ++ parToks ((keyInfo key).keyAttr ++ extra.map (JTok.tok .attr_key ·))).foldlM jsonStep (o :: st) =
      some ({ o with kids := .element (keyInfo key).name (keyAttrL key ++ extra.map (⟨·, []⟩)) [] :: o.kids, lastAttr := false } :: st) := by
  have h1 := hk.ns
  have h2 := hk.keep
  unfold KeyInfo.nameToks KeyInfo.keyAttr keyAttrL parToks
  generalize hki : keyInfo key = k at h1 h2 ⊢
  obtain ⟨ns, name, uk⟩ := k
  cases h1
  cases uk with
  | none =>
    match extra, he with
    | [], _ => rfl
    | [e], _ => rfl
  | some u =>
    have hu := h2 u rfl
    match extra, he with
    | [], _ => simp [List.foldlM, jsonStep, addTop, addChild, pushLast, popLast, addToLast, Val.node, Node.val?, hu]
    | [e], _ => simp [List.foldlM, jsonStep, addTop, addChild, pushLast, popLast, addToLast, Val.node, Node.val?, hu]

theorem build_leaf (key : Option (List Byte)) (hk : KeyFine key) (extra : List (List Byte)) (he : extra.length ≤ 1) (s : List Byte)
    (hs : cstr s = s) (o : Open) (st : List Open) :
    ((keyInfo key).nameToks ++ parToks ((keyInfo key).keyAttr ++ extra.map (JTok.tok .attr_key ·)) ++
        [JTok.tok .element_value_text s]).foldlM jsonStep (o :: st) =
      some ({ o with kids := .element (keyInfo key).name (keyAttrL key ++ extra.map (⟨·, []⟩)) [.text s] :: o.kids, lastAttr := false } :: st) := by
  rw [List.foldlM_append, build_head key hk extra he]
  simp [jsonStep, addToLast, addChild, Val.node, hs]

theorem build_literal (key : Option (List Byte)) (hk : KeyFine key) (s : List Byte) (hs : cstr s = s) (o : Open) (st : List Open) :
    (literalToks key s).foldlM jsonStep (o :: st) =
      some ({ o with kids := .element (keyInfo key).name (keyAttrL key) [.text s] :: o.kids, lastAttr := false } :: st) := by
  have := build_leaf key hk [] (by simp) s hs o st
  simpa [literalToks] using this

theorem build_block (key : Option (List Byte)) (hk : KeyFine key) (extra : List (List Byte)) (he : extra.length ≤ 1)
    (body : List JTok) (nodes : List Node) (o : Open) (st : List Open)
    (hb : ∀ (o : Open) (st : List Open), ∃ l, body.foldlM jsonStep (o :: st) = some ({ o with kids := nodes.reverse ++ o.kids, lastAttr := l } :: st)) :
    ((keyInfo key).nameToks ++ parToks ((keyInfo key).keyAttr ++ extra.map (JTok.tok .attr_key ·)) ++ [JTok.tok .brace_left b#"{"] ++ body ++
        [JTok.tok .brace_right b#"}"]).foldlM jsonStep (o :: st) =
      some ({ o with kids := .element (keyInfo key).name (keyAttrL key ++ extra.map (⟨·, []⟩)) nodes :: o.kids, lastAttr := false } :: st) := by
  rw [List.foldlM_append, List.foldlM_append, List.foldlM_append, build_head key hk extra he]
  obtain ⟨l, h⟩ := hb ⟨false, (keyInfo key).name, (keyAttrL key ++ extra.map (fun e => (⟨e, []⟩ : Attr))).reverse, [], false⟩ ({ o with lastAttr := false } :: st)
  simp only [Option.bind_eq_bind, Option.bind_some, List.foldlM_cons, List.foldlM_nil, jsonStep, pushLast, Bool.false_eq_true, if_false,
    List.reverse_nil, Option.pure_def, h]
  simp [popLast]

/-- What is needed of the strings and keys of a value. -/
def Buildable (v : JV) : Prop := v.Ok (fun s => cstr s = s) (fun s => cstr s = s) (fun k _ => KeyFine (some k)) (fun _ => True)

mutual
theorem build_value (v : JV) (hv : v.Ok (fun s => cstr s = s) (fun s => cstr s = s) (fun k _ => KeyFine (some k)) (fun _ => True))
    (key : Option (List Byte)) (hk : KeyFine key) (o : Open) (st : List Open) :
    (valToks key v).foldlM jsonStep (o :: st) = some ({ o with kids := toNode key v :: o.kids, lastAttr := false } :: st) := by
  match v, hv with
  | .str s, hv =>
    rw [valToks, toNode, hk.plain s]
    unfold strAttrL
    by_cases h : (!s.isEmpty && (jsonIsKeyword s || jsonIsNumber s)) = true
    · rw [if_pos h, if_pos h]
      exact build_leaf key hk [b#"S"] (by simp) s hv o st
    · rw [if_neg h, if_neg h]
      exact build_leaf key hk [] (by simp) s hv o st
  | .num s, hv => rw [valToks, toNode]; exact build_literal key hk s hv o st
  | .bool true, _ => rw [valToks, toNode]; exact build_literal key hk _ rfl o st
  | .bool false, _ => rw [valToks, toNode]; exact build_literal key hk _ rfl o st
  | .null, _ => rw [valToks, toNode, hk.null]; exact build_literal key hk _ rfl o st
  | .arr vs, hv =>
    rw [JV.Ok] at hv
    rw [valToks, toNode]
    exact build_block key hk [b#"A"] (by simp) (elemToks vs) (elemNodes vs) o st (build_elems vs hv)
  | .obj ms, hv =>
    rw [JV.Ok] at hv
    rw [valToks, toNode]
    have := build_block key hk [] (by simp) (membToks ms) (membNodes ms) o st (build_membs ms hv.2)
    simpa [objectToks] using this
theorem build_elems (vs : JVs) (hv : vs.Ok (fun s => cstr s = s) (fun s => cstr s = s) (fun k _ => KeyFine (some k)) (fun _ => True))
    (o : Open) (st : List Open) :
    ∃ l, (elemToks vs).foldlM jsonStep (o :: st) = some ({ o with kids := (elemNodes vs).reverse ++ o.kids, lastAttr := l } :: st) := by
  match vs, hv with
  | .nil, _ => exact ⟨o.lastAttr, rfl⟩
  | .cons v vs, hv =>
    rw [JVs.Ok] at hv
    obtain ⟨l, h⟩ := build_elems vs hv.2 { o with kids := toNode none v :: o.kids, lastAttr := false } st
    refine ⟨l, ?_⟩
    rw [elemToks, List.foldlM_append, build_value v hv.1 none keyFine_none]
    simp only [Option.bind_eq_bind, Option.bind_some, h, elemNodes, List.reverse_cons, List.append_assoc, List.singleton_append]
theorem build_membs (ms : JMs) (hv : ms.Ok (fun s => cstr s = s) (fun s => cstr s = s) (fun k _ => KeyFine (some k)) (fun _ => True))
    (o : Open) (st : List Open) :
    ∃ l, (membToks ms).foldlM jsonStep (o :: st) = some ({ o with kids := (membNodes ms).reverse ++ o.kids, lastAttr := l } :: st) := by
  match ms, hv with
  | .nil, _ => exact ⟨o.lastAttr, rfl⟩
  | .cons k v ms, hv =>
    rw [JMs.Ok] at hv
    obtain ⟨l, h⟩ := build_membs ms hv.2.2 { o with kids := toNode (some k) v :: o.kids, lastAttr := false } st
    refine ⟨l, ?_⟩
    rw [membToks, List.foldlM_append, build_value v hv.2.1 (some k) hv.1]
    simp only [Option.bind_eq_bind, Option.bind_some, h, membNodes, List.reverse_cons, List.append_assoc, List.singleton_append]
end

theorem build_doc (v : JV) (hv : v.Ok (fun s => cstr s = s) (fun s => cstr s = s) (fun k _ => KeyFine (some k)) (fun _ => True)) :
    buildJson (valToks none v) = some [toNode none v] := by
  unfold buildJson
  rw [build_value v hv none keyFine_none]
  rfl

/-! ### Keys -/

theorem cstr_of (s : List Byte) (h : ∀ c ∈ s, c ≠ 0) : cstr s = s := by
  unfold cstr
  induction s with
  | nil => rfl
  | cons c t ih =>
    rw [List.takeWhile_cons, if_pos (by simpa using h c List.mem_cons_self), ih fun x hx => h x (List.mem_cons_of_mem _ hx)]

theorem cstr_strOk {s : List Byte} (h : ∀ c ∈ s, JsonByte c) : cstr s = s :=
  cstr_of s fun c hc e => by have := h c hc; subst e; revert this; decide

theorem nameByte_facts (c : Byte) : JNameByte c → isXmqTextName c = true ∧ c ≠ b#':' ∧ c ≠ b#']' ∧ c ≠ 0 :=
  forall_byte (P := fun c => JNameByte c → isXmqTextName c = true ∧ c ≠ b#':' ∧ c ≠ b#']' ∧ c ≠ 0) (by decide +kernel) c

theorem nameByte_conv (c : Byte) : ¬ JNameByte c → c ≠ b#':' → isXmqTextName c = false :=
  forall_byte (P := fun c => ¬ JNameByte c → c ≠ b#':' → isXmqTextName c = false) (by decide +kernel) c

theorem letter_facts (c : Byte) : JLetter c → isXmqElementStart c = true ∧ c ≠ b#'_' ∧ c ≠ b#'|' ∧ c ≠ b#'/' ∧ c ≠ b#'!' ∧ c ≠ b#']' ∧
    JNameByte c :=
  forall_byte (P := fun c => JLetter c → isXmqElementStart c = true ∧ c ≠ b#'_' ∧ c ≠ b#'|' ∧ c ≠ b#'/' ∧ c ≠ b#'!' ∧ c ≠ b#']' ∧
    JNameByte c) (by decide +kernel) c

theorem letter_conv (c : Byte) : ¬ JLetter c → c ≠ b#'_' → isXmqElementStart c = false :=
  forall_byte (P := fun c => ¬ JLetter c → c ≠ b#'_' → isXmqElementStart c = false) (by decide +kernel) c

theorem trim_of_last (k : List Byte) (h : k.getLast? ≠ some b#']') : trimIndexSuffix k = k := by
  unfold trimIndexSuffix
  rw [← List.head?_reverse] at h
  split
  · rename_i c r e
    rw [e] at h
    rw [if_neg (by simpa using h)]
  · rfl

/-- The properties of a trimmed key from which `KeyFine` follows. -/
theorem keyFine_of (k : List Byte) (ht : trimIndexSuffix k = k) (hns : (keyInfo (some k)).ns = none)
    (hu : ∀ u, (keyInfo (some k)).unsafeKey = some u → cstr u = u)
    (h1 : k ≠ b#"|") (h2 : k ≠ b#"//") (h3 : k.head? ≠ some b#'_') : KeyFine (some k) where
  ns := hns
  keep := hu
  plain := by
    intro s
    have h4 : k ≠ b#"_//" := by rintro rfl; exact h3 rfl
    have h5 : k ≠ b#"_" := by rintro rfl; exact h3 rfl
    unfold strToks
    simp only [Option.map_some, ht, Option.some.injEq, h1, h2, h4, h5, if_false, false_and]
    unfold quoteToks
    dsimp only
    rw [if_neg]
    intro h
    rw [Bool.and_eq_true] at h
    obtain ⟨_, h⟩ := h
    simp only [Option.map_some, ht] at h
    split at h
    · rename_i c _ _ e
      cases e
      exact h3 (by simpa using h)
    · cases h
  null := by
    unfold nullToks
    rw [Option.map_some, ht]
    split
    · rename_i c d t e
      cases e
      rw [if_neg (by simpa using h3)]
    · rfl

theorem nameKey_trim {k : List Byte} (h : NameKey k) : trimIndexSuffix k = k := by
  obtain ⟨c, t, rfl, hc, ht⟩ := h
  refine trim_of_last _ ?_
  intro e
  have := List.mem_of_getLast? e
  rcases List.mem_cons.1 this with h | h
  · exact (letter_facts c hc).2.2.2.2.2.1 h.symm
  · exact (nameByte_facts _ (ht _ h)).2.2.1 rfl

theorem nameKey_info {k : List Byte} (h : NameKey k) : keyInfo (some k) = ⟨none, k, none⟩ := by
  have htr := nameKey_trim h
  obtain ⟨c, t, rfl, hc, ht⟩ := h
  unfold keyInfo
  rw [Option.map_some, htr]
  dsimp only
  have h1 : isXmqElementName (c :: t) = true := by
    unfold isXmqElementName
    simp only [(letter_facts c hc).1, Bool.true_and, List.all_eq_true]
    exact fun x hx => (nameByte_facts x (ht x hx)).1
  have h2 : ((c :: t).tail.any (· == b#':')) = false := by
    simp only [List.tail_cons, List.any_eq_false, beq_iff_eq]
    exact fun x hx => (nameByte_facts x (ht x hx)).2.1
  rw [if_pos h1, if_neg (by rw [h2]; simp)]

theorem otherKey_info {k : List Byte} (h : OtherKey k) :
    keyInfo (some k) = ⟨none, b#"_", if k = [] then none else some k⟩ := by
  obtain ⟨h1, h2, _⟩ := h
  have htr := trim_of_last k h2
  unfold keyInfo
  rw [Option.map_some, htr]
  rcases h1 with rfl | ⟨c, t, rfl, hc, h⟩
  · rfl
  · dsimp only
    have : isXmqElementName (c :: t) = false := by
      show (isXmqElementStart c && t.all isXmqTextName) = false
      rcases h with h | ⟨x, hx, h, h'⟩
      · rw [letter_conv c h hc, Bool.false_and]
      · rw [Bool.and_eq_false_iff, List.all_eq_false]
        exact .inr ⟨x, hx, by rw [nameByte_conv x h h']; simp⟩
    rw [if_neg (by rw [this]; simp)]
    rfl

theorem memberOk_fine {k : List Byte} {v : JV} (h : MemberOk k v) : KeyFine (some k) := by
  rcases h with h | ⟨h, hs, _⟩
  · have hi := nameKey_info h
    refine keyFine_of k (nameKey_trim h) (by rw [hi]) (by rw [hi]; intro u hu; cases hu) ?_ ?_ ?_
    all_goals
      obtain ⟨c, t, rfl, hc, ht⟩ := h
      have := letter_facts c hc
      intro e
      simp at e
    · exact this.2.2.1 e.1
    · exact this.2.2.2.1 e.1
    · exact this.2.1 e
  · have hi := otherKey_info h
    refine keyFine_of k (trim_of_last k h.2.1) (by rw [hi]) (by
      rw [hi]; intro u hu
      dsimp only at hu
      split at hu
      · cases hu
      · cases hu; exact cstr_strOk hs.2) h.2.2.1 h.2.2.2.1 ?_
    rcases h.1 with rfl | ⟨c, t, rfl, hc, _⟩
    · simp
    · simpa using hc

theorem memberOk_noDoctype {k : List Byte} {v : JV} (h : MemberOk k v) : NoDoctype k := by
  rcases h with ⟨c, t, rfl, hc, _⟩ | ⟨h, _⟩
  · intro e
    have := (letter_facts c hc).2.2.2.2.1
    simp at e
    exact this e.1
  · exact h.2.2.2.2

mutual
theorem JV.Ok.imp {N N' S S' : List Byte → Prop} {K K' : List Byte → JV → Prop} {O O' : JMs → Prop} (hN : ∀ s, N s → N' s)
    (hS : ∀ s, S s → S' s) (hK : ∀ k v, K k v → K' k v) (hO : ∀ m, O m → O' m) : (v : JV) → v.Ok N S K O → v.Ok N' S' K' O'
  | .str s, h => by rw [JV.Ok] at h ⊢; exact hS s h
  | .num s, h => by rw [JV.Ok] at h ⊢; exact hN s h
  | .bool _, _ => by rw [JV.Ok]; exact True.intro
  | .null, _ => by rw [JV.Ok]; exact True.intro
  | .arr vs, h => by rw [JV.Ok] at h ⊢; exact JVs.Ok.imp hN hS hK hO vs h
  | .obj ms, h => by rw [JV.Ok] at h ⊢; exact ⟨hO ms h.1, JMs.Ok.imp hN hS hK hO ms h.2⟩
theorem JVs.Ok.imp {N N' S S' : List Byte → Prop} {K K' : List Byte → JV → Prop} {O O' : JMs → Prop} (hN : ∀ s, N s → N' s)
    (hS : ∀ s, S s → S' s) (hK : ∀ k v, K k v → K' k v) (hO : ∀ m, O m → O' m) : (vs : JVs) → vs.Ok N S K O → vs.Ok N' S' K' O'
  | .nil, _ => by rw [JVs.Ok]; exact True.intro
  | .cons v vs, h => by rw [JVs.Ok] at h ⊢; exact ⟨JV.Ok.imp hN hS hK hO v h.1, JVs.Ok.imp hN hS hK hO vs h.2⟩
theorem JMs.Ok.imp {N N' S S' : List Byte → Prop} {K K' : List Byte → JV → Prop} {O O' : JMs → Prop} (hN : ∀ s, N s → N' s)
    (hS : ∀ s, S s → S' s) (hK : ∀ k v, K k v → K' k v) (hO : ∀ m, O m → O' m) : (ms : JMs) → ms.Ok N S K O → ms.Ok N' S' K' O'
  | .nil, _ => by rw [JMs.Ok]; exact True.intro
  | .cons k v ms, h => by rw [JMs.Ok] at h ⊢; exact ⟨hK k v h.1, JV.Ok.imp hN hS hK hO v h.2.1, JMs.Ok.imp hN hS hK hO ms h.2.2⟩
end

end Xmq
