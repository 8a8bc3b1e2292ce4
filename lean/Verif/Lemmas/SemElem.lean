import Verif.Lemmas.Sem
/-!
# Reading elements, attributes and comments
-/
namespace Xmq
open Spec

set_option linter.unusedSectionVars false
variable [Mode]

/-- A name: not empty, bytes of names, no colon or (if there may be prefixes) one in between. -/
structure NameOk (name : List Byte) : Prop where
  ne : name ≠ []
  bytes : ∀ b ∈ name, isXmqTextName b = true
  colon : (58 : Byte) ∉ name ∨ (Mode.qual = true ∧ ∃ p n, name = p ++ 58 :: n ∧ p ≠ [] ∧ (58 : Byte) ∉ p ∧ (58 : Byte) ∉ n)

theorem takeName {name k : List Byte} (hb : ∀ b ∈ name, isXmqTextName b = true) (hk : ∀ c, k.head? = some c → isXmqTextName c = false) :
    (name ++ k).takeWhile isXmqTextName = name := by
  rw [List.takeWhile_append_of_pos hb]
  cases k with
  | nil => simp
  | cons c k => simp [hk c rfl]

theorem eatXmqTextName_plain (st : St) (name k : List Byte) (hb : ∀ b ∈ name, isXmqTextName b = true) (hc : (58 : Byte) ∉ name)
    (hk : ∀ c, k.head? = some c → isXmqTextName c = false) (hr : st.rest = name ++ k) :
    eatXmqTextName st = (st.advance name.length, none, name) := by
  unfold eatXmqTextName
  simp only [hr, takeName hb hk]
  rw [if_neg]
  simp only [List.any_eq_true, not_exists, not_and, beq_iff_eq]
  rintro x hx rfl
  exact hc hx

theorem eatXmqTextName_qual (st : St) (p n k : List Byte) (hb : ∀ b ∈ p ++ 58 :: n, isXmqTextName b = true)
    (hn : (58 : Byte) ∉ n) (hk : ∀ c, k.head? = some c → isXmqTextName c = false) (hr : st.rest = (p ++ 58 :: n) ++ k) :
    eatXmqTextName st = (st.advance (p ++ 58 :: n).length, some p, n) := by
  unfold eatXmqTextName
  simp only [hr, takeName hb hk]
  have htw : (p ++ 58 :: n).reverse.takeWhile (· != (58 : Byte)) = n.reverse := by
    rw [List.reverse_append, List.reverse_cons, List.append_assoc, List.takeWhile_append_of_pos (fun x hx => by
      simp; rintro rfl; exact hn (by simpa using hx))]
    simp
  rw [if_pos (by simp), htw]
  simp only [List.reverse_reverse]
  congr 2
  rw [show (p ++ 58 :: n).length - n.length - 1 = p.length by simp; omega, List.take_left' rfl]

/-- The tokens of a name. -/
def nameToks (ns : Option (List Byte)) (nm : List Byte) (nsKind nameKind : Kind) (l c : Nat) : List Tok :=
  match ns with
  | none => [⟨nameKind, l, c, nm⟩]
  | some p => [⟨nsKind, l, c, p⟩, ⟨.ns_colon, l, c + p.length, [58]⟩, ⟨nameKind, l, c + p.length + 1, nm⟩]

theorem At.named {st : St} {name k nm : List Byte} {ns : Option (List Byte)} {nsKind nameKind : Kind} {col : Nat} {b b' : List Open}
    (h : At st (name ++ k) col b)
    (hb : ∀ l, (nameToks ns nm nsKind nameKind l col).foldlM flatStep ([], b) = some ([], b')) :
    At (emitName st (st.advance name.length) ns nm nsKind nameKind) k (colw col name) b' := by
  rw [advance_eq _ _ (by simp [h.rest])]
  have h0 : bldP (st.moved name.length) = some ([], b) := bld_some.1 h.built
  have hr : (st.moved name.length).rest = k := by simp [h.rest]
  have hc : (st.moved name.length).col = colw col name := by
    simp only [St.moved, h.rest, h.col]
    rw [List.take_left' rfl]
    exact walk_snd _ _ _ _
  have := hb st.line
  unfold emitName
  cases ns with
  | none =>
    refine ⟨hr, hc, bld_some.2 ?_⟩
    rw [bldP_emit, h0, h.col]
    simpa [nameToks] using this
  | some p =>
    refine ⟨hr, hc, bld_some.2 ?_⟩
    simp only [bldP_emit, h0, h.col]
    simpa [nameToks, Option.bind_assoc] using this

theorem not_special_byte {n : List Byte} (h : ∀ b ∈ n, isXmqTextName b = true) : specialName n = false := by
  cases n with
  | nil => rfl
  | cons c t =>
    have hc := h c (by simp)
    simp only [specialName, peek_cons, Bool.or_eq_false_iff, beq_eq_false_iff_ne]
    constructor <;> (rintro rfl; revert hc; decide)

theorem specialName_append {p q : List Byte} (h : p ≠ []) : specialName (p ++ q) = specialName p := by
  cases p with
  | nil => exact absurd rfl h
  | cons c t => rfl

/-- Attribute lists. -/
def AS (st st' : St) : Prop :=
  ∀ r, Ev (fun F => parseXmqAttributes F st') r → Ev (fun F => parseXmqAttributes F st) r

def A (w : List Byte) (col : Nat) (b : List Open) (w' : List Byte) (col' : Nat) (b' : List Open) : Prop :=
  ∀ st, At st w col b → ∃ st', At st' w' col' b' ∧ AS st st'

theorem A.refl (w : List Byte) (col : Nat) (b : List Open) : A w col b w col b := fun st h => ⟨st, h, fun _ h => h⟩

theorem A.trans {w1 w2 w3 : List Byte} {c1 c2 c3 : Nat} {b1 b2 b3 : List Open} (h : A w1 c1 b1 w2 c2 b2)
    (k : A w2 c2 b2 w3 c3 b3) : A w1 c1 b1 w3 c3 b3 := by
  intro st hst
  obtain ⟨s2, h2, hx⟩ := h st hst
  obtain ⟨s3, h3, hy⟩ := k s2 h2
  exact ⟨s3, h3, fun r hr => hx r (hy r hr)⟩

theorem as_ws {st : St} {ws k : List Byte} {col : Nat} {b : List Open} (h : At st (ws ++ k) col b) (hw : Ws ws)
    (hk : countWhitespace k = 0) : AS st (skipWs st) ∧ AS (skipWs st) st := by
  cases ws with
  | nil =>
    rw [At.skipWs_same (k := k) h hk]
    exact ⟨fun _ h => h, fun _ h => h⟩
  | cons c ws =>
    have hr : st.rest = c :: (ws ++ k) := h.rest
    have hc : c = 32 ∨ c = 10 := hw c (by simp)
    have hx : isXmlWhitespace c = true := by rcases hc with rfl | rfl <;> rfl
    have hs : skipWs st = parseXmqWhitespace st := by
      unfold skipWs; rw [hr]; simp [hx]
    have hstep : ∀ F, parseXmqAttributes (F + 1) st = parseXmqAttributes F (parseXmqWhitespace st) := by
      intro F; rw [parseXmqAttributes]; simp only [hr]; rw [if_pos hx]
    rw [hs]
    exact ⟨fun r hx => Ev.succ (Ev.congr hstep hx), fun r hx => Ev.congr (fun F => (hstep F).symm) hx.pred⟩

theorem A_ws {ws k : List Byte} (hw : Ws ws) (hk : countWhitespace k = 0) (col : Nat) (b : List Open) :
    A (ws ++ k) col b k (colw col ws) b :=
  fun st h => ⟨skipWs st, h.skipWs hw hk, (as_ws h hw hk).1⟩

/-- `k` is whitespace followed by something that does not start with whitespace or one of the given bytes. -/
def Calm (bad : List Byte) (k : List Byte) : Prop :=
  ∃ ws k', k = ws ++ k' ∧ Ws ws ∧ countWhitespace k' = 0 ∧ ∀ c, k'.head? = some c → c ∉ bad

theorem Calm.mono {bad bad' : List Byte} {k : List Byte} (h : Calm bad k) (hb : ∀ c ∈ bad', c ∈ bad) : Calm bad' k := by
  obtain ⟨ws, k', h1, h2, h3, h4⟩ := h
  exact ⟨ws, k', h1, h2, h3, fun c hc hm => h4 c hc (hb c hm)⟩

/-- A byte that cannot be part of a name ends the name. -/
def NameEnd (k : List Byte) : Prop := ∀ c, k.head? = some c → isXmqTextName c = false

theorem nameByte_class (c : Byte) (h : isXmqTextName c = true) :
    isXmqAttributeKeyStart c = true ∧ isXmlWhitespace c = false ∧ c ≠ 41 ∧ c ≠ 0xc2 ∧ c ≠ 0xe2 ∧ isCont c = false ∧ c ≠ 10 ∧
    c ≠ 32 ∧ c ≠ 61 ∧ c ≠ 40 ∧ c ≠ 123 ∧ c ≠ 39 ∧ c ≠ 47 ∧ c ≠ 125 ∧ c ≠ 59 ∧ c ≠ 0 ∧ c ≠ 1 ∧ c ≠ 42 ∧ c ≠ 38 := by
  revert h; revert c
  apply forall_byte (P := fun c => isXmqTextName c = true →
    isXmqAttributeKeyStart c = true ∧ isXmlWhitespace c = false ∧ c ≠ 41 ∧ c ≠ 0xc2 ∧ c ≠ 0xe2 ∧ isCont c = false ∧ c ≠ 10 ∧
    c ≠ 32 ∧ c ≠ 61 ∧ c ≠ 40 ∧ c ≠ 123 ∧ c ≠ 39 ∧ c ≠ 47 ∧ c ≠ 125 ∧ c ≠ 59 ∧ c ≠ 0 ∧ c ≠ 1 ∧ c ≠ 42 ∧ c ≠ 38)
  decide +kernel

/-- What a fresh attribute looks like on the stack. -/
def Open.attr (o : Open) (name : List Byte) (vs : List Val) : Open :=
  { o with attrs := ⟨name, vs⟩ :: o.attrs, lastAttr := true }

theorem specialAttr_plain {n : List Byte} (h : (58 : Byte) ∉ n) : specialAttr n = (n == b#"xmlns") := by
  unfold specialAttr
  have : (b#"xmlns:").isPrefixOf n = false := by
    cases hp : (b#"xmlns:").isPrefixOf n with
    | false => rfl
    | true =>
      rw [List.isPrefixOf_iff_prefix] at hp
      obtain ⟨t, rfl⟩ := hp
      exact absurd (by simp) h
  rw [this, Bool.or_false]

theorem specialAttr_qual {p n : List Byte} (h : (58 : Byte) ∉ p) : specialAttr (p ++ 58 :: n) = (p == b#"xmlns") := by
  unfold specialAttr
  have h1 : (p ++ 58 :: n == b#"xmlns") = false := by
    rw [beq_eq_false_iff_ne]
    intro e
    have : (58 : Byte) ∈ (b#"xmlns" : List Byte) := by rw [← e]; simp
    revert this; decide
  rw [h1, Bool.false_or]
  by_cases hp : p = b#"xmlns"
  · subst hp; simp [List.isPrefixOf]
  · rw [(beq_eq_false_iff_ne).2 hp]
    cases hq : (b#"xmlns:").isPrefixOf (p ++ 58 :: n) with
    | false => rfl
    | true =>
      rw [List.isPrefixOf_iff_prefix] at hq
      obtain ⟨t, ht⟩ := hq
      exfalso
      apply hp
      have e1 : (b#"xmlns:" ++ t : List Byte).takeWhile (· != 58) = b#"xmlns" := by simp
      have e2 : (p ++ 58 :: n).takeWhile (· != 58) = p := by
        rw [List.takeWhile_append_of_pos (fun x hx => by simp; rintro rfl; exact h hx)]; simp
      rw [← e2, ← ht, e1]

theorem attr_name {st : St} {name k : List Byte} {col : Nat} {o : Open} {stk : List Open} (hn : NameOk name)
    (hx : Mode.qual = true ∨ name ≠ b#"xmlns") (hk : NameEnd k) (h : At st (name ++ k) col (o :: stk)) :
    At (attributeName st) k (colw col name) (o.attr name [] :: stk) := by
  unfold attributeName
  rcases hn.colon with hc | ⟨hq, p, n, rfl, hp, hpc, hnc⟩
  · rw [eatXmqTextName_plain st name k hn.bytes hc hk h.rest]
    dsimp only
    have hsp := specialAttr_plain hc
    split
    · rename_i hxm
      refine At.named h (fun l => ?_)
      rcases hx with hx | hx
      · simp [nameToks, flatStep, hx, addAttr, Open.attr, hxm]
      · exact absurd hxm hx
    · rename_i hxm
      refine At.named h (fun l => ?_)
      rw [(beq_eq_false_iff_ne).2 hxm] at hsp
      cases hm : Mode.qual <;> simp [nameToks, flatStep, hm, addAttr, Open.attr, buildStep, hsp, hc]
  · rw [eatXmqTextName_qual st p n k hn.bytes hnc hk h.rest]
    dsimp only
    have hsp := specialAttr_qual (n := n) hpc
    split
    · rename_i hxm
      refine At.named h (fun l => ?_)
      subst hxm
      simp [nameToks, flatStep, hq, addAttr, Open.attr, renameAttr]
    · rename_i hxm
      refine At.named h (fun l => ?_)
      rw [(beq_eq_false_iff_ne).2 hxm] at hsp
      simp [nameToks, flatStep, hq, addAttr, Open.attr, hsp, hnc, hp]

theorem attr_step {st : St} {name k : List Byte} {col : Nat} {b : List Open} (hn : NameOk name)
    (h : At st (name ++ k) col b) (F : Nat) :
    parseXmqAttributes (F + 1) st = (parseXmqAttribute F st).bind (parseXmqAttributes F) := by
  cases name with
  | nil => exact absurd rfl hn.ne
  | cons c t =>
    have hr : st.rest = c :: (t ++ k) := h.rest
    have hc := nameByte_class c (hn.bytes c (by simp))
    rw [parseXmqAttributes]
    simp only [hr]
    rw [if_neg (by simp [hc.2.1]), if_neg (by simpa using hc.2.2.1), if_pos hc.1]

theorem A_attr_bare {name k : List Byte} (hn : NameOk name) (hx : Mode.qual = true ∨ name ≠ b#"xmlns") (hk : NameEnd k)
    (hc : Calm [61] k) (col : Nat) (o : Open) (stk : List Open) :
    A (name ++ k) col (o :: stk) k (colw col name) (o.attr name [] :: stk) := by
  intro st hst
  have h1 := attr_name hn hx hk hst
  refine ⟨attributeName st, h1, fun r hr => ?_⟩
  obtain ⟨ws, k', rfl, hw, hcw, hh⟩ := hc
  have h2 := h1.skipWs hw hcw
  apply Ev.succ
  refine Ev.congr (fun F => attr_step hn hst F) ?_
  refine Ev.bind (s := skipWs (attributeName st)) ?_ ((as_ws h1 hw hcw).2 r hr)
  refine Ev.congr (fun F => ?_) (Ev.const _)
  rw [parseXmqAttribute_eq, h2.rest, if_neg]
  simp only [beq_iff_eq]
  intro h61
  cases k' with
  | nil => cases h61
  | cons c k' => exact hh c rfl (by simpa using h61)

theorem A_attr_value {name ws vw k : List Byte} (hn : NameOk name) (hx : Mode.qual = true ∨ name ≠ b#"xmlns") (hw : Ws ws) {col : Nat}
    {o : Open} {stk : List Open} {vs : List Val}
    (hv : ∀ (b : List Open) (f : List Val → List Open), Recv (specialAttr name) b f →
      P (fun F st => parseXmqValue F st .attrValue) (vw ++ k) (colw col (name ++ (ws ++ [61]))) b k
        (colw (colw col (name ++ (ws ++ [61]))) vw) (f vs)) :
    A (name ++ (ws ++ 61 :: (vw ++ k))) col (o :: stk) k (colw col (name ++ (ws ++ 61 :: vw))) (o.attr name (mergeVals vs) :: stk) := by
  intro st hst
  have hend : NameEnd (ws ++ 61 :: (vw ++ k)) := by
    intro c hc
    cases ws with
    | nil => simp at hc; subst hc; decide
    | cons x ws =>
      simp at hc; subst hc
      rcases hw x (by simp) with rfl | rfl <;> decide
  have h1 := attr_name hn hx hend hst
  have h2 := h1.skipWs hw (countWhitespace_of_head (by decide) (by decide) (by decide))
  have h3 := h2.one .equals (b' := o.attr name [] :: stk) (fun _ => by rw [bstep_same _ _ (by simp)]; rfl)
  rw [← colw_append, ← colw_append] at h3
  have hrecv := recv_attr o stk name o.attrs
  obtain ⟨st', he, ha⟩ := hv _ _ hrecv _ h3
  refine ⟨st', ?_, fun r hr => ?_⟩
  · rw [← colw_append] at ha
    simpa [Open.attr] using ha
  · apply Ev.succ
    refine Ev.congr (fun F => attr_step hn hst F) ?_
    refine Ev.bind (s := st') ?_ hr
    refine Ev.congr (fun F => ?_) he
    rw [parseXmqAttribute_eq, h2.rest]
    rfl

/-! ## Elements -/

theorem PA_none {ws k : List Byte} (hw : Ws ws) (hk : countWhitespace k = 0) (h40 : k.head? ≠ some 40) (col : Nat)
    (b : List Open) : P parseElementAttributes (ws ++ k) col b k (colw col ws) b := by
  intro st hst
  have h1 := hst.skipWs hw hk
  refine ⟨skipWs st, ?_, h1⟩
  refine Ev.congr (fun F => ?_) (Ev.const _)
  unfold parseElementAttributes
  simp only [h1.rest]
  rw [if_neg]
  simp only [beq_iff_eq]
  rw [peek_eq_head? _ _ (by decide)]
  exact h40

/-- The top of the stack with an element as latest child. -/
def Open.elem (o : Open) (name : List Byte) (attrs : List Attr) (kids : List Node) : Open :=
  { o with kids := .element name attrs kids :: o.kids, lastAttr := false }

theorem PA_attrs {aw k : List Byte} {col : Nat} {o : Open} {stk : List Open} {name : List Byte} {as : List Attr}
    (hsn : specialName name = false) (h : ∀ o' stk', o'.attrs = [] → A (aw ++ 41 :: k) (colw col [40]) (o' :: stk') (41 :: k) (colw (colw col [40]) aw)
      ({ o' with attrs := as.reverse, lastAttr := true } :: stk')) :
    P parseElementAttributes (40 :: (aw ++ 41 :: k)) col (o.elem name [] [] :: stk) k (colw col (40 :: (aw ++ [41])))
      (o.elem name as [] :: stk) := by
  intro st hst
  have h40 : countWhitespace (40 :: (aw ++ 41 :: k)) = 0 := countWhitespace_of_head (by decide) (by decide) (by decide)
  have h41 : countWhitespace (41 :: k) = 0 := countWhitespace_of_head (by decide) (by decide) (by decide)
  have h2 := hst.one .apar_left (b' := ⟨false, name, [], [], false⟩ :: { o with lastAttr := false } :: stk)
    (fun _ => by rw [bstep_plain _ _ (by simp [special, Open.elem, hsn]) (by simp)]; simp [buildStep, pushLast, Open.elem])
  obtain ⟨st3, h3, has⟩ := h ⟨false, name, [], [], false⟩ _ rfl _ h2
  have h4 := h3.one .apar_right (b' := o.elem name as [] :: stk)
    (fun _ => by simp [bstep_same, buildStep, popLast, Open.elem])
  refine ⟨parseOne st3 .apar_right, ?_, ?_⟩
  · have hret : Ev (fun F => parseXmqAttributes F st3) (.ok st3) := by
      apply Ev.succ
      refine Ev.congr (fun F => ?_) (Ev.const _)
      rw [parseXmqAttributes]
      simp only [h3.rest]
      rw [if_neg (by decide), if_pos (by decide)]
    have : ∀ F, parseElementAttributes F st = (parseXmqAttributes F (parseOne st .apar_left)).bind
        (fun st => if peek (skipWs st).rest != 41 then .err .attributesNotClosed (skipWs st) else .ok (parseOne (skipWs st) .apar_right)) := by
      intro F
      unfold parseElementAttributes
      simp only [hst.skipWs_same h40, hst.rest]
      rfl
    refine Ev.congr this (Ev.bind (has _ hret) ?_)
    refine Ev.congr (fun F => ?_) (Ev.const _)
    rw [h3.skipWs_same h41, h3.rest]
    rfl
  · rw [show colw col (40 :: (aw ++ [41])) = colw (colw (colw col [40]) aw) [41] by
      rw [← colw_append, ← colw_append]; rfl]
    exact h4

/-- A value behind the equal sign. -/
theorem PB_value {ws vw k : List Byte} (hw : Ws ws) {col : Nat} {o : Open} {stk : List Open} {name : List Byte}
    {as : List Attr} {vs : List Val} {sp : Bool} (hsn : sp = false → specialName name = false) (hd : peek name ≠ 33)
    (hv : ∀ (b : List Open) (f : List Val → List Open), Recv sp b f →
      P (fun F st => parseXmqValue F st .elementValue) (vw ++ k) (colw col (ws ++ [61])) b k
        (colw (colw col (ws ++ [61])) vw) (f vs)) :
    P (fun F => parseElementBody F (parseXmq F)) (ws ++ 61 :: (vw ++ k)) col (o.elem name as [] :: stk) k
      (colw col (ws ++ 61 :: vw)) (o.elem name as (mergeNodes (vs.map Val.node)) :: stk) := by
  intro st hst
  have h1 := hst.skipWs hw (countWhitespace_of_head (by decide) (by decide) (by decide))
  have h2 := h1.one .equals (b' := o.elem name as [] :: stk) (fun _ => by rw [bstep_same _ _ (by simp)]; rfl)
  rw [← colw_append] at h2
  have hrecv := recv_element { o with lastAttr := false } stk name as o.kids rfl hsn hd
  obtain ⟨st', he, ha⟩ := hv _ _ hrecv _ h2
  refine ⟨st', ?_, ?_⟩
  · refine Ev.congr (fun F => ?_) he
    unfold parseElementBody
    simp only [h1.rest]
    rfl
  · rw [← colw_append, List.append_assoc] at ha
    exact ha

/-- Children in braces. -/
theorem PB_braces {ws bw k : List Byte} (hw : Ws ws) {col : Nat} {o : Open} {stk : List Open} {name : List Byte}
    {as : List Attr} {ns : List Node} (hsn : specialName name = false)
    (hb : ∀ o' stk', o'.kids = [] → o'.lastAttr = false → X (bw ++ 125 :: k) (colw col (ws ++ [123])) (o' :: stk') (125 :: k)
      (colw (colw col (ws ++ [123])) bw) (o'.addAll ns :: stk')) :
    P (fun F => parseElementBody F (parseXmq F)) (ws ++ 123 :: (bw ++ 125 :: k)) col (o.elem name as [] :: stk) k
      (colw col (ws ++ 123 :: (bw ++ [125]))) (o.elem name as (mergeNodes ns) :: stk) := by
  intro st hst
  have h125 : countWhitespace (125 :: k) = 0 := countWhitespace_of_head (by decide) (by decide) (by decide)
  have h1 := hst.skipWs hw (countWhitespace_of_head (by decide) (by decide) (by decide))
  have h2 := h1.one .brace_left (b' := ⟨false, name, as.reverse, [], false⟩ :: { o with lastAttr := false } :: stk)
    (fun _ => by rw [bstep_plain _ _ (by simp [special, Open.elem, hsn]) (by simp)]; simp [buildStep, pushLast, Open.elem])
  rw [← colw_append] at h2
  obtain ⟨st3, h3, hxs⟩ := hb ⟨false, name, as.reverse, [], false⟩ _ rfl rfl _ h2
  have h4 := h3.one .brace_right (b' := o.elem name as (mergeNodes ns) :: stk)
    (fun _ => by simp [bstep_same, buildStep, popLast, Open.elem, addAll_eq, mergeNodes])
  refine ⟨parseOne st3 .brace_right, ?_, ?_⟩
  · have hret : Ev (fun F => parseXmq F st3) (.ok st3) := by
      apply Ev.succ
      refine Ev.congr (fun F => ?_) (Ev.const _)
      rw [parseXmq]
      simp only [h3.rest]
      rw [if_neg (by decide), if_neg (by decide), if_neg (by decide), if_neg (by simp [isXmqCommentStart]), if_neg (by decide),
        if_neg (by simp [isXmqDoctypeStart]), if_neg (by simp [isXmqPiStart]), if_pos (by decide)]
    have : ∀ F, parseElementBody F (parseXmq F) st = (parseXmq F (parseOne (skipWs st) .brace_left)).bind
        (fun st => if peek (skipWs st).rest != 125 then .err .bodyNotClosed (skipWs st) else .ok (parseOne (skipWs st) .brace_right)) := by
      intro F
      unfold parseElementBody
      simp only [h1.rest]
      rfl
    refine Ev.congr this (Ev.bind (hxs _ hret) ?_)
    refine Ev.congr (fun F => ?_) (Ev.const _)
    rw [h3.skipWs_same h125, h3.rest]
    rfl
  · rw [show colw col (ws ++ 123 :: (bw ++ [125])) = colw (colw (colw col (ws ++ [123])) bw) [125] by
      rw [← colw_append, ← colw_append]; simp]
    exact h4

/-- The name of an element. -/
structure ElemName (name : List Byte) : Prop extends NameOk name where
  start : ∀ c, name.head? = some c → isXmqElementStart c = true

theorem elementStart_class (c : Byte) (h : isXmqElementStart c = true) :
    isXmqTokenWhitespace c = false ∧ c ≠ 39 ∧ c ≠ 38 ∧ c ≠ 47 ∧ c ≠ 33 ∧ c ≠ 63 := by
  revert h; revert c
  apply forall_byte (P := fun c => isXmqElementStart c = true →
    isXmqTokenWhitespace c = false ∧ c ≠ 39 ∧ c ≠ 38 ∧ c ≠ 47 ∧ c ≠ 33 ∧ c ≠ 63)
  decide +kernel

theorem elem_step {st : St} {name k : List Byte} {col : Nat} {b : List Open} (hn : ElemName name)
    (h : At st (name ++ k) col b) (F : Nat) :
    parseXmq (F + 1) st = (parseXmqElementInternal F (parseXmq F) st .element).bind (parseXmq F) := by
  cases name with
  | nil => exact absurd rfl hn.ne
  | cons c t =>
    have hr : st.rest = c :: (t ++ k) := h.rest
    have hs := hn.start c rfl
    have hc := elementStart_class c hs
    rw [parseXmq]
    simp only [hr]
    rw [if_neg (by simp [hc.1]), if_neg (by simpa using hc.2.1), if_neg (by simpa using hc.2.2.1),
      if_neg (by simp [isXmqCommentStart, hc.2.2.2.1]), if_pos hs]

theorem ElemName.notSpecial {name : List Byte} (hn : ElemName name) : specialName name = false := not_special_byte hn.bytes

theorem ElemName.notDoctype {name : List Byte} (hn : ElemName name) : peek name ≠ 33 := by
  have := hn.notSpecial
  simp [specialName] at this
  exact this.1

theorem elem_name {st : St} {name k : List Byte} {col : Nat} {o : Open} {stk : List Open} (hn : ElemName name)
    (hk : NameEnd k) (h : At st (name ++ k) col (o :: stk)) :
    At (parseElementName st .element) k (colw col name) (o.elem name [] [] :: stk) := by
  unfold parseElementName
  have hsp := hn.notSpecial
  rcases hn.colon with hc | ⟨hq, p, n, rfl, hp, hpc, hnc⟩
  · simp only [eatXmqTextName_plain st name k hn.bytes hc hk h.rest]
    refine At.named h (fun l => ?_)
    have hpk : peek name ≠ 33 ∧ peek name ≠ 63 := by simpa [specialName] using hsp
    split <;> cases hm : Mode.qual <;> simp [nameToks, flatStep, hm, buildStep, addTop, addChild, Open.elem, hc, hpk]
  · simp only [eatXmqTextName_qual st p n k hn.bytes hnc hk h.rest]
    refine At.named h (fun l => ?_)
    have h1 : specialName (p ++ [58]) = false := by
      rw [specialName_append hp] at hsp ⊢; exact hsp
    have h2 : specialName n = false := not_special_byte (fun b hb => hn.bytes b (by simp [hb]))
    split <;> simp [nameToks, flatStep, hq, addTop, addChild, Open.elem, hnc, h1, h2, hp]

/-- An element with a value or a body. -/
theorem X_elem {name w1 w2 k : List Byte} {col col1 col2 : Nat} {o : Open} {stk : List Open} {as : List Attr} {ks : List Node}
    (hn : ElemName name) (hk : NameEnd w1)
    (ha : P parseElementAttributes w1 (colw col name) (o.elem name [] [] :: stk) w2 col1 (o.elem name as [] :: stk))
    (hb : P (fun F => parseElementBody F (parseXmq F)) w2 col1 (o.elem name as [] :: stk) k col2 (o.elem name as ks :: stk)) :
    X (name ++ w1) col (o :: stk) k col2 (o.elem name as ks :: stk) := by
  refine X.step (fun F st => parseXmqElementInternal F (parseXmq F) st .element) (fun st hst F => elem_step hn hst F) ?_
  intro st hst
  have h1 := elem_name hn hk hst
  obtain ⟨s2, he2, h2⟩ := ha _ h1
  obtain ⟨s3, he3, h3⟩ := hb _ h2
  exact ⟨s3, Ev.bind he2 he3, h3⟩

/-- An element without value and body: the whitespace that follows is eaten already here. -/
theorem X_elem_bare {name w1 k : List Byte} {col col1 : Nat} {o : Open} {stk : List Open} {as : List Attr}
    (hn : ElemName name) (hk : NameEnd w1) (hc : Calm [61, 123] k)
    (ha : ∀ st, At st w1 (colw col name) (o.elem name [] [] :: stk) → ∃ st1 st2, At st1 k col1 (o.elem name as [] :: stk) ∧
      Ev (fun F => parseElementAttributes F st) (.ok st2) ∧ (st2 = st1 ∨ st2 = skipWs st1)) :
    X (name ++ w1) col (o :: stk) k col1 (o.elem name as [] :: stk) := by
  intro st hst
  obtain ⟨st1, st2, h1, he, h12⟩ := ha _ (elem_name hn hk hst)
  obtain ⟨ws, k', rfl, hw, hcw, hh⟩ := hc
  have hs1 := h1.skipWs hw hcw
  have hs2 : skipWs st2 = skipWs st1 := by
    rcases h12 with rfl | rfl
    · rfl
    · exact hs1.skipWs_same hcw
  refine ⟨st1, h1, fun r hr => ?_⟩
  apply Ev.succ
  refine Ev.congr (fun F => elem_step hn hst F) ?_
  refine Ev.bind (s := skipWs st1) (Ev.bind he ?_) ((xs_ws h1 hw hcw).2 r hr)
  refine Ev.congr (fun F => ?_) (Ev.const _)
  unfold parseElementBody
  simp only [hs2, hs1.rest]
  rw [if_neg, if_neg]
  · intro h
    cases k' with
    | nil => cases h
    | cons c k' => exact hh c rfl (by simp at h ⊢; exact .inr h)
  · intro h
    cases k' with
    | nil => cases h
    | cons c k' => exact hh c rfl (by simp at h ⊢; exact .inl h)

/-! ## Comments -/

theorem tookAll_comments {st : St} {n : Nat} {ts cs : List (List Byte)} {k : List Byte} {col : Nat} {o : Open}
    {stk : List Open} {c : List Byte} {ks : List Node} (h : At st (contText n ts ++ k) col ({ o with kids := .comment c :: ks } :: stk))
    (hl : cs.length = ts.length)
    (hu : ∀ col, ∀ p ∈ ts.zip cs, unComment (col - 1) 32 0 (List.replicate n 47 ++ 42 :: (p.1 ++ 42 :: List.replicate n 47)) = some p.2) :
    At (st.tookAll (ts.map fun t => (.comment_continuation, 42 :: (t ++ 42 :: List.replicate n 47)))) k (colw col (contText n ts))
      ({ o with kids := .comment (cs.foldl (fun c s => c ++ 10 :: s) c) :: ks } :: stk) := by
  induction ts generalizing st col cs c with
  | nil => cases cs <;> simp_all [St.tookAll, contText]
  | cons t ts ih =>
    cases cs with
    | nil => simp at hl
    | cons c1 cs =>
      rw [List.map_cons, St.tookAll]
      have e : contText n (t :: ts) = (42 :: (t ++ 42 :: List.replicate n 47)) ++ contText n ts := by simp [contText]
      rw [e, colw_append]
      rw [e, List.append_assoc] at h
      have hsl : (List.drop 1 (42 :: (t ++ 42 :: List.replicate n 47))).reverse.takeWhile (· == (47 : Byte)) =
          List.replicate n 47 := by
        simp only [List.drop_succ_cons, List.drop_zero, List.reverse_append, List.reverse_cons, List.reverse_replicate,
          List.append_assoc]
        rw [List.takeWhile_append_of_pos (by simp)]
        simp
      rw [List.foldl_cons]
      refine ih (cs := cs) (h.took (b' := { o with kids := .comment (c ++ 10 :: c1) :: ks } :: stk) _ (fun line => ?_)) (by simpa using hl)
        (fun col p hp => hu col p (by simp [hp]))
      have := hu col (t, c1) (by simp)
      rw [bstep_same _ _ (by simp)]
      simp only [buildStep, hsl, this]
      rfl

theorem X_comment_block {n : Nat} (hn : 0 < n) {t : List Byte} {ts cs : List (List Byte)} {k : List Byte} {col : Nat} {c : List Byte}
    (hb : ∀ x ∈ t :: ts, ¬ (42 :: List.replicate n 47) <:+: x) (hf : k.head? ≠ some 47)
    (hf2 : k.head? ≠ some 42) (hl : cs.length = ts.length)
    (hu1 : unComment (col - 1) 32 0 (List.replicate n 47 ++ 42 :: (t ++ 42 :: List.replicate n 47)) = some c)
    (hu : ∀ col, ∀ p ∈ ts.zip cs, unComment (col - 1) 32 0 (List.replicate n 47 ++ 42 :: (p.1 ++ 42 :: List.replicate n 47)) = some p.2)
    (o : Open) (stk : List Open) :
    X ((List.replicate n 47 ++ 42 :: (t ++ 42 :: List.replicate n 47)) ++ (contText n ts ++ k)) col (o :: stk) k
      (colw col ((List.replicate n 47 ++ 42 :: (t ++ 42 :: List.replicate n 47)) ++ contText n ts))
      (o.add (.comment (cs.foldl (fun c s => c ++ 10 :: s) c)) :: stk) := by
  obtain ⟨m, rfl⟩ : ∃ j, n = j + 1 := ⟨n - 1, by omega⟩
  refine X.step (fun F st => parseXmqComment F st) ?_ ?_
  · intro st hst F
    have hr : st.rest = 47 :: ((List.replicate m 47 ++ 42 :: (t ++ 42 :: List.replicate (m + 1) 47)) ++ (contText (m + 1) ts ++ k)) := by
      rw [hst.rest, List.replicate_succ]; rfl
    have hp : ∀ r, peek ((List.replicate m (47 : Byte) ++ 42 :: r)) = 47 ∨ peek ((List.replicate m (47 : Byte) ++ 42 :: r)) = 42 := by
      intro r
      cases m with
      | zero => right; rfl
      | succ m => left; rw [List.replicate_succ]; rfl
    rw [parseXmq]; simp only [hr]
    rw [if_neg (by decide), if_neg (by decide), if_neg (by decide), if_pos]
    simp only [isXmqCommentStart, List.append_assoc, List.cons_append]
    rcases hp (t ++ 42 :: (List.replicate (m + 1) 47 ++ (contText (m + 1) ts ++ k))) with h | h <;> simp [h]
  · intro st hst
    refine ⟨_, ⟨ts.length, fun F hF => parseXmqComment_block (m + 1) hn t ts k hb hf hf2 st F hF hst.rest⟩, ?_⟩
    rw [St.tookAll, colw_append]
    have h1 := hst.took (kd := .comment) (b' := { o with kids := .comment c :: o.kids, lastAttr := false } :: stk) (fun line => by
      simp [bstep_same, buildStep, hu1, addTop, addChild])
    exact tookAll_comments (o := { o with lastAttr := false }) h1 hl hu

theorem X_comment_eol {body k : List Byte} {col : Nat} {c : List Byte} (h10 : (10 : Byte) ∉ body)
    (hu : unComment (col - 1) 32 0 (47 :: 47 :: 32 :: (body ++ [10])) = some c) (o : Open) (stk : List Open) :
    X (47 :: 47 :: 32 :: (body ++ 10 :: k)) col (o :: stk) k 1 (o.add (.comment c) :: stk) := by
  refine X.step (fun F st => parseXmqComment F st) ?_ ?_
  · intro st hst F
    rw [parseXmq]; simp only [hst.rest]
    rw [if_neg (by decide), if_neg (by decide), if_neg (by decide), if_pos]
    simp [isXmqCommentStart]
  · intro st hst
    have hcol : colw col (47 :: 47 :: 32 :: (body ++ [10])) = 1 := by
      rw [show (47 :: 47 :: 32 :: (body ++ [10]) : List Byte) = (47 :: 47 :: 32 :: body) ++ [10] by simp, colw_append]
      rfl
    have hr : st.rest = (47 :: 47 :: 32 :: (body ++ [10])) ++ k := by rw [hst.rest]; simp
    refine ⟨st.took .comment (47 :: 47 :: 32 :: (body ++ [10])), Ev.congr (fun F => ?_) (Ev.const _), ?_⟩
    · have hcs : countXmqSlashes st.rest = (2, false) := by
        rw [hst.rest]; simp [countXmqSlashes]
      have hne : ∀ x ∈ body, (x != (10 : Byte)) = true := by
        intro x hx; simp; rintro rfl; exact h10 hx
      have hd : st.rest.drop 2 = 32 :: (body ++ 10 :: k) := by rw [hst.rest]; rfl
      have htw : (32 :: (body ++ 10 :: k) : List Byte).takeWhile (· != (10 : Byte)) = 32 :: body := by
        rw [List.takeWhile_cons_of_pos (by decide), List.takeWhile_append_of_pos hne]; simp
      have hdw : (32 :: (body ++ 10 :: k) : List Byte).dropWhile (· != (10 : Byte)) = 10 :: k := by
        rw [List.dropWhile_cons_of_pos (by decide), List.dropWhile_append_of_pos hne]; simp
      have := emitSpan_took st .comment _ k hr
      unfold parseXmqComment eatXmqCommentToEol
      simp only [hcs, hd, htw, hdw]
      rw [show (47 :: 47 :: 32 :: (body ++ [10]) : List Byte).length = 2 + (32 :: body).length + 1 by simp; omega] at this
      exact congrArg Res.ok this
    · rw [← hcol]
      refine At.took (t := 47 :: 47 :: 32 :: (body ++ [10])) ⟨hr, hst.col, hst.built⟩ _ (fun line => ?_)
      simp [bstep_same, buildStep, hu, addTop, Open.add]

end Xmq
