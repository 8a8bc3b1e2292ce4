import Verif.Lemmas.ReadDoc
import Verif.Lemmas.SyntaxDoc
import Verif.Spec.Namespaces
/-!
# From the auxiliary tree of `Verif.Lemmas.FlatBuild` to the document as it is written
-/
namespace Xmq
open Spec

/-- A name with its prefix. -/
def qual (pre : Option (List Byte)) (name : List Byte) : List Byte :=
  match pre with
  | none => name
  | some p => p ++ 58 :: name

/-- An entry of an attribute list in the auxiliary tree. -/
def flatA : SAttr → Attr
  | .decl none v => ⟨b#"xmlns", joinVals (valsOf v)⟩
  | .decl (some p) v => ⟨b#"xmlns:" ++ p, joinVals (valsOf v)⟩
  | .attr p n v => ⟨qual p n, joinVals (valsOf v)⟩

mutual
/-- A node in the auxiliary tree. -/
def flatD : SNode → Node
  | .val v => v.node
  | .comment s => .comment s
  | .element pre name attrs value kids =>
    .element (qual pre name) ((attrs.getD []).map flatA) (joinTexts ((valsOf value).map Val.node ++ flatDs kids))
def flatDs : List SNode → List Node
  | [] => []
  | n :: ns => flatD n :: flatDs ns
end

/-- The value is one text. -/
def TextVal (v : Option SVal) : Prop := v = none ∨ ∃ s, v = some (.plain s) ∨ v = some (.quoted s)

/-- What the auxiliary builder checks of an attribute. -/
def SimpleA : SAttr → Prop
  | .decl _ v => TextVal v
  | .attr p n _ => (58 : Byte) ∉ n ∧ specialAttr (qual p n) = false

mutual
/-- What the auxiliary builder checks of a node. -/
def SimpleN : SNode → Prop
  | .val _ => True
  | .comment _ => True
  | .element pre name attrs value kids => (58 : Byte) ∉ name ∧
    (∀ p, pre = some p → specialName name = false ∧ specialName (qual pre name) = false) ∧
    (specialName (qual pre name) = true → attrs = none ∧ TextVal value ∧ kids = []) ∧
    (peek (qual pre name) = 33 → ∀ s, value ≠ some (.quoted s)) ∧
    (∀ a ∈ attrs.getD [], SimpleA a) ∧ SimpleNs kids
def SimpleNs : List SNode → Prop
  | [] => True
  | n :: ns => SimpleN n ∧ SimpleNs ns
end

variable [Mode]

/-! ## Running the auxiliary builder -/

theorem flat_same (hq : Mode.qual = true) (p : List Byte) (b : List Open) (t : Tok) (h : t.kind ∉ ([.element_ns, .ns_colon, .attr_ns, .ns_declaration,
    .attr_key, .element_name, .element_key, .brace_left, .apar_left, .cpar_left, .element_value_entity, .attr_value_entity,
    .element_value_quote] : List Kind)) : flatStep (p, b) t = (buildStep b t).map fun b => (p, b) := by
  obtain ⟨kd, l, c, s⟩ := t
  unfold flatStep
  rw [if_neg (by simp [hq])]
  cases kd <;> first
    | (exfalso; revert h; simp; done)
    | rfl

theorem frun_compound (hq : Mode.qual = true) {attr : Bool} {ts : List Tok} {vs : List Val} (h : Compound attr ts vs) (o : Open) (stk : List Open) :
    ts.foldlM flatStep ([], o :: stk) = some ([], o.addAll (vs.map Val.node) :: stk) := by
  induction h generalizing o with
  | nil => rfl
  | quote t v ts vs hk hv h ih =>
    rw [List.foldlM_cons, flat_same hq _ _ _ (by rw [hk]; cases attr <;> simp)]
    have : buildStep (o :: stk) t = some (o.add v.node :: stk) := by
      unfold buildStep
      cases attr <;> (simp at hk; rw [hk]; simp only []; rw [hv]; rfl)
    rw [this]
    exact ih _
  | entity t v ts vs hk hv h ih =>
    rw [List.foldlM_cons, flat_same hq _ _ _ (by rw [hk]; cases attr <;> simp)]
    have : buildStep (o :: stk) t = some (o.add v.node :: stk) := by
      unfold buildStep
      cases attr <;> (simp at hk; rw [hk]; simp only []; rw [hv]; rfl)
    rw [this]
    exact ih _

/-- A receiver of values. -/
structure Recv0 (b : List Open) (f : List Val → List Open) : Prop where
  one : ∀ v, addToLast b v = some (f [v])
  many : ∃ c b1, pushLast b = some (c :: b1) ∧ c.lastAttr = false ∧ c.kids = [] ∧
    ∀ vs : List Val, popLast (c.addAll (vs.map Val.node) :: b1) = some (f vs)

theorem recv0_element (o : Open) (stk : List Open) (name : List Byte) (attrs : List Attr) :
    Recv0 (o.elem name attrs [] :: stk) (fun vs => o.elem name attrs (mergeNodes (vs.map Val.node)) :: stk) := by
  refine ⟨fun v => ?_, ⟨⟨false, name, attrs.reverse, [], false⟩, { o with lastAttr := false } :: stk, ?_, rfl, rfl, fun vs => ?_⟩⟩
  · simp only [addToLast, Open.elem]
    cases v <;> simp [mergeNodes, addChild]
  · simp [pushLast, Open.elem]
  · rw [addAll_eq _ _ rfl]
    simp only [popLast, Bool.false_eq_true, if_false, List.reverse_reverse, mergeNodes, Open.elem]

theorem recv0_attr (o : Open) (stk : List Open) (name : List Byte) :
    Recv0 (o.attr name [] :: stk) (fun vs => o.attr name (mergeVals vs) :: stk) :=
  ⟨(recv_attr o stk name o.attrs).one, (recv_attr o stk name o.attrs).many⟩

theorem frun_value (hq : Mode.qual = true) {attr : Bool} {ts : List Tok} {v : SVal} (h : Value attr ts v) {b : List Open}
    {f : List Val → List Open} (hf : Recv0 b f) {r : List Byte × List Open} (hr : ts.foldlM flatStep ([], b) = some r) :
    r = ([], f v.vals) ∧ (special b = true → TextVal (some v)) ∧ (atDoctype b = true → attr = false → ∀ s, v ≠ .quoted s) := by
  cases h with
  | plain t hk =>
    have hs : flatStep ([], b) t = some ([], f [.text t.text]) := by
      rw [flat_same hq _ _ _ (by rw [hk]; cases attr <;> simp)]
      have : buildStep b t = addToLast b (.text t.text) := by
        unfold buildStep; cases attr <;> (simp at hk; rw [hk])
      rw [this, hf.one]; rfl
    rw [List.foldlM_cons, hs] at hr
    simp at hr
    exact ⟨hr.symm, fun _ => .inr ⟨_, .inl rfl⟩, by simp⟩
  | quoted t s hk hv =>
    have hb : buildStep b t = some (f [.text s]) := by
      unfold buildStep
      cases attr <;> (simp at hk; rw [hk]; simp only []; rw [hv]; simp only [Option.bind_some]; rw [hf.one])
    cases attr with
    | true =>
      rw [List.foldlM_cons, flat_same hq _ _ _ (by rw [hk]; simp), hb] at hr
      simp at hr
      exact ⟨hr.symm, fun _ => .inr ⟨_, .inr rfl⟩, by simp⟩
    | false =>
      simp at hk
      have hs : flatStep ([], b) t = if atDoctype b then none else (buildStep b t).map fun b => ([], b) := by
        unfold flatStep; rw [if_neg (by simp [hq]), hk]
      rw [List.foldlM_cons, hs] at hr
      cases hd : atDoctype b with
      | true => rw [hd] at hr; simp at hr
      | false =>
        rw [hd, hb] at hr
        simp at hr
        exact ⟨hr.symm, fun _ => .inr ⟨_, .inr rfl⟩, by simp⟩
  | ref t v hk hv =>
    have hb : buildStep b t = some (f [v]) := by
      unfold buildStep
      cases attr <;> (simp at hk; rw [hk]; simp only []; rw [hv]; simp only [Option.bind_some]; rw [hf.one])
    have hs : flatStep ([], b) t = if special b then none else (buildStep b t).map fun b => ([], b) := by
      unfold flatStep; rw [if_neg (by simp [hq])]; cases attr <;> (simp at hk; rw [hk])
    rw [List.foldlM_cons, hs] at hr
    cases hd : special b with
    | true => rw [hd] at hr; simp at hr
    | false =>
      rw [hd, hb] at hr
      simp at hr
      exact ⟨hr.symm, by simp, by simp⟩
  | many l rr ts vs hl hrr hc =>
    have hs : flatStep ([], b) l = if special b then none else (buildStep b l).map fun b => ([], b) := by
      unfold flatStep; rw [if_neg (by simp [hq]), hl]
    rw [List.foldlM_cons, hs] at hr
    cases hd : special b with
    | true => rw [hd] at hr; simp at hr
    | false =>
      obtain ⟨c, b1, h1, -, -, h4⟩ := hf.many
      have hb : buildStep b l = some (c :: b1) := by unfold buildStep; rw [hl]; exact h1
      rw [hd, hb] at hr
      simp only [Bool.false_eq_true, if_false, Option.map_some, Option.bind_eq_bind, Option.bind_some, List.foldlM_append, frun_compound hq hc,
        List.foldlM_cons, List.foldlM_nil] at hr
      rw [flat_same hq _ _ _ (by rw [hrr]; simp)] at hr
      have hb2 : buildStep (c.addAll (vs.map Val.node) :: b1) rr = some (f vs) := by unfold buildStep; rw [hrr]; exact h4 vs
      rw [hb2] at hr
      simp at hr
      exact ⟨hr.symm, by simp, by simp⟩

theorem frun_maybe (hq : Mode.qual = true) {attr : Bool} {ts : List Tok} {v : Option SVal} (h : MaybeValue attr ts v) {b : List Open}
    {f : List Val → List Open} (hf : Recv0 b f) (h0 : f [] = b) {r : List Byte × List Open} (hr : ts.foldlM flatStep ([], b) = some r) :
    r = ([], f (valsOf v)) ∧ (special b = true → TextVal v) ∧ (atDoctype b = true → attr = false → ∀ s, v ≠ some (.quoted s)) := by
  cases h with
  | none =>
    simp at hr
    exact ⟨by rw [← hr, ← h0]; rfl, fun _ => .inl rfl, by simp⟩
  | some e ts v he hv =>
    rw [List.foldlM_cons, flat_same hq _ _ _ (by rw [he]; simp)] at hr
    have : buildStep b e = some b := by unfold buildStep; rw [he]
    rw [this] at hr
    simp only [Option.map_some, Option.bind_eq_bind, Option.bind_some] at hr
    obtain ⟨h1, h2, h3⟩ := frun_value hq hv hf hr
    exact ⟨h1, h2, fun h4 h5 s => by simpa using h3 h4 h5 s⟩

theorem frun_attr (hq : Mode.qual = true) {ts : List Tok} {a : SAttr} (h : Attribute ts a) (o : Open) (stk : List Open)
    {r : List Byte × List Open} (hr : ts.foldlM flatStep ([], o :: stk) = some r) :
    r = ([], o.attr (flatA a).name (flatA a).value :: stk) ∧ SimpleA a := by
  have key : ∀ (name : List Byte) {ts : List Tok} {v : Option SVal}, MaybeValue true ts v →
      ts.foldlM flatStep ([], o.attr name [] :: stk) = some r →
      r = ([], o.attr name (joinVals (valsOf v)) :: stk) ∧ (specialAttr name = true → TextVal v) := by
    intro name ts v hv hr
    obtain ⟨h1, h2, -⟩ := frun_maybe hq hv (recv0_attr o stk name) rfl hr
    rw [mergeVals_eq] at h1
    exact ⟨h1, fun hs => h2 (by simp [special, Open.attr, hs])⟩
  cases h with
  | plain k ts v hk hv =>
    have hs : flatStep ([], o :: stk) k = if k.text.contains 58 || specialAttr ([] ++ k.text) then none else
        (addAttr (o :: stk) ([] ++ k.text)).map fun b => ([], b) := by
      unfold flatStep; rw [if_neg (by simp [hq]), hk]
    rw [List.foldlM_cons, hs] at hr
    split at hr
    · simp at hr
    · rename_i hn
      simp only [Bool.or_eq_true, List.nil_append, not_or, Bool.not_eq_true, List.contains_eq_mem, decide_eq_false_iff_not] at hn
      obtain ⟨h1, h2⟩ := key k.text hv hr
      exact ⟨h1, hn⟩
  | prefixed p c k ts v hp hc hk hv =>
    have h1 : flatStep ([], o :: stk) p = some (p.text ++ b#":", o :: stk) := by
      unfold flatStep; rw [if_neg (by simp [hq]), hp]; rfl
    have h2 : flatStep (p.text ++ b#":", o :: stk) c = some (p.text ++ b#":", o :: stk) := by
      unfold flatStep; rw [if_neg (by simp [hq]), hc]; simp
    have h3 : flatStep (p.text ++ b#":", o :: stk) k = if k.text.contains 58 || specialAttr ((p.text ++ b#":") ++ k.text) then none else
        (addAttr (o :: stk) ((p.text ++ b#":") ++ k.text)).map fun b => ([], b) := by
      unfold flatStep; rw [if_neg (by simp [hq]), hk]
    rw [List.foldlM_cons, h1, Option.bind_eq_bind, Option.bind_some, List.foldlM_cons, h2, Option.bind_eq_bind, Option.bind_some,
      List.foldlM_cons, h3] at hr
    have e : (p.text ++ b#":") ++ k.text = qual (some p.text) k.text := by simp [qual]
    rw [e] at hr
    split at hr
    · simp at hr
    · rename_i hn
      simp only [Bool.or_eq_true, not_or, Bool.not_eq_true, List.contains_eq_mem, decide_eq_false_iff_not] at hn
      obtain ⟨h1, h2⟩ := key _ hv hr
      exact ⟨h1, hn⟩
  | declDefault x ts v hx hv =>
    have hs : flatStep ([], o :: stk) x = some ([], o.attr b#"xmlns" [] :: stk) := by
      unfold flatStep; rw [if_neg (by simp [hq]), hx]; rfl
    rw [List.foldlM_cons, hs] at hr
    obtain ⟨h1, h2⟩ := key _ hv hr
    exact ⟨h1, h2 rfl⟩
  | declPrefix x c p ts v hx hc hp hv =>
    have h1 : flatStep ([], o :: stk) x = some ([], o.attr b#"xmlns" [] :: stk) := by
      unfold flatStep; rw [if_neg (by simp [hq]), hx]; rfl
    have h2 : ∀ b, flatStep ([], b) c = some (b#":", b) := by
      intro b; unfold flatStep; rw [if_neg (by simp [hq]), hc]; rfl
    have h3 : flatStep (b#":", o.attr b#"xmlns" [] :: stk) p = some ([], o.attr (b#"xmlns:" ++ p.text) [] :: stk) := by
      unfold flatStep; rw [if_neg (by simp [hq]), hp]; rfl
    rw [List.foldlM_cons, h1, Option.bind_eq_bind, Option.bind_some, List.foldlM_cons, h2, Option.bind_eq_bind, Option.bind_some,
      List.foldlM_cons, h3] at hr
    obtain ⟨h1, h2⟩ := key _ hv hr
    refine ⟨h1, h2 ?_⟩
    simp [specialAttr]

theorem frun_attrs (hq : Mode.qual = true) {ts : List Tok} {as : List SAttr} (h : Attributes ts as) (o : Open) (stk : List Open)
    {r : List Byte × List Open} (hr : ts.foldlM flatStep ([], o :: stk) = some r) :
    r = ([], o.attrs' (as.map flatA) :: stk) ∧ ∀ a ∈ as, SimpleA a := by
  induction h generalizing o with
  | nil => simp at hr; exact ⟨hr.symm, by simp⟩
  | cons ts us a as ha has ih =>
    rw [List.foldlM_append, Option.bind_eq_bind, Option.bind_eq_some_iff] at hr
    obtain ⟨m, hm, hr⟩ := hr
    obtain ⟨rfl, hs⟩ := frun_attr hq ha o stk hm
    obtain ⟨rfl, hss⟩ := ih _ hr
    exact ⟨rfl, by simpa using ⟨hs, hss⟩⟩

theorem frun_attrList (hq : Mode.qual = true) {ts : List Tok} {attrs : Option (List SAttr)} (h : MaybeAttributes ts attrs) (o : Open) (stk : List Open)
    (name : List Byte) {r : List Byte × List Open} (hr : ts.foldlM flatStep ([], o.elem name [] [] :: stk) = some r) :
    r = ([], o.elem name ((attrs.getD []).map flatA) [] :: stk) ∧ (specialName name = true → attrs = none) ∧ ∀ a ∈ attrs.getD [], SimpleA a := by
  cases h with
  | none => simp at hr; exact ⟨hr.symm, by simp⟩
  | some l rr ts as hl hrr has =>
    have hs : ∀ b, flatStep ([], b) l = if special b then none else (buildStep b l).map fun b => ([], b) := by
      intro b; unfold flatStep; rw [if_neg (by simp [hq]), hl]
    rw [List.foldlM_cons, hs] at hr
    cases hd : specialName name with
    | true =>
      have : special (o.elem name [] [] :: stk) = true := by simp [special, Open.elem, hd]
      rw [this] at hr; simp at hr
    | false =>
      have : special (o.elem name [] [] :: stk) = false := by simp [special, Open.elem, hd]
      have hb : buildStep (o.elem name [] [] :: stk) l = some (⟨false, name, [], [], false⟩ :: { o with lastAttr := false } :: stk) := by
        unfold buildStep; rw [hl]; rfl
      rw [this, hb] at hr
      simp only [Bool.false_eq_true, if_false, Option.map_some, Option.bind_eq_bind, Option.bind_some, List.foldlM_append,
        Option.bind_eq_some_iff] at hr
      obtain ⟨m, hm, hr⟩ := hr
      obtain ⟨rfl, hss⟩ := frun_attrs hq has _ _ hm
      rw [List.foldlM_cons, flat_same hq _ _ _ (by rw [hrr]; simp)] at hr
      have hb2 : buildStep ((⟨false, name, [], [], false⟩ : Open).attrs' (as.map flatA) :: { o with lastAttr := false } :: stk) rr =
          some (o.elem name (as.map flatA) [] :: stk) := by
        unfold buildStep; rw [hrr]
        by_cases hne : as.map flatA = []
        · rw [hne]; rfl
        · rw [attrs'_eq _ _ hne]; simp [popLast, Open.elem]
      rw [hb2] at hr
      simp at hr
      exact ⟨hr.symm, by simp, hss⟩

theorem frun_name (hq : Mode.qual = true) {ts : List Tok} {pre : Option (List Byte)} {name : List Byte} (h : ElemNameToks ts pre name)
    (o : Open) (stk : List Open) {r : List Byte × List Open} (hr : ts.foldlM flatStep ([], o :: stk) = some r) :
    r = ([], o.elem (qual pre name) [] [] :: stk) ∧ (58 : Byte) ∉ name ∧
      (∀ p, pre = some p → specialName name = false ∧ specialName (qual pre name) = false) := by
  have hk : ∀ (k : Tok) (s : List Byte), k.kind = .element_name ∨ k.kind = .element_key → flatStep (s, o :: stk) k =
      if k.text.contains 58 || (!s.isEmpty && (specialName s || specialName k.text)) then none
      else some ([], o.elem (s ++ k.text) [] [] :: stk) := by
    intro k s h
    unfold flatStep; rw [if_neg (by simp [hq])]
    rcases h with h | h <;> rw [h] <;> rfl
  cases h with
  | plain k h =>
    rw [List.foldlM_cons, hk k [] h] at hr
    split at hr
    · simp at hr
    · rename_i hn
      simp at hr hn
      exact ⟨hr.symm, hn, by simp⟩
  | prefixed p c k hp hc h =>
    have h1 : flatStep ([], o :: stk) p = some (p.text ++ b#":", o :: stk) := by
      unfold flatStep; rw [if_neg (by simp [hq]), hp]
    have h2 : flatStep (p.text ++ b#":", o :: stk) c = some (p.text ++ b#":", o :: stk) := by
      unfold flatStep; rw [if_neg (by simp [hq]), hc]; simp
    rw [List.foldlM_cons, h1, Option.bind_eq_bind, Option.bind_some, List.foldlM_cons, h2, Option.bind_eq_bind, Option.bind_some,
      List.foldlM_cons, hk k _ h] at hr
    split at hr
    · simp at hr
    · rename_i hn
      have e : (p.text ++ b#":") ++ k.text = qual (some p.text) k.text := by simp [qual]
      rw [e] at hr
      simp at hr
      simp only [Bool.or_eq_true, Bool.and_eq_true, not_or, not_and, Bool.not_eq_true, List.contains_eq_mem, decide_eq_false_iff_not] at hn
      have hs := hn.2 (by simp)
      refine ⟨hr.symm, hn.1, fun q hq' => ⟨hs.2, ?_⟩⟩
      have : qual (some p.text) k.text = (p.text ++ [58]) ++ k.text := by simp [qual]
      rw [this, specialName_append (by simp)]
      exact hs.1

theorem flatD_addAll_element (o : Open) (name : List Byte) (as : List Attr) (ks : List Node) :
    o.elem name as ks = o.addAll [.element name as ks] := (elem_add o name as ks).symm

theorem frun_continuations (hq : Mode.qual = true) {cs : List Tok} {ss : List (List Byte)} (h : Continuations cs ss) (o : Open) (stk : List Open)
    (c : List Byte) (ks : List Node) : cs.foldlM flatStep ([], { o with kids := .comment c :: ks } :: stk) =
      some ([], { o with kids := .comment (ss.foldl (fun c s => c ++ 10 :: s) c) :: ks } :: stk) := by
  induction h generalizing c with
  | nil => rfl
  | cons t s ts ss hk hv h ih =>
    rw [List.foldlM_cons, flat_same hq _ _ _ (by rw [hk]; simp)]
    have : buildStep ({ o with kids := .comment c :: ks } :: stk) t = some ({ o with kids := .comment (c ++ 10 :: s) :: ks } :: stk) := by
      unfold buildStep
      rw [hk]
      simp only []
      unfold continuationVal at hv
      rw [hv]; rfl
    rw [this]
    exact ih _

theorem frun_doc (hq : Mode.qual = true) {ts : List Tok} {d : List SNode} (h : Doc ts d) (o : Open) (stk : List Open)
    {r : List Byte × List Open} (hr : ts.foldlM flatStep ([], o :: stk) = some r) :
    r = ([], o.addAll (flatDs d) :: stk) ∧ SimpleNs d := by
  induction h generalizing o stk r with
  | nil => simp at hr; exact ⟨hr.symm, trivial⟩
  | quote t v ts d hk hv h ih =>
    rw [List.foldlM_cons, flat_same hq _ _ _ (by rw [hk]; simp)] at hr
    have : buildStep (o :: stk) t = some (o.add v.node :: stk) := by unfold buildStep; rw [hk]; simp only []; rw [hv]; rfl
    rw [this] at hr
    obtain ⟨rfl, h2⟩ := ih _ _ hr
    exact ⟨rfl, trivial, h2⟩
  | entity t v ts d hk hv h ih =>
    rw [List.foldlM_cons, flat_same hq _ _ _ (by rw [hk]; simp)] at hr
    have : buildStep (o :: stk) t = some (o.add v.node :: stk) := by unfold buildStep; rw [hk]; simp only []; rw [hv]; rfl
    rw [this] at hr
    obtain ⟨rfl, h2⟩ := ih _ _ hr
    exact ⟨rfl, trivial, h2⟩
  | comment t c cs ss ts d hk hv hc h ih =>
    rw [List.foldlM_cons, flat_same hq _ _ _ (by rw [hk]; simp)] at hr
    have : buildStep (o :: stk) t = some ({ o with kids := .comment c :: o.kids, lastAttr := false } :: stk) := by
      unfold buildStep; rw [hk]; simp only []; unfold commentVal at hv; rw [hv]
      simp [addTop, addChild]
    rw [this] at hr
    simp only [Option.map_some, Option.bind_eq_bind, Option.bind_some, List.foldlM_append] at hr
    have hcc := frun_continuations hq hc { o with lastAttr := false } stk c o.kids
    dsimp only at hcc
    rw [hcc] at hr
    obtain ⟨rfl, h2⟩ := ih _ _ hr
    refine ⟨?_, trivial, h2⟩
    simp [flatDs, flatD, Open.addAll, Open.add, addChild]
  | plain ns as vs pre name attrs value ts d hn ha hv h ih =>
    rw [List.foldlM_append, Option.bind_eq_bind, Option.bind_eq_some_iff] at hr
    obtain ⟨m1, hm1, hr⟩ := hr
    obtain ⟨rfl, n1, n2⟩ := frun_name hq hn o stk hm1
    rw [List.foldlM_append, Option.bind_eq_bind, Option.bind_eq_some_iff] at hr
    obtain ⟨m2, hm2, hr⟩ := hr
    obtain ⟨rfl, a1, a2⟩ := frun_attrList hq ha o stk _ hm2
    rw [List.foldlM_append, Option.bind_eq_bind, Option.bind_eq_some_iff] at hr
    obtain ⟨m3, hm3, hr⟩ := hr
    obtain ⟨rfl, v1, v2⟩ := frun_maybe hq hv (recv0_element o stk _ _) rfl hm3
    rw [elem_add'] at hr
    obtain ⟨rfl, h2⟩ := ih _ _ hr
    refine ⟨?_, ⟨n1, n2, fun hs => ⟨a1 hs, v1 ?_, rfl⟩, fun hs => v2 ?_ rfl, a2, trivial⟩, h2⟩
    · rw [addAll_append', mergeNodes_eq]; simp only [flatDs, flatD, List.append_nil]
    · simp [special, Open.elem, hs]
    · simp [atDoctype, Open.elem, hs]
  | braces ns as pre name attrs l rr bs kids ts d hn ha hl hrr hb h ihb ih =>
    rw [List.foldlM_append, Option.bind_eq_bind, Option.bind_eq_some_iff] at hr
    obtain ⟨m1, hm1, hr⟩ := hr
    obtain ⟨rfl, n1, n2⟩ := frun_name hq hn o stk hm1
    rw [List.foldlM_append, Option.bind_eq_bind, Option.bind_eq_some_iff] at hr
    obtain ⟨m2, hm2, hr⟩ := hr
    obtain ⟨rfl, a1, a2⟩ := frun_attrList hq ha o stk _ hm2
    have hs : ∀ b, flatStep ([], b) l = if special b then none else (buildStep b l).map fun b => ([], b) := by
      intro b; unfold flatStep; rw [if_neg (by simp [hq]), hl]
    rw [List.foldlM_cons, hs] at hr
    cases hd : specialName (qual pre name) with
    | true =>
      have : special (o.elem (qual pre name) ((attrs.getD []).map flatA) [] :: stk) = true := by simp [special, Open.elem, hd]
      rw [this] at hr; simp at hr
    | false =>
      have : special (o.elem (qual pre name) ((attrs.getD []).map flatA) [] :: stk) = false := by simp [special, Open.elem, hd]
      have hb0 : buildStep (o.elem (qual pre name) ((attrs.getD []).map flatA) [] :: stk) l =
          some (⟨false, qual pre name, ((attrs.getD []).map flatA).reverse, [], false⟩ :: { o with lastAttr := false } :: stk) := by
        unfold buildStep; rw [hl]; rfl
      rw [this, hb0] at hr
      simp only [Bool.false_eq_true, if_false, Option.map_some, Option.bind_eq_bind, Option.bind_some, List.foldlM_append,
        Option.bind_eq_some_iff] at hr
      obtain ⟨m3, hm3, hr⟩ := hr
      obtain ⟨rfl, hk⟩ := ihb _ _ hm3
      rw [List.foldlM_cons, flat_same hq _ _ _ (by rw [hrr]; simp)] at hr
      have hb2 : buildStep ((⟨false, qual pre name, ((attrs.getD []).map flatA).reverse, [], false⟩ : Open).addAll (flatDs kids) ::
          { o with lastAttr := false } :: stk) rr = some (o.elem (qual pre name) ((attrs.getD []).map flatA) (joinTexts (flatDs kids)) :: stk) := by
        unfold buildStep; rw [hrr, addAll_eq _ _ rfl, ← mergeNodes_eq]; simp [popLast, Open.elem, mergeNodes]
      rw [hb2] at hr
      simp only [Option.map_some, Option.bind_eq_bind, Option.bind_some] at hr
      rw [elem_add'] at hr
      obtain ⟨rfl, h2⟩ := ih _ _ hr
      refine ⟨?_, ⟨n1, n2, fun h => ?_, fun h => ?_, a2, hk⟩, h2⟩
      · rw [addAll_append']; rfl
      · rw [hd] at h; cases h
      · simp
where
  elem_add' {o : Open} {name : List Byte} {as : List Attr} {ks : List Node} : o.elem name as ks = o.addAll [.element name as ks] :=
    (elem_add o name as ks).symm
  addAll_append' {o : Open} {n : Node} {b : List Node} : (o.addAll [n]).addAll b = o.addAll (n :: b) := by
    rw [← addAll_append]; rfl

/-! ## Texts that are read -/

theorem flat_evaluates (hq : Mode.qual = true) {s s' : List Byte × List Open} {t : Tok} (h : flatStep s t = some s') : Evaluates t := by
  obtain ⟨p, b⟩ := s
  obtain ⟨kd, l, c, tx⟩ := t
  unfold flatStep at h
  rw [if_neg (by simp [hq])] at h
  cases kd <;> simp only [Evaluates] <;> simp only [] at h <;> try trivial
  all_goals
    first
      | (split at h
         · cases h
         · simp only [Option.map_eq_some_iff] at h
           obtain ⟨b', h, -⟩ := h
           simp only [buildStep, Option.bind_eq_some_iff] at h
           obtain ⟨v, hv, -⟩ := h
           simp [hv])
      | (simp only [Option.map_eq_some_iff] at h
         obtain ⟨b', h, -⟩ := h
         simp only [buildStep, Option.bind_eq_some_iff] at h
         obtain ⟨v, hv, -⟩ := h
         first
           | (simp [hv]; done)
           | (unfold commentVal; simp [hv]; done)
           | (unfold continuationVal; dsimp only at hv ⊢; rw [hv]; rfl))

theorem frun_evaluates (hq : Mode.qual = true) (ts : List Tok) {s s' : List Byte × List Open} (h : ts.foldlM flatStep s = some s') :
    ∀ t ∈ ts, Evaluates t := by
  induction ts generalizing s with
  | nil => simp
  | cons t ts ih =>
    rw [List.foldlM_cons, Option.bind_eq_bind, Option.bind_eq_some_iff] at h
    obtain ⟨m, h1, h2⟩ := h
    intro x hx
    rcases List.mem_cons.1 hx with rfl | hx
    · exact flat_evaluates hq h1
    · exact ih h2 x hx

theorem frun_noWs (hq : Mode.qual = true) (ts : List Tok) (s : List Byte × List Open) : (noWs ts).foldlM flatStep s = ts.foldlM flatStep s := by
  induction ts generalizing s with
  | nil => rfl
  | cons t ts ih =>
    unfold noWs at ih ⊢
    rw [List.filter_cons, List.foldlM_cons]
    split
    · rw [List.foldlM_cons]
      congr 1
      funext x
      exact ih x
    · rename_i hk
      simp only [bne_iff_ne, ne_eq, Decidable.not_not] at hk
      obtain ⟨p, b⟩ := s
      have : flatStep (p, b) t = some (p, b) := by
        rw [flat_same hq _ _ _ (by rw [hk]; simp)]
        unfold buildStep; rw [hk]; rfl
      rw [this, ih]; rfl

/-- A text that is read as an auxiliary tree is written as a document. -/
theorem flatReads_written (hq : Mode.qual = true) {input : List Byte} {doc : List Node} (h : FlatReads input doc) :
    ∃ toks d, Tokenizes input toks ∧ Doc (noWs toks) d ∧ SimpleNs d ∧ joinTexts (flatDs d) = doc := by
  obtain ⟨toks, ht, hb⟩ := h
  unfold flatBuild at hb
  rw [Option.bind_eq_some_iff] at hb
  obtain ⟨s, hs, hb⟩ := hb
  obtain ⟨d, hd⟩ := tokenizes_doc input toks ht (frun_evaluates hq toks hs)
  rw [← frun_noWs hq] at hs
  obtain ⟨rfl, hsimple⟩ := frun_doc hq hd _ _ hs
  refine ⟨toks, d, ht, hd, hsimple, ?_⟩
  simp only [Option.some.injEq] at hb
  rw [← hb, addAll_eq _ _ rfl, ← mergeNodes_eq, mergeNodes]

end Xmq
