import Verif.Lemmas.NsEmit
/-!
# Elements with namespaces are read back as they are written
-/
namespace Xmq
open Spec

set_option linter.unusedSectionVars false

variable [Mode]

/-! ## Names -/

theorem print_append (ps : PS) (a : List Byte) {b : List Byte} (hb : b ≠ []) : (ps.print a).print b = ps.print (a ++ b) := by
  cases ha : a.getLast? with
  | none =>
    rw [List.getLast?_eq_none_iff] at ha
    subst ha
    simp [PS.print]
  | some x =>
    cases hl : b.getLast? with
    | none => rw [List.getLast?_eq_none_iff] at hl; exact absurd hl hb
    | some y =>
      simp [PS.print, ha, hl, List.getLast?_append]
      omega

theorem prefixed_qual (ps : PS) (pre : Option (List Byte)) {name : List Byte} (hn : name ≠ []) : ps.prefixed pre name = ps.print (qual pre name) := by
  cases pre with
  | none => rfl
  | some p =>
    show ((ps.print p).print b#":").print name = _
    rw [print_append _ _ hn, print_append _ _ (by simp)]
    simp [qual]

/-- The name of a declaration. -/
def declName (n : Ns) : List Byte :=
  match n.pre with
  | none => b#"xmlns"
  | some p => b#"xmlns:" ++ p

theorem prefixOf_eq (heap : List Ns) (ns : Option Nat) : nsPrefix heap ns = prefixOf heap ns := rfl

/-- The attribute as it is printed. -/
def flatNAttr (heap : List Ns) (a : NAttr) : Attr := ⟨qual (prefixOf heap a.ns) a.name, a.value⟩

theorem flatA_written (heap : List Ns) (a : NAttr) (h : ∀ t, a.value = .text [] :: t → t = []) :
    flatA (writtenAttr heap a) = normAttr (flatNAttr heap a) := by
  have e : normAttr (flatNAttr heap a) = ⟨qual (prefixOf heap a.ns) a.name, if noAttrValue a.value then [] else mergeVals a.value⟩ := rfl
  rw [e]
  simp only [writtenAttr, flatA]
  congr 1
  by_cases hv : a.value = [] ∨ a.value = [.text []]
  · rw [if_pos hv, if_pos]
    · rfl
    · rcases hv with hv | hv <;> rw [hv] <;> rfl
  · rw [if_neg hv, if_neg]
    · rw [mergeVals_eq]; rfl
    · intro hn
      refine hv ?_
      revert hn h
      generalize a.value = v
      intro h hn
      unfold noAttrValue at hn
      split at hn
      · exact .inl rfl
      · right; rw [h _ rfl]
      · cases hn

theorem emits_nsAttr {cfg : OutCfg} (hsp : cfg.indentationSpace = [32]) {heap : List Ns} {align : Nat} {a : NAttr} (hne : a.name ≠ [])
    (h : AttrOk cfg (flatNAttr heap a)) (ps : PS) :
    AEmits cfg ps (ps.nsAttribute cfg heap align a) [normAttr (flatNAttr heap a)] ∧ (ps.nsAttribute cfg heap align a).last ≠ 1 := by
  unfold PS.nsAttribute normAttr
  dsimp only
  rw [prefixed_qual _ _ hne]
  cases hv : noAttrValue a.value
  · simp only [Bool.false_eq_true, if_false, flatNAttr, hv]
    exact emits_keyed hsp h.name h.notNs ps (1 + align - prefixedWidth (nsPrefix heap a.ns) a.name) (fun p => p.value cfg a.value .attrValue) a.value (h.value hv)
  · simp only [if_true, flatNAttr, hv]
    exact emits_key hsp h.name h.notNs ps

/-- What is asked of a declaration. -/
structure DeclOk (cfg : OutCfg) (n : Ns) : Prop where
  name : NameOk (declName n)
  ne : ∀ p, n.pre = some p → p ≠ []
  value : ∀ u, n.href = some u → LineSafe cfg u

/-- What follows the name of a declaration. -/
def declTail (cfg : OutCfg) (align : Nat) (n : Ns) (ps : PS) : PS :=
  match n.href with
  | none => ps
  | some v =>
    let ps := if !cfg.compact then ps.whiteSpaces cfg (1 + align - declWidth n) else ps
    let ps := ps.print b#"="
    let ps := if !cfg.compact then ps.whiteSpaces cfg 1 else ps
    PS.internalText cfg .attrValue (v.length + 1) ps v

theorem emits_nsDecl (hq : Mode.qual = true) {cfg : OutCfg} (hsp : cfg.indentationSpace = [32]) {align : Nat} {n : Ns} (h : DeclOk cfg n) (ps : PS) :
    AEmits cfg ps (ps.nsDeclaration cfg align n) [flatA (writtenDecl n)] ∧ (ps.nsDeclaration cfg align n).last ≠ 1 := by
  have e : ps.nsDeclaration cfg align n = declTail cfg align n ((ps.beforeAttribute cfg).print (declName n)) := by
    unfold PS.nsDeclaration declName declTail
    cases hp : n.pre with
    | none => rfl
    | some p =>
      dsimp only
      rw [print_append _ _ (h.ne p hp), print_append _ _ (by simp)]
      rfl
  have ew : flatA (writtenDecl n) = ⟨declName n, joinVals (valsOf (n.href.map .quoted))⟩ := by
    unfold writtenDecl declName
    cases n.pre <;> rfl
  rw [ew, e]
  unfold declTail
  cases hu : n.href with
  | none => exact emits_key hsp h.name (.inl hq) ps
  | some u =>
    have hv : joinVals (valsOf ((some u).map SVal.quoted)) = mergeVals [.text u] := rfl
    rw [hv]
    exact emits_keyed hsp h.name (.inl hq) ps (1 + align - declWidth n) (fun p => PS.internalText cfg .attrValue (u.length + 1) p u) [.text u]
      (fun p hp => line_reads hsp (.inr rfl) (h.value u hu) p (by rw [hp]; decide) _ _)

theorem emits_fold {α} {cfg : OutCfg} (f : PS → α → PS) (g : α → Attr) (l : List α)
    (h : ∀ a ∈ l, ∀ ps, AEmits cfg ps (f ps a) [g a] ∧ (f ps a).last ≠ 1) (ps : PS) (h1 : ps.last ≠ 1) :
    AEmits cfg ps (l.foldl f ps) (l.map g) ∧ (l.foldl f ps).last ≠ 1 := by
  induction l generalizing ps with
  | nil => exact ⟨AEmits.refl _ _, h1⟩
  | cons a l ih =>
    obtain ⟨e1, l1⟩ := h a (by simp) ps
    obtain ⟨e2, l2⟩ := ih (fun b hb => h b (by simp [hb])) _ l1
    exact ⟨e1.trans e2, l2⟩

/-- The head of an element. -/
structure HeadOk (cfg : OutCfg) (heap : List Ns) (name : List Byte) (ns : Option Nat) (defs : List Nat) (attrs : List NAttr) : Prop where
  ne : name ≠ []
  name : ElemName (qual (prefixOf heap ns) name)
  attrs : ∀ a ∈ attrs, a.name ≠ [] ∧ (∀ t, a.value = .text [] :: t → t = []) ∧ AttrOk cfg (flatNAttr heap a)
  defs : ∀ d ∈ defs, ∃ n, heap[d]? = some n ∧ DeclOk cfg n

/-- The attribute list of an element as it is written. -/
def headAttrs (heap : List Ns) (defs : List Nat) (attrs : List NAttr) : List SAttr :=
  attrs.map (writtenAttr heap) ++ (defs.filterMap (heap[·]?)).map writtenDecl

theorem filterMap_nil {heap : List Ns} {defs : List Nat} (h : ∀ d ∈ defs, ∃ n, heap[d]? = some n) (hn : defs.filterMap (heap[·]?) = []) : defs = [] := by
  cases defs with
  | nil => rfl
  | cons d t =>
    obtain ⟨n, hd⟩ := h d (by simp)
    rw [List.filterMap_cons, hd] at hn
    cases hn

theorem nsName_spec (hq : Mode.qual = true) {cfg : OutCfg} (hsp : cfg.indentationSpace = [32]) {heap : List Ns} {name : List Byte}
    {ns : Option Nat} {defs : List Nat} {attrs : List NAttr} (h : HeadOk cfg heap name ns defs attrs) (ps : PS) :
    NameAttrs cfg ps (ps.nsName cfg heap name ns defs attrs) (qual (prefixOf heap ns) name) ((headAttrs heap defs attrs).map flatA) := by
  unfold PS.nsName
  dsimp only
  rw [prefixOf_eq, prefixed_qual _ _ h.ne]
  by_cases he : attrs = [] ∧ defs = []
  · obtain ⟨rfl, rfl⟩ := he
    exact .inl ⟨rfl, rfl⟩
  · rw [if_neg (by simpa using he)]
    unfold PS.nsAttributes
    dsimp only
    generalize (if (!cfg.compact) = true then _ else 0) = mx
    have hl : (((ps.beforeKey cfg).print (qual (prefixOf heap ns) name)).print b#"(").line = (ps.beforeKey cfg).line := by
      obtain ⟨c, hoc, hbc, hpn⟩ := print_name (ps.beforeKey cfg) h.name.toNameOk
      rw [hpn]; rfl
    rw [hl]
    obtain ⟨e1, l1⟩ := emits_fold (cfg := cfg) (PS.nsAttribute cfg heap mx) (fun a => normAttr (flatNAttr heap a)) attrs
      (fun a ha ps => emits_nsAttr hsp (h.attrs a ha).1 (h.attrs a ha).2.2 ps)
      { ((ps.beforeKey cfg).print (qual (prefixOf heap ns) name)).print b#"(" with
        line := (((ps.beforeKey cfg).print (qual (prefixOf heap ns) name)).print b#"(").cur } (by show (40 : Byte) ≠ 1; decide)
    obtain ⟨e2, l2⟩ := emits_fold (cfg := cfg) (PS.nsDeclaration cfg mx) (fun n => flatA (writtenDecl n)) (defs.filterMap (heap[·]?))
      (fun n hn ps => by
        obtain ⟨d, hd, hdn⟩ := List.mem_filterMap.1 hn
        obtain ⟨m, hm, hok⟩ := h.defs d hd
        rw [hdn] at hm; cases hm
        exact emits_nsDecl hq hsp hok ps) _ l1
    have e := e1.trans e2
    have hmap : attrs.map (fun a => normAttr (flatNAttr heap a)) ++ (defs.filterMap (heap[·]?)).map (fun n => flatA (writtenDecl n)) =
        (headAttrs heap defs attrs).map flatA := by
      simp only [headAttrs, List.map_append, List.map_map]
      congr 1
      exact List.map_congr_left (fun a ha => (flatA_written heap a (h.attrs a ha).2.1).symm)
    rw [hmap] at e
    refine attrList_spec h.name ?_ rfl e l2
    intro hnil
    refine he ?_
    simp only [headAttrs, List.map_eq_nil_iff, List.append_eq_nil_iff] at hnil
    exact ⟨hnil.1, filterMap_nil (fun d hd => (h.defs d hd).imp fun _ h => h.1) hnil.2⟩

theorem nsKeyValues_some {kids : List NNode} {v : List Val} (h : nsKeyValues kids = some v) : kids.map NNode.val? = v.map some ∧ v ≠ [] := by
  unfold nsKeyValues at h
  split at h
  · cases h
  · rename_i hne
    have key : ∀ (ks : List NNode) (v : List Val), ks.mapM NNode.val? = some v → ks.map NNode.val? = v.map some := by
      intro ks
      induction ks with
      | nil => intro v h; simp at h; subst h; rfl
      | cons k ks ih =>
        intro v h
        simp only [List.mapM_cons, Option.pure_def, Option.bind_eq_bind, Option.bind_eq_some_iff, Option.some.injEq] at h
        obtain ⟨x, hx, y, hy, rfl⟩ := h
        rw [List.map_cons, List.map_cons, ← ih y hy, hx]
    refine ⟨key kids v h, ?_⟩
    rintro rfl
    have := key kids [] h
    simp at this
    rw [this] at hne; exact hne rfl

theorem flatDs_vals (heap : List Ns) : ∀ (kids : List NNode) (v : List Val), kids.map NNode.val? = v.map some →
    flatDs (allWritten heap kids) = v.map Val.node
  | [], [], _ => rfl
  | [], _ :: _, h => by simp at h
  | _ :: _, [], h => by simp at h
  | k :: kids, x :: v, h => by
    simp only [List.map_cons, List.cons.injEq] at h
    rw [allWritten, flatDs, flatDs_vals heap kids v h.2, List.map_cons]
    congr 1
    cases k <;> simp [NNode.val?] at h <;> obtain ⟨rfl, -⟩ := h <;> rfl

mutual
/-- What is asked of a node. -/
def NsOk (cfg : OutCfg) (heap : List Ns) : NNode → Prop
  | .text s => ∀ ps : PS, (cfg.compact = true → ps.last ≠ 1) → NEmits cfg ps (ps.value cfg [.text s] .xmq) [.text s] ∧
    (cfg.compact = true → (ps.value cfg [.text s] .xmq).last ≠ 1)
  | .entity n => EntName n
  | .comment s => ∀ ps : PS, (cfg.compact = true → ps.last ≠ 1) → NEmits cfg ps (ps.commentNode cfg s) [.comment s] ∧
    (cfg.compact = true → (ps.commentNode cfg s).last ≠ 1)
  | .pi t c => SpecialKind .pi (63 :: t) ∧ t ≠ [] ∧ LineSafe cfg c
  | .dtd n => LineSafe cfg n ∧ isXmqTextValue n = true
  | .element name ns defs attrs kids => HeadOk cfg heap name ns defs attrs ∧ NsOks cfg heap kids ∧
    ∀ v, nsKeyValues kids = some v → ∃ S : Prop, (S → cfg.compact = false ∧ attrs = [] ∧ defs = []) ∧
      ∀ p : PS, p.last = 61 → ReadsAs cfg S .elementValue p (p.value cfg v .elementValue) v
/-- The same for a list of nodes. -/
def NsOks (cfg : OutCfg) (heap : List Ns) : List NNode → Prop
  | [] => True
  | n :: t => NsOk cfg heap n ∧ NsOks cfg heap t
end

theorem addEdge_line {cfg : OutCfg} {s : List Byte} (h : LineSafe cfg s) : addEdgeSpaces s = some s := by
  cases s with
  | nil => exact absurd rfl h.ne
  | cons c t =>
    unfold addEdgeSpaces
    have h1 := h.head
    have h2 := h.last
    simp_all

section
variable (hq : Mode.qual = true) {cfg : OutCfg} (hsp : cfg.indentationSpace = [32]) (heap : List Ns)
include hq hsp

mutual
theorem ns_node (n : NNode) (h : NsOk cfg heap n) (ps : PS) (h1 : cfg.compact = true → ps.last ≠ 1) (align : Nat) :
    NEmits cfg ps (ps.nsNode cfg heap align n) [flatD (asWritten heap n)] ∧ (cfg.compact = true → (ps.nsNode cfg heap align n).last ≠ 1) := by
  cases n with
  | text s => rw [NsOk] at h; exact h ps h1
  | entity n =>
    rw [NsOk] at h
    obtain ⟨he, hl⟩ := emits_entityNode (cfg := cfg) (ps := ps) (.inl hsp) h
    refine ⟨?_, fun _ => by show (ps.entityNode cfg n).last ≠ 1; rw [hl]; decide⟩
    exact he.toN (by simp) (by rw [hl]; decide)
  | comment s => rw [NsOk] at h; exact h ps h1
  | pi t c =>
    rw [NsOk] at h
    obtain ⟨hk, hne, hc⟩ := h
    have e : ps.nsNode cfg heap align (.pi t c) =
        PS.internalText cfg .elementValue (c.length + 1) (((ps.beforeKey cfg).print (63 :: t)).plainEquals cfg) c := by
      rw [PS.nsNode, PS.piNode]
      rw [addEdge_line hc, Option.getD_some, hc.flatLines, print_append _ _ hne]
      rfl
    rw [e]
    have := emits_special hq hsp hk (line_special hsp (by simp [peek]) hc) ps
    exact ⟨this.1, fun _ => this.2⟩
  | dtd n =>
    rw [NsOk] at h
    have e : ps.nsNode cfg heap align (.dtd n) =
        PS.internalText cfg .elementValue (n.length + 1) (((ps.beforeKey cfg).print b#"!DOCTYPE").plainEquals cfg) n := by
      rw [PS.nsNode, PS.doctype]
      rw [h.1.flatLines]
    rw [e]
    have := emits_special hq hsp (.inr ⟨rfl, rfl⟩) (bare_special h.1 h.2) ps
    exact ⟨this.1, fun _ => this.2⟩
  | element name ns defs attrs kids =>
    rw [NsOk] at h
    obtain ⟨hh, hkids, hval⟩ := h
    have hna := nsName_spec hq hsp hh ps
    rw [asWritten, flatD, PS.nsNode]
    dsimp only
    rw [show ((some (attrs.map (writtenAttr heap) ++ (defs.filterMap (heap[·]?)).map writtenDecl)).getD []) = headAttrs heap defs attrs from rfl,
      show valsOf none = [] from rfl, List.map_nil, List.nil_append]
    by_cases hk : kids = []
    · subst hk
      have := emits_named_bare hsp hh.name hna
      exact ⟨this.1, fun _ => this.2⟩
    · rw [if_neg (by simpa using hk)]
      cases hkv : nsKeyValues kids with
      | some v =>
        obtain ⟨hv, -⟩ := nsKeyValues_some hkv
        obtain ⟨S, hS, hr⟩ := hval v hkv
        have hb := body_value hsp (S := S) (fun h => (hS h).1) (v := v) (ps.nsName cfg heap name ns defs attrs) align (sp := false) hr
        refine ⟨?_, fun _ => hb.1⟩
        have := emits_named_body hsp hh.name hna (fun h => ⟨(hS h).1, ?_⟩) hb
        · rw [flatDs_vals heap kids v hv, joinTexts_vals, ← mergeVals_eq]
          exact this
        · obtain ⟨-, rfl, rfl⟩ := hS h
          have e : ps.nsName cfg heap name ns [] [] = (ps.beforeKey cfg).print (qual (prefixOf heap ns) name) := by
            rw [← prefixed_qual _ _ hh.ne]; rfl
          rw [e]
          obtain ⟨c, hoc, hbc, hpn⟩ := print_name (ps.beforeKey cfg) hh.name.toNameOk
          rw [hpn]
          refine ⟨_, rfl, ?_⟩
          rw [colw_name hh.name.bytes]
          dsimp only
          omega
      | none =>
        have hb := body_braces hsp (S := False) (ps.nsName cfg heap name ns defs attrs) _ _
          (ns_nodes kids hkids { ((ps.nsName cfg heap name ns defs attrs).beforeOpeningBrace cfg).print b#"{" with
              line := (((ps.nsName cfg heap name ns defs attrs).beforeOpeningBrace cfg).print b#"{").line + cfg.addIndent } (fun _ => by
              show (123 : Byte) ≠ 1; decide) (some 0) 0).1
        refine ⟨?_, fun _ => hb.1⟩
        have := emits_named_body hsp hh.name hna (fun h => h.elim) hb
        rw [mergeNodes_eq] at this
        exact this
theorem ns_nodes (l : List NNode) (h : NsOks cfg heap l) (ps : PS) (h1 : cfg.compact = true → ps.last ≠ 1) (restart : Option Nat) (max : Nat) :
    NEmits cfg ps (PS.nsNodes cfg heap ps restart max l) (flatDs (allWritten heap l)) ∧
      (cfg.compact = true → (PS.nsNodes cfg heap ps restart max l).last ≠ 1) := by
  cases l with
  | nil => rw [PS.nsNodes, allWritten, flatDs]; exact ⟨NEmits.refl _ _, h1⟩
  | cons n t =>
    rw [NsOks] at h
    rw [PS.nsNodes, allWritten, flatDs]
    generalize (if (!cfg.compact && restart == some 0) = true then nsKeyMaxWidth heap (n :: t) 0 0 else (max, restart)) = r
    obtain ⟨e1, l1⟩ := ns_node n h.1 ps h1 r.1
    obtain ⟨e2, l2⟩ := ns_nodes t h.2 _ l1 (r.2.map (· - 1)) r.1
    exact ⟨e1.trans e2, l2⟩
end
end

end Xmq
