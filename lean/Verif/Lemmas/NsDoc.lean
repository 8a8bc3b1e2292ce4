import Verif.Lemmas.NsElem
/-!
# Running over a document
-/
namespace Xmq
open Spec

/-- The tokens `ts` add the nodes `d` to the top of the stack. -/
def DocRun (ts : List Tok) (d : List SNode) : Prop :=
  ∀ (s : NSt) (env : Env) (o : NOpen) (st : List NOpen) (rest : List Tok), NsCalm s → s.stack = o :: st →
    Known s.heap env (o :: st) s.dflt → tameNodes env d = true → Stable s.heap o.kids →
    ∃ h' k' la, nsRun s (ts ++ rest) = nsRun (s.put h' ({ o with kids := k', lastAttr := la } :: st) s.dflt) rest ∧
      Ext s.heap h' ∧ Stable h' k' ∧ seeNodes h' k' = (resolveNodes env d).foldl addX (seeNodes s.heap o.kids)

/-- The tokens `ts` add the element `n` to the top of the stack. -/
def ElemRun (ts : List Tok) (n : SNode) : Prop :=
  ∀ (s : NSt) (env : Env) (root : Bool) (o : NOpen) (st : List NOpen) (rest : List Tok), NsCalm s → s.stack = o :: st →
    Known s.heap env (o :: st) s.dflt → tameNode root env n = true → (root = true → s.dflt = none) →
    ∃ h' x la d', nsRun s (ts ++ rest) = nsRun (s.put h' ({ o with kids := x :: o.kids, lastAttr := la } :: st) d') rest ∧
      Ext s.heap h' ∧ (∀ h'', Ext h' h'' → seeNode h'' x = resolveNode env n) ∧ (root = false → d' = s.dflt)

theorem addX_element (k : List XNode) (a b c d) : addX k (.element a b c d) = .element a b c d :: k := by simp [addX]
theorem addX_pi (k : List XNode) (a b) : addX k (.pi a b) = .pi a b :: k := by simp [addX]
theorem addX_doctype (k : List XNode) (a) : addX k (.doctype a) = .doctype a :: k := by simp [addX]

theorem addX_resolve_element (k : List XNode) (env pre name attrs value kids) :
    addX k (resolveNode env (.element pre name attrs value kids)) = resolveNode env (.element pre name attrs value kids) :: k := by
  rw [resolveNode]
  split
  · exact addX_doctype _ _
  split
  · exact addX_pi _ _ _
  · exact addX_element _ _ _ _ _

theorem tameNode_element (root : Bool) (env : Env) (pre name attrs value kids) :
    tameNode root env (.element pre name attrs value kids) =
      if isPi pre name then tamePi attrs value kids
      else name != b#"!DOCTYPE" && name.head? != some b#'?' &&
        (match pre with | none => true | some p => (env (some p)).isSome || declares (attrs.getD []) (some p)) &&
        tameAttrs root env pre [] (attrs.getD []) && tameNodes (extend env (attrs.getD [])) kids := by
  cases pre <;> rw [tameNode]

/-- What a tame element looks like when it is not a processing instruction. -/
theorem tame_element {root : Bool} {env : Env} {pre name attrs value kids} (hpi : isPi pre name = false)
    (h : tameNode root env (.element pre name attrs value kids) = true) :
    name ≠ b#"!DOCTYPE" ∧ name.head? ≠ some b#'?' ∧
    (∀ p, pre = some p → (env (some p)).isSome = true ∨ declares (attrs.getD []) (some p) = true) ∧
    tameAttrs root env pre [] (attrs.getD []) = true ∧ tameNodes (extend env (attrs.getD [])) kids = true := by
  rw [tameNode_element, hpi] at h
  simp only [Bool.false_eq_true, if_false, Bool.and_eq_true, bne_iff_ne, ne_eq] at h
  obtain ⟨⟨⟨⟨h1, h2⟩, h3⟩, h4⟩, h5⟩ := h
  refine ⟨h1, h2, ?_, h4, h5⟩
  rintro p rfl
  simpa using h3

theorem resolve_element {env : Env} {pre name attrs value kids} (h1 : name ≠ b#"!DOCTYPE") (h2 : name.head? ≠ some b#'?') :
    resolveNode env (.element pre name attrs value kids) =
      .element (elementName (extend env (attrs.getD [])) pre name) (declared (attrs.getD []))
        (attributesOf (extend env (attrs.getD [])) (attrs.getD []))
        (joinNodes ((valsOf value).map valNode ++ resolveNodes (extend env (attrs.getD [])) kids)) := by
  rw [resolveNode, if_neg, if_neg]
  · simp [isPi, h2]
  · simp only [isDoctype, Bool.and_eq_true, beq_iff_eq, not_and]
    intro _; exact h1

/-- A processing instruction. -/
theorem run_pi {t : Tok} {vs : List Tok} {value : Option SVal} {root : Bool} {env : Env}
    (ht : t.kind = .element_name ∨ t.kind = .element_key) (hv : MaybeValue false vs value) (hpi : isPi none t.text = true)
    (htame : tameNode root env (.element none t.text none value []) = true) {s : NSt} {o : NOpen} {st : List NOpen}
    (rest : List Tok) (hc : NsCalm s) (hs : s.stack = o :: st) :
    ∃ x, nsRun s (t :: (vs ++ rest)) = nsRun (s.put s.heap ({ o with kids := x :: o.kids } :: st) s.dflt) rest ∧
      ∀ h, seeNode h x = resolveNode env (.element none t.text none value []) := by
  rw [tameNode_element, if_pos hpi] at htame
  simp only [tamePi, Option.isNone_none, List.isEmpty_nil, Bool.true_and] at htame
  split at htame
  · rename_i u hu
    simp only [Bool.and_eq_true, Bool.not_eq_true', bne_iff_ne, ne_eq] at htame
    obtain ⟨⟨h1, h2⟩, h3⟩ := htame
    have hhead : t.text.head? = some b#'?' := by simpa [isPi] using hpi
    obtain ⟨tl, htl⟩ : ∃ tl, t.text = b#'?' :: tl := by
      cases hx : t.text with
      | nil => rw [hx] at hhead; cases hhead
      | cons c tl => rw [hx] at hhead; cases hhead; exact ⟨tl, rfl⟩
    have hdoc : isDoctype none t.text = false := by simp [isDoctype, htl]
    have hedge : addEdgeSpaces u = some u := by
      have hp : peek u ≠ b#'\'' := by
        cases u with
        | nil => cases h1
        | cons c w => simpa [peek] using h2
      simp [addEdgeSpaces, h1, hp, h3]
    refine ⟨.pi (t.text.drop 1) u, ?_, ?_⟩
    · have s1 : nsStep s t (vs ++ rest) = some { s with pi := some (t.text.drop 1) } := by
        have : nsStep s t (vs ++ rest) = createNode s t.text := by unfold nsStep; rcases ht with ht | ht <;> simp only [ht]
        rw [this]
        unfold createNode
        rw [htl]
        simp [peek]
      rw [nsRun_step s1]
      have add : addPi { s with pi := some (t.text.drop 1) } (t.text.drop 1) u =
          some (s.put s.heap ({ o with kids := .pi (t.text.drop 1) u :: o.kids } :: st) s.dflt) := by
        simp [addPi, hedge, hs, NSt.put, hc.pi]
      cases hv with
      | none => cases hu
      | some e ts v he hval =>
        rw [List.cons_append, nsRun_step (step_equals he)]
        cases hval with
        | plain q hk =>
          simp only [Option.bind_some, SVal.text?, Option.some.injEq] at hu
          subst hu
          refine nsRun_step ?_
          unfold nsStep
          simp only [Bool.false_eq_true, if_false] at hk
          simp only [hk, elementText]
          exact add
        | quoted q w hk hw =>
          simp only [Option.bind_some, SVal.text?, Option.some.injEq] at hu
          subst hu
          refine nsRun_step ?_
          unfold nsStep
          simp only [Bool.false_eq_true, if_false] at hk
          simp only [hk, hw, Option.bind_some, elementQuote]
          exact add
        | ref => cases hu
        | many => cases hu
    · intro h
      rw [resolveNode, hdoc, hpi, hu, seeNode]
      rfl
  · cases htame

/-- The pieces of a tame processing instruction as written. -/
theorem pi_shape {root : Bool} {env : Env} {pre name attrs value kids} (hpi : isPi pre name = true)
    (h : tameNode root env (.element pre name attrs value kids) = true) : pre = none ∧ attrs = none ∧ kids = [] ∧ value.isSome := by
  have hpre : pre = none := by
    simp only [isPi, Bool.and_eq_true, beq_iff_eq] at hpi; exact hpi.1
  rw [tameNode_element, if_pos hpi] at h
  simp only [tamePi, Bool.and_eq_true, Option.isNone_iff_eq_none, List.isEmpty_iff] at h
  refine ⟨hpre, h.1.1, h.1.2, ?_⟩
  cases value with
  | none => simp at h
  | some => rfl

/-- An element with a value, or with nothing. -/
theorem elemRun_plain {ns as vs : List Tok} {pre name attrs value} (hn : ElemNameToks ns pre name) (ha : MaybeAttributes as attrs)
    (hv : MaybeValue false vs value) : ElemRun (ns ++ (as ++ vs)) (.element pre name attrs value []) := by
  intro s env root o st rest hc hs k ht hr
  cases hpi : isPi pre name with
  | true =>
    obtain ⟨rfl, rfl, -, -⟩ := pi_shape hpi ht
    cases ha
    cases hn with
    | plain t hk =>
      obtain ⟨x, h1, h2⟩ := run_pi hk hv hpi ht rest hc hs
      exact ⟨s.heap, x, o.lastAttr, s.dflt, by simpa using h1, Ext.refl _, fun h'' _ => h2 h'', fun _ => rfl⟩
  | false =>
    obtain ⟨h1, h2, h3, h4, -⟩ := tame_element hpi ht
    obtain ⟨h', e, d', hrun, done, hext, h5, h6, h7, h8⟩ := run_head hn ha (vs ++ rest) hc hs k h1 h2 h3 h4 hr
    refine ⟨h', .element e.name e.ns e.defs e.attrs.reverse (addVals e.kids (valsOf value)).reverse, false, d', ?_, hext, ?_, h8⟩
    · simp only [List.append_assoc]
      refine hrun.trans ?_
      exact run_elemValue hv (s.put h' (close e o st) d') (hc.put _ _ _) e o st rest rfl h5
    · intro h'' hx
      rw [done.see (k.ext hext) hx, resolve_element h1 h2, seeNodes_reverse, seeNodes_addVals, h7, h6, resolveNodes, List.append_nil]
      simp only [seeNodes]
      rw [foldl_addX]

/-- An element with children. -/
theorem elemRun_braces {ns as bs : List Tok} {pre name attrs kids} {l r : Tok} (hn : ElemNameToks ns pre name)
    (ha : MaybeAttributes as attrs) (hl : l.kind = .brace_left) (hrk : r.kind = .brace_right) (hb : DocRun bs kids) :
    ElemRun (ns ++ (as ++ (l :: (bs ++ [r])))) (.element pre name attrs none kids) := by
  intro s env root o st rest hc hs k ht hr
  cases hpi : isPi pre name with
  | true =>
    obtain ⟨-, -, -, h⟩ := pi_shape hpi ht
    cases h
  | false =>
    obtain ⟨h1, h2, h3, h4, h9⟩ := tame_element hpi ht
    obtain ⟨h', e, d', hrun, done, hext, h5, h6, h7, h8⟩ := run_head hn ha (l :: (bs ++ r :: rest)) hc hs k h1 h2 h3 h4 hr
    have k' : Known h' env ({ o with lastAttr := false } :: st) s.dflt := (k.ext hext).congr rfl rfl
    have kin := (done.known k').congr (o' := { e with lastAttr := false }) rfl rfl
    obtain ⟨h'', k'', la, hrun', hext', hst, hsee⟩ := hb
      (s.put h' ({ e with lastAttr := false } :: { o with lastAttr := false } :: st) d') (extend env (attrs.getD []))
      { e with lastAttr := false } ({ o with lastAttr := false } :: st) (r :: rest) (hc.put _ _ _) rfl kin h9
      (by show Stable h' e.kids; rw [h7]; exact stable_nil _)
    have c1 := hc.put h' (close e o st) d'
    refine ⟨h'', .element e.name e.ns e.defs e.attrs.reverse k''.reverse, false, d', ?_, hext.trans hext', ?_, h8⟩
    · simp only [List.append_assoc, List.cons_append, List.nil_append]
      rw [hrun, nsRun_step (step_push c1.pi c1.doctype (.inl hl) (push_close e o st h5))]
      refine Eq.trans hrun' ?_
      refine (nsRun_step (step_pop (.inl hrk) (pop_close { e with kids := k'', lastAttr := la } { o with lastAttr := false } st h5))).trans ?_
      rfl
    · intro g hg
      rw [done.see (k.ext hext) (hext'.trans hg), resolve_element h1 h2, hst.reverse g hg, seeNodes_reverse, hsee]
      have h10 : seeNodes (s.put h' ({ e with lastAttr := false } :: { o with lastAttr := false } :: st) d').heap
          ({ e with lastAttr := false } : NOpen).kids = [] := by simp only [h7, seeNodes]
      rw [h10, foldl_addX, h6]
      rfl

/-- The continuations of a comment. -/
theorem run_continuations {cs : List Tok} {ss : List (List Byte)} (h : Continuations cs ss) : ∀ (s : NSt) (o : NOpen) (st : List NOpen)
    (c : List Byte) (k : List NNode) (rest : List Tok), s.stack = o :: st → o.kids = .comment c :: k →
    nsRun s (cs ++ rest) = nsRun (s.on ({ o with kids := .comment (ss.foldl (fun c s => c ++ 10 :: s) c) :: k } :: st)) rest := by
  induction h with
  | nil =>
    intro s o st c k rest hs hk
    have : s.on ({ o with kids := .comment (([] : List (List Byte)).foldl (fun c s => c ++ 10 :: s) c) :: k } :: st) = s := by
      rw [List.foldl_nil, ← hk, ← on_self s, hs]; rfl
    rw [this]; rfl
  | cons t x ts ss hkind hval _ ih =>
    intro s o st c k rest hs hk
    have h1 : nsStep s t (ts ++ rest) = some (s.on ({ o with kids := .comment (c ++ 10 :: x) :: k } :: st)) := by
      have hval : unComment (t.col - 1) b#' ' 0 ((t.text.drop 1).reverse.takeWhile (· == b#'/') ++ t.text) = some x := hval
      unfold nsStep
      simp only [hkind, hval, Option.bind_some, hs, hk, NSt.on]
    rw [List.cons_append, nsRun_step h1, ih _ _ _ _ _ rest rfl rfl]
    rfl

/-- A text, an entity or a comment. -/
theorem run_simple {s : NSt} {o : NOpen} {st : List NOpen} (hs : s.stack = o :: st) (hst : Stable s.heap o.kids) (n : NNode)
    (x : XNode) (hn : ∀ h, seeNode h n = x) :
    addNTop s.stack n = some ({ o with kids := addNChild o.kids n, lastAttr := false } :: st) ∧ Stable s.heap (addNChild o.kids n) ∧
      seeNodes s.heap (addNChild o.kids n) = addX (seeNodes s.heap o.kids) x := by
  refine ⟨by simp [addNTop, hs], hst.add (fun h' _ => by rw [hn, hn]), by rw [seeNodes_add, hn]⟩

/-- A text or entity at the top of the stack. -/
theorem run_val {t : Tok} {v : Val} {s : NSt} {o : NOpen} {st : List NOpen} (rest : List Tok)
    (ht : t.kind = .quote ∧ quoteVal t.col t.text = some v ∨ t.kind = .entity ∧ entityVal t.text = some v) (hs : s.stack = o :: st) :
    nsRun s (t :: rest) = nsRun (s.put s.heap ({ o with kids := addNChild o.kids v.nnode, lastAttr := false } :: st) s.dflt) rest := by
  refine nsRun_step ?_
  unfold nsStep
  rcases ht with ⟨h1, h2⟩ | ⟨h1, h2⟩ <;> simp [h1, h2, hs, addNTop, NSt.put]

/-- A comment with its continuations. -/
theorem run_comment {t : Tok} {c : List Byte} {cs : List Tok} {ss : List (List Byte)} {s : NSt} {o : NOpen} {st : List NOpen}
    (rest : List Tok) (hk : t.kind = .comment) (hc : commentVal t = some c) (hcs : Continuations cs ss) (hs : s.stack = o :: st) :
    nsRun s (t :: (cs ++ rest)) = nsRun (s.put s.heap
      ({ o with kids := .comment (ss.foldl (fun c s => c ++ 10 :: s) c) :: o.kids, lastAttr := false } :: st) s.dflt) rest := by
  have hc : unComment (t.col - 1) b#' ' 0 t.text = some c := hc
  have h1 : nsStep s t (cs ++ rest) = some (s.on ({ o with kids := .comment c :: o.kids, lastAttr := false } :: st)) := by
    unfold nsStep
    simp [hk, hc, hs, addNTop, NSt.on, addNChild]
  rw [nsRun_step h1, run_continuations hcs _ _ _ _ _ rest rfl rfl]
  rfl

/-- Something simple, then the rest. -/
theorem DocRun.after {ts : List Tok} {d : List SNode} (ih : DocRun ts d) {s : NSt} {env : Env} {o : NOpen} {st : List NOpen}
    (rest : List Tok) (hc : NsCalm s) (k : Known s.heap env (o :: st) s.dflt) (ht : tameNodes env d = true) (h' : List Ns)
    (k' : List NNode) (la : Bool) (hext : Ext s.heap h') (hst : Stable h' k') (all : List Tok) (n : SNode)
    (hrun : nsRun s all = nsRun (s.put h' ({ o with kids := k', lastAttr := la } :: st) s.dflt) (ts ++ rest))
    (hsee : seeNodes h' k' = addX (seeNodes s.heap o.kids) (resolveNode env n)) :
    ∃ h' k' la, nsRun s all = nsRun (s.put h' ({ o with kids := k', lastAttr := la } :: st) s.dflt) rest ∧
      Ext s.heap h' ∧ Stable h' k' ∧ seeNodes h' k' = (resolveNodes env (n :: d)).foldl addX (seeNodes s.heap o.kids) := by
  obtain ⟨h'', k'', la', h1, h2, h3, h4⟩ := ih (s.put h' ({ o with kids := k', lastAttr := la } :: st) s.dflt) env
    { o with kids := k', lastAttr := la } st rest (hc.put _ _ _) rfl ((k.ext hext).congr rfl rfl) ht hst
  refine ⟨h'', k'', la', by rw [hrun, h1]; rfl, hext.trans h2, h3, ?_⟩
  rw [resolveNodes, List.foldl_cons, ← hsee]
  exact h4

/-- An element, then the rest. -/
theorem ElemRun.doc {us ts : List Tok} {d : List SNode} {pre name attrs value kids}
    (he : ElemRun us (.element pre name attrs value kids)) (ih : DocRun ts d) :
    DocRun (us ++ ts) (.element pre name attrs value kids :: d) := by
  intro s env o st rest hc hs k ht hst
  rw [tameNodes, Bool.and_eq_true] at ht
  obtain ⟨h', x, la, d', hrun, hext, hsee, hd⟩ := he s env false o st (ts ++ rest) hc hs k ht.1 (fun h => by cases h)
  have hd := hd rfl
  subst hd
  refine ih.after rest hc k ht.2 h' (x :: o.kids) la hext ?_ _ _ (by rw [List.append_assoc]; exact hrun) ?_
  · exact (hst.ext hext).cons fun h'' e => by rw [hsee h'' e, hsee h' (Ext.refl _)]
  · rw [seeNodes, hsee h' (Ext.refl _), hst h' hext, addX_resolve_element]

theorem docRun {ts : List Tok} {d : List SNode} (h : Doc ts d) : DocRun ts d := by
  induction h with
  | nil =>
    intro s env o st rest hc hs k ht hst
    refine ⟨s.heap, o.kids, o.lastAttr, ?_, Ext.refl _, hst, rfl⟩
    have : s.put s.heap ({ o with kids := o.kids, lastAttr := o.lastAttr } :: st) s.dflt = s := by
      rw [← on_self s, hs]; rfl
    rw [this]; rfl
  | quote t v ts d hk hv _ ih =>
    intro s env o st rest hc hs k ht hst
    rw [tameNodes, Bool.and_eq_true] at ht
    obtain ⟨-, h1, h2⟩ := run_simple hs hst v.nnode (valNode v) (fun h => seeNode_val h v)
    exact ih.after rest hc k ht.2 s.heap _ false (Ext.refl _) h1 _ (.val v) (run_val _ (.inl ⟨hk, hv⟩) hs) (by rw [resolveNode]; exact h2)
  | entity t v ts d hk hv _ ih =>
    intro s env o st rest hc hs k ht hst
    rw [tameNodes, Bool.and_eq_true] at ht
    obtain ⟨-, h1, h2⟩ := run_simple hs hst v.nnode (valNode v) (fun h => seeNode_val h v)
    exact ih.after rest hc k ht.2 s.heap _ false (Ext.refl _) h1 _ (.val v) (run_val _ (.inr ⟨hk, hv⟩) hs) (by rw [resolveNode]; exact h2)
  | comment t c cs ss ts d hk hcv hcs _ ih =>
    intro s env o st rest hc hs k ht hst
    rw [tameNodes, Bool.and_eq_true] at ht
    obtain ⟨-, h1, h2⟩ := run_simple hs hst (.comment (ss.foldl (fun c s => c ++ 10 :: s) c))
      (.comment (ss.foldl (fun c s => c ++ 10 :: s) c)) (fun h => by rw [seeNode])
    refine ih.after rest hc k ht.2 s.heap _ false (Ext.refl _) h1 _ (.comment _) ?_ (by rw [resolveNode]; exact h2)
    rw [List.cons_append, List.append_assoc]
    exact run_comment _ hk hcv hcs hs
  | plain ns as vs pre name attrs value ts d hn ha hv _ ih =>
    have := (elemRun_plain hn ha hv).doc ih
    simpa using this
  | braces ns as pre name attrs l r bs kids ts d hn ha hl hr _ _ ihb ih =>
    have := (elemRun_braces hn ha hl hr ihb).doc ih
    simpa using this

end Xmq
