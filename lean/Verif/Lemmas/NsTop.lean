import Verif.Lemmas.NsDoc
import Verif.Lemmas.SyntaxDoc
/-!
# Running over the whole document
-/
namespace Xmq
open Spec

/-- White space changes nothing. -/
theorem nsRun_noWs (ts : List Tok) : ∀ s : NSt, nsRun s ts = nsRun s (noWs ts) := by
  induction ts with
  | nil => intro s; rfl
  | cons t ts ih =>
    intro s
    by_cases hw : t.kind = .whitespace
    · have h1 : nsStep s t ts = some s := by unfold nsStep; simp only [hw]
      have h2 : noWs (t :: ts) = noWs ts := by simp [noWs, hw]
      rw [nsRun_step h1, h2, ih]
    · have h2 : noWs (t :: ts) = t :: noWs ts := by simp [noWs, hw]
      have h3 : nsStep s t (noWs ts) = nsStep s t ts := by
        unfold nsStep
        have : (noWs ts).filter (fun t => t.kind != .whitespace) = ts.filter (fun t => t.kind != .whitespace) := by
          simp [noWs]
        simp only [this]
      rw [h2, nsRun_cons, nsRun_cons, h3]
      congr 1
      funext s'
      exact ih s'

theorem tameTop_element (doctype root : Bool) (pre name attrs value kids) (ns : List SNode) :
    tameTop doctype root (.element pre name attrs value kids :: ns) =
      if isDoctype pre name then
        (match value with | some (.plain _) => attrs.isNone && kids.isEmpty && (doctype && root) | _ => false) && tameTop false root ns
      else if isPi pre name then tameNode true topEnv (.element pre name attrs value kids) && tameTop doctype root ns
      else root && tameNode true topEnv (.element pre name attrs value kids) && tameTop doctype false ns := by
  conv => lhs; unfold tameTop
  rcases value with _ | (_ | _ | _ | _) <;> rfl

/-- The state of the document before the nodes that follow. -/
structure TopSt (s : NSt) (doctype root : Bool) (o : NOpen) : Prop where
  calm : NsCalm s
  stack : s.stack = [o]
  found : doctype = true → s.found = false
  known : root = true → Known s.heap topEnv [o] s.dflt ∧ s.dflt = none
  stable : Stable s.heap o.kids
  elem : root = true → o.kids.any NNode.isElement = false

/-- The tokens `ts` add the nodes `d` to the document. -/
def TopRun (ts : List Tok) (d : List SNode) : Prop :=
  ∀ (s : NSt) (doctype root : Bool) (o : NOpen), TopSt s doctype root o → tameTop doctype root d = true →
    ∃ s' o', nsRun s ts = some s' ∧ s'.stack = [o'] ∧ Stable s'.heap o'.kids ∧
      seeNodes s'.heap o'.kids = (resolveNodes topEnv d).foldl addX (seeNodes s.heap o.kids)

/-- A node, then the rest. -/
theorem TopRun.after {ts : List Tok} {d : List SNode} (ih : TopRun ts d) {s s1 : NSt} {doctype root : Bool} {o o1 : NOpen}
    (all : List Tok) (n : SNode) (hrun : nsRun s all = nsRun s1 ts) (h1 : TopSt s1 doctype root o1)
    (ht : tameTop doctype root d = true)
    (hsee : seeNodes s1.heap o1.kids = addX (seeNodes s.heap o.kids) (resolveNode topEnv n)) :
    ∃ s' o', nsRun s all = some s' ∧ s'.stack = [o'] ∧ Stable s'.heap o'.kids ∧
      seeNodes s'.heap o'.kids = (resolveNodes topEnv (n :: d)).foldl addX (seeNodes s.heap o.kids) := by
  obtain ⟨s', o', h2, h3, h4, h5⟩ := ih s1 doctype root o1 h1 ht
  exact ⟨s', o', hrun.trans h2, h3, h4, by rw [h5, hsee, resolveNodes, List.foldl_cons]⟩

theorem any_addNChild (kids : List NNode) (n : NNode) (h : kids.any NNode.isElement = false) (hn : n.isElement = false) :
    (addNChild kids n).any NNode.isElement = false := by
  unfold addNChild
  split
  · simpa [NNode.isElement] using h
  · simp [hn, h]

/-- Another list of children. -/
theorem TopSt.kids {s : NSt} {doctype root : Bool} {o : NOpen} (w : TopSt s doctype root o) (k : List NNode) (la : Bool)
    (hk : Stable s.heap k) (he : root = true → k.any NNode.isElement = false) :
    TopSt (s.put s.heap [{ o with kids := k, lastAttr := la }] s.dflt) doctype root { o with kids := k, lastAttr := la } :=
  ⟨w.calm.put _ _ _, rfl, w.found, fun h => ⟨(w.known h).1.congr rfl rfl, (w.known h).2⟩, hk, he⟩

/-- A doctype, a processing instruction or the root, then the rest. -/
theorem ElemRun.top {us ts : List Tok} {d : List SNode} {pre name attrs value kids}
    (he : ElemRun us (.element pre name attrs value kids)) (hdt : isDoctype pre name = false)
    (hpi : isPi pre name = true → ∃ t vs, us = t :: vs ∧ t.text = name ∧ (t.kind = .element_name ∨ t.kind = .element_key) ∧ attrs = none ∧
      kids = [] ∧ MaybeValue false vs value)
    (ih : TopRun ts d) :
    ∀ (s : NSt) (doctype root : Bool) (o : NOpen), TopSt s doctype root o →
      tameTop doctype root (.element pre name attrs value kids :: d) = true →
    ∃ s' o', nsRun s (us ++ ts) = some s' ∧ s'.stack = [o'] ∧ Stable s'.heap o'.kids ∧
      seeNodes s'.heap o'.kids =
        (resolveNodes topEnv (.element pre name attrs value kids :: d)).foldl addX (seeNodes s.heap o.kids) := by
  intro s doctype root o w ht
  rw [tameTop_element, hdt] at ht
  simp only [Bool.false_eq_true, if_false] at ht
  cases hp : isPi pre name with
  | true =>
    rw [hp, if_pos rfl, Bool.and_eq_true] at ht
    obtain ⟨t, vs, rfl, rfl, hk, rfl, rfl, hv⟩ := hpi hp
    obtain ⟨rfl, -, -, -⟩ := pi_shape hp ht.1
    obtain ⟨x, h1, h2⟩ := run_pi hk hv hp ht.1 ts w.calm w.stack
    have hst : Stable s.heap (x :: o.kids) := w.stable.cons fun h'' e => by rw [h2, h2]
    refine ih.after _ _ h1 (w.kids (x :: o.kids) o.lastAttr hst fun h => by
      rw [List.any_cons, w.elem h, Bool.or_false]
      have e := h2 s.heap
      rw [resolveNode, hdt, hp] at e
      simp only [Bool.false_eq_true, if_false, if_true] at e
      cases x with
      | element => rw [seeNode] at e; cases e
      | _ => rfl) ht.2 ?_
    show seeNodes s.heap (x :: o.kids) = _
    rw [seeNodes, h2, addX_resolve_element]
  | false =>
    rw [hp] at ht
    simp only [Bool.false_eq_true, if_false, Bool.and_eq_true] at ht
    obtain ⟨⟨rfl, ht1⟩, ht2⟩ := ht
    obtain ⟨k, hd⟩ := w.known rfl
    obtain ⟨h', x, la, d', hrun, hext, hsee, -⟩ := he s topEnv true o [] ts w.calm w.stack k ht1 (fun _ => hd)
    refine ih.after (s1 := s.put h' [{ o with kids := x :: o.kids, lastAttr := la }] d') (doctype := doctype) (root := false)
      (o1 := { o with kids := x :: o.kids, lastAttr := la }) _ _ hrun ?_ ht2 ?_
    · refine ⟨w.calm.put _ _ _, rfl, w.found, (fun h => by cases h), ?_, (fun h => by cases h)⟩
      show Stable h' (x :: o.kids)
      exact (w.stable.ext hext).cons fun h'' e => by rw [hsee h'' e, hsee h' (Ext.refl _)]
    · show seeNodes h' (x :: o.kids) = _
      rw [seeNodes, hsee h' (Ext.refl _), w.stable h' hext, addX_resolve_element]

/-- The tokens of a processing instruction. -/
theorem pi_tokens {ns as vs : List Tok} {name : List Byte} {attrs value} (hn : ElemNameToks ns none name) (ha : MaybeAttributes as attrs)
    (hv : MaybeValue false vs value) (hattrs : attrs = none) :
    ∃ t us, ns ++ (as ++ vs) = t :: us ∧ t.text = name ∧ (t.kind = .element_name ∨ t.kind = .element_key) ∧ attrs = none ∧
      ([] : List SNode) = [] ∧ MaybeValue false us value := by
  subst hattrs
  cases ha
  cases hn with
  | plain t hk => exact ⟨t, vs, rfl, rfl, hk, rfl, rfl, hv⟩

/-- A doctype. -/
theorem run_doctype {t e q : Tok} {s : NSt} {o : NOpen} (rest : List Tok) (hk : t.kind = .element_name ∨ t.kind = .element_key)
    (ht : t.text = b#"!DOCTYPE") (he : e.kind = .equals) (hq : q.kind = .element_value_text) (w : TopSt s true true o) :
    ∃ s1 o1, nsRun s (t :: e :: q :: rest) = nsRun s1 rest ∧ TopSt s1 false true o1 ∧
      seeNodes s1.heap o1.kids = .doctype q.text :: seeNodes s.heap o.kids := by
  have s1 : nsStep s t (e :: q :: rest) = some { s with doctype := true } := by
    have : nsStep s t (e :: q :: rest) = createNode s t.text := by unfold nsStep; rcases hk with hk | hk <;> simp only [hk]
    rw [this]
    unfold createNode
    rw [ht]
    rfl
  have hf := w.found rfl
  have s3 : nsStep { s with doctype := true } q rest =
      some { s with stack := [{ o with kids := .dtd q.text :: o.kids }], doctype := false, found := true } := by
    unfold nsStep
    simp only [hq, elementText, w.calm.pi, if_true, hf, w.stack, w.elem rfl, Bool.false_eq_true, if_false]
  refine ⟨{ s with stack := [{ o with kids := .dtd q.text :: o.kids }], doctype := false, found := true },
    { o with kids := .dtd q.text :: o.kids }, ?_, ⟨⟨w.calm.elemPre, w.calm.attrPre, w.calm.decl, w.calm.pi, rfl⟩, rfl,
    (fun h => by cases h), (fun h => ⟨(w.known h).1.congr rfl rfl, (w.known h).2⟩),
    (w.stable.cons fun h'' _ => by rw [seeNode, seeNode]), fun h => by rw [List.any_cons, w.elem h]; rfl⟩, ?_⟩
  · rw [nsRun_step s1, nsRun_step (step_equals he), nsRun_step s3]
  show seeNodes s.heap (.dtd q.text :: o.kids) = _
  rw [seeNodes, seeNode]

theorem topRun {ts : List Tok} {d : List SNode} (h : Doc ts d) : TopRun ts d := by
  induction h with
  | nil =>
    intro s doctype root o w _
    exact ⟨s, o, rfl, w.stack, w.stable, rfl⟩
  | quote t v ts d hk hv _ ih =>
    intro s doctype root o w ht
    obtain ⟨-, h1, h2⟩ := run_simple w.stack w.stable v.nnode (valNode v) (fun h => seeNode_val h v)
    exact ih.after _ (.val v) (run_val _ (.inl ⟨hk, hv⟩) w.stack) (w.kids _ false h1 fun h => any_addNChild _ _ (w.elem h) (by cases v <;> rfl)) (by simpa [tameTop] using ht)
      (by rw [resolveNode]; exact h2)
  | entity t v ts d hk hv _ ih =>
    intro s doctype root o w ht
    obtain ⟨-, h1, h2⟩ := run_simple w.stack w.stable v.nnode (valNode v) (fun h => seeNode_val h v)
    exact ih.after _ (.val v) (run_val _ (.inr ⟨hk, hv⟩) w.stack) (w.kids _ false h1 fun h => any_addNChild _ _ (w.elem h) (by cases v <;> rfl)) (by simpa [tameTop] using ht)
      (by rw [resolveNode]; exact h2)
  | comment t c cs ss ts d hk hcv hcs _ ih =>
    intro s doctype root o w ht
    obtain ⟨-, h1, h2⟩ := run_simple w.stack w.stable (.comment (ss.foldl (fun c s => c ++ 10 :: s) c))
      (.comment (ss.foldl (fun c s => c ++ 10 :: s) c)) (fun h => by rw [seeNode])
    exact ih.after _ (.comment _) (run_comment ts hk hcv hcs w.stack) (w.kids _ false h1 fun h => by simpa [NNode.isElement] using w.elem h) (by simpa [tameTop] using ht)
      (by rw [resolveNode]; exact h2)
  | plain ns as vs pre name attrs value ts d hn ha hv _ ih =>
    cases hdt : isDoctype pre name with
    | false =>
      intro s doctype root o w ht
      have := (elemRun_plain hn ha hv).top hdt (fun hp => by
        have hp' := hp
        have ht' := ht
        rw [tameTop_element, hdt] at ht'
        simp only [Bool.false_eq_true, if_false, hp, if_true, Bool.and_eq_true] at ht'
        obtain ⟨rfl, h2, -, -⟩ := pi_shape hp ht'.1
        exact pi_tokens hn ha hv h2) ih s doctype root o w ht
      simpa using this
    | true =>
      intro s doctype root o w ht
      rw [tameTop_element, hdt, if_pos rfl] at ht
      have hpre : pre = none ∧ name = b#"!DOCTYPE" := by simpa [isDoctype] using hdt
      obtain ⟨rfl, rfl⟩ := hpre
      cases hv with
      | none => simp at ht
      | some e ts' v he hval =>
        cases hval with
        | plain q hk =>
          simp only [Bool.and_eq_true, Option.isNone_iff_eq_none] at ht
          obtain ⟨⟨⟨rfl, -⟩, rfl, rfl⟩, ht⟩ := ht
          cases ha
          generalize hx : b#"!DOCTYPE" = nm at hn
          cases hn with
          | plain t hkt =>
            simp only [Bool.false_eq_true, if_false] at hk
            obtain ⟨s1, o1, h1, h2, h3⟩ := run_doctype ts hkt hx.symm he hk w
            refine ih.after _ _ h1 h2 ht ?_
            rw [h3, resolveNode, ← hx, if_pos hdt]
            rfl
        | _ => simp at ht
  | braces ns as pre name attrs l r bs kids ts d hn ha hl hr hb _ _ ih =>
    intro s doctype root o w ht
    cases hdt : isDoctype pre name with
    | true => rw [tameTop_element, hdt] at ht; simp at ht
    | false =>
      have := (elemRun_braces hn ha hl hr (docRun hb)).top hdt (fun hp => by
        have ht' := ht
        rw [tameTop_element, hdt] at ht'
        simp only [Bool.false_eq_true, if_false, hp, if_true, Bool.and_eq_true] at ht'
        obtain ⟨-, -, -, h⟩ := pi_shape hp ht'.1
        cases h) ih s doctype root o w ht
      simpa using this

theorem topSt_init : TopSt NSt.init true true ⟨false, [], none, [], [], [], false⟩ :=
  ⟨⟨rfl, rfl, rfl, rfl, rfl⟩, rfl, fun _ => rfl, fun _ => ⟨known_init, rfl⟩, stable_nil _, fun _ => rfl⟩

/-- The builder makes the document that the text means. -/
theorem nsBuild_resolve {toks : List Tok} {d : List SNode} (h : Doc (noWs toks) d) (ht : Tame d) :
    ∃ heap kids, nsBuild toks = some (heap, kids) ∧ seeNodes heap kids = resolve d := by
  obtain ⟨s', o', h1, h2, h3, h4⟩ := topRun h NSt.init true true _ topSt_init ht
  refine ⟨s'.heap, o'.kids.reverse, ?_, ?_⟩
  · unfold nsBuild
    rw [nsRun_noWs, h1]
    simp only [Option.bind_some, h2]
  · rw [seeNodes_reverse, h4]
    exact foldl_addX _

end Xmq
