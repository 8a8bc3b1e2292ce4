import Verif.Lemmas.NsJoin
/-!
# Values and brackets while the tree is built
-/
namespace Xmq
open Spec

theorem nsRun_cons (s : NSt) (t : Tok) (rest : List Tok) : nsRun s (t :: rest) = (nsStep s t rest).bind fun s => nsRun s rest := rfl

/-- One callback whose result is known. -/
theorem nsRun_step {s s' : NSt} {t : Tok} {rest : List Tok} (h : nsStep s t rest = some s') : nsRun s (t :: rest) = nsRun s' rest := by
  rw [nsRun_cons, h]; rfl

/-- Nothing is pending. -/
structure NsCalm (s : NSt) : Prop where
  elemPre : s.elemPre = none
  attrPre : s.attrPre = none
  decl : s.decl = none
  pi : s.pi = none
  doctype : s.doctype = false

/-- The state with another stack. -/
def NSt.on (s : NSt) (st : List NOpen) : NSt := { s with stack := st }

@[simp] theorem on_on (s : NSt) (a b) : (s.on a).on b = s.on b := rfl
@[simp] theorem on_stack (s : NSt) (a) : (s.on a).stack = a := rfl
@[simp] theorem on_heap (s : NSt) (a) : (s.on a).heap = s.heap := rfl
@[simp] theorem on_dflt (s : NSt) (a) : (s.on a).dflt = s.dflt := rfl
@[simp] theorem on_pi (s : NSt) (a) : (s.on a).pi = s.pi := rfl
@[simp] theorem on_doctype (s : NSt) (a) : (s.on a).doctype = s.doctype := rfl
@[simp] theorem on_decl (s : NSt) (a) : (s.on a).decl = s.decl := rfl
@[simp] theorem on_found (s : NSt) (a) : (s.on a).found = s.found := rfl
theorem on_self (s : NSt) : s.on s.stack = s := rfl
theorem NsCalm.on {s : NSt} (h : NsCalm s) (st) : NsCalm (s.on st) := ⟨h.elemPre, h.attrPre, h.decl, h.pi, h.doctype⟩

/-- Quotes and entities between parentheses are added to the top of the stack. -/
theorem run_compound {attr : Bool} {ts : List Tok} {vs : List Val} (h : Compound attr ts vs) :
    ∀ (s : NSt) (x : NOpen) (st : List NOpen) (rest : List Tok), s.stack = x :: st → x.lastAttr = false →
      nsRun s (ts ++ rest) = nsRun (s.on ({ x with kids := addVals x.kids vs } :: st)) rest := by
  induction h with
  | nil =>
    intro s x st rest hs hl
    have : s.on ({ x with kids := addVals x.kids [] } :: st) = s := by rw [← on_self s, hs]; rfl
    rw [this]; rfl
  | quote t v ts vs hk hv _ ih =>
    intro s x st rest hs hl
    rw [List.cons_append]
    have h1 : nsStep s t (ts ++ rest) = some (s.on ({ x with kids := addNChild x.kids v.nnode } :: st)) := by
      unfold nsStep
      cases attr <;> simp only [Bool.false_eq_true, if_false, if_true] at hk <;> simp only [hk, hv, hs, Option.bind_some, addNTop, Option.map_some] <;>
        (congr 1; simp [NSt.on, hl])
    rw [nsRun_step h1, ih _ { x with kids := addNChild x.kids v.nnode } st rest rfl hl]
    rfl
  | entity t v ts vs hk hv _ ih =>
    intro s x st rest hs hl
    rw [List.cons_append]
    have h1 : nsStep s t (ts ++ rest) = some (s.on ({ x with kids := addNChild x.kids v.nnode } :: st)) := by
      unfold nsStep
      cases attr <;> simp only [Bool.false_eq_true, if_false, if_true] at hk <;> simp only [hk, hv, hs, Option.bind_some, addNTop, Option.map_some] <;>
        (congr 1; simp [NSt.on, hl])
    rw [nsRun_step h1, ih _ { x with kids := addNChild x.kids v.nnode } st rest rfl hl]
    rfl

theorem step_push {s : NSt} {t : Tok} {rest : List Tok} {st' : List NOpen} (hc : s.pi = none) (hd : s.doctype = false)
    (hk : t.kind = .brace_left ∨ t.kind = .apar_left ∨ t.kind = .cpar_left) (h : pushNLast s.stack = some st') :
    nsStep s t rest = some (s.on st') := by
  unfold nsStep
  rcases hk with hk | hk | hk <;> simp [hk, hc, hd, h, NSt.on]

theorem step_pop {s : NSt} {t : Tok} {rest : List Tok} {st' : List NOpen}
    (hk : t.kind = .brace_right ∨ t.kind = .apar_right ∨ t.kind = .cpar_right) (h : popNLast s.stack = some st') :
    nsStep s t rest = some (s.on st') := by
  unfold nsStep
  rcases hk with hk | hk | hk <;> simp [hk, h, NSt.on]

theorem step_equals {s : NSt} {t : Tok} {rest : List Tok} (hk : t.kind = .equals) : nsStep s t rest = some s := by
  unfold nsStep; simp [hk]

theorem step_colon {s : NSt} {t : Tok} {rest : List Tok} (hk : t.kind = .ns_colon) : nsStep s t rest = some s := by
  unfold nsStep; simp [hk]

theorem addVals_one (v : Val) : [v].map Val.nnode = addVals [] [v] := by cases v <;> rfl

/-- The value of an attribute. -/
theorem run_attrValue {us : List Tok} {v : Option SVal} (h : MaybeValue true us v) (s : NSt) (hc : NsCalm s) (o : NOpen)
    (st : List NOpen) (name : List Byte) (ns : Option Nat) (as : List NAttr) (rest : List Tok) (hs : s.stack = o :: st)
    (ho : o.attrs = ⟨name, ns, []⟩ :: as) (hl : o.lastAttr = true) :
    nsRun s (us ++ rest) = nsRun (s.on ({ o with attrs := ⟨name, ns, joinValues (valsOf v)⟩ :: as } :: st)) rest := by
  have one : ∀ w : Val, addToNLast s.stack w = some ({ o with attrs := ⟨name, ns, joinValues [w]⟩ :: as } :: st) := by
    intro w
    have := addVals_vals [w]
    simp only [addVals, List.foldl_cons, List.foldl_nil] at this
    simp only [addToNLast, hs, hl, if_true, ho, List.map_nil, List.reverse_nil, this, Option.map_some]
  cases h with
  | none =>
    have : s.on ({ o with attrs := ⟨name, ns, joinValues (valsOf none)⟩ :: as } :: st) = s := by
      rw [← on_self s, hs, show joinValues (valsOf none) = [] from rfl, ← ho]; rfl
    rw [this]; rfl
  | some e ts v he hv =>
    rw [List.cons_append, nsRun_step (step_equals he)]
    cases hv with
    | plain t hk =>
      refine nsRun_step ?_
      unfold nsStep
      simp only [if_true] at hk
      simp only [hk, hc.decl, one, Option.map_some, NSt.on, hc.decl, hc.pi, hc.doctype, valsOf, SVal.vals]
    | quoted t w hk hw =>
      refine nsRun_step ?_
      unfold nsStep
      simp only [if_true] at hk
      simp only [hk, hw, hc.decl, one, Option.bind_some, Option.map_some, NSt.on, hc.decl, hc.pi, hc.doctype, valsOf, SVal.vals]
    | ref t w hk hw =>
      refine nsRun_step ?_
      unfold nsStep
      simp only [if_true] at hk
      simp only [hk, hw, one, Option.bind_some, Option.map_some, NSt.on, hc.decl, hc.pi, hc.doctype, valsOf, SVal.vals]
    | many l r ts vs hl' hr hvs =>
      have h1 : pushNLast s.stack = some (⟨true, name, ns, [], [], [], false⟩ :: { o with attrs := as } :: st) := by
        simp [pushNLast, hs, hl, ho]
      rw [List.cons_append, nsRun_step (step_push hc.pi hc.doctype (.inr (.inr hl')) h1), List.append_assoc,
        run_compound hvs _ _ _ _ (on_stack _ _) rfl]
      simp only [List.singleton_append, on_on]
      refine (nsRun_step (step_pop (.inr (.inr hr)) (st' := { o with attrs := ⟨name, ns, joinValues vs⟩ :: as } :: st) ?_)).trans ?_
      · simp [popNLast, addVals_vals, hl]
      · rfl

/-- An element as the latest child of the top of the stack. -/
def close (e o : NOpen) (st : List NOpen) : List NOpen :=
  { o with kids := .element e.name e.ns e.defs e.attrs.reverse e.kids.reverse :: o.kids, lastAttr := false } :: st

theorem push_close (e o : NOpen) (st : List NOpen) (he : e.isAttr = false) :
    pushNLast (close e o st) = some ({ e with lastAttr := false } :: { o with lastAttr := false } :: st) := by
  cases e; simp only at he; subst he; simp [close, pushNLast]

theorem pop_close (e o : NOpen) (st : List NOpen) (he : e.isAttr = false) : popNLast (e :: o :: st) = some (close e o st) := by
  simp [popNLast, he, close]

theorem close_lastAttr (e o : NOpen) (st : List NOpen) (a b : Bool) :
    close { e with lastAttr := a } { o with lastAttr := b } st = close e o st := rfl

/-- The value of an element. -/
theorem run_elemValue {us : List Tok} {v : Option SVal} (h : MaybeValue false us v) (s : NSt) (hc : NsCalm s) (e o : NOpen)
    (st : List NOpen) (rest : List Tok) (hs : s.stack = close e o st) (he : e.isAttr = false) :
    nsRun s (us ++ rest) = nsRun (s.on (close { e with kids := addVals e.kids (valsOf v) } o st)) rest := by
  have one : ∀ w : Val, addToNLast s.stack w = some (close { e with kids := addVals e.kids [w] } o st) := by
    intro w
    simp [addToNLast, hs, close, addVals]
  cases h with
  | none =>
    have : s.on (close { e with kids := addVals e.kids (valsOf none) } o st) = s := by rw [← on_self s, hs]; rfl
    rw [this]; rfl
  | some q ts v hq hv =>
    rw [List.cons_append, nsRun_step (step_equals hq)]
    cases hv with
    | plain t hk =>
      refine nsRun_step ?_
      unfold nsStep
      simp only [Bool.false_eq_true, if_false] at hk
      simp only [hk, elementText, hc.pi, hc.doctype, Bool.false_eq_true, if_false, one, Option.map_some, NSt.on, hc.decl, hc.pi, hc.doctype, valsOf, SVal.vals]
    | quoted t w hk hw =>
      refine nsRun_step ?_
      unfold nsStep
      simp only [Bool.false_eq_true, if_false] at hk
      simp only [hk, hw, Option.bind_some, elementQuote, hc.pi, hc.doctype, Bool.false_eq_true, if_false, one, Option.map_some, NSt.on, hc.decl, hc.pi, hc.doctype, valsOf, SVal.vals]
    | ref t w hk hw =>
      refine nsRun_step ?_
      unfold nsStep
      simp only [Bool.false_eq_true, if_false] at hk
      simp only [hk, hw, one, Option.bind_some, Option.map_some, NSt.on, hc.decl, hc.pi, hc.doctype, valsOf, SVal.vals]
    | many l r ts vs hl hr hvs =>
      have h1 := push_close e o st he
      rw [← hs] at h1
      rw [List.cons_append, nsRun_step (step_push hc.pi hc.doctype (.inr (.inr hl)) h1), List.append_assoc,
        run_compound hvs _ _ _ _ (on_stack _ _) rfl]
      simp only [List.singleton_append, on_on]
      refine (nsRun_step (step_pop (.inr (.inr hr)) 
        (pop_close { e with kids := addVals e.kids vs, lastAttr := false } { o with lastAttr := false } st he))).trans ?_
      rfl

end Xmq
