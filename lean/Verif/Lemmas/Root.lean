import Verif.Model.Root
import Verif.Spec.Root
import Verif.Spec.NsTree
import Verif.Lemmas.NsTop
/-!
# The implicit root: the nodes of the document are the nodes of the root
-/
namespace Xmq.Rooted
open Xmq Xmq.Spec

/-- The document node with children, latest first. -/
def bot (k : List NNode) : NOpen := ⟨false, [], none, [], [], k, false⟩
/-- The implicit root with children, latest first. -/
def rt (r : List Byte) (k : List NNode) : NOpen := ⟨false, r, none, [], [], k, false⟩
/-- The stack without implicit root. -/
def flat (A : List NOpen) (k pre : List NNode) : List NOpen := A ++ [bot (k ++ pre)]
/-- The stack with it. -/
def deep (r : List Byte) (A : List NOpen) (k pre : List NNode) : List NOpen := A ++ [rt r k, bot pre]

/-- A class of nodes, which does not depend on the content. -/
structure Cls (C : NNode → Prop) : Prop where
  text : ∀ a b, C (.text a) → C (.text b)
  comment : ∀ a b, C (.comment a) → C (.comment b)
  elem : ∀ n ns d a k ns' d' a' k', C (.element n ns d a k) → C (.element n ns' d' a' k')

/-- The first of the children `k` is in the class; it may be on the stack. -/
def First (C : NNode → Prop) (A : List NOpen) (k : List NNode) : Prop :=
  (∃ k' y, k = k' ++ [y] ∧ C y) ∨ (k = [] ∧ ∃ B x, A = B ++ [x] ∧ ∀ ns d a ks, C (.element x.name ns d a ks))

/-- What is known of the children `k` of the document behind `pre`, and of the stack above it. -/
structure Inv (C : NNode → Prop) (A : List NOpen) (k : List NNode) : Prop where
  first : First C A k
  noAttr : ∀ B x, A = B ++ [x] → x.isAttr = false

theorem searchUp_deep (heap : List Ns) (p : List Byte) (r : List Byte) (k pre : List NNode) (A : List NOpen) :
    ∀ own, searchUp heap p own (deep r A k pre) = searchUp heap p own (flat A k pre) := by
  induction A with
  | nil => intro own; cases own <;> simp [deep, flat, searchUp, rt, bot]
  | cons x A ih =>
    intro own
    have e1 : deep r (x :: A) k pre = x :: deep r A k pre := rfl
    have e2 : flat (x :: A) k pre = x :: flat A k pre := rfl
    rw [e1, e2, searchUp, searchUp, ih]

theorem searchNs_deep (heap : List Ns) (p : List Byte) (r : List Byte) (k pre : List NNode) (A : List NOpen) (own : Bool) :
    searchNs heap p own (deep r A k pre) = searchNs heap p own (flat A k pre) := by
  unfold searchNs
  rw [searchUp_deep]

/-- The top of the stack, which is not the document, is changed. -/
theorem Inv.top {C : NNode → Prop} {x x' : NOpen} {A : List NOpen} {k : List NNode} (h : Inv C (x :: A) k) (h1 : x'.isAttr = x.isAttr)
    (h2 : x'.name = x.name) : Inv C (x' :: A) k := by
  obtain ⟨hf, hn⟩ := h
  refine ⟨?_, ?_⟩
  · rcases hf with hf | ⟨hk, B, y, e, hy⟩
    · exact .inl hf
    · refine .inr ⟨hk, ?_⟩
      cases B with
      | nil =>
        obtain ⟨rfl, rfl⟩ : x = y ∧ A = [] := by simpa using e
        exact ⟨[], x', rfl, by rw [h2]; exact hy⟩
      | cons z B =>
        obtain ⟨rfl, rfl⟩ : x = z ∧ A = B ++ [y] := by simpa using e
        exact ⟨x' :: B, y, rfl, hy⟩
  · intro B y e
    cases B with
    | nil =>
      obtain ⟨rfl, rfl⟩ : x' = y ∧ A = [] := by simpa using e
      rw [h1]
      exact hn [] x rfl
    | cons z B =>
      obtain ⟨rfl, rfl⟩ : x' = z ∧ A = B ++ [y] := by simpa using e
      exact hn (x :: B) y rfl

/-- A new top. -/
theorem Inv.push {C : NNode → Prop} {x z : NOpen} {A : List NOpen} {k : List NNode} (h : Inv C (x :: A) k) : Inv C (z :: x :: A) k := by
  obtain ⟨hf, hn⟩ := h
  refine ⟨?_, ?_⟩
  · rcases hf with hf | ⟨hk, B, y, e, hy⟩
    · exact .inl hf
    · exact .inr ⟨hk, z :: B, y, by rw [e]; rfl, hy⟩
  · intro B y e
    cases B with
    | nil => simp at e
    | cons w B =>
      obtain ⟨rfl, e'⟩ : z = w ∧ x :: A = B ++ [y] := by simpa using e
      exact hn B y e'

/-- The top is taken off. -/
theorem Inv.pop {C : NNode → Prop} {x z : NOpen} {A : List NOpen} {k : List NNode} (h : Inv C (z :: x :: A) k) : Inv C (x :: A) k := by
  obtain ⟨hf, hn⟩ := h
  refine ⟨?_, fun B y e => hn (z :: B) y (by rw [e]; rfl)⟩
  rcases hf with hf | ⟨hk, B, y, e, hy⟩
  · exact .inl hf
  · refine .inr ⟨hk, ?_⟩
    cases B with
    | nil => simp at e
    | cons w B =>
      obtain ⟨rfl, e'⟩ : z = w ∧ x :: A = B ++ [y] := by simpa using e
      exact ⟨B, y, e', hy⟩

theorem Inv.bottom {C : NNode → Prop} {k : List NNode} (h : Inv C [] k) : ∃ k' y, k = k' ++ [y] ∧ C y := by
  rcases h.first with h | ⟨-, B, x, e, -⟩
  · exact h
  · simp at e

theorem inv_bottom {C : NNode → Prop} {k k' : List NNode} {y : NNode} (e : k = k' ++ [y]) (h : C y) : Inv C [] k :=
  ⟨.inl ⟨k', y, e, h⟩, fun B x e => by simp at e⟩

/-- A node in front of the children. -/
theorem inv_cons {C : NNode → Prop} {k : List NNode} (n : NNode) (h : Inv C [] k) : Inv C [] (n :: k) := by
  obtain ⟨k', y, rfl, hy⟩ := h.bottom
  exact inv_bottom (k' := n :: k') rfl hy

theorem addNChild_append {k : List NNode} (pre : List NNode) (n : NNode) (h : k ≠ []) : addNChild (k ++ pre) n = addNChild k n ++ pre := by
  cases k with
  | nil => exact absurd rfl h
  | cons m k =>
    cases n with
    | text b => cases m <;> rfl
    | _ => rfl

theorem inv_add {C : NNode → Prop} (hC : Cls C) {k : List NNode} (n : NNode) (h : Inv C [] k) : Inv C [] (addNChild k n) := by
  obtain ⟨k', y, rfl, hy⟩ := h.bottom
  have hne : n :: (k' ++ [y]) = (n :: k') ++ [y] := rfl
  cases n with
  | text b =>
    cases k' with
    | nil =>
      cases y with
      | text a => exact inv_bottom (k' := []) (y := .text (a ++ b)) rfl (hC.text _ _ hy)
      | _ => exact inv_bottom (k' := [.text b]) rfl hy
    | cons m k' =>
      cases m with
      | text a => exact inv_bottom (k' := .text (a ++ b) :: k') rfl hy
      | _ => exact inv_bottom (k' := .text b :: _ :: k') rfl hy
  | _ => exact inv_bottom hne hy

/-- The result of an operation on the stack without and with implicit root. -/
def Both (C : NNode → Prop) (r : List Byte) (pre : List NNode) (n : Nat) (st st' : Option (List NOpen)) : Prop :=
  ∀ u, st = some u → ∃ A k, u = flat A k pre ∧ Inv C A k ∧ A.length = n ∧ st' = some (deep r A k pre)

theorem both_addNTop {C : NNode → Prop} (hC : Cls C) (r : List Byte) {A : List NOpen} {k : List NNode} (pre : List NNode) (n : NNode)
    (h : Inv C A k) : Both C r pre A.length (addNTop (flat A k pre) n) (addNTop (deep r A k pre) n) := by
  intro u hu
  cases A with
  | nil =>
    obtain ⟨k', y, e, -⟩ := h.bottom
    refine ⟨[], addNChild k n, ?_, inv_add hC n h, rfl, rfl⟩
    have e1 : addNTop (flat [] k pre) n = some [bot (addNChild (k ++ pre) n)] := rfl
    rw [e1, addNChild_append pre n (by rw [e]; simp)] at hu
    cases hu; rfl
  | cons x A =>
    refine ⟨{ x with kids := addNChild x.kids n, lastAttr := false } :: A, k, ?_, h.top rfl rfl, rfl, rfl⟩
    have e1 : addNTop (flat (x :: A) k pre) n = some ({ x with kids := addNChild x.kids n, lastAttr := false } :: (A ++ [bot (k ++ pre)])) := rfl
    rw [e1] at hu
    cases hu; rfl

theorem both_addToNLast {C : NNode → Prop} (hC : Cls C) (r : List Byte) {A : List NOpen} {k : List NNode} (pre : List NNode) (v : Val)
    (h : Inv C A k) : Both C r pre A.length (addToNLast (flat A k pre) v) (addToNLast (deep r A k pre) v) := by
  intro u hu
  cases A with
  | nil =>
    obtain ⟨k', y, rfl, hy⟩ := h.bottom
    cases k' with
    | nil =>
      cases y with
      | element name ns defs attrs kids =>
        refine ⟨[], [.element name ns defs attrs (addNChild kids.reverse v.nnode).reverse], ?_,
          inv_bottom (k' := []) rfl (hC.elem _ _ _ _ _ _ _ _ _ hy), rfl, rfl⟩
        simpa [addToNLast, flat, bot] using hu.symm
      | _ => simp [addToNLast, flat, bot] at hu
    | cons m k' =>
      cases m with
      | element name ns defs attrs kids =>
        refine ⟨[], .element name ns defs attrs (addNChild kids.reverse v.nnode).reverse :: (k' ++ [y]), ?_,
          inv_bottom (k' := _ :: k') rfl hy, rfl, rfl⟩
        simpa [addToNLast, flat, bot] using hu.symm
      | _ => simp [addToNLast, flat, bot] at hu
  | cons x A =>
    have ef : flat (x :: A) k pre = x :: flat A k pre := rfl
    have ed : deep r (x :: A) k pre = x :: deep r A k pre := rfl
    rw [ef] at hu
    rw [ed]
    unfold addToNLast at hu ⊢
    by_cases hl : x.lastAttr = true
    · simp only [hl, if_true] at hu ⊢
      cases ha : x.attrs with
      | nil => rw [ha] at hu; cases hu
      | cons a as =>
        rw [ha] at hu
        simp only [Option.map_eq_some_iff] at hu ⊢
        obtain ⟨w, hw, rfl⟩ := hu
        exact ⟨_ :: A, k, rfl, h.top rfl rfl, rfl, w, hw, rfl⟩
    · simp only [hl, Bool.false_eq_true, if_false] at hu ⊢
      cases hk : x.kids with
      | nil => rw [hk] at hu; cases hu
      | cons m ks =>
        rw [hk] at hu
        cases m with
        | element name ns defs attrs kids =>
          simp only [Option.some.injEq] at hu ⊢
          subst hu
          exact ⟨_ :: A, k, rfl, h.top rfl rfl, rfl, rfl⟩
        | _ => cases hu

theorem both_push {C : NNode → Prop} (hC : Cls C) (r : List Byte) {A : List NOpen} {k : List NNode} (pre : List NNode)
    (h : Inv C A k) : Both C r pre (A.length + 1) (pushNLast (flat A k pre)) (pushNLast (deep r A k pre)) := by
  intro u hu
  cases A with
  | nil =>
    obtain ⟨k', y, rfl, hy⟩ := h.bottom
    cases k' with
    | nil =>
      cases y with
      | element name ns defs attrs kids =>
        refine ⟨[⟨false, name, ns, defs, attrs.reverse, kids.reverse, false⟩], [], ?_,
          ⟨.inr ⟨rfl, [], _, rfl, fun _ _ _ _ => hC.elem _ _ _ _ _ _ _ _ _ hy⟩, ?_⟩, rfl, rfl⟩
        · simpa [pushNLast, flat, bot] using hu.symm
        · intro B x e
          cases B with
          | nil => cases e; rfl
          | cons z B => simp at e
      | _ => simp [pushNLast, flat, bot] at hu
    | cons m k' =>
      cases m with
      | element name ns defs attrs kids =>
        refine ⟨[⟨false, name, ns, defs, attrs.reverse, kids.reverse, false⟩], k' ++ [y], ?_,
          ⟨.inl ⟨k', y, rfl, hy⟩, ?_⟩, rfl, rfl⟩
        · simpa [pushNLast, flat, bot] using hu.symm
        · intro B x e
          cases B with
          | nil => cases e; rfl
          | cons z B => simp at e
      | _ => simp [pushNLast, flat, bot] at hu
  | cons x A =>
    have ef : flat (x :: A) k pre = x :: flat A k pre := rfl
    have ed : deep r (x :: A) k pre = x :: deep r A k pre := rfl
    rw [ef] at hu
    rw [ed]
    unfold pushNLast at hu ⊢
    by_cases hl : x.lastAttr = true
    · simp only [hl, if_true] at hu ⊢
      cases ha : x.attrs with
      | nil => rw [ha] at hu; cases hu
      | cons a as =>
        rw [ha] at hu
        simp only [Option.some.injEq] at hu ⊢
        subst hu
        exact ⟨_ :: _ :: A, k, rfl, (by refine Inv.push ?_; exact h.top rfl rfl), rfl, rfl⟩
    · simp only [hl, Bool.false_eq_true, if_false] at hu ⊢
      cases hk : x.kids with
      | nil => rw [hk] at hu; cases hu
      | cons m ks =>
        rw [hk] at hu
        cases m with
        | element name ns defs attrs kids =>
          simp only [Option.some.injEq] at hu ⊢
          subst hu
          exact ⟨_ :: _ :: A, k, rfl, (by refine Inv.push ?_; exact h.top rfl rfl), rfl, rfl⟩
        | _ => cases hu

theorem both_pop {C : NNode → Prop} (r : List Byte) {A : List NOpen} {k : List NNode} (pre : List NNode)
    (h : Inv C A k) : Both C r pre (A.length - 1) (popNLast (flat A k pre)) (popNLast (deep r A k pre)) := by
  intro u hu
  match A, h with
  | [], h => simp [popNLast, flat] at hu
  | [x], h =>
    have hx := h.noAttr [] x rfl
    have ef : popNLast (flat [x] k pre) = some [bot (.element x.name x.ns x.defs x.attrs.reverse x.kids.reverse :: (k ++ pre))] := by
      simp [popNLast, flat, bot, hx]
    rw [ef] at hu
    refine ⟨[], .element x.name x.ns x.defs x.attrs.reverse x.kids.reverse :: k, by cases hu; rfl, ?_, rfl, ?_⟩
    · rcases h.first with ⟨k', y, rfl, hy⟩ | ⟨rfl, B, y, e, hy⟩
      · exact inv_bottom (k' := _ :: k') rfl hy
      · cases B with
        | nil =>
          cases e
          exact inv_bottom (k' := []) rfl (hy _ _ _ _)
        | cons z B => simp at e
    · simp [popNLast, deep, rt, hx]
  | x :: p :: A, h =>
    have ef : flat (x :: p :: A) k pre = x :: p :: flat A k pre := rfl
    have ed : deep r (x :: p :: A) k pre = x :: p :: deep r A k pre := rfl
    rw [ef] at hu
    rw [ed]
    unfold popNLast at hu ⊢
    by_cases hl : x.isAttr = true
    · simp only [hl, if_true, Option.map_eq_some_iff] at hu ⊢
      obtain ⟨v, hv, rfl⟩ := hu
      exact ⟨_ :: A, k, rfl, h.pop.top rfl rfl, rfl, v, hv, rfl⟩
    · simp only [hl, Bool.false_eq_true, if_false, Option.some.injEq] at hu ⊢
      subst hu
      exact ⟨_ :: A, k, rfl, h.pop.top rfl rfl, rfl, rfl⟩

/-! ## One token -/

/-- The depth behind a token. -/
def depthAfter (n : Nat) : Kind → Nat
  | .brace_left | .apar_left | .cpar_left => n + 1
  | .brace_right | .apar_right | .cpar_right => n - 1
  | _ => n

/-- Tokens of attributes. -/
def attrKind : Kind → Bool
  | .ns_declaration | .attr_key | .attr_value_text | .attr_value_quote | .attr_value_entity => true
  | _ => false

/-- What holds behind a token: without implicit root, and with it if the first node is an element. -/
def Next (C : NNode → Prop) (r : List Byte) (pre : List NNode) (n : Nat) (s1 : NSt) (out : Option NSt) : Prop :=
  ∃ A k, s1.stack = flat A k pre ∧ Inv C A k ∧ A.length = n ∧
    ((∀ y, C y → y.isElement = true) → out = some (s1.on (deep r A k pre)))

theorem next_of_both {C : NNode → Prop} {r : List Byte} {pre : List NNode} {n : Nat} {s1 : NSt} {w w' : List NOpen → NSt} {st st' : Option (List NOpen)}
    (h : Both C r pre n st st') (h1 : st.map w = some s1) (hw : ∀ st, (w st).stack = st) (hw' : ∀ st st', w' st' = (w st).on st') :
    Next C r pre n s1 (st'.map w') := by
  rw [Option.map_eq_some_iff] at h1
  obtain ⟨u, hu, rfl⟩ := h1
  obtain ⟨A, k, rfl, h2, h3, h4⟩ := h u hu
  exact ⟨A, k, hw _, h2, h3, fun _ => by rw [h4, Option.map_some, hw' (flat A k pre)]⟩

theorem both_cont {C : NNode → Prop} (hC : Cls C) (r : List Byte) {A : List NOpen} {k : List NNode} (pre : List NNode) (c : List Byte)
    {f : List NOpen → Option (List NOpen)}
    (hf : ∀ st, f st = match st with
      | o :: st =>
        match o.kids with
        | .comment b :: ks => some ({ o with kids := .comment (b ++ b#'\n' :: c) :: ks } :: st)
        | _ => none
      | [] => none)
    (h : Inv C A k) : Both C r pre A.length (f (flat A k pre)) (f (deep r A k pre)) := by
  intro u hu
  rw [hf] at hu ⊢
  cases A with
  | nil =>
    obtain ⟨k', y, rfl, hy⟩ := h.bottom
    cases k' with
    | nil =>
      cases y with
      | comment b =>
        refine ⟨[], [.comment (b ++ b#'\n' :: c)], ?_, inv_bottom (k' := []) rfl (hC.comment _ _ hy), rfl, rfl⟩
        simpa [flat, bot] using hu.symm
      | _ => simp [flat, bot] at hu
    | cons m k' =>
      cases m with
      | comment b =>
        refine ⟨[], .comment (b ++ b#'\n' :: c) :: (k' ++ [y]), ?_, inv_bottom (k' := _ :: k') rfl hy, rfl, rfl⟩
        simpa [flat, bot] using hu.symm
      | _ => simp [flat, bot] at hu
  | cons x A =>
    have ef : flat (x :: A) k pre = x :: flat A k pre := rfl
    have ed : deep r (x :: A) k pre = x :: deep r A k pre := rfl
    rw [ef] at hu
    rw [ed]
    cases hk : x.kids with
    | nil => simp only [hk] at hu; cases hu
    | cons m ks =>
      cases m with
      | comment b =>
        simp only [hk, Option.some.injEq] at hu ⊢
        subst hu
        exact ⟨_ :: A, k, rfl, h.top rfl rfl, rfl, rfl⟩
      | _ => simp only [hk] at hu; cases hu

theorem next_createNode {C : NNode → Prop} (r : List Byte) {s s1 : NSt} {A : List NOpen} {k pre : List NNode}
    (hs : s.stack = flat A k pre) (h : Inv C A k) (name : List Byte) (h1 : createNode s name = some s1) :
    Next C r pre A.length s1 (createNode (s.on (deep r A k pre)) name) := by
  unfold createNode at h1 ⊢
  by_cases c1 : (name == b#"!DOCTYPE") = true
  · rw [if_pos c1] at h1 ⊢
    cases h1
    exact ⟨A, k, hs, h, rfl, fun _ => rfl⟩
  rw [if_neg c1] at h1 ⊢
  by_cases c2 : (peek name == b#'?') = true
  · rw [if_pos c2] at h1 ⊢
    cases h1
    exact ⟨A, k, hs, h, rfl, fun _ => rfl⟩
  rw [if_neg c2] at h1 ⊢
  have add : ∀ ns defs, ∃ A' k', Inv C A' k' ∧ A'.length = A.length ∧
      (match flat A k pre with | [] => [] | o :: st => { o with kids := .element name ns defs [] [] :: o.kids, lastAttr := false } :: st) =
        flat A' k' pre ∧
      (match deep r A k pre with | [] => [] | o :: st => { o with kids := .element name ns defs [] [] :: o.kids, lastAttr := false } :: st) =
        deep r A' k' pre := by
    intro ns defs
    cases A with
    | nil => exact ⟨[], .element name ns defs [] [] :: k, inv_cons _ h, rfl, rfl, rfl⟩
    | cons x A => exact ⟨{ x with kids := _, lastAttr := false } :: A, k, h.top rfl rfl, rfl, rfl, rfl⟩
  have hsearch := fun p => searchNs_deep s.heap p r k pre A false
  have hst : (s.on (deep r A k pre)).stack = deep r A k pre := rfl
  rw [hst]
  rw [hs] at h1
  obtain ⟨o, st, e1⟩ : ∃ o st, flat A k pre = o :: st := by cases A <;> exact ⟨_, _, rfl⟩
  obtain ⟨o', st', e2⟩ : ∃ o st, deep r A k pre = o :: st := by cases A <;> exact ⟨_, _, rfl⟩
  rw [e1, e2] at add
  simp only [e1, e2] at h1 hsearch ⊢
  have hpre : (s.on (o' :: st')).elemPre = s.elemPre := rfl
  have hh : (s.on (o' :: st')).heap = s.heap := rfl
  rw [hpre, hh]
  cases hp : s.elemPre with
  | none =>
    simp only [hp] at h1 ⊢
    cases h1
    obtain ⟨A', k', i1, i2, i3, i4⟩ := add s.dflt []
    exact ⟨A', k', i3, i1, i2, fun _ => by rw [← i4]; rfl⟩
  | some p =>
    simp only [hp] at h1 ⊢
    rw [hsearch]
    cases hse : searchNs s.heap p false (o :: st) with
    | some i =>
      simp only [hse] at h1 ⊢
      cases h1
      obtain ⟨A', k', i1, i2, i3, i4⟩ := add (some i) []
      exact ⟨A', k', i3, i1, i2, fun _ => by rw [← i4]; rfl⟩
    | none =>
      simp only [hse] at h1 ⊢
      cases h1
      obtain ⟨A', k', i1, i2, i3, i4⟩ := add (some s.heap.length) [s.heap.length]
      exact ⟨A', k', i3, i1, i2, fun _ => by rw [← i4]; rfl⟩

theorem next_declareNs {C : NNode → Prop} (r : List Byte) {s s1 : NSt} {A : List NOpen} {k pre : List NNode}
    (hs : s.stack = flat A k pre) (h : Inv C A k) (hA : A ≠ []) (p : Option (List Byte)) (h1 : declareNs s p = some s1) :
    Next C r pre A.length s1 (declareNs (s.on (deep r A k pre)) p) := by
  cases A with
  | nil => exact absurd rfl hA
  | cons x A =>
    unfold declareNs at h1 ⊢
    by_cases c : (p == some xmlPrefix) = true
    · rw [if_pos c] at h1; cases h1
    rw [if_neg c] at h1 ⊢
    have ef : flat (x :: A) k pre = x :: flat A k pre := rfl
    have ed : (s.on (deep r (x :: A) k pre)).stack = x :: deep r A k pre := rfl
    rw [hs, ef] at h1
    rw [ed]
    cases p with
    | none =>
      simp only at h1 ⊢
      cases h1
      exact ⟨_ :: A, k, rfl, h.top rfl rfl, rfl, fun _ => rfl⟩
    | some p =>
      simp only at h1 ⊢
      cases h1
      exact ⟨_ :: A, k, rfl, h.top rfl rfl, rfl, fun _ => rfl⟩

theorem next_attrKey {C : NNode → Prop} (r : List Byte) {s s1 : NSt} {A : List NOpen} {k pre : List NNode}
    (hs : s.stack = flat A k pre) (h : Inv C A k) (hA : A ≠ []) (key : List Byte) (h1 : attrKey s key = some s1) :
    Next C r pre A.length s1 (attrKey (s.on (deep r A k pre)) key) := by
  cases A with
  | nil => exact absurd rfl hA
  | cons x A =>
    have hsearch := fun p => searchNs_deep s.heap p r k pre (x :: A) true
    have ef : flat (x :: A) k pre = x :: flat A k pre := rfl
    have ed' : deep r (x :: A) k pre = x :: deep r A k pre := rfl
    have ed : (s.on (deep r (x :: A) k pre)).stack = x :: deep r A k pre := rfl
    have e3 : (s.on (deep r (x :: A) k pre)).attrPre = s.attrPre := rfl
    have e4 : (s.on (deep r (x :: A) k pre)).heap = s.heap := rfl
    unfold attrKey at h1 ⊢
    rw [hs, ef] at h1
    rw [ed, e3, e4]
    rw [ef, ed'] at hsearch
    cases hp : s.attrPre with
    | none =>
      simp only [hp] at h1 ⊢
      cases h1
      exact ⟨_ :: A, k, rfl, h.top rfl rfl, rfl, fun _ => rfl⟩
    | some p =>
      simp only [hp] at h1 ⊢
      rw [hsearch]
      cases hse : searchNs s.heap p true (x :: flat A k pre) with
      | some i =>
        simp only [hse] at h1 ⊢
        cases h1
        exact ⟨_ :: A, k, rfl, h.top rfl rfl, rfl, fun _ => rfl⟩
      | none =>
        simp only [hse] at h1 ⊢
        by_cases c : (ownDef s.heap (some p) x.defs).isSome = true
        · rw [if_pos c] at h1 ⊢
          cases h1
          exact ⟨_ :: A, k, rfl, h.top rfl rfl, rfl, fun _ => rfl⟩
        · rw [if_neg c] at h1 ⊢
          cases h1
          exact ⟨_ :: A, k, rfl, h.top rfl rfl, rfl, fun _ => rfl⟩

theorem next_updateHref {C : NNode → Prop} (r : List Byte) {s s1 : NSt} {A : List NOpen} {k pre : List NNode}
    (hs : s.stack = flat A k pre) (h : Inv C A k) (hA : A ≠ []) (i : Nat) (href : List Byte) (empty : Bool)
    (h1 : updateHref s i href empty = some s1) :
    Next C r pre A.length s1 (updateHref (s.on (deep r A k pre)) i href empty) := by
  cases A with
  | nil => exact absurd rfl hA
  | cons x A =>
    have ef : flat (x :: A) k pre = x :: flat A k pre := rfl
    have ed' : deep r (x :: A) k pre = x :: deep r A k pre := rfl
    unfold updateHref at h1 ⊢
    have e5 : (s.on (deep r (x :: A) k pre)).dflt = s.dflt := rfl
    simp only [e5]
    by_cases c : (empty && s.dflt == some i) = true
    · simp only [if_pos c] at h1 ⊢
      rw [hs, ef] at h1
      simp only [on_stack, ed'] at h1 ⊢
      cases h1
      exact ⟨_ :: A, k, rfl, h.top rfl rfl, rfl, fun _ => rfl⟩
    · simp only [if_neg c] at h1 ⊢
      cases h1
      exact ⟨x :: A, k, hs, h, rfl, fun _ => rfl⟩

theorem next_addPi {C : NNode → Prop} (r : List Byte) {s s1 : NSt} {A : List NOpen} {k pre : List NNode}
    (hs : s.stack = flat A k pre) (h : Inv C A k) (target content : List Byte) (h1 : addPi s target content = some s1) :
    Next C r pre A.length s1 (addPi (s.on (deep r A k pre)) target content) := by
  unfold addPi at h1 ⊢
  rw [hs] at h1
  rw [on_stack]
  cases hc : addEdgeSpaces content with
  | none => rw [hc] at h1; simp at h1
  | some c =>
    rw [hc] at h1
    cases A with
    | nil =>
      have h2 := inv_cons (.pi target c) h
      simp only [flat, deep, List.nil_append] at h1 ⊢
      cases h1
      exact ⟨[], .pi target c :: k, rfl, h2, rfl, fun _ => rfl⟩
    | cons x A =>
      simp only [flat, deep, List.cons_append] at h1 ⊢
      cases h1
      exact ⟨_ :: A, k, rfl, h.top rfl rfl, rfl, fun _ => rfl⟩

theorem next_elementText {C : NNode → Prop} (hC : Cls C) (r : List Byte) {s s1 : NSt} {A : List NOpen} {k pre : List NNode}
    (hs : s.stack = flat A k pre) (h : Inv C A k) (t : List Byte) (h1 : elementText s t = some s1) :
    Next C r pre A.length s1 (elementText (s.on (deep r A k pre)) t) := by
  unfold elementText at h1 ⊢
  rw [on_pi, on_doctype, on_stack]
  cases hp : s.pi with
  | some target => rw [hp] at h1; exact next_addPi r hs h _ _ h1
  | none =>
    simp only [hp] at h1 ⊢
    by_cases hd : s.doctype = true
    · simp only [hd, if_true] at h1 ⊢
      cases A with
      | nil =>
        obtain ⟨k', y, e, hy⟩ := h.bottom
        rw [hs] at h1
        cases hf : s.found with
        | true => rw [hf] at h1; cases h1
        | false =>
          rw [hf] at h1
          simp only [flat, List.nil_append] at h1
          by_cases c : ((bot (k ++ pre)).kids.any NNode.isElement) = true
          · rw [if_pos c] at h1; cases h1
          · rw [if_neg c] at h1
            cases h1
            refine ⟨[], .dtd t :: k, rfl, inv_cons _ h, rfl, fun hel => absurd ?_ c⟩
            have := hel y hy
            simp [bot, e, this]
      | cons x A =>
        rw [hs] at h1
        exfalso
        cases hf : s.found with
        | true => rw [hf] at h1; cases h1
        | false =>
          rw [hf] at h1
          cases A <;> cases h1
    · simp only [hd, Bool.false_eq_true, if_false] at h1 ⊢
      rw [hs] at h1
      exact next_of_both (both_addToNLast hC r pre _ h) h1 (fun _ => rfl) (fun _ _ => by simp [NSt.on, *])

theorem next_elementQuote {C : NNode → Prop} (hC : Cls C) (r : List Byte) {s s1 : NSt} {A : List NOpen} {k pre : List NNode}
    (hs : s.stack = flat A k pre) (h : Inv C A k) (v : Val) (h1 : elementQuote s v = some s1) :
    Next C r pre A.length s1 (elementQuote (s.on (deep r A k pre)) v) := by
  unfold elementQuote at h1 ⊢
  rw [on_pi, on_doctype, on_stack]
  cases hp : s.pi with
  | some target =>
    rw [hp] at h1
    cases v with
    | text t => exact next_addPi r hs h _ _ h1
    | entity n => cases h1
  | none =>
    simp only [hp] at h1 ⊢
    by_cases hd : s.doctype = true
    · rw [if_pos hd] at h1; cases h1
    · rw [if_neg hd] at h1 ⊢
      rw [hs] at h1
      exact next_of_both (both_addToNLast hC r pre _ h) h1 (fun _ => rfl) (fun _ _ => by simp [NSt.on, *])

theorem next_bind {β : Type} {C : NNode → Prop} {r : List Byte} {pre : List NNode} {n : Nat} {s1 : NSt} {o : Option β} {f g : β → Option NSt}
    (h1 : o.bind f = some s1) (h : ∀ b, f b = some s1 → Next C r pre n s1 (g b)) : Next C r pre n s1 (o.bind g) := by
  cases o with
  | none => cases h1
  | some b => exact h b h1

/-- One token. -/
theorem next {C : NNode → Prop} (hC : Cls C) (r : List Byte) {s s1 : NSt} {A : List NOpen} {k pre : List NNode}
    (hs : s.stack = flat A k pre) (h : Inv C A k) (t : Tok) (rest : List Tok) (hA : attrKind t.kind = true → A ≠ [])
    (h1 : nsStep s t rest = some s1) :
    Next C r pre (depthAfter A.length t.kind) s1 (nsStep (s.on (deep r A k pre)) t rest) := by
  have same : ∀ s1 : NSt, s1.stack = s.stack → Next C r pre A.length s1 (some (s1.on (deep r A k pre))) := fun s1 e =>
    ⟨A, k, e.trans hs, h, rfl, fun _ => rfl⟩
  unfold nsStep at h1 ⊢
  cases hk : t.kind <;> rw [hk] at hA <;> simp only [hk, on_stack, on_pi, on_doctype, depthAfter] at h1 ⊢
  case whitespace => cases h1; exact same s rfl
  case equals => cases h1; exact same s rfl
  case ns_colon => cases h1; exact same s rfl
  case element_ns => cases h1; exact same { s with elemPre := some t.text } rfl
  case attr_ns =>
    have e : (s.on (deep r A k pre)).decl = s.decl := rfl
    rw [e]
    by_cases c : s.decl.isSome = true
    · rw [if_pos c] at h1 ⊢; cases h1; exact same s rfl
    · rw [if_neg c] at h1 ⊢; cases h1; exact same { s with attrPre := some t.text } rfl
  case brace_left | apar_left | cpar_left =>
    by_cases c : (s.pi.isSome || s.doctype) = true
    · rw [if_pos c] at h1; cases h1
    · simp only [c, Bool.false_eq_true, if_false] at h1 ⊢
      rw [hs] at h1
      exact next_of_both (both_push hC r pre h) h1 (fun _ => rfl) (fun _ _ => by simp [NSt.on, *])
  case brace_right | apar_right | cpar_right =>
    rw [hs] at h1
    exact next_of_both (both_pop r pre h) h1 (fun _ => rfl) (fun _ _ => by simp [NSt.on, *])
  case quote | element_value_compound_quote | attr_value_compound_quote | entity | element_value_compound_entity | attr_value_compound_entity | comment =>
    rw [hs] at h1
    exact next_bind h1 fun v h2 => next_of_both (both_addNTop hC r pre _ h) h2 (fun _ => rfl) (fun _ _ => by simp [NSt.on, *])
  case element_name | element_key => exact next_createNode r hs h _ h1
  case element_value_text => exact next_elementText hC r hs h _ h1
  case element_value_quote => exact next_bind h1 fun v h2 => next_elementQuote hC r hs h v h2
  case element_value_entity =>
    rw [hs] at h1
    exact next_bind h1 fun v h2 => next_of_both (both_addToNLast hC r pre _ h) h2 (fun _ => rfl) (fun _ _ => by simp [NSt.on, *])
  case ns_declaration => exact next_declareNs r hs h (hA rfl) _ h1
  case attr_key => exact next_attrKey r hs h (hA rfl) _ h1
  case attr_value_text =>
    have e : (s.on (deep r A k pre)).decl = s.decl := rfl
    rw [e]
    cases hd : s.decl with
    | some i => simp only [hd] at h1 ⊢; exact next_updateHref r hs h (hA rfl) _ _ _ h1
    | none =>
      simp only [hd] at h1 ⊢
      rw [hs] at h1
      exact next_of_both (both_addToNLast hC r pre _ h) h1 (fun _ => rfl) (fun _ _ => by simp [NSt.on, *])
  case attr_value_quote =>
    refine next_bind h1 fun v h2 => ?_
    have e : (s.on (deep r A k pre)).decl = s.decl := rfl
    rw [e]
    cases hd : s.decl with
    | some i =>
      simp only [hd] at h2 ⊢
      cases v with
      | text u => exact next_updateHref r hs h (hA rfl) _ _ _ h2
      | entity u => cases h2
    | none =>
      simp only [hd] at h2 ⊢
      rw [hs] at h2
      exact next_of_both (both_addToNLast hC r pre _ h) h2 (fun _ => rfl) (fun _ _ => by simp [NSt.on, *])
  case attr_value_entity =>
    rw [hs] at h1
    exact next_bind h1 fun v h2 => next_of_both (both_addToNLast hC r pre _ h) h2 (fun _ => rfl) (fun _ _ => by simp [NSt.on, *])
  case comment_continuation =>
    refine next_bind h1 fun c h2 => ?_
    have key := both_cont hC r pre c (f := fun st => match st with
      | o :: st =>
        match o.kids with
        | .comment b :: ks => some ({ o with kids := .comment (b ++ b#'\n' :: c) :: ks } :: st)
        | _ => none
      | [] => none) (fun _ => rfl) h
    rw [hs] at h2
    have e : ∀ (q : NSt) (l : List NOpen), (match l with
        | o :: st =>
          match o.kids with
          | .comment b :: ks => some { q with stack := { o with kids := .comment (b ++ b#'\n' :: c) :: ks } :: st }
          | _ => none
        | [] => none) = ((match l with
        | o :: st =>
          match o.kids with
          | .comment b :: ks => some ({ o with kids := .comment (b ++ b#'\n' :: c) :: ks } :: st)
          | _ => none
        | [] => none) : Option (List NOpen)).map fun st => { q with stack := st } := by
      intro q l
      cases l with
      | nil => rfl
      | cons o st =>
        rcases hk : o.kids with _ | ⟨m, ks⟩
        · simp only [hk, Option.map_none]
        · cases m <;> simp only [hk, Option.map_none, Option.map_some]
    have h4 := next_of_both (w' := fun st => { s.on (deep r A k pre) with stack := st }) key ((e s _).symm.trans h2) (fun _ => rfl)
      (fun _ _ => rfl)
    exact (congrArg (Next C r pre A.length s1) (e (s.on (deep r A k pre)) (deep r A k pre))).mpr h4

end Xmq.Rooted
