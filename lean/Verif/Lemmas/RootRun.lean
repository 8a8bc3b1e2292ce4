import Verif.Lemmas.Root
/-!
# The implicit root: all tokens
-/
namespace Xmq.Rooted
open Xmq Xmq.Spec

/-- Tokens of attributes stand inside of something. -/
def inside : Nat → List Tok → Bool
  | _, [] => true
  | n, t :: ts => (!attrKind t.kind || decide (0 < n)) && inside (depthAfter n t.kind) ts

/-- The tokens leave the depth as it is. -/
def Neutral (ts : List Tok) : Prop := ∀ n rest, inside n rest = true → inside n (ts ++ rest) = true
/-- The same for tokens inside of something. -/
def NeutralIn (ts : List Tok) : Prop := ∀ n rest, 0 < n → inside n rest = true → inside n (ts ++ rest) = true

theorem Neutral.within {ts : List Tok} (h : Neutral ts) : NeutralIn ts := fun n rest _ hr => h n rest hr
theorem Neutral.append {a b : List Tok} (ha : Neutral a) (hb : Neutral b) : Neutral (a ++ b) := fun n rest h => by
  rw [List.append_assoc]; exact ha n _ (hb n _ h)
theorem NeutralIn.append {a b : List Tok} (ha : NeutralIn a) (hb : NeutralIn b) : NeutralIn (a ++ b) := fun n rest hn h => by
  rw [List.append_assoc]; exact ha n _ hn (hb n _ hn h)
theorem neutral_nil : Neutral [] := fun _ _ h => h

theorem neutral_cons {t : Tok} {ts : List Tok} (h1 : attrKind t.kind = false) (h2 : ∀ n, depthAfter n t.kind = n) (h : Neutral ts) :
    Neutral (t :: ts) := fun n rest hr => by
  rw [List.cons_append, inside, h1, h2]
  simpa using h n rest hr

theorem neutralIn_cons {t : Tok} {ts : List Tok} (h2 : ∀ n, depthAfter n t.kind = n) (h : NeutralIn ts) :
    NeutralIn (t :: ts) := fun n rest hn hr => by
  rw [List.cons_append, inside, h2, h n rest hn hr, decide_eq_true hn]
  simp

theorem neutral_wrap {l r : Tok} {ts : List Tok} (hl : l.kind = .brace_left ∨ l.kind = .apar_left ∨ l.kind = .cpar_left)
    (hr : r.kind = .brace_right ∨ r.kind = .apar_right ∨ r.kind = .cpar_right) (h : NeutralIn ts) : Neutral (l :: (ts ++ [r])) := by
  intro n rest hi
  have e1 : attrKind l.kind = false ∧ depthAfter n l.kind = n + 1 := by rcases hl with h | h | h <;> rw [h] <;> exact ⟨rfl, rfl⟩
  have e2 : attrKind r.kind = false ∧ depthAfter (n + 1) r.kind = n := by rcases hr with h | h | h <;> rw [h] <;> exact ⟨rfl, rfl⟩
  rw [List.cons_append, inside, e1.1, e1.2, List.append_assoc]
  rw [h (n + 1) ([r] ++ rest) (Nat.succ_pos n) (by
    show inside (n + 1) (r :: rest) = true
    rw [inside, e2.1, e2.2, hi]; rfl)]
  rfl

theorem neutral_compound {attr : Bool} {ts : List Tok} {vs : List Val} (h : Compound attr ts vs) : Neutral ts := by
  induction h with
  | nil => exact neutral_nil
  | quote t v ts vs hk _ _ ih => exact neutral_cons (by rw [hk]; cases attr <;> rfl) (fun n => by rw [hk]; cases attr <;> rfl) ih
  | entity t v ts vs hk _ _ ih => exact neutral_cons (by rw [hk]; cases attr <;> rfl) (fun n => by rw [hk]; cases attr <;> rfl) ih

theorem neutral_value {ts : List Tok} {v : SVal} (h : Value false ts v) : Neutral ts := by
  cases h with
  | plain t hk => exact neutral_cons (by rw [hk]; rfl) (fun n => by rw [hk]; rfl) neutral_nil
  | quoted t s hk => exact neutral_cons (by rw [hk]; rfl) (fun n => by rw [hk]; rfl) neutral_nil
  | ref t v hk => exact neutral_cons (by rw [hk]; rfl) (fun n => by rw [hk]; rfl) neutral_nil
  | many l r ts vs hl hr hc => exact neutral_wrap (.inr (.inr hl)) (.inr (.inr hr)) (neutral_compound hc).within

theorem neutralIn_value {attr : Bool} {ts : List Tok} {v : SVal} (h : Value attr ts v) : NeutralIn ts := by
  cases h with
  | plain t hk => exact neutralIn_cons (fun n => by rw [hk]; cases attr <;> rfl) neutral_nil.within
  | quoted t s hk => exact neutralIn_cons (fun n => by rw [hk]; cases attr <;> rfl) neutral_nil.within
  | ref t v hk => exact neutralIn_cons (fun n => by rw [hk]; cases attr <;> rfl) neutral_nil.within
  | many l r ts vs hl hr hc => exact (neutral_wrap (.inr (.inr hl)) (.inr (.inr hr)) (neutral_compound hc).within).within

theorem neutral_maybeValue {ts : List Tok} {v : Option SVal} (h : MaybeValue false ts v) : Neutral ts := by
  cases h with
  | none => exact neutral_nil
  | some e ts v he hv => exact neutral_cons (by rw [he]; rfl) (fun n => by rw [he]; rfl) (neutral_value hv)

theorem neutralIn_maybeValue {attr : Bool} {ts : List Tok} {v : Option SVal} (h : MaybeValue attr ts v) : NeutralIn ts := by
  cases h with
  | none => exact neutral_nil.within
  | some e ts v he hv => exact neutralIn_cons (fun n => by rw [he]; rfl) (neutralIn_value hv)

theorem neutralIn_attribute {ts : List Tok} {a : SAttr} (h : Attribute ts a) : NeutralIn ts := by
  cases h with
  | plain k ts v hk hv => exact neutralIn_cons (fun n => by rw [hk]; rfl) (neutralIn_maybeValue hv)
  | prefixed p c k ts v hp hc hk hv =>
    exact neutralIn_cons (fun n => by rw [hp]; rfl) (neutralIn_cons (fun n => by rw [hc]; rfl)
      (neutralIn_cons (fun n => by rw [hk]; rfl) (neutralIn_maybeValue hv)))
  | declDefault x ts v hk hv => exact neutralIn_cons (fun n => by rw [hk]; rfl) (neutralIn_maybeValue hv)
  | declPrefix p c k ts v hp hc hk hv =>
    exact neutralIn_cons (fun n => by rw [hp]; rfl) (neutralIn_cons (fun n => by rw [hc]; rfl)
      (neutralIn_cons (fun n => by rw [hk]; rfl) (neutralIn_maybeValue hv)))

theorem neutralIn_attributes {ts : List Tok} {as : List SAttr} (h : Attributes ts as) : NeutralIn ts := by
  induction h with
  | nil => exact neutral_nil.within
  | cons ts us a as ha _ ih => exact (neutralIn_attribute ha).append ih

theorem neutral_maybeAttributes {ts : List Tok} {as : Option (List SAttr)} (h : MaybeAttributes ts as) : Neutral ts := by
  cases h with
  | none => exact neutral_nil
  | some l r ts as hl hr ha => exact neutral_wrap (.inr (.inl hl)) (.inr (.inl hr)) (neutralIn_attributes ha)

theorem neutral_name {ts : List Tok} {pre : Option (List Byte)} {name : List Byte} (h : ElemNameToks ts pre name) : Neutral ts := by
  cases h with
  | plain k hk => exact neutral_cons (by rcases hk with h | h <;> rw [h] <;> rfl) (fun n => by rcases hk with h | h <;> rw [h] <;> rfl) neutral_nil
  | prefixed p c k hp hc hk =>
    exact neutral_cons (by rw [hp]; rfl) (fun n => by rw [hp]; rfl) (neutral_cons (by rw [hc]; rfl) (fun n => by rw [hc]; rfl)
      (neutral_cons (by rcases hk with h | h <;> rw [h] <;> rfl) (fun n => by rcases hk with h | h <;> rw [h] <;> rfl) neutral_nil))

theorem neutral_continuations {ts : List Tok} {ss : List (List Byte)} (h : Continuations ts ss) : Neutral ts := by
  induction h with
  | nil => exact neutral_nil
  | cons t s ts ss hk _ _ ih => exact neutral_cons (by rw [hk]; rfl) (fun n => by rw [hk]; rfl) ih

theorem neutral_doc {ts : List Tok} {d : List SNode} (h : Doc ts d) : Neutral ts := by
  induction h with
  | nil => exact neutral_nil
  | quote t v ts d hk _ _ ih => exact neutral_cons (by rw [hk]; rfl) (fun n => by rw [hk]; rfl) ih
  | entity t v ts d hk _ _ ih => exact neutral_cons (by rw [hk]; rfl) (fun n => by rw [hk]; rfl) ih
  | comment t c cs ss ts d hk _ hcs _ ih =>
    exact neutral_cons (by rw [hk]; rfl) (fun n => by rw [hk]; rfl) ((neutral_continuations hcs).append ih)
  | plain ns as vs pre name attrs value ts d hn ha hv _ ih =>
    exact (neutral_name hn).append ((neutral_maybeAttributes ha).append ((neutral_maybeValue hv).append ih))
  | braces ns as pre name attrs l r bs kids ts d hn ha hl hr _ _ ihb ih =>
    have := (neutral_name hn).append ((neutral_maybeAttributes ha).append ((neutral_wrap (.inl hl) (.inl hr) ihb.within).append ih))
    simpa using this

theorem inside_noWs (ts : List Tok) : ∀ n, inside n ts = inside n (noWs ts) := by
  induction ts with
  | nil => intro n; rfl
  | cons t ts ih =>
    intro n
    by_cases hw : t.kind = .whitespace
    · have h2 : noWs (t :: ts) = noWs ts := by simp [noWs, hw]
      rw [h2, inside, hw, ← ih]; rfl
    · have h2 : noWs (t :: ts) = t :: noWs ts := by simp [noWs, hw]
      rw [h2, inside, inside, ih]

/-! ## Before the first node -/

/-- A processing instruction or doctype. -/
def prolog : NNode → Bool
  | .pi .. => true
  | .dtd .. => true
  | _ => false

theorem prolog_head {m : NNode} {k : List NNode} (h : ∀ y ∈ m :: k, prolog y = true) :
    (∃ t c, m = .pi t c) ∨ ∃ n, m = .dtd n := by
  have := h m (by simp)
  cases m <;> simp [prolog] at this
  · exact .inl ⟨_, _, rfl⟩
  · exact .inr ⟨_, rfl⟩

theorem prolog_push {k : List NNode} (h : ∀ y ∈ k, prolog y = true) : pushNLast [bot k] = none := by
  cases k with
  | nil => rfl
  | cons m k => rcases prolog_head h with ⟨t, c, rfl⟩ | ⟨n, rfl⟩ <;> rfl

theorem prolog_toLast {k : List NNode} (h : ∀ y ∈ k, prolog y = true) (v : Val) : addToNLast [bot k] v = none := by
  cases k with
  | nil => rfl
  | cons m k => rcases prolog_head h with ⟨t, c, rfl⟩ | ⟨n, rfl⟩ <;> rfl

theorem prolog_cons {m : NNode} {k : List NNode} (hm : prolog m = true) (h : ∀ y ∈ k, prolog y = true) : ∀ y ∈ m :: k, prolog y = true := by
  intro y hy
  rcases List.mem_cons.1 hy with rfl | hy
  · exact hm
  · exact h y hy

theorem phase1_pi {s s1 : NSt} {k : List NNode} (hs : s.stack = [bot k]) (hk : ∀ y ∈ k, prolog y = true) {target content : List Byte}
    (h1 : addPi s target content = some s1) : ∃ k', s1.stack = [bot k'] ∧ ∀ y ∈ k', prolog y = true := by
  unfold addPi at h1
  rw [hs] at h1
  cases hc : addEdgeSpaces content with
  | none => rw [hc] at h1; cases h1
  | some c =>
    rw [hc] at h1
    cases h1
    exact ⟨.pi target c :: k, rfl, prolog_cons rfl hk⟩

/-- A token that sets no `element_last` leaves processing instructions and doctypes only. -/
theorem phase1 {s s1 : NSt} {k : List NNode} (hs : s.stack = [bot k]) (hk : ∀ y ∈ k, prolog y = true) {t : Tok} {rest : List Tok}
    (ha : attrKind t.kind = false) (hl : t.setsLast = false) (h1 : nsStep s t rest = some s1) :
    ∃ k', s1.stack = [bot k'] ∧ ∀ y ∈ k', prolog y = true := by
  unfold nsStep at h1
  unfold Tok.setsLast at hl
  cases e : t.kind <;> rw [e] at ha <;> simp only [e] at h1 hl <;> first | cases ha; done | cases hl; done | skip
  case whitespace => cases h1; exact ⟨k, hs, hk⟩
  case equals => cases h1; exact ⟨k, hs, hk⟩
  case ns_colon => cases h1; exact ⟨k, hs, hk⟩
  case element_ns => cases h1; exact ⟨k, hs, hk⟩
  case attr_ns => cases h1; split <;> exact ⟨k, hs, hk⟩
  case brace_left | apar_left | cpar_left =>
    rw [hs, prolog_push hk] at h1
    split at h1 <;> cases h1
  case brace_right | apar_right | cpar_right => rw [hs] at h1; cases h1
  case comment_continuation =>
    rw [Option.bind_eq_some_iff] at h1
    obtain ⟨c, -, h1⟩ := h1
    rw [hs] at h1
    exfalso
    cases k with
    | nil => cases h1
    | cons m k => rcases prolog_head hk with ⟨t, c, rfl⟩ | ⟨n, rfl⟩ <;> cases h1
  case element_name | element_key =>
    simp only [Tok.makesElement, e] at hl
    unfold createNode at h1
    by_cases c1 : (t.text == b#"!DOCTYPE") = true
    · rw [if_pos c1] at h1; cases h1; exact ⟨k, hs, hk⟩
    · rw [if_neg c1] at h1
      by_cases c2 : (peek t.text == b#'?') = true
      · rw [if_pos c2] at h1; cases h1; exact ⟨k, hs, hk⟩
      · exfalso
        rw [Bool.not_eq_true] at c1 c2
        rw [c1, c2] at hl
        cases hl
  case element_value_text =>
    unfold elementText at h1
    cases hp : s.pi with
    | some target => rw [hp] at h1; exact phase1_pi hs hk h1
    | none =>
      simp only [hp, hs, prolog_toLast hk] at h1
      by_cases hd : s.doctype = true
      · simp only [hd, if_true] at h1
        cases hf : s.found with
        | true => simp only [hf] at h1; cases h1
        | false =>
          simp only [hf] at h1
          split at h1
          · cases h1
          · cases h1
            exact ⟨.dtd t.text :: k, rfl, prolog_cons rfl hk⟩
      · simp only [hd, Bool.false_eq_true, if_false] at h1
        cases h1
  case element_value_quote =>
    rw [Option.bind_eq_some_iff] at h1
    obtain ⟨v, -, h1⟩ := h1
    unfold elementQuote at h1
    cases hp : s.pi with
    | some target =>
      rw [hp] at h1
      cases v with
      | text u => exact phase1_pi hs hk h1
      | entity u => cases h1
    | none =>
      simp only [hp, hs, prolog_toLast hk] at h1
      split at h1 <;> cases h1
  case element_value_entity =>
    rw [Option.bind_eq_some_iff] at h1
    obtain ⟨v, -, h1⟩ := h1
    rw [hs, prolog_toLast hk] at h1
    cases h1

/-! ## The first node -/

/-- Elements whose names have the property. -/
def Named (P : List Byte → Prop) (y : NNode) : Prop := ∃ n ns d a k, y = .element n ns d a k ∧ P n
/-- Texts, references and comments. -/
def Other (y : NNode) : Prop := (∃ a, y = .text a) ∨ (∃ a, y = .comment a) ∨ ∃ a, y = .entity a

theorem cls_named (P : List Byte → Prop) : Cls (Named P) where
  text := fun a b ⟨_, _, _, _, _, e, _⟩ => by cases e
  comment := fun a b ⟨_, _, _, _, _, e, _⟩ => by cases e
  elem := fun n ns d a k ns' d' a' k' ⟨_, _, _, _, _, e, h⟩ => by cases e; exact ⟨_, _, _, _, _, rfl, h⟩

theorem cls_other : Cls Other where
  text := fun a b _ => .inl ⟨b, rfl⟩
  comment := fun a b _ => .inr (.inl ⟨b, rfl⟩)
  elem := fun n ns d a k ns' d' a' k' h => by rcases h with ⟨_, h⟩ | ⟨_, h⟩ | ⟨_, h⟩ <;> cases h

/-- The first element. -/
theorem first_element (r : List Byte) {s s1 : NSt} {pre : List NNode} (hs : s.stack = [bot pre]) {t : Tok} {rest : List Tok}
    (hm : t.makesElement = true) (h1 : nsStep s t rest = some s1) :
    ∃ ns d, s1.stack = flat [] [.element t.text ns d [] []] pre ∧
      nsStep (s.on (newRoot r :: s.stack)) t rest = some (s1.on (deep r [] [.element t.text ns d [] []] pre)) := by
  unfold Tok.makesElement at hm
  simp only [Bool.and_eq_true, Bool.or_eq_true, beq_iff_eq, Bool.not_eq_true'] at hm
  obtain ⟨⟨hk, c1⟩, c2⟩ := hm
  have e : ∀ s, nsStep s t rest = createNode s t.text := by
    intro s; unfold nsStep; rcases hk with hk | hk <;> simp only [hk]
  rw [e] at h1
  rw [e, hs]
  have es : newRoot r :: [bot pre] = deep r [] [] pre := rfl
  rw [es]
  have hsearch := fun p => searchNs_deep s.heap p r [] pre [] false
  have ed : deep r [] [] pre = rt r [] :: [bot pre] := rfl
  have ef : flat [] [] pre = [bot pre] := rfl
  rw [ed, ef] at hsearch
  unfold createNode at h1 ⊢
  have c1' : ¬ (t.text == b#"!DOCTYPE") = true := by rw [c1]; decide
  have c2' : ¬ (peek t.text == b#'?') = true := by rw [c2]; decide
  rw [if_neg c1', if_neg c2'] at h1 ⊢
  rw [hs] at h1
  rw [on_stack, ed]
  have hpre : (s.on (rt r [] :: [bot pre])).elemPre = s.elemPre := rfl
  have hh : (s.on (rt r [] :: [bot pre])).heap = s.heap := rfl
  simp only [hpre, hh] at h1 ⊢
  cases hp : s.elemPre with
  | none =>
    simp only [hp] at h1 ⊢
    cases h1
    exact ⟨_, _, rfl, rfl⟩
  | some p =>
    simp only [hp] at h1 ⊢
    rw [hsearch]
    cases hse : searchNs s.heap p false [bot pre] with
    | some i =>
      simp only [hse] at h1 ⊢
      cases h1
      exact ⟨_, _, rfl, rfl⟩
    | none =>
      simp only [hse] at h1 ⊢
      cases h1
      exact ⟨_, _, rfl, rfl⟩

/-- The first text, reference or comment. -/
theorem first_other {s s1 : NSt} {pre : List NNode} (hs : s.stack = [bot pre]) (hpre : ∀ y ∈ pre, prolog y = true) {t : Tok} {rest : List Tok}
    (hm : t.makesElement = false) (hl : t.setsLast = true) (h1 : nsStep s t rest = some s1) :
    ∃ y, s1.stack = flat [] [y] pre ∧ Other y := by
  have add : ∀ n : NNode, addNTop s.stack n = some [bot (n :: pre)] := by
    intro n
    rw [hs]
    have : addNChild pre n = n :: pre := by
      cases pre with
      | nil => cases n <;> rfl
      | cons m k => rcases prolog_head hpre with ⟨t, c, rfl⟩ | ⟨q, rfl⟩ <;> cases n <;> rfl
    show some [{ bot pre with kids := addNChild pre n, lastAttr := false }] = _
    rw [this]; rfl
  have val : ∀ v : Val, Other v.nnode := fun v => by
    cases v with
    | text a => exact .inl ⟨a, rfl⟩
    | entity a => exact .inr (.inr ⟨a, rfl⟩)
  unfold nsStep at h1
  unfold Tok.setsLast at hl
  cases e : t.kind <;> simp only [e] at h1 hl <;> first | (rw [hm] at hl; cases hl; done) | skip
  case comment =>
    rw [Option.bind_eq_some_iff] at h1
    obtain ⟨c, -, h1⟩ := h1
    rw [add] at h1
    cases h1
    exact ⟨_, rfl, .inr (.inl ⟨c, rfl⟩)⟩
  all_goals
    rw [Option.bind_eq_some_iff] at h1
    obtain ⟨v, -, h1⟩ := h1
    rw [add] at h1
    cases h1
    exact ⟨_, rfl, val v⟩

/-! ## All tokens -/

theorem makes_sets {t : Tok} (h : t.makesElement = true) : t.setsLast = true := by
  have hm := h
  unfold Tok.makesElement at hm
  simp only [Bool.and_eq_true, Bool.or_eq_true, beq_iff_eq, Bool.not_eq_true'] at hm
  unfold Tok.setsLast
  rcases hm.1.1 with hk | hk <;> simp only [hk] <;> exact h

/-- Once `element_last` is set no root is made. -/
theorem rootRun_last (r : List Byte) (ts : List Tok) (b : Bool) : ∀ s : NSt,
    rootRun r ⟨s, true, b⟩ ts = (nsRun s ts).map fun s => ⟨s, true, b⟩ := by
  induction ts with
  | nil => intro s; rfl
  | cons t ts ih =>
    intro s
    have hm : t.makesRoot r ⟨s, true, b⟩ = false := by simp [Tok.makesRoot]
    rw [rootRun, rootStep, nsRun, hm]
    simp only [Bool.false_eq_true, if_false, Bool.true_or, Bool.or_false]
    cases nsStep s t ts with
    | none => rfl
    | some s1 => simpa using ih s1

/-- The children behind the first node, without and with root. -/
theorem later {C : NNode → Prop} (hC : Cls C) (r : List Byte) (pre : List NNode) (ts : List Tok) : ∀ (s : NSt) (A : List NOpen) (k : List NNode),
    s.stack = flat A k pre → Inv C A k → inside A.length ts = true → ∀ s1, nsRun s ts = some s1 →
    ∃ A' k', s1.stack = flat A' k' pre ∧ Inv C A' k' ∧
      ((∀ y, C y → y.isElement = true) → nsRun (s.on (deep r A k pre)) ts = some (s1.on (deep r A' k' pre))) := by
  induction ts with
  | nil =>
    intro s A k hs h _ s1 h1
    cases h1
    exact ⟨A, k, hs, h, fun _ => rfl⟩
  | cons t ts ih =>
    intro s A k hs h hi s1 h1
    rw [inside, Bool.and_eq_true, Bool.or_eq_true, Bool.not_eq_true', decide_eq_true_iff] at hi
    rw [nsRun_cons, Option.bind_eq_some_iff] at h1
    obtain ⟨s2, h2, h3⟩ := h1
    obtain ⟨A2, k2, e1, e2, e3, e4⟩ := next hC r hs h t ts (fun ha hA => by
      rcases hi.1 with h | h
      · rw [ha] at h; cases h
      · rw [hA] at h; simp at h) h2
    obtain ⟨A', k', f1, f2, f3⟩ := ih s2 A2 k2 e1 e2 (by rw [e3]; exact hi.2) s1 h3
    exact ⟨A', k', f1, f2, fun hel => by rw [nsRun_cons, e4 hel]; exact f3 hel⟩

/-- The document with the implicit root, in terms of the tree. -/
def actual (r : List Byte) (x : List NNode) : List NNode :=
  match x.dropWhile prolog with
  | [] => x
  | n :: ns =>
    match n with
    | .element q _ _ _ _ => if q = r then x else x.takeWhile prolog ++ [.element r none [] [] (n :: ns)]
    | _ => x

theorem dropWhile_split {pre k : List NNode} {y : NNode} (hp : ∀ y ∈ pre, prolog y = true) (hy : prolog y = false) :
    ((k ++ y :: pre).reverse).dropWhile prolog = y :: k.reverse ∧ ((k ++ y :: pre).reverse).takeWhile prolog = pre.reverse := by
  have e : (k ++ y :: pre).reverse = pre.reverse ++ (y :: k.reverse) := by simp
  have hp' : ∀ y ∈ pre.reverse, prolog y = true := fun y h => hp y (by simpa using h)
  rw [e, List.dropWhile_append_of_pos hp', List.takeWhile_append_of_pos hp']
  simp [List.dropWhile_cons, List.takeWhile_cons, hy]

theorem dropWhile_all {pre : List NNode} (hp : ∀ y ∈ pre, prolog y = true) : (pre.reverse).dropWhile prolog = [] := by
  have hp' : ∀ y ∈ pre.reverse, prolog y = true := fun y h => hp y (by simpa using h)
  have := List.dropWhile_append_of_pos (l₂ := []) hp'
  simpa using this

theorem flat_one {A : List NOpen} {k pre : List NNode} {o : NOpen} (h : flat A k pre = [o]) : A = [] ∧ o = bot (k ++ pre) := by
  cases A with
  | nil => cases h; exact ⟨rfl, rfl⟩
  | cons x A => simp [flat] at h

/-- All tokens. -/
theorem run_actual (r : List Byte) (ts : List Tok) : ∀ (s : NSt) (pre : List NNode), s.stack = [bot pre] →
    (∀ y ∈ pre, prolog y = true) → inside 0 ts = true → ∀ s1 o, nsRun s ts = some s1 → s1.stack = [o] →
    ∃ s2 b, rootRun r ⟨s, false, false⟩ ts = some s2 ∧ s2.ns.heap = s1.heap ∧
      (if s2.rooted then popNLast s2.ns.stack else some s2.ns.stack) = some [b] ∧ b.kids.reverse = actual r o.kids.reverse := by
  induction ts with
  | nil =>
    intro s pre hs hp _ s1 o h1 ho
    cases h1
    rw [hs] at ho
    cases ho
    refine ⟨_, bot pre, rfl, rfl, by simp [hs], ?_⟩
    show pre.reverse = actual r pre.reverse
    rw [actual, dropWhile_all hp]
  | cons t ts ih =>
    intro s pre hs hp hi s1 o h1 ho
    rw [inside, Bool.and_eq_true, Bool.or_eq_true, Bool.not_eq_true', decide_eq_true_iff] at hi
    have ha : attrKind t.kind = false := by rcases hi.1 with h | h; exact h; simp at h
    rw [nsRun_cons, Option.bind_eq_some_iff] at h1
    obtain ⟨s2, h2, h3⟩ := h1
    have hd : t.setsLast = true → depthAfter 0 t.kind = 0 := fun h => by
      unfold Tok.setsLast at h
      unfold Tok.makesElement at h
      cases e : t.kind <;> simp only [e] at h ⊢ <;> first | rfl | cases h
    cases hl : t.setsLast with
    | false =>
      have hm : t.makesElement = false := by
        cases hm : t.makesElement with
        | false => rfl
        | true => rw [makes_sets hm] at hl; cases hl
      obtain ⟨k', e1, e2⟩ := phase1 hs hp ha hl h2
      have hd0 : depthAfter 0 t.kind = 0 := by
        cases hk : t.kind <;> try rfl
        all_goals
          exfalso
          unfold nsStep at h2
          simp only [hk, hs, prolog_push hp] at h2
          split at h2 <;> cases h2
      obtain ⟨s3, b, f1, f2, f3, f4⟩ := ih s2 k' e1 e2 (by rw [← hd0]; exact hi.2) s1 o h3 ho
      refine ⟨s3, b, ?_, f2, f3, f4⟩
      have hr : t.makesRoot r ⟨s, false, false⟩ = false := by simp [Tok.makesRoot, hm]
      rw [rootRun, rootStep, hr, hl]
      simp only [Bool.false_eq_true, if_false, h2, Option.map_some, Option.bind_some, Bool.or_false]
      exact f1
    | true =>
      have hi2 : inside 0 ts = true := by rw [← hd hl]; exact hi.2
      -- no root is made and the first node is `y`
      have unrooted : ∀ (C : NNode → Prop) (y : NNode), Cls C → s2.stack = flat [] [y] pre → C y →
          (∀ z, C z → prolog z = false ∧ ∀ n ns d a k, z = .element n ns d a k → n = r) →
          t.makesRoot r ⟨s, false, false⟩ = false →
          ∃ s2 b, rootRun r ⟨s, false, false⟩ (t :: ts) = some s2 ∧ s2.ns.heap = s1.heap ∧
            (if s2.rooted then popNLast s2.ns.stack else some s2.ns.stack) = some [b] ∧ b.kids.reverse = actual r o.kids.reverse := by
        intro C y hC hs2 hy hz hr
        obtain ⟨A', k', f1, f2, -⟩ := later hC r pre ts s2 [] [y] hs2 (inv_bottom (k' := []) rfl hy) hi2 s1 h3
        rw [ho] at f1
        obtain ⟨rfl, rfl⟩ := flat_one f1.symm
        obtain ⟨k2, z, rfl, hz'⟩ := f2.bottom
        refine ⟨⟨s1, true, false⟩, bot (k2 ++ [z] ++ pre), ?_, rfl, by simp [ho], ?_⟩
        · rw [rootRun, rootStep, hr, hl]
          simp only [Bool.false_eq_true, if_false, h2, Option.map_some, Option.bind_some, Bool.or_false, Bool.or_true]
          rw [rootRun_last, h3]; rfl
        · show (k2 ++ [z] ++ pre).reverse = actual r (k2 ++ [z] ++ pre).reverse
          obtain ⟨g1, g2⟩ := hz z hz'
          have e : k2 ++ [z] ++ pre = k2 ++ z :: pre := by simp
          rw [e, actual, (dropWhile_split hp g1).1]
          cases z with
          | element n ns d a k => simp [g2 n ns d a k rfl]
          | _ => rfl
      cases hm : t.makesElement with
      | false =>
        obtain ⟨y, e1, e2⟩ := first_other hs hp hm hl h2
        refine unrooted Other y cls_other e1 e2 ?_ (by simp [Tok.makesRoot, hm])
        rintro z (⟨a, rfl⟩ | ⟨a, rfl⟩ | ⟨a, rfl⟩) <;> exact ⟨rfl, fun _ _ _ _ _ e => by cases e⟩
      | true =>
        obtain ⟨ns, d, e1, e2⟩ := first_element r hs hm h2
        by_cases hn : t.text = r
        · refine unrooted (Named (· = r)) _ (cls_named _) e1 ⟨_, _, _, _, _, rfl, hn⟩ ?_ (by simp [Tok.makesRoot, hn])
          rintro z ⟨n, ns, d, a, k, rfl, rfl⟩
          exact ⟨rfl, fun _ _ _ _ _ e => by cases e; rfl⟩
        · have hr : t.makesRoot r ⟨s, false, false⟩ = true := by simp [Tok.makesRoot, hm, hn]
          obtain ⟨A', k', f1, f2, f3⟩ := later (cls_named (· ≠ r)) r pre ts s2 [] _ e1
            (inv_bottom (k' := []) rfl ⟨_, _, _, _, _, rfl, hn⟩) hi2 s1 h3
          rw [ho] at f1
          obtain ⟨rfl, rfl⟩ := flat_one f1.symm
          have f4 := f3 (by rintro y ⟨n, ns, d, a, k, rfl, -⟩; rfl)
          obtain ⟨k2, z, rfl, n, ns', d', a, k, rfl, hz⟩ := f2.bottom
          refine ⟨⟨s1.on (deep r [] (k2 ++ [NNode.element n ns' d' a k]) pre), true, true⟩, _, ?_, rfl, rfl, ?_⟩
          · rw [rootRun, rootStep, hr, hl]
            have es : ({ s with stack := newRoot r :: s.stack } : NSt) = s.on (newRoot r :: s.stack) := rfl
            simp only [if_true, es, e2, Option.map_some, Option.bind_some, Bool.or_true]
            rw [rootRun_last, f4]; rfl
          · have e : k2 ++ [NNode.element n ns' d' a k] ++ pre = k2 ++ NNode.element n ns' d' a k :: pre := by simp
            have hy : prolog (NNode.element n ns' d' a k) = false := rfl
            show (_ :: pre).reverse = actual r (k2 ++ [NNode.element n ns' d' a k] ++ pre).reverse
            rw [e, actual, (dropWhile_split hp hy).1, (dropWhile_split hp hy).2]
            simp [hz, rt]

end Xmq.Rooted

namespace Xmq.Rooted
open Xmq Xmq.Spec

/-- A token that is accepted by the builder has a value. -/
theorem nsStep_evaluates {s s1 : NSt} {t : Tok} {rest : List Tok} (h : nsStep s t rest = some s1) : Evaluates t := by
  unfold nsStep at h
  unfold Evaluates
  cases e : t.kind <;> simp only [e] at h ⊢
  case comment_continuation =>
    rw [Option.bind_eq_some_iff] at h
    obtain ⟨c, hc, -⟩ := h
    show (continuationVal t).isSome = true
    unfold continuationVal
    rw [hc]; rfl
  case comment =>
    rw [Option.bind_eq_some_iff] at h
    obtain ⟨c, hc, -⟩ := h
    show (commentVal t).isSome = true
    unfold commentVal
    rw [hc]; rfl
  case quote | element_value_quote | element_value_compound_quote | attr_value_quote | attr_value_compound_quote |
      entity | element_value_entity | element_value_compound_entity | attr_value_entity | attr_value_compound_entity =>
    rw [Option.bind_eq_some_iff] at h
    obtain ⟨c, hc, -⟩ := h
    rw [hc]; rfl

theorem nsRun_evaluates (ts : List Tok) : ∀ {s s1 : NSt}, nsRun s ts = some s1 → ∀ t ∈ ts, Evaluates t := by
  induction ts with
  | nil => intro s s1 _ t ht; cases ht
  | cons u ts ih =>
    intro s s1 h t ht
    rw [nsRun_cons, Option.bind_eq_some_iff] at h
    obtain ⟨s2, h1, h2⟩ := h
    rcases List.mem_cons.1 ht with rfl | ht
    · exact nsStep_evaluates h1
    · exact ih h2 t ht

theorem see_map (h : List Ns) (l : List NNode) : seeNodes h l = l.map (seeNode h) := by
  induction l with
  | nil => rfl
  | cons n l ih => rw [seeNodes, ih]; rfl

theorem see_prolog (h : List Ns) (n : NNode) : isProlog (seeNode h n) = prolog n := by
  cases n <;> rw [seeNode] <;> rfl

theorem see_actual (h : List Ns) (r : List Byte) (l : List NNode) : seeNodes h (actual r l) = actualRoot r (seeNodes h l) := by
  have hf : isProlog ∘ seeNode h = prolog := funext (see_prolog h)
  unfold actual actualRoot
  rw [see_map h l, List.dropWhile_map, List.takeWhile_map, hf]
  cases hd : l.dropWhile prolog with
  | nil => rw [see_map]; rfl
  | cons n ns =>
    simp only [List.map_cons]
    cases n with
    | element q nsp d a k =>
      simp only [seeNode]
      have hq : (nsName h nsp q).name = q := by unfold nsName; split <;> rfl
      by_cases c : q = r
      · rw [if_pos c, if_pos (hq.trans c), see_map]
      · rw [if_neg c, if_neg (by rw [hq]; exact c), seeNodes_append, see_map]
        congr 1
        simp only [seeNodes, seeNode, inRoot, see_map, List.map_nil]
        rfl
    | _ => simp only [seeNode]; rw [see_map]

/-- The document that is built with an implicit root. -/
theorem rootBuild_actual {r : List Byte} (hr : r ≠ []) {input : List Byte} {toks : List Tok} (ht : Tokenizes input toks) {heap : List Ns}
    {kids : List NNode} (h : nsBuild toks = some (heap, kids)) : rootBuild r toks = some (heap, actual r kids) := by
  unfold nsBuild at h
  rw [Option.bind_eq_some_iff] at h
  obtain ⟨s1, h1, h2⟩ := h
  obtain ⟨d, hd⟩ := tokenizes_doc input toks ht (nsRun_evaluates toks h1)
  have hi : inside 0 toks = true := by
    rw [inside_noWs]
    have := neutral_doc hd 0 [] rfl
    rwa [List.append_nil] at this
  have : ∃ o, s1.stack = [o] := by
    revert h2
    split
    · intro _; exact ⟨_, by assumption⟩
    · intro h; cases h
  obtain ⟨o, ho⟩ := this
  simp only [ho, Option.some.injEq, Prod.mk.injEq] at h2
  obtain ⟨rfl, rfl⟩ := h2
  obtain ⟨s2, b, f1, f2, f3, f4⟩ := run_actual r toks NSt.init [] rfl (fun y h => by cases h) hi s1 o h1 ho
  unfold rootBuild
  have e : r.isEmpty = false := by cases r with | nil => exact absurd rfl hr | cons => rfl
  rw [e, f1]
  simp only [Bool.false_eq_true, if_false, Option.bind_some, f3, f2, f4]

end Xmq.Rooted
