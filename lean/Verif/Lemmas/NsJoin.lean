import Verif.Spec.NsTree
/-!
# Texts are joined while the tree is built
-/
namespace Xmq
open Spec

/-- Add a node behind the nodes, latest first, joining texts. -/
def addX (k : List XNode) (n : XNode) : List XNode :=
  match n, k with
  | .text b, .text a :: t => .text (a ++ b) :: t
  | n, k => n :: k

/-- The nodes start with a text. -/
def startsText : List XNode → Bool
  | .text _ :: _ => true
  | _ => false

theorem joinTexts_text (a : List Byte) (l : List XNode) :
    joinNodes (.text a :: l) = match joinNodes l with | .text b :: ms => .text (a ++ b) :: ms | ms => .text a :: ms := by
  rw [joinNodes]
  rfl

theorem joinTexts_other (n : XNode) (l : List XNode) (h : ∀ a, n ≠ .text a) : joinNodes (n :: l) = n :: joinNodes l := by
  cases n with
  | text a => exact absurd rfl (h a)
  | _ => rw [joinNodes]; simp

theorem joinTexts_two (a b : List Byte) (l : List XNode) :
    joinNodes (.text a :: .text b :: l) = joinNodes (.text (a ++ b) :: l) := by
  rw [joinTexts_text, joinTexts_text, joinTexts_text]
  cases h : joinNodes l with
  | nil => rfl
  | cons n ms => cases n <;> simp

theorem joinTexts_mid (c : List XNode) (a b : List Byte) (l : List XNode) :
    joinNodes (c ++ .text a :: .text b :: l) = joinNodes (c ++ .text (a ++ b) :: l) := by
  induction c with
  | nil => exact joinTexts_two a b l
  | cons n c ih =>
    cases n with
    | text x => simp only [List.cons_append]; rw [joinTexts_text, joinTexts_text, ih]
    | _ => simp only [List.cons_append]; rw [joinTexts_other _ _ (by simp), joinTexts_other _ _ (by simp), ih]

theorem joinTexts_addX (k : List XNode) (n : XNode) (l : List XNode) :
    joinNodes ((addX k n).reverse ++ l) = joinNodes (k.reverse ++ n :: l) := by
  cases n with
  | text b =>
    cases k with
    | nil => rfl
    | cons m k =>
      cases m with
      | text a => simp [addX, joinTexts_mid]
      | _ => simp [addX]
  | _ => simp [addX]

theorem joinTexts_foldl (raw : List XNode) : ∀ k, joinNodes (raw.foldl addX k).reverse = joinNodes (k.reverse ++ raw) := by
  induction raw with
  | nil => intro k; simp
  | cons n raw ih =>
    intro k
    rw [List.foldl_cons, ih, joinTexts_addX]

/-- No two neighbouring texts. -/
def Apart : List XNode → Prop
  | .text _ :: .text _ :: _ => False
  | _ :: l => Apart l
  | [] => True

theorem apart_cons (n : XNode) (l : List XNode) : Apart (n :: l) ↔ ¬ (startsText [n] = true ∧ startsText l = true) ∧ Apart l := by
  cases n <;> cases l with
  | nil => simp [Apart, startsText]
  | cons m l => cases m <;> simp [Apart, startsText]

theorem apart_addX (k : List XNode) (n : XNode) (h : Apart k) : Apart (addX k n) := by
  cases n with
  | text b =>
    cases k with
    | nil => simp [addX, Apart]
    | cons m k =>
      cases m with
      | text a =>
        simp only [addX]
        rw [apart_cons] at h ⊢
        exact h
      | _ => simp only [addX]; rw [apart_cons]; exact ⟨by simp [startsText], h⟩
  | _ => simp only [addX]; rw [apart_cons]; exact ⟨by simp [startsText], h⟩

theorem apart_foldl (raw : List XNode) : ∀ k, Apart k → Apart (raw.foldl addX k) := by
  induction raw with
  | nil => intro k h; exact h
  | cons n raw ih => intro k h; exact ih _ (apart_addX k n h)

theorem apart_append (a : List XNode) : ∀ b, Apart (a ++ b) ↔
    Apart a ∧ Apart b ∧ ¬ (startsText (a.getLast?.toList) = true ∧ startsText b = true) := by
  induction a with
  | nil => intro b; simp [Apart, startsText]
  | cons n a ih =>
    intro b
    rw [List.cons_append, apart_cons, apart_cons, ih]
    cases a with
    | nil =>
      simp only [List.getLast?_singleton, Option.toList_some, List.nil_append, Apart, true_and, List.getLast?_nil,
        Option.toList_none]
      have h0 : startsText [] = false := rfl
      have h1 : Apart [n] := by cases n <;> trivial
      simp only [h0, Bool.false_eq_true, false_and, not_false_eq_true, and_true, and_false, true_and]
      grind
    | cons m a =>
      have : startsText ((m :: a) ++ b) = startsText (m :: a) := by cases m <;> rfl
      rw [this]
      simp only [List.getLast?_cons_cons]
      grind

theorem apart_reverse (l : List XNode) (h : Apart l) : Apart l.reverse := by
  induction l with
  | nil => exact h
  | cons n l ih =>
    rw [apart_cons] at h
    rw [List.reverse_cons, apart_append]
    refine ⟨ih h.2, by cases n <;> simp [Apart], ?_⟩
    intro hx
    refine h.1 ⟨hx.2, ?_⟩
    cases l with
    | nil => simp [startsText] at hx
    | cons m l =>
      have := hx.1
      simp at this
      cases m <;> simp [startsText] at this ⊢

theorem joinTexts_apart (l : List XNode) (h : Apart l) : joinNodes l = l := by
  induction l with
  | nil => rfl
  | cons n l ih =>
    rw [apart_cons] at h
    cases n with
    | text a =>
      rw [joinTexts_text, ih h.2]
      cases l with
      | nil => rfl
      | cons m l => cases m <;> simp [startsText] at h ⊢
    | _ => rw [joinTexts_other _ _ (by simp), ih h.2]

/-- What has been built is the joined list. -/
theorem foldl_addX (raw : List XNode) : (raw.foldl addX []).reverse = joinNodes raw := by
  have h := joinTexts_foldl raw []
  rw [joinTexts_apart _ (apart_reverse _ (apart_foldl raw [] trivial))] at h
  simpa using h

theorem seeNode_val (h : List Ns) (v : Val) : seeNode h v.nnode = valNode v := by cases v <;> simp [Val.nnode, seeNode, valNode]

theorem seeNodes_append (h : List Ns) (a b : List NNode) : seeNodes h (a ++ b) = seeNodes h a ++ seeNodes h b := by
  induction a with
  | nil => simp [seeNodes]
  | cons n a ih => simp [seeNodes, ih]

theorem seeNodes_reverse (h : List Ns) (a : List NNode) : seeNodes h a.reverse = (seeNodes h a).reverse := by
  induction a with
  | nil => simp [seeNodes]
  | cons n a ih => simp [seeNodes, seeNodes_append, ih]

theorem seeNodes_add (h : List Ns) (k : List NNode) (n : NNode) : seeNodes h (addNChild k n) = addX (seeNodes h k) (seeNode h n) := by
  cases n with
  | text b =>
    cases k with
    | nil => simp [addNChild, seeNodes, seeNode, addX]
    | cons m k => cases m <;> simp [addNChild, seeNodes, seeNode, addX]
  | _ => cases k <;> simp [addNChild, seeNodes, seeNode, addX]

/-- Several texts and entities added. -/
def addVals (k : List NNode) (vs : List Val) : List NNode := vs.foldl (fun k v => addNChild k v.nnode) k

theorem seeNodes_addVals (h : List Ns) (vs : List Val) : ∀ k, seeNodes h (addVals k vs) = (vs.map valNode).foldl addX (seeNodes h k) := by
  induction vs with
  | nil => intro k; rfl
  | cons v vs ih =>
    intro k
    have := ih (addNChild k v.nnode)
    simp only [addVals, List.foldl_cons, List.map_cons] at this ⊢
    rw [this, seeNodes_add, seeNode_val]

/-- The nodes of an attribute value. -/
theorem addVals_vals (vs : List Val) : (addVals [] vs).reverse.mapM NNode.val? = some (joinValues vs) := by
  have key : ∀ (vs : List Val) (k : List Val), ∃ w : List Val, addVals (k.map Val.nnode) vs = w.map Val.nnode ∧
      w.map valNode = (vs.map valNode).foldl addX (k.map valNode) := by
    intro vs
    induction vs with
    | nil => intro k; exact ⟨k, rfl, rfl⟩
    | cons v vs ih =>
      intro k
      have : ∃ k' : List Val, addNChild (k.map Val.nnode) v.nnode = k'.map Val.nnode ∧ k'.map valNode = addX (k.map valNode) (valNode v) := by
        cases v with
        | text b =>
          cases k with
          | nil => exact ⟨[.text b], rfl, rfl⟩
          | cons m k =>
            cases m with
            | text a => exact ⟨.text (a ++ b) :: k, rfl, rfl⟩
            | entity n => exact ⟨.text b :: .entity n :: k, rfl, rfl⟩
        | entity n => exact ⟨.entity n :: k, rfl, rfl⟩
      obtain ⟨k', h1, h2⟩ := this
      obtain ⟨w, h3, h4⟩ := ih k'
      refine ⟨w, ?_, ?_⟩
      · simp only [addVals, List.foldl_cons] at h3 ⊢; rw [h1, h3]
      · simp only [List.map_cons, List.foldl_cons]; rw [← h2, h4]
  have join : ∀ vs : List Val, joinNodes (vs.map valNode) = (joinValues vs).map valNode := by
    intro vs
    induction vs with
    | nil => rfl
    | cons v vs ih =>
      cases v with
      | text a =>
        simp only [List.map_cons, valNode, joinValues]
        rw [joinTexts_text, ih]
        cases joinValues vs with
        | nil => rfl
        | cons m l => cases m <;> rfl
      | entity n => simp only [List.map_cons, valNode, joinValues]; rw [joinTexts_other _ _ (by simp), ih]
  have inj : ∀ a b : List Val, a.map valNode = b.map valNode → a = b := by
    intro a
    induction a with
    | nil => intro b h; cases b with
      | nil => rfl
      | cons => simp at h
    | cons v a ih =>
      intro b h
      cases b with
      | nil => simp at h
      | cons w b =>
        simp only [List.map_cons, List.cons.injEq] at h
        rw [ih b h.2]
        cases v <;> cases w <;> simp [valNode] at h ⊢ <;> exact h.1
  have mapM : ∀ w : List Val, (w.map Val.nnode).mapM NNode.val? = some w := by
    intro w
    induction w with
    | nil => rfl
    | cons v w ih =>
      rw [List.map_cons, List.mapM_cons, ih]
      cases v <;> rfl
  obtain ⟨w, h1, h2⟩ := key vs []
  simp only [List.map_nil] at h1 h2
  rw [h1, ← List.map_reverse, mapM]
  have : w.reverse = joinValues vs := by
    apply inj
    rw [List.map_reverse, h2, foldl_addX, join]
  rw [this]

end Xmq
