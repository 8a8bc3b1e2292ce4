import Verif.Lemmas.PrintElem
import Verif.Spec.Document
/-!
# From reading piece by piece to reading a document; joining texts
-/
namespace Xmq
open Spec

set_option linter.unusedSectionVars false

/-- What is built from the callbacks; in plain mode this is `buildTree`. -/
def flatBuild [Mode] (toks : List Tok) : Option (List Node) :=
  (toks.foldlM flatStep ([], [⟨false, [], [], [], false⟩])).bind fun s =>
    match s with
    | ([], [o]) => some o.kids.reverse
    | _ => none

/-- The text is read as these nodes, with the names as they are written in the text. -/
def FlatReads [Mode] (input : List Byte) (doc : List Node) : Prop := ∃ toks, Tokenizes input toks ∧ flatBuild toks = some doc

theorem foldlM_plain (toks : List Tok) (b : List Open) :
    toks.foldlM (@flatStep plainMode) ([], b) = (toks.foldlM buildStep b).map fun b => ([], b) := by
  induction toks generalizing b with
  | nil => rfl
  | cons t ts ih =>
    rw [List.foldlM_cons, List.foldlM_cons]
    have : @flatStep plainMode ([], b) t = (buildStep b t).map fun b => ([], b) := rfl
    rw [this]
    cases buildStep b t with
    | none => rfl
    | some b' => exact ih b'

theorem FlatReads.plain {input : List Byte} {doc : List Node} (h : @FlatReads plainMode input doc) : Reads input doc := by
  obtain ⟨toks, ht, hb⟩ := h
  refine ⟨toks, ht, ?_⟩
  unfold flatBuild at hb
  unfold buildTree
  rw [foldlM_plain] at hb
  cases hf : toks.foldlM buildStep [⟨false, [], [], [], false⟩] with
  | none => rw [hf] at hb; cases hb
  | some b =>
    rw [hf] at hb
    simp only [Option.map_some, Option.bind_some] at hb ⊢
    split at hb <;> simp_all

variable [Mode]

theorem reads_of_X {w : List Byte} {ns : List Node} {col : Nat}
    (h : X w 1 [⟨false, [], [], [], false⟩] [] col [(⟨false, [], [], [], false⟩ : Open).addAll ns]) : FlatReads w (mergeNodes ns) := by
  obtain ⟨st', ha, hx⟩ := h (initSt w) ⟨rfl, rfl, rfl⟩
  obtain ⟨F, hF⟩ := hx (.ok st') ⟨1, fun F' hF' => by
    obtain ⟨n, rfl⟩ : ∃ n, F' = n + 1 := ⟨F' - 1, by omega⟩
    simp [parseXmq, ha.rest]⟩
  refine ⟨st'.out.reverse, ⟨F, st', ?_, rfl⟩, ?_⟩
  · unfold parseBuffer
    have hF' : parseXmq F (initSt w) = .ok st' := hF F (Nat.le_refl _)
    rw [hF']
    simp [Res.bind, ha.rest]
  · have hb := ha.built
    rw [bld_some] at hb
    unfold bldP at hb
    unfold flatBuild
    rw [hb]
    simp only [Option.bind_some]
    rw [addAll_eq _ _ rfl, mergeNodes]

/-! ## Joining texts -/

theorem foldl_addChild_join (ns acc : List Node) : (ns.foldl addChild acc).reverse =
    match acc, joinTexts ns with
    | .text a :: r, .text b :: u => r.reverse ++ .text (a ++ b) :: u
    | r, u => r.reverse ++ u := by
  induction ns generalizing acc with
  | nil => cases acc with
    | nil => rfl
    | cons x t => cases x <;> simp [joinTexts]
  | cons n t ih =>
    rw [List.foldl_cons, ih]
    cases n with
    | text s =>
      cases acc with
      | nil =>
        simp only [addChild, joinTexts]
        cases hj : joinTexts t with
        | nil => simp
        | cons x u => cases x <;> simp
      | cons y acc =>
        cases hj : joinTexts t with
        | nil => cases y <;> simp [addChild, joinTexts, hj]
        | cons x u => cases y <;> cases x <;> simp [addChild, joinTexts, hj]
    | entity s => cases acc with
      | nil => simp [addChild, joinTexts]
      | cons y acc => cases y <;> simp [addChild, joinTexts]
    | comment s => cases acc with
      | nil => simp [addChild, joinTexts]
      | cons y acc => cases y <;> simp [addChild, joinTexts]
    | element a b c => cases acc with
      | nil => simp [addChild, joinTexts]
      | cons y acc => cases y <;> simp [addChild, joinTexts]

theorem mergeNodes_eq (ns : List Node) : mergeNodes ns = joinTexts ns := by
  rw [mergeNodes, foldl_addChild_join]; simp

theorem joinTexts_vals (vs : List Val) : joinTexts (vs.map Val.node) = (joinVals vs).map Val.node := by
  induction vs with
  | nil => rfl
  | cons v t ih =>
    cases v with
    | entity s => simp [joinTexts, joinVals, Val.node, ih]
    | text s =>
      simp only [List.map_cons, Val.node, joinTexts, joinVals, ih]
      cases joinVals t with
      | nil => rfl
      | cons x u => cases x <;> rfl

theorem node_injective {a b : Val} (h : a.node = b.node) : a = b := by
  cases a <;> cases b <;> simp_all [Val.node]

theorem mergeVals_eq (vs : List Val) : mergeVals vs = joinVals vs := by
  have h1 := mergeNodes_vals vs
  rw [mergeNodes_eq, joinTexts_vals] at h1
  exact (List.map_inj_right (fun _ _ => node_injective)).1 h1.symm

theorem normAttr_eq {a : Attr} (h : ∀ t, a.value = .text [] :: t → t = []) : normAttr a = canonAttr a := by
  unfold normAttr canonAttr
  rw [mergeVals_eq]
  congr 1
  cases hv : a.value with
  | nil => rfl
  | cons v t =>
    cases v with
    | entity s => simp [noAttrValue]
    | text s =>
      cases s with
      | nil => have := h t hv; subst this; simp [noAttrValue]
      | cons c s => simp [noAttrValue]

theorem addAll_texts (o : Open) (ls : List (List Byte)) (hne : ls ≠ []) :
    o.addAll (ls.map Node.text) = o.add (.text ls.flatten) := by
  induction ls generalizing o with
  | nil => exact absurd rfl hne
  | cons a ls ih =>
    show (o.add (.text a)).addAll (ls.map Node.text) = _
    by_cases h : ls = []
    · subst h; simp [Open.addAll]
    · rw [ih _ h]
      unfold Open.add addChild
      cases o.kids with
      | nil => simp
      | cons k ks => cases k <;> simp

theorem NEmits.texts {cfg : OutCfg} {a b : PS} {ls : List (List Byte)} (h : NEmits cfg a b (ls.map Node.text)) (hne : ls ≠ []) :
    NEmits cfg a b [.text ls.flatten] := by
  obtain ⟨w, ho, hl, hw⟩ := h
  refine ⟨w, ho, hl, fun col hs => ⟨(hw col hs).1, fun k hk => ⟨((hw col hs).2 k hk).1, fun o stk => ?_⟩⟩⟩
  have := ((hw col hs).2 k hk).2 o stk
  rw [addAll_texts _ _ hne] at this
  exact this

/-- The whole output followed by a newline. -/
theorem NEmits.reads {cfg : OutCfg} {p : PS} {ns : List Node} (h : NEmits cfg ⟨[], 0, 0, 0⟩ p ns) (hk : K cfg p.last [10]) :
    FlatReads (p.out ++ [10]) (mergeNodes ns) := by
  obtain ⟨w, ho, -, hw⟩ := h
  obtain ⟨-, h2⟩ := hw 1 (by simp [Sync])
  have hx := (h2 _ hk).2 ⟨false, [], [], [], false⟩ []
  simp only [aft, colAft] at hx
  rw [if_neg (by decide), if_neg (by decide)] at hx
  rw [ho]
  by_cases h1 : p.last = 1
  · rw [if_pos h1, if_pos h1] at hx
    exact reads_of_X hx
  · rw [if_neg h1, if_neg h1] at hx
    exact reads_of_X (hx.trans (by simpa using X_ws (ws := [10]) (k := []) (by intro x hx; simp at hx; exact .inr hx) rfl _ _))

end Xmq
