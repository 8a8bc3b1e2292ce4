import Verif.Spec.Statistics
import Verif.Props.Listing
/-!
# C84: the statistics of a document are sums over its nodes and attributes
-/
namespace Xmq.Props
open Xmq Xmq.Statistics Xmq.Spec Xmq.Spec.Statistics

/-- The sums for a document, in the form of the record. -/
def statTotals (doc : List Any) : Stats where
  numElements := (elements doc).length
  sizeElementNames := size (elements doc)
  numTextNodes := (texts doc).length
  sizeTextNodes := size (texts doc)
  numEntities := (entities doc).length
  sizeEntities := size (entities doc)
  numAttributes := (allAttrs doc).length
  sizeAttributeNames := size ((allAttrs doc).map Prod.fst)
  sizeAttributeContent := size (attrTexts doc)
  numComments := (comments doc).length
  sizeComments := size (comments doc)
  hasDoctype := (doctypes doc).length
  sizeDoctype := size (doctypes doc)
  numCdataNodes := (cdatas doc).length
  sizeCdataNodes := size (cdatas doc)

/-- Adding all fields. -/
def statAdd (a b : Stats) : Stats where
  numElements := a.numElements + b.numElements
  sizeElementNames := a.sizeElementNames + b.sizeElementNames
  numTextNodes := a.numTextNodes + b.numTextNodes
  sizeTextNodes := a.sizeTextNodes + b.sizeTextNodes
  numEntities := a.numEntities + b.numEntities
  sizeEntities := a.sizeEntities + b.sizeEntities
  numAttributes := a.numAttributes + b.numAttributes
  sizeAttributeNames := a.sizeAttributeNames + b.sizeAttributeNames
  sizeAttributeContent := a.sizeAttributeContent + b.sizeAttributeContent
  numComments := a.numComments + b.numComments
  sizeComments := a.sizeComments + b.sizeComments
  hasDoctype := a.hasDoctype + b.hasDoctype
  sizeDoctype := a.sizeDoctype + b.sizeDoctype
  numCdataNodes := a.numCdataNodes + b.numCdataNodes
  sizeCdataNodes := a.sizeCdataNodes + b.sizeCdataNodes

theorem size_append (a b : List (List Byte)) : size (a ++ b) = size a + size b := by simp [size]
theorem size_cons (a : List Byte) (b : List (List Byte)) : size (a :: b) = a.length + size b := by simp [size]
theorem size_nil : size [] = 0 := rfl

theorem insideAll_append (a b : List Any) : insideAll (a ++ b) = insideAll a ++ insideAll b := by
  induction a with
  | nil => simp [insideAll]
  | cons k ks ih => simp [insideAll, ih]

theorem statTotals_append (a b : List Any) : statTotals (a ++ b) = statAdd (statTotals a) (statTotals b) := by
  simp [statTotals, statAdd, elements, texts, entities, allAttrs, attrTexts, comments, doctypes, cdatas, insideAll_append, size_append]

theorem statAdd_assoc (a b c : Stats) : statAdd (statAdd a b) c = statAdd a (statAdd b c) := by
  simp [statAdd, Nat.add_assoc]

theorem attributeContent_fold (ks : List Any) (st : Stats) : ks.foldl attributeContent st =
    { st with sizeAttributeContent := st.sizeAttributeContent + size (ks.filterMap asText) } := by
  induction ks generalizing st with
  | nil => simp [size_nil]
  | cons k ks ih =>
    rw [List.foldl_cons, ih]
    cases k <;> simp [attributeContent, asText, List.filterMap_cons, size_cons, Nat.add_assoc]

theorem attributes_fold (as : List (List Byte × List Any)) (st : Stats) : as.foldl oneAttribute st =
    { st with
      numAttributes := st.numAttributes + as.length
      sizeAttributeNames := st.sizeAttributeNames + size (as.map Prod.fst)
      sizeAttributeContent := st.sizeAttributeContent + size (as.flatMap fun a => a.2.filterMap asText) } := by
  induction as generalizing st with
  | nil => simp [size_nil]
  | cons a as ih =>
    rw [List.foldl_cons, ih, oneAttribute, attributeContent_fold]
    simp [size_cons, size_append, Nat.add_assoc, Nat.add_comm, Nat.add_left_comm]

mutual
theorem accumulate_eq (st : Stats) (k : Any) : accumulate st k = statAdd st (statTotals [k]) := by
  cases k with
  | element n as ks =>
    rw [accumulate, accumulateAll_eq _ ks, attributes_fold]
    simp [statTotals, statAdd, elements, texts, entities, allAttrs, attrTexts, comments, doctypes, cdatas, insideAll, inside, size_append,
      size_cons, attrsOf, Nat.add_assoc, Nat.add_comm, Nat.add_left_comm]
  | _ =>
    simp [accumulate, statTotals, statAdd, elements, texts, entities, allAttrs, attrTexts, comments, doctypes, cdatas, insideAll, inside, size_cons,
      size_nil, attrsOf]
theorem accumulateAll_eq (st : Stats) (ks : List Any) : accumulateAll st ks = statAdd st (statTotals ks) := by
  cases ks with
  | nil =>
    simp [accumulateAll, statTotals, statAdd, elements, texts, entities, allAttrs, attrTexts, comments, doctypes, cdatas, insideAll, size_nil]
  | cons k ks =>
    rw [accumulateAll, accumulate_eq st k, accumulateAll_eq _ ks, statAdd_assoc, ← statTotals_append]
    rfl
end

theorem accumulateAll_zero (doc : List Any) : accumulateAll Stats.zero doc = statTotals doc := by
  rw [accumulateAll_eq]
  simp [statAdd, Stats.zero]

theorem shows_ifAny {key : String} {bytes : List Byte} (hk : bytes = keyBytes key) (n : Nat)
    {rest : List (String × Nat × Bool)} {out : List Node} (h : Shows rest out) :
    Shows ((key, n, false) :: rest) (ifAny bytes n ++ out) := by
  subst hk
  unfold ifAny
  by_cases hn : n = 0
  · subst hn; simpa using Shows.skip key rest out h
  · simp only [ne_eq, hn, not_false_eq_true, if_true, List.singleton_append, keyValue]
    exact Shows.line key n false _ rest out (Or.inl hn) (isDecimal_digits n) h

theorem shows_always {key : String} {bytes : List Byte} (hk : bytes = keyBytes key) (n : Nat)
    {rest : List (String × Nat × Bool)} {out : List Node} (h : Shows rest out) :
    Shows ((key, n, true) :: rest) ([keyValue bytes n] ++ out) := by
  subst hk
  exact Shows.line key n true _ rest out (Or.inr rfl) (isDecimal_digits n) h

/-- The new document has exactly these lines: each number is a sum over the document, in decimal digits, in this order. -/
theorem C84_statistics (source : Nat) (doc : List Any) :
    ∃ out, cmdStatistics source doc = [.element b#"statistics" [] out] ∧ Shows (lines source doc) out := by
  refine ⟨_, rfl, ?_⟩
  rw [accumulateAll_zero]
  simp only [lines, List.append_assoc]
  refine shows_always (by decide +kernel) _ ?_
  iterate 12 refine shows_ifAny (by decide +kernel) _ ?_
  refine shows_always (by decide +kernel) _ ?_
  rw [← List.append_nil [keyValue _ (statTotals doc).sizeTextNodes]]
  exact shows_always (by decide +kernel) _ Shows.nil

/-- The lines give their numbers: two lists with the same keys that show the same nodes are the same, when the keys differ. -/
theorem C84_readable (a b : List (String × Nat × Bool)) (out : List Node) (ha : Shows a out) (hb : Shows b out)
    (hk : a.map (fun l => (keyBytes l.1, l.2.2)) = b.map (fun l => (keyBytes l.1, l.2.2)))
    (hd : (a.map fun l => keyBytes l.1).Nodup) : a.map (·.2.1) = b.map (·.2.1) := by
  have keys : ∀ {l : List (String × Nat × Bool)} {o : List Node} {key as ks o'}, Shows l o → o = .element key as ks :: o' →
      key ∈ l.map (fun l => keyBytes l.1) := by
    intro l o key as ks o' h
    induction h with
    | nil => intro e; simp at e
    | skip k r o _ ih => intro e; simp at ih ⊢; exact Or.inr (ih e)
    | line k n al dg r o _ _ _ _ => intro e; simp at e; simp [e.1.1]
  induction ha generalizing b with
  | nil =>
    cases b with
    | nil => rfl
    | cons x b => simp at hk
  | skip k r o h ih =>
    cases b with
    | nil => simp at hk
    | cons x b =>
      rw [List.map_cons, List.nodup_cons] at hd
      rw [List.map_cons, List.map_cons, List.cons.injEq, Prod.mk.injEq] at hk
      obtain ⟨⟨hk1, hk2⟩, hk3⟩ := hk
      cases hb with
      | skip k' _ _ h' => simp [ih b h' hk3 hd.2]
      | line k' n al dg _ o' h1 h2 h3 =>
        have := keys h rfl
        rw [← hk1] at this
        exact absurd this hd.1
  | line k n al dg r o h1 h2 h3 ih =>
    generalize hout : (Node.element (keyBytes k) [] [.text dg] :: o) = out at hb
    cases b with
    | nil => simp at hk
    | cons x b =>
      rw [List.map_cons, List.nodup_cons] at hd
      rw [List.map_cons, List.map_cons, List.cons.injEq, Prod.mk.injEq] at hk
      obtain ⟨⟨hk1, hk2⟩, hk3⟩ := hk
      cases hb with
      | skip k' _ _ h' =>
        have := keys h' hout.symm
        have hm : b.map (fun l => keyBytes l.1) = r.map (fun l => keyBytes l.1) := by
          have := congrArg (List.map Prod.fst) hk3
          simpa [Function.comp_def] using this.symm
        rw [hm] at this
        exact absurd this hd.1
      | line k' n' al' dg' _ o' h1' h2' h3' =>
        simp only [List.cons.injEq, Node.element.injEq, Node.text.injEq, and_true, true_and] at hout
        obtain ⟨⟨-, rfl⟩, rfl⟩ := hout
        have e1 : n = n' := h2.2.2.symm.trans h2'.2.2
        simp [e1, ih b h3' hk3 hd.2]

/-- Two documents with the same statistics agree in all the numbers. -/
theorem C84_numbers (s t : Nat) (d e : List Any) (h : cmdStatistics s d = cmdStatistics t e) :
    (lines s d).map (·.2.1) = (lines t e).map (·.2.1) := by
  obtain ⟨o, e1, h1⟩ := C84_statistics s d
  obtain ⟨o', e2, h2⟩ := C84_statistics t e
  rw [e1, e2] at h
  simp at h
  subst h
  refine C84_readable _ _ o h1 h2 (by simp [lines]) ?_
  simp only [lines, List.map_cons, List.map_nil]
  decide +kernel

/-- Nothing of the order of the siblings at the top matters, and the numbers of two parts add up. -/
theorem C84_additive (s : Nat) (d e : List Any) :
    (texts (d ++ e)).length = (texts d).length + (texts e).length ∧ size (texts (d ++ e)) = size (texts d) + size (texts e) ∧
      cmdStatistics s (d ++ e) = cmdStatistics s (e ++ d) := by
  refine ⟨by simp [texts, insideAll_append], by simp [texts, insideAll_append, size_append], ?_⟩
  simp only [cmdStatistics, accumulateAll_zero]
  rw [statTotals_append, statTotals_append]
  have : statAdd (statTotals d) (statTotals e) = statAdd (statTotals e) (statTotals d) := by
    simp [statAdd, Nat.add_comm]
  rw [this]

/-- The statistics tell how many references there are. -/
def C84_tells_references : Prop := ∀ (s : Nat) (d e : List Any), cmdStatistics s d = cmdStatistics s e →
  (entities d).length = (entities e).length

/-- They do not: the references are counted, but the number is not written. -/
theorem C84_false_references : ¬ C84_tells_references := fun h => by
  have := h 9 [.element b#"a" [] [.entity b#"nbsp"]] [.element b#"a" [] []] rfl
  simp [entities, insideAll, inside] at this

/-- Every document has the sums of its texts and of the rest, whether there are any or not. -/
theorem C84_sums (s : Nat) (doc : List Any) : ∃ pre, cmdStatistics s doc = [.element b#"statistics" [] (pre ++
    [keyValue b#"sum_meta" (size (elements doc) + size ((allAttrs doc).map Prod.fst) + size (attrTexts doc) + size (doctypes doc)),
     keyValue b#"sum_text" (size (texts doc))])] := by
  simp only [cmdStatistics, accumulateAll_zero]
  exact ⟨_, by rw [List.append_assoc]; rfl⟩

example : cmdStatistics 20 [.comment b#"hi", .element b#"ab" [(b#"c", [.text b#"xyz", .entity b#"n"])] [.text b#"q", .element b#"d" [] []]] =
    [.element b#"statistics" [] [keyValue b#"size_source" 20, keyValue b#"num_elements" 2, keyValue b#"size_element_names" 3,
      keyValue b#"num_text_nodes" 1, keyValue b#"size_text_nodes" 1, keyValue b#"num_attributes" 1, keyValue b#"size_attribute_names" 1,
      keyValue b#"size_attribute_content" 3, keyValue b#"num_comments" 1, keyValue b#"size_comments" 2,
      keyValue b#"sum_meta" 7, keyValue b#"sum_text" 1]] := by decide +kernel

end Xmq.Props
