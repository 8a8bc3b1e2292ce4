import Verif.Lemmas.NsGuard
/-!
# A bound document, written down, means itself
-/
namespace Xmq
open Spec

theorem joinValues_apart : ∀ vs : List Val, apart vs = true → joinValues vs = vs
  | [], _ => rfl
  | .entity n :: vs, h => by rw [joinValues, joinValues_apart vs (by simpa [apart] using h)]; simp
  | [.text a], _ => rfl
  | .text a :: .entity n :: vs, h => by
    have := joinValues_apart (.entity n :: vs) (by simpa [apart] using h)
    rw [joinValues, this]
  | .text a :: .text b :: vs, h => by simp [apart] at h

theorem seeNode_text {heap : List Ns} {n : NNode} {s : List Byte} (h : seeNode heap n = .text s) : n = .text s := by
  cases n <;> simp [seeNode] at h
  rw [h]

theorem joinNodes_apart (heap : List Ns) : ∀ l : List NNode, apartNodes l = true → joinNodes (seeNodes heap l) = seeNodes heap l
  | [], _ => rfl
  | n :: t, h => by
    have ht : apartNodes t = true := by
      cases n <;> cases t <;> try simp_all [apartNodes]
      rename_i m t
      cases m <;> simp_all [apartNodes]
    have ih := joinNodes_apart heap t ht
    by_cases hn : ∃ s, n = .text s
    · obtain ⟨s, rfl⟩ := hn
      cases t with
      | nil => rfl
      | cons m t =>
        have hm : ∀ b, m ≠ .text b := by
          rintro b rfl; simp [apartNodes] at h
        rw [seeNodes, seeNode, joinNodes, ih]
        rw [seeNodes]
        cases hx : seeNode heap m with
        | text b => exact absurd (seeNode_text hx) (hm b)
        | _ => rfl
    · rw [seeNodes, joinNodes_other, ih]
      intro s hs
      exact hn ⟨s, seeNode_text hs⟩

theorem declared_written (heap : List Ns) (defs : List Nat) (attrs : List NAttr) (h : (defs.filterMap (heap[·]?)).all (·.href.isSome) = true) :
    declared (headAttrs heap defs attrs) = nsDecls heap defs := by
  funext p
  unfold declared nsDecls headAttrs
  rw [List.findSome?_append]
  have h1 : ∀ f : SAttr → Option (List Byte), (∀ a, f (writtenAttr heap a) = none) → (attrs.map (writtenAttr heap)).findSome? f = none := by
    intro f hf
    rw [List.findSome?_eq_none_iff]
    intro a ha
    obtain ⟨x, -, rfl⟩ := List.mem_map.1 ha
    exact hf x
  rw [h1 _ (fun _ => rfl), Option.none_or]
  revert h
  generalize defs.filterMap (heap[·]?) = l
  intro h
  induction l with
  | nil => rfl
  | cons n t ih =>
    simp only [List.all_cons, Bool.and_eq_true] at h
    rw [List.map_cons, List.findSome?_cons, List.find?_cons, ih h.2]
    simp only [writtenDecl]
    by_cases hp : n.pre = p
    · obtain ⟨u, hu⟩ := Option.isSome_iff_exists.1 h.1
      simp [hp, hu, SVal.text?]
    · have hb : (n.pre == p) = false := by simpa using hp
      rw [if_neg hp, hb]

theorem extend_written (env : Env) (heap : List Ns) (defs : List Nat) (attrs : List NAttr)
    (h : (defs.filterMap (heap[·]?)).all (·.href.isSome) = true) :
    extend env (headAttrs heap defs attrs) = inScope env (nsDecls heap defs) := by
  unfold extend inScope
  rw [declared_written heap defs attrs h]
  funext p
  cases nsDecls heap defs p <;> rfl

theorem prefixOf_none {heap : List Ns} {ns : Option Nat} (h : ns.bind (heap[·]?) = none) : prefixOf heap ns = none := by
  unfold prefixOf; rw [h]; rfl

theorem prefixOf_some {heap : List Ns} {ns : Option Nat} {n : Ns} (h : ns.bind (heap[·]?) = some n) : prefixOf heap ns = n.pre := by
  unfold prefixOf; rw [h]; rfl

theorem elementName_bound {env : Env} {heap : List Ns} {ns : Option Nat} (h : boundName env heap false ns = true) (name : List Byte) :
    elementName env (prefixOf heap ns) name = nsName heap ns name := by
  unfold boundName at h
  unfold nsName elementName
  cases hn : ns.bind (heap[·]?) with
  | none =>
    rw [hn] at h
    rw [prefixOf_none hn]
    simp only [Bool.false_or, Option.isNone_iff_eq_none] at h
    rw [h]
  | some n =>
    rw [hn] at h
    rw [prefixOf_some hn]
    simp only [Bool.and_eq_true, beq_iff_eq] at h
    obtain ⟨u, hu⟩ := Option.isSome_iff_exists.1 h.1.1
    rw [h.1.2, hu]
    simp [hu]

theorem attributeName_bound {env : Env} {heap : List Ns} {ns : Option Nat} (h : boundName env heap true ns = true) (name : List Byte) :
    attributeQName env (prefixOf heap ns) name = nsName heap ns name := by
  unfold boundName at h
  cases hn : ns.bind (heap[·]?) with
  | none =>
    unfold nsName attributeQName
    rw [prefixOf_none hn, hn]
  | some n =>
    have hb : boundName env heap false ns = true := by
      unfold boundName
      rw [hn] at h ⊢
      simp only [Bool.and_eq_true] at h ⊢
      exact ⟨h.1, by simp⟩
    rw [hn] at h
    have hp := prefixOf_some hn
    simp only [Bool.and_eq_true, Bool.not_true, Bool.or_false] at h
    obtain ⟨p, hp'⟩ := Option.isSome_iff_exists.1 h.2
    rw [← elementName_bound hb, hp, hp']
    rfl

theorem attributes_bound {env : Env} {heap : List Ns} {defs : List Nat} {attrs : List NAttr}
    (h : attrs.all (fun a => boundName env heap true a.ns && a.value != [.text []] && apart a.value) = true) :
    attributesOf env (headAttrs heap defs attrs) = attrs.map fun a => (nsName heap a.ns a.name, a.value) := by
  unfold attributesOf headAttrs
  rw [List.filterMap_append]
  have h2 : ∀ f : SAttr → Option (QName × List Val), (∀ n, f (writtenDecl n) = none) →
      ((defs.filterMap (heap[·]?)).map writtenDecl).filterMap f = [] := by
    intro f hf
    rw [List.filterMap_eq_nil_iff]
    intro a ha
    obtain ⟨x, -, rfl⟩ := List.mem_map.1 ha
    exact hf x
  rw [h2 _ (fun _ => rfl), List.append_nil]
  induction attrs with
  | nil => rfl
  | cons a t ih =>
    simp only [List.all_cons, Bool.and_eq_true, bne_iff_ne, ne_eq] at h
    rw [List.map_cons, List.map_cons, List.filterMap_cons]
    simp only [writtenAttr]
    rw [attributeName_bound h.1.1.1]
    have hv : joinValues (valsOf (if a.value = [] ∨ a.value = [.text []] then none else some (.many a.value))) = a.value := by
      split
      · rename_i hx
        rcases hx with hx | hx
        · rw [hx]; rfl
        · exact absurd hx h.1.1.2
      · exact joinValues_apart _ h.1.2
    rw [hv]
    simp only [List.cons.injEq, true_and]
    exact ih (by simpa [List.all_eq_true] using h.2)

mutual
theorem bound_node (env : Env) (heap : List Ns) (n : NNode) (hs : SimpleN (asWritten heap n)) (h : boundNode env heap n = true) :
    resolveNode env (asWritten heap n) = seeNode heap n := by
  cases n with
  | text s => rfl
  | entity s => rfl
  | comment s => rfl
  | pi t c => rfl
  | dtd s => rfl
  | element name ns defs attrs kids =>
    rw [asWritten] at hs ⊢
    rw [boundNode] at h
    simp only [Bool.and_eq_true] at h
    obtain ⟨⟨⟨⟨h1, h2⟩, h3⟩, h4⟩, h5⟩ := h
    rw [SimpleN] at hs
    have hsp : specialName (qual (prefixOf heap ns) name) = false := by
      cases hx : specialName (qual (prefixOf heap ns) name) with
      | false => rfl
      | true => exact absurd (hs.2.2.1 hx).1 (by simp)
    have hd : isDoctype (prefixOf heap ns) name = false := by
      cases hx : isDoctype (prefixOf heap ns) name with
      | false => rfl
      | true =>
        rw [qual_doctype.2 hx] at hsp
        exact absurd hsp (by decide)
    have hp : isPi (prefixOf heap ns) name = false := by
      cases hx : isPi (prefixOf heap ns) name with
      | false => rfl
      | true =>
        simp only [isPi, Bool.and_eq_true, beq_iff_eq] at hx
        rw [hx.1] at hsp
        cases name with
        | nil => simp at hx
        | cons c t =>
          simp at hx
          rw [hx.2] at hsp
          exact absurd hsp (by simp [specialName, qual, peek])
    have e1 := declared_written heap defs attrs h3
    have e2 := extend_written env heap defs attrs h3
    have e3 := attributes_bound (defs := defs) h2
    rw [resolveNode, hd, hp]
    simp only [Bool.false_eq_true, if_false, Option.getD_some]
    change XNode.element (elementName (extend env (headAttrs heap defs attrs)) _ _) (declared (headAttrs heap defs attrs))
      (attributesOf (extend env (headAttrs heap defs attrs)) (headAttrs heap defs attrs))
      (joinNodes ([] ++ resolveNodes (extend env (headAttrs heap defs attrs)) (allWritten heap kids))) = _
    rw [e1, e2, e3, elementName_bound h1, List.nil_append, bound_nodes _ heap kids hs.2.2.2.2.2 h5, joinNodes_apart heap kids h4, seeNode]
theorem bound_nodes (env : Env) (heap : List Ns) (l : List NNode) (hs : SimpleNs (allWritten heap l)) (h : boundNodes env heap l = true) :
    resolveNodes env (allWritten heap l) = seeNodes heap l := by
  cases l with
  | nil => rfl
  | cons n t =>
    rw [allWritten, SimpleNs] at hs
    rw [boundNodes, Bool.and_eq_true] at h
    rw [allWritten, resolveNodes, seeNodes, bound_node env heap n hs.1 h.1, bound_nodes env heap t hs.2 h.2]
end

theorem bound_resolve {heap : List Ns} {doc : List NNode} (hs : SimpleNs (allWritten heap doc)) (h : BoundTree heap doc) :
    resolve (allWritten heap doc) = seeNodes heap doc := by
  unfold BoundTree at h
  rw [Bool.and_eq_true] at h
  unfold resolve
  rw [bound_nodes _ _ _ hs h.2, joinNodes_apart heap doc h.1]

end Xmq
