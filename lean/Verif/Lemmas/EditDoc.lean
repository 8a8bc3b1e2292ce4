import Verif.Spec.EditDoc
/-!
# Lemmas on documents from which nodes are taken
-/
namespace Xmq.EditDoc
open Xmq.Spec.EditDoc

/-- The attributes in memory, those at the places of `g` freed. -/
def markAttrs (g : Place → Bool) : Nat → List Attr → List (Option Attr)
  | _, [] => []
  | i, a :: as => (if g [.attr i] then none else some a) :: markAttrs g (i + 1) as

mutual
/-- A node in memory, what is at the places of `g` freed. -/
def mark (g : Place → Bool) : Node → Cell
  | .text s => .text s
  | .entity n => .entity n
  | .comment s => .comment s
  | .element n as ks => .element n (markAttrs g 0 as) (marks g 0 ks)
/-- Siblings in memory, what is at the places of `g` freed. -/
def marks (g : Place → Bool) : Nat → List Node → List Cell
  | _, [] => []
  | i, k :: ks => (if g [.kid i] then .gone else mark (fun p => g (.kid i :: p)) k) :: marks g (i + 1) ks
end

theorem markAttrs_false (as : List Attr) : ∀ i, markAttrs (fun _ => false) i as = as.map some := by
  induction as with
  | nil => intro i; rfl
  | cons a as ih => intro i; simp [markAttrs, ih]

mutual
theorem mark_false : ∀ k, mark (fun _ => false) k = cell k
  | .text _ => rfl
  | .entity _ => rfl
  | .comment _ => rfl
  | .element n as ks => by simp [mark, cell, markAttrs_false, marks_false ks]
theorem marks_false : ∀ (ks : List Node) (i : Nat), marks (fun _ => false) i ks = cells ks
  | [], i => rfl
  | k :: ks, i => by simp [marks, cells, mark_false k, marks_false ks]
end

theorem markAttrs_nodes (g : Place → Bool) (as : List Attr) : ∀ i, (markAttrs g i as).filterMap id = withoutAttrs g i as := by
  induction as with
  | nil => intro i; rfl
  | cons a as ih =>
    intro i
    unfold markAttrs withoutAttrs
    cases g [.attr i] <;> simp [ih]

mutual
theorem node_mark : ∀ (k : Node) (g : Place → Bool), node? (mark g k) = some (withoutNode g k)
  | .text _, _ => rfl
  | .entity _, _ => rfl
  | .comment _, _ => rfl
  | .element n as ks, g => by simp [mark, node?, withoutNode, markAttrs_nodes, nodes_marks ks]
theorem nodes_marks : ∀ (ks : List Node) (g : Place → Bool) (i : Nat), nodes (marks g i ks) = withoutNodes g i ks
  | [], g, i => rfl
  | k :: ks, g, i => by
    unfold marks withoutNodes
    cases hg : g [.kid i]
    · simp [nodes, node_mark k, nodes_marks ks]
    · simp [nodes, node?, nodes_marks ks]
end

mutual
theorem node_cell : ∀ k : Node, node? (cell k) = some k
  | .text _ => rfl
  | .entity _ => rfl
  | .comment _ => rfl
  | .element n as ks => by simp [cell, node?, nodes_cells ks]
theorem nodes_cells : ∀ ks : List Node, nodes (cells ks) = ks
  | [] => rfl
  | k :: ks => by simp [cells, nodes, node_cell k, nodes_cells ks]
end

theorem without_none (k : Node) : withoutNode (fun _ => false) k = k := by
  have h := node_mark k (fun _ => false)
  rw [mark_false, node_cell] at h
  exact (Option.some.inj h).symm

theorem markAttrs_get (g : Place → Bool) (as : List Attr) : ∀ i j, (markAttrs g i as)[j]? =
    as[j]?.map fun a => if g [.attr (i + j)] then none else some a := by
  induction as with
  | nil => intro i j; simp [markAttrs]
  | cons a as ih =>
    intro i j
    cases j with
    | zero => simp [markAttrs]
    | succ j => simp [markAttrs, ih, Nat.add_assoc, Nat.add_comm 1 j]

theorem marks_get (g : Place → Bool) (ks : List Node) : ∀ i j, (marks g i ks)[j]? =
    ks[j]?.map fun k => if g [.kid (i + j)] then .gone else mark (fun p => g (.kid (i + j) :: p)) k := by
  induction ks with
  | nil => intro i j; simp [marks]
  | cons k ks ih =>
    intro i j
    cases j with
    | zero => simp [marks]
    | succ j => simp [marks, ih, Nat.add_assoc, Nat.add_comm 1 j]

theorem marks_len (g : Place → Bool) (ks : List Node) : ∀ i, (marks g i ks).length = ks.length := by
  induction ks with
  | nil => intro i; rfl
  | cons k ks ih => intro i; simp [marks, ih]

theorem markAttrs_len (g : Place → Bool) (ks : List Attr) : ∀ i, (markAttrs g i ks).length = ks.length := by
  induction ks with
  | nil => intro i; rfl
  | cons k ks ih => intro i; simp [markAttrs, ih]

/-- Nothing at the place or above it has been freed. -/
def Alive (g : Place → Bool) (p : Place) : Prop := ∀ q, q ≠ [] → q <+: p → g q = false

/-- One place more. -/
def plus (g : Place → Bool) (p : Place) : Place → Bool := fun q => g q || q == p

theorem alive_cons (g : Place → Bool) (h : Hop) (p : Place) :
    Alive g (h :: p) ↔ g [h] = false ∧ Alive (fun q => g (h :: q)) p := by
  constructor
  · intro ha
    refine ⟨ha [h] (by simp) ⟨p, rfl⟩, fun q _ hq => ha (h :: q) (by simp) ?_⟩
    obtain ⟨t, rfl⟩ := hq
    exact ⟨t, rfl⟩
  · rintro ⟨h1, h2⟩ q hq ⟨t, ht⟩
    cases q with
    | nil => exact absurd rfl hq
    | cons a q =>
      simp only [List.cons_append, List.cons.injEq] at ht
      obtain ⟨rfl, rfl⟩ := ht
      cases q with
      | nil => exact h1
      | cons b q => exact h2 (b :: q) (by simp) ⟨t, rfl⟩

theorem alive_nil (g : Place → Bool) : Alive g [] := fun q hq h => absurd (List.prefix_nil.1 h) hq

/-- After a place has been freed, those at it and below it are not alive. -/
theorem alive_plus (g : Place → Bool) (p q : Place) (hp : p ≠ []) : Alive (plus g p) q ↔ Alive g q ∧ ¬ p <+: q := by
  constructor
  · intro h
    refine ⟨fun r hr hq => ?_, fun hq => ?_⟩
    · have := h r hr hq
      simp only [plus, Bool.or_eq_false_iff] at this
      exact this.1
    · have := h p hp hq
      simp [plus] at this
  · rintro ⟨h1, h2⟩ r hr hq
    simp only [plus, Bool.or_eq_false_iff, beq_eq_false_iff_ne]
    exact ⟨h1 r hr hq, fun e => h2 (e ▸ hq)⟩

/-- Changing one sibling. -/
theorem marks_set (g g' : Place → Bool) (ks : List Node) (j : Nat) (c : Cell)
    (h : ∀ i, i ≠ j → ∀ p, g (.kid i :: p) = g' (.kid i :: p))
    (hc : ∀ k, ks[j]? = some k → c = if g' [.kid j] then .gone else mark (fun p => g' (.kid j :: p)) k) :
    (marks g 0 ks).set j c = marks g' 0 ks := by
  apply List.ext_getElem?
  intro i
  rw [List.getElem?_set, marks_get, marks_get, marks_len]
  split
  · rename_i e
    subst e
    split
    · rename_i hl
      rw [List.getElem?_eq_getElem hl]
      simp only [Option.map_some, Nat.zero_add]
      rw [hc _ (List.getElem?_eq_getElem hl)]
    · rename_i hl
      rw [List.getElem?_eq_none (by omega)]; rfl
  · rename_i e
    congr 1
    funext k
    simp only [Nat.zero_add]
    rw [h i (fun x => e x.symm) []]
    have : (fun p => g (.kid i :: p)) = fun p => g' (.kid i :: p) := funext (h i (fun x => e x.symm))
    rw [this]

theorem markAttrs_set (g g' : Place → Bool) (as : List Attr) (j : Nat)
    (h : ∀ i, i ≠ j → g [.attr i] = g' [.attr i]) (hj : g' [.attr j] = true) :
    (markAttrs g 0 as).set j none = markAttrs g' 0 as := by
  apply List.ext_getElem?
  intro i
  rw [List.getElem?_set, markAttrs_get, markAttrs_get, markAttrs_len]
  split
  · rename_i e
    subst e
    split
    · rename_i hl
      rw [List.getElem?_eq_getElem hl]
      simp [hj]
    · rename_i hl
      rw [List.getElem?_eq_none (by omega)]; rfl
  · rename_i e
    congr 1
    funext k
    simp only [Nat.zero_add]
    rw [h i (fun x => e x.symm)]

theorem markAttrs_congr (g g' : Place → Bool) (as : List Attr) (h : ∀ i, g [.attr i] = g' [.attr i]) :
    ∀ i, markAttrs g i as = markAttrs g' i as := by
  induction as with
  | nil => intro i; rfl
  | cons a as ih => intro i; simp [markAttrs, ih, h]

theorem marks_congr (g g' : Place → Bool) (ks : List Node) (h : ∀ i p, g (.kid i :: p) = g' (.kid i :: p)) :
    ∀ i, marks g i ks = marks g' i ks := by
  induction ks with
  | nil => intro i; rfl
  | cons k ks ih =>
    intro i
    have : (fun p => g (.kid i :: p)) = fun p => g' (.kid i :: p) := funext (h i)
    simp only [marks, ih, h i [], this]

theorem free_deep (cs : List Cell) (i : Nat) (b : Hop) (p : Place) (hb : ¬ (p = [] ∧ ∃ j, b = .attr j)) :
    free cs (.kid i :: b :: p) = match cs[i]? with
      | some (.element n as ks) => (free ks (b :: p)).map fun ks' => cs.set i (.element n as ks')
      | _ => none := by
  cases b with
  | attr j =>
    cases p with
    | nil => exact absurd ⟨rfl, j, rfl⟩ hb
    | cons c p => conv => lhs; unfold free
                  cases cs[i]? with
                  | none => rfl
                  | some c => cases c <;> rfl
  | kid j => conv => lhs; unfold free
             cases cs[i]? with
             | none => rfl
             | some c => cases c <;> rfl

theorem there_deep (ks : List Node) (i : Nat) (b : Hop) (p : Place) (hb : ¬ (p = [] ∧ ∃ j, b = .attr j)) :
    There ks (.kid i :: b :: p) ↔ ∃ n as ls, ks[i]? = some (.element n as ls) ∧ There ls (b :: p) := by
  cases b with
  | attr j =>
    cases p with
    | nil => exact absurd ⟨rfl, j, rfl⟩ hb
    | cons c p => conv => lhs; unfold There
  | kid j => conv => lhs; unfold There

theorem there_cons {ks : List Node} {h : Hop} {p : Place} (ht : There ks (h :: p)) : ∃ i, h = .kid i ∧ i < ks.length := by
  cases h with
  | attr j => simp [There] at ht
  | kid i =>
    refine ⟨i, rfl, ?_⟩
    cases p with
    | nil => exact ht
    | cons b p =>
      have : ∃ n as ls, ks[i]? = some (Node.element n as ls) := by
        cases b with
        | attr j =>
          cases p with
          | nil => obtain ⟨n, as, ls, h1, _⟩ := ht; exact ⟨n, as, ls, h1⟩
          | cons c p => obtain ⟨n, as, ls, h1, _⟩ := ht; exact ⟨n, as, ls, h1⟩
        | kid j => obtain ⟨n, as, ls, h1, _⟩ := ht; exact ⟨n, as, ls, h1⟩
      obtain ⟨n, as, ls, h1⟩ := this
      exact (List.getElem?_eq_some_iff.1 h1).1

theorem isGone_mark (g : Place → Bool) (k : Node) : isGone (mark g k) = false := by cases k <;> rfl

/-- Freeing what is there. -/
theorem free_marks (p : Place) : ∀ (ks : List Node) (g : Place → Bool), There ks p → ∀ r,
    free (marks g 0 ks) p = some r ↔ Alive g p ∧ r = marks (plus g p) 0 ks := by
  induction p with
  | nil => intro ks g h; simp [There] at h
  | cons a p ih =>
    intro ks g ht r
    obtain ⟨i, rfl, hi⟩ := there_cons ht
    have hki : ks[i]? = some ks[i] := List.getElem?_eq_getElem hi
    have hget := marks_get g ks 0 i
    rw [hki, Option.map_some, Nat.zero_add] at hget
    rw [alive_cons]
    cases p with
    | nil =>
      have hm : (marks g 0 ks).set i .gone = marks (plus g [.kid i]) 0 ks := by
        apply marks_set
        · intro j hj q; simp [plus, hj]
        · intro k _; simp [plus]
      unfold free
      rw [hget]
      cases hg : g [.kid i]
      · simp [isGone_mark, hm, alive_nil, eq_comm]
      · simp [isGone]
    | cons b p =>
      cases hg : g [.kid i]
      · rw [hg, if_neg (by simp)] at hget
        by_cases hb : p = [] ∧ ∃ j, b = .attr j
        · obtain ⟨rfl, j, rfl⟩ := hb
          obtain ⟨n, as, ls, h1, h2⟩ := ht
          rw [hki, Option.some.injEq] at h1
          rw [h1, mark] at hget
          unfold free
          rw [hget]
          simp only [markAttrs_get, List.getElem?_eq_getElem h2, Option.map_some, Nat.zero_add]
          rw [alive_cons]
          cases hj : g [.kid i, .attr j]
          · simp only [Bool.false_eq_true, if_false, Option.some.injEq, true_and, alive_nil]
            have hm : (marks g 0 ks).set i (.element n ((markAttrs (fun p => g (.kid i :: p)) 0 as).set j none)
                (marks (fun p => g (.kid i :: p)) 0 ls)) = marks (plus g [.kid i, .attr j]) 0 ks := by
              apply marks_set
              · intro i' hi' q; simp [plus, hi']
              · intro k hk
                rw [hki, h1, Option.some.injEq] at hk
                subst hk
                rw [if_neg (by simp [plus, hg]), mark]
                congr 1
                · apply markAttrs_set
                  · intro i' hi'; simp [plus, hi']
                  · simp [plus]
                · apply marks_congr
                  intro i' p'; simp [plus]
            rw [hm, eq_comm]
          · simp
        · rw [there_deep _ _ _ _ hb] at ht
          obtain ⟨n, as, ls, h1, h2⟩ := ht
          rw [hki, Option.some.injEq] at h1
          rw [h1, mark] at hget
          rw [free_deep _ _ _ _ hb, hget]
          simp only [true_and, Option.map_eq_some_iff]
          have hm : (marks g 0 ks).set i (.element n (markAttrs (fun p => g (.kid i :: p)) 0 as)
              (marks (plus (fun p => g (.kid i :: p)) (b :: p)) 0 ls)) = marks (plus g (.kid i :: b :: p)) 0 ks := by
            apply marks_set
            · intro i' hi' q; simp [plus, hi']
            · intro k hk
              rw [hki, h1, Option.some.injEq] at hk
              subst hk
              rw [if_neg (by simp [plus, hg]), mark]
              congr 1
              · apply markAttrs_congr
                intro i'
                have : ¬ ([Hop.attr i'] = b :: p) := fun e => hb (by cases e; exact ⟨rfl, i', rfl⟩)
                have h3 : ([Hop.kid i, Hop.attr i'] == Hop.kid i :: b :: p) = false := by
                  rw [beq_eq_false_iff_ne]; intro e; exact this (List.cons.inj e).2
                simp only [plus, h3, Bool.or_false]
              · apply marks_congr
                intro i' p'; simp [plus]
          constructor
          · rintro ⟨a, ha, rfl⟩
            obtain ⟨hb, rfl⟩ := (ih ls _ h2 a).1 ha
            exact ⟨hb, hm⟩
          · rintro ⟨ha, rfl⟩
            exact ⟨_, (ih ls _ h2 _).2 ⟨ha, rfl⟩, hm⟩
      · rw [hg, if_pos rfl] at hget
        have : free (marks g 0 ks) (.kid i :: b :: p) = none := by
          by_cases hb : p = [] ∧ ∃ j, b = .attr j
          · obtain ⟨rfl, j, rfl⟩ := hb
            unfold free; rw [hget]
          · rw [free_deep _ _ _ _ hb, hget]
        simp [this]

/-- Freeing what is at some places, one after the other. -/
theorem freeAll_marks (ks : List Node) : ∀ (ps : List Place) (g : Place → Bool), (∀ p ∈ ps, There ks p) → ∀ r,
    freeAll (marks g 0 ks) ps = some r ↔
      ((∀ p ∈ ps, Alive g p) ∧ ps.Pairwise fun a b => ¬ a <+: b) ∧ r = marks (fun q => g q || ps.contains q) 0 ks := by
  intro ps
  induction ps with
  | nil => intro g _ r; simp [freeAll, eq_comm]
  | cons p ps ih =>
    intro g ht r
    have hp := ht p (by simp)
    have hp0 : p ≠ [] := by rintro rfl; simp [There] at hp
    have ih' := ih (plus g p) (fun q hq => ht q (by simp [hq])) r
    have he : (fun q => plus g p q || ps.contains q) = fun q => g q || (p :: ps).contains q := by
      funext q; rw [List.contains_cons]; simp only [plus, Bool.or_assoc]
    rw [he] at ih'
    have h1 := free_marks p ks g hp
    unfold freeAll
    cases hf : free (marks g 0 ks) p with
    | none =>
      constructor
      · intro h; cases h
      · rintro ⟨⟨h2, _⟩, _⟩
        rw [(h1 _).2 ⟨h2 p (by simp), rfl⟩] at hf
        cases hf
    | some cs =>
      obtain ⟨h2, rfl⟩ := (h1 _).1 hf
      simp only []
      rw [ih']
      constructor
      · rintro ⟨⟨h3, h4⟩, h5⟩
        refine ⟨⟨?_, List.pairwise_cons.2 ⟨fun q hq => ((alive_plus g p q hp0).1 (h3 q hq)).2, h4⟩⟩, h5⟩
        intro q hq
        rcases List.mem_cons.1 hq with rfl | hq
        · exact h2
        · exact ((alive_plus g p q hp0).1 (h3 q hq)).1
      · rintro ⟨⟨h3, h4⟩, h5⟩
        obtain ⟨h6, h7⟩ := List.pairwise_cons.1 h4
        exact ⟨⟨fun q hq => (alive_plus g p q hp0).2 ⟨h3 q (by simp [hq]), h6 q hq⟩, h7⟩, h5⟩

/-! ## Looking -/

theorem nodeAt_deep (ks : List Node) (i : Nat) (b : Hop) (p : Place) :
    nodeAt ks (.kid i :: b :: p) = match ks[i]? with
      | some (.element _ _ ls) => nodeAt ls (b :: p)
      | _ => none := by
  conv => lhs; unfold nodeAt
  cases ks[i]? with
  | none => rfl
  | some k => cases k <;> rfl

theorem look_deep (ks : List Cell) (i : Nat) (b : Hop) (p : Place) :
    look ks (.kid i :: b :: p) = match ks[i]? with
      | some (.element _ _ ls) => look ls (b :: p)
      | _ => none := by
  conv => lhs; unfold look
  cases ks[i]? with
  | none => rfl
  | some k => cases k <;> rfl

theorem nodeAt_cons {ks : List Node} {h : Hop} {p : Place} {k : Node} (hn : nodeAt ks (h :: p) = some k) :
    ∃ i k', h = .kid i ∧ ks[i]? = some k' ∧ (p = [] ∧ k' = k ∨ ∃ n as ls, p ≠ [] ∧ k' = .element n as ls ∧ nodeAt ls p = some k) := by
  cases h with
  | attr j => cases p <;> simp [nodeAt] at hn
  | kid i =>
    cases p with
    | nil => exact ⟨i, k, rfl, hn, .inl ⟨rfl, rfl⟩⟩
    | cons b p =>
      rw [nodeAt_deep] at hn
      cases hk : ks[i]? with
      | none => rw [hk] at hn; cases hn
      | some k' =>
        rw [hk] at hn
        cases k' with
        | element n as ls => exact ⟨i, _, rfl, hk, .inr ⟨n, as, ls, by simp, rfl, hn⟩⟩
        | _ => cases hn

theorem look_marks (p : Place) : ∀ (ks : List Node) (g : Place → Bool) (k : Node), nodeAt ks p = some k → ∀ c,
    look (marks g 0 ks) p = some c ↔ Alive g p ∧ c = mark (fun q => g (p ++ q)) k := by
  induction p with
  | nil => intro ks g k h; simp [nodeAt] at h
  | cons a p ih =>
    intro ks g k hn c
    obtain ⟨i, k', rfl, hk, h⟩ := nodeAt_cons hn
    have hget := marks_get g ks 0 i
    rw [hk, Option.map_some, Nat.zero_add] at hget
    rw [alive_cons]
    rcases h with ⟨rfl, rfl⟩ | ⟨n, as, ls, hp, rfl, hn'⟩
    · unfold look
      rw [hget]
      cases hg : g [.kid i]
      · simp [isGone_mark, alive_nil, eq_comm]
      · simp [isGone]
    · cases p with
      | nil => exact absurd rfl hp
      | cons b p =>
        rw [look_deep, hget]
        cases hg : g [.kid i]
        · rw [if_neg (by simp), mark]
          simp only [true_and]
          rw [ih ls _ k hn' c]
          rfl
        · simp

/-- A place is that of a node or that of an attribute of an element. -/
theorem there_split (p : Place) : ∀ (ks : List Node), There ks p →
    (∃ q i k, p = q ++ [.kid i] ∧ nodeAt ks p = some k ∧ (q = [] ∨ ∃ n as ls, nodeAt ks q = some (.element n as ls))) ∨
    ∃ q j n as ls, p = q ++ [.attr j] ∧ nodeAt ks q = some (.element n as ls) ∧ j < as.length := by
  induction p with
  | nil => intro ks h; simp [There] at h
  | cons a p ih =>
    intro ks ht
    obtain ⟨i, rfl, hi⟩ := there_cons ht
    have hki : ks[i]? = some ks[i] := List.getElem?_eq_getElem hi
    cases p with
    | nil => exact .inl ⟨[], i, ks[i], rfl, hki, .inl rfl⟩
    | cons b p =>
      by_cases hb : p = [] ∧ ∃ j, b = .attr j
      · obtain ⟨rfl, j, rfl⟩ := hb
        obtain ⟨n, as, ls, h1, h2⟩ := ht
        exact .inr ⟨[.kid i], j, n, as, ls, rfl, h1, h2⟩
      · rw [there_deep _ _ _ _ hb] at ht
        obtain ⟨n, as, ls, h1, h2⟩ := ht
        have hlift : ∀ q k, nodeAt ls q = some k → nodeAt ks (.kid i :: q) = some k := by
          intro q k hq
          cases q with
          | nil => simp [nodeAt] at hq
          | cons c q => rw [nodeAt_deep, h1]; exact hq
        rcases ih ls h2 with ⟨q, i', k, h3, h4, h5⟩ | ⟨q, j, n', as', ls', h3, h4, h5⟩
        · refine .inl ⟨.kid i :: q, i', k, by rw [h3]; rfl, hlift _ _ h4, .inr ?_⟩
          rcases h5 with rfl | ⟨n', as', ls', h5⟩
          · exact ⟨n, as, ls, h1⟩
          · exact ⟨n', as', ls', hlift _ _ h5⟩
        · exact .inr ⟨.kid i :: q, j, n', as', ls', by rw [h3]; rfl, hlift _ _ h4, h5⟩

theorem nodeAt_attr (q : Place) (j : Nat) : ∀ (ks : List Node), nodeAt ks (q ++ [.attr j]) = none := by
  induction q with
  | nil => intro ks; rfl
  | cons a q ih =>
    intro ks
    rw [List.cons_append]
    cases hn : nodeAt ks (a :: (q ++ [.attr j])) with
    | none => rfl
    | some k =>
      obtain ⟨i, k', rfl, hk, h⟩ := nodeAt_cons hn
      rcases h with ⟨h, _⟩ | ⟨n, as, ls, _, rfl, hn'⟩
      · simp at h
      · rw [ih ls] at hn'; cases hn'

theorem alive_snoc (g : Place → Bool) (q : Place) (h : Hop) : Alive g (q ++ [h]) ↔ Alive g q ∧ g (q ++ [h]) = false := by
  constructor
  · intro ha
    exact ⟨fun r hr hq => ha r hr (hq.trans (List.prefix_append _ _)), ha _ (by simp) (List.prefix_refl _)⟩
  · rintro ⟨h1, h2⟩ r hr hq
    rcases List.prefix_concat_iff.1 hq with rfl | hq
    · exact h2
    · exact h1 r hr hq

/-- The place of what is taken. -/
theorem climb_marks (p : Place) (ks : List Node) (g : Place → Bool) (ht : There ks p) (q : Place) :
    climb (marks g 0 ks) p = some q ↔ Alive g p ∧ q = chosen ks p := by
  rcases there_split p ks ht with ⟨r, i, k, rfl, h1, _⟩ | ⟨r, j, n, as, ls, rfl, h1, h2⟩
  · have hl := look_marks _ ks g k h1
    unfold climb chosen
    rw [h1]
    simp only [List.getLast?_concat]
    cases hk : look (marks g 0 ks) (r ++ [.kid i]) with
    | none =>
      constructor
      · intro h; cases h
      · rintro ⟨h2, _⟩
        rw [(hl _).2 ⟨h2, rfl⟩] at hk
        cases hk
    | some c =>
      obtain ⟨h2, rfl⟩ := (hl _).1 hk
      cases k <;> simp [mark, h2, eq_comm]
  · have hl := look_marks _ ks g _ h1
    have hc : chosen ks (r ++ [.attr j]) = r := by
      unfold chosen; rw [nodeAt_attr]; simp
    rw [hc, alive_snoc]
    unfold climb attrAt
    simp only [List.getLast?_concat, List.dropLast_concat]
    cases hk : look (marks g 0 ks) r with
    | none =>
      constructor
      · intro h; simp at h
      · rintro ⟨⟨h3, _⟩, _⟩
        rw [(hl _).2 ⟨h3, rfl⟩] at hk
        cases hk
    | some c =>
      obtain ⟨h3, rfl⟩ := (hl _).1 hk
      simp only [mark, markAttrs_get, List.getElem?_eq_getElem h2, Option.map_some, Nat.zero_add, Option.join_some]
      cases hj : g (r ++ [.attr j]) <;> simp [h3, eq_comm]

theorem chosen_prefix (ks : List Node) (p : Place) : chosen ks p <+: p := by
  unfold chosen
  split
  · exact List.prefix_refl _
  · exact List.prefix_refl _
  · exact List.dropLast_prefix _

theorem there_of_nodeAt (p : Place) : ∀ (ks : List Node) (k : Node), nodeAt ks p = some k → There ks p := by
  induction p with
  | nil => intro ks k h; simp [nodeAt] at h
  | cons a p ih =>
    intro ks k hn
    obtain ⟨i, k', rfl, hk, h⟩ := nodeAt_cons hn
    rcases h with ⟨rfl, _⟩ | ⟨n, as, ls, hp, rfl, hn'⟩
    · exact (List.getElem?_eq_some_iff.1 hk).1
    · cases p with
      | nil => exact absurd rfl hp
      | cons b p =>
        have hb : ¬ (p = [] ∧ ∃ j, b = .attr j) := by
          rintro ⟨rfl, j, rfl⟩
          simp [nodeAt] at hn'
        rw [there_deep _ _ _ _ hb]
        exact ⟨n, as, ls, hk, ih ls k hn'⟩

theorem chosen_there (p : Place) (ks : List Node) (ht : There ks p) (hc : chosen ks p ≠ []) :
    There ks (chosen ks p) ∧ ∃ k, nodeAt ks (chosen ks p) = some k := by
  have h : ∃ k, nodeAt ks (chosen ks p) = some k := by
    rcases there_split p ks ht with ⟨r, i, k, rfl, h1, h2⟩ | ⟨r, j, n, as, ls, rfl, h1, h2⟩
    · unfold chosen at hc ⊢
      rw [h1] at hc ⊢
      cases k with
      | text s => exact ⟨_, h1⟩
      | element n as ls => exact ⟨_, h1⟩
      | _ =>
        simp only [List.dropLast_concat] at hc ⊢
        rcases h2 with h2 | ⟨n, as, ls, h2⟩
        · exact absurd h2 hc
        · exact ⟨_, h2⟩
    · unfold chosen
      rw [nodeAt_attr]
      simp only [List.dropLast_concat]
      exact ⟨_, h1⟩
  exact ⟨there_of_nodeAt _ _ _ h.choose_spec, h⟩

theorem withoutNode_congr (g g' : Place → Bool) (k : Node) (h : ∀ q, q ≠ [] → g q = g' q) : withoutNode g k = withoutNode g' k := by
  have hm : mark g k = mark g' k := by
    cases k with
    | element n as ks =>
      simp only [mark]
      rw [markAttrs_congr g g' as (fun i => h _ (by simp)), marks_congr g g' ks (fun i p => h _ (by simp))]
    | _ => rfl
  have := node_mark k g
  rw [hm, node_mark] at this
  exact (Option.some.inj this).symm

/-! ## Selecting -/

/-- When the loop of `cmd_select` is defined: nothing is used after it has been taken, and nothing is missing behind something. -/
def LoopOk (ks : List Node) (g : Place → Bool) (empty : Bool) (ps : List Place) : Prop :=
  (∀ p ∈ ps, Alive g p) ∧ (ps.Pairwise fun a b => chosen ks a ≠ [] → ¬ chosen ks a <+: b) ∧
    (ps.Pairwise fun a b => chosen ks b = [] → chosen ks a = []) ∧ (empty = false → ∀ p ∈ ps, chosen ks p ≠ [])

/-- The nodes taken. -/
def pieces (ks : List Node) (g : Place → Bool) (ts : List Place) : List Node :=
  ts.filterMap fun t => (nodeAt ks t).map (withoutNode fun q => g (t ++ q) || ts.contains (t ++ q))

theorem taken_cons (ks : List Node) (p : Place) (ps : List Place) : takenPlaces ks (p :: ps) =
    if chosen ks p = [] then takenPlaces ks ps else chosen ks p :: takenPlaces ks ps := by
  unfold takenPlaces
  rw [List.map_cons, List.filter_cons]
  by_cases h : chosen ks p = [] <;> simp [h]

theorem mem_taken {ks : List Node} {ps : List Place} {t : Place} (h : t ∈ takenPlaces ks ps) :
    t ≠ [] ∧ ∃ p ∈ ps, chosen ks p = t := by
  unfold takenPlaces at h
  simp only [List.mem_filter, List.mem_map, decide_eq_true_eq] at h
  exact ⟨h.2, h.1⟩

theorem pieces_cons (ks : List Node) (g : Place → Bool) (t : Place) (ts : List Place) (k : Node) (hk : nodeAt ks t = some k)
    (h : ∀ r ∈ ts, ¬ t <+: r) :
    pieces ks g (t :: ts) = withoutNode (fun q => g (t ++ q)) k :: pieces ks (plus g t) ts := by
  unfold pieces
  rw [List.filterMap_cons, hk]
  simp only [Option.map_some]
  congr 1
  · apply withoutNode_congr
    intro q hq
    rw [List.contains_cons]
    have h1 : (t ++ q == t) = false := by
      rw [beq_eq_false_iff_ne]; intro e; exact hq (by simpa using e)
    have h2 : ts.contains (t ++ q) = false := by
      rw [Bool.eq_false_iff]
      intro hc
      exact h _ (List.contains_iff_mem.1 hc) (List.prefix_append _ _)
    rw [h1, h2]; simp
  · congr 1
    funext r
    congr 2
    funext q
    rw [List.contains_cons]; simp only [plus, Bool.or_assoc]

theorem selectLoop_marks (ks : List Node) : ∀ (ps : List Place) (g : Place → Bool) (new : List Node),
    (∀ p ∈ ps, p = [] ∨ There ks p) → ∀ cs new', selectLoop (marks g 0 ks) new ps = some (cs, new') ↔
      LoopOk ks g new.isEmpty ps ∧ cs = marks (fun q => g q || (takenPlaces ks ps).contains q) 0 ks ∧
        new' = new ++ pieces ks g (takenPlaces ks ps) := by
  intro ps
  induction ps with
  | nil =>
    intro g new _ cs new'
    have h1 : LoopOk ks g new.isEmpty [] := by simp [LoopOk]
    have h2 : (fun q => g q || (takenPlaces ks []).contains q) = g := by funext q; simp [takenPlaces]
    rw [h2]
    simp only [selectLoop, h1, true_and, takenPlaces, pieces, List.map_nil, List.filter_nil, List.filterMap_nil, List.append_nil,
      Option.some.injEq, Prod.mk.injEq]
    rw [eq_comm, @eq_comm _ new]
  | cons p ps ih =>
    intro g new ht cs new'
    have hps : ∀ q ∈ ps, q = [] ∨ There ks q := fun q hq => ht q (by simp [hq])
    have hclimb : ∀ q, climb (marks g 0 ks) p = some q ↔ Alive g p ∧ q = chosen ks p := by
      rcases ht p (by simp) with rfl | h
      · intro q
        simp [climb, chosen, nodeAt, alive_nil, eq_comm]
      · exact climb_marks p ks g h
    unfold selectLoop
    cases hc : climb (marks g 0 ks) p with
    | none =>
      simp only [reduceCtorEq, false_iff]
      rintro ⟨⟨h1, _⟩, _⟩
      rw [(hclimb _).2 ⟨h1 p (by simp), rfl⟩] at hc
      cases hc
    | some t =>
      obtain ⟨halive, rfl⟩ := (hclimb _).1 hc
      by_cases h0 : chosen ks p = []
      · rw [h0]
        simp only []
        rw [taken_cons, if_pos h0]
        cases he : new.isEmpty
        · simp only [Bool.false_eq_true, if_false, reduceCtorEq, false_iff]
          rintro ⟨⟨_, _, _, h1⟩, _⟩
          exact h1 rfl p (by simp) h0
        · rw [if_pos rfl, ih g new hps, he]
          have : LoopOk ks g true (p :: ps) ↔ LoopOk ks g true ps := by
            unfold LoopOk
            simp only [List.pairwise_cons, List.mem_cons, forall_eq_or_imp, h0]
            simp [halive]
          rw [this]
      · have hthere : There ks p := by
          rcases ht p (by simp) with rfl | h
          · exact absurd (by simp [chosen, nodeAt]) h0
          · exact h
        obtain ⟨hct, k, hk⟩ := chosen_there p ks hthere h0
        have hcalive : Alive g (chosen ks p) := fun q hq hqp => halive q hq (hqp.trans (chosen_prefix ks p))
        have hlook := (look_marks _ ks g k hk _).2 ⟨hcalive, rfl⟩
        have hfree := (free_marks _ ks g hct _).2 ⟨hcalive, rfl⟩
        have hrw : (match some (chosen ks p) with
            | none => none
            | some [] => if new.isEmpty = true then selectLoop (marks g 0 ks) new ps else none
            | some q =>
              match (look (marks g 0 ks) q).bind node?, free (marks g 0 ks) q with
              | some k, some cs' => selectLoop cs' (new ++ [k]) ps
              | _, _ => none) =
            selectLoop (marks (plus g (chosen ks p)) 0 ks) (new ++ [withoutNode (fun q => g (chosen ks p ++ q)) k]) ps := by
          cases hcp : chosen ks p with
          | nil => exact absurd hcp h0
          | cons a r =>
            rw [hcp] at hlook hfree
            simp only [hlook, hfree, Option.bind_some, node_mark]
        refine Iff.trans (Eq.to_iff (congrArg (· = some (cs, new')) hrw)) ?_
        rw [ih _ _ hps, taken_cons, if_neg h0]
        have he : (fun q => plus g (chosen ks p) q || (takenPlaces ks ps).contains q) =
            fun q => g q || (chosen ks p :: takenPlaces ks ps).contains q := by
          funext q; rw [List.contains_cons]; simp only [plus, Bool.or_assoc]
        rw [he]
        have hok : LoopOk ks (plus g (chosen ks p)) (new ++ [withoutNode (fun q => g (chosen ks p ++ q)) k]).isEmpty ps ↔
            LoopOk ks g new.isEmpty (p :: ps) := by
          unfold LoopOk
          have : (new ++ [withoutNode (fun q => g (chosen ks p ++ q)) k]).isEmpty = false := by simp
          rw [this]
          simp only [List.pairwise_cons, List.mem_cons, forall_eq_or_imp]
          constructor
          · rintro ⟨h1, h2, h3, h4⟩
            exact ⟨⟨halive, fun q hq => ((alive_plus g _ q h0).1 (h1 q hq)).1⟩,
              ⟨fun q hq _ => ((alive_plus g _ q h0).1 (h1 q hq)).2, h2⟩, ⟨fun q hq hn => absurd hn (h4 trivial q hq), h3⟩,
              fun _ => ⟨h0, h4 trivial⟩⟩
          · rintro ⟨⟨_, h1⟩, ⟨h2, h3⟩, ⟨h4, h5⟩, h6⟩
            exact ⟨fun q hq => (alive_plus g _ q h0).2 ⟨h1 q hq, h2 q hq h0⟩, h3, h5, fun _ q hq hn => h0 (h4 q hq hn)⟩
        rw [hok]
        refine and_congr_right fun hl => and_congr_right fun _ => ?_
        have hp2 := (List.pairwise_cons.1 hl.2.1).1
        rw [pieces_cons ks g _ _ k hk, List.append_assoc]
        · rfl
        · intro r hr hpre
          obtain ⟨_, q, hq, rfl⟩ := mem_taken hr
          exact hp2 q hq h0 (hpre.trans (chosen_prefix ks q))

end Xmq.EditDoc
