import Verif.Lemmas.EditDoc
/-!
# C88: selecting, deleting and adding in a document
-/
namespace Xmq.Props
open Xmq.EditDoc Xmq.Spec.EditDoc

/-! ## Deleting -/

theorem before_not_prefix : ∀ (b a : Place), Before a b → ¬ b <+: a
  | [], a => by cases a <;> simp [Before]
  | _ :: _, [] => by simp
  | y :: q, x :: p => by
    rintro (h | ⟨rfl, h⟩) hp
    · have : y = x := (List.cons_prefix_cons.1 hp).1
      subst this
      cases y <;> simp [HopBefore] at h
    · exact before_not_prefix q p h (List.cons_prefix_cons.1 hp).2

theorem headFreed_marks (l : Bool) (g : Place → Bool) (ks : List Node) :
    headFreed l (marks g 0 ks) = true ↔ l = false ∧ ks ≠ [] ∧ g [.kid 0] = true := by
  cases ks with
  | nil => simp [headFreed, marks]
  | cons k ks =>
    simp only [headFreed, marks]
    cases hg : g [.kid 0]
    · simp [isGone_mark]
    · simp [isGone]

theorem marks_alive (g : Place → Bool) (ks : List Node) : ∀ i,
    ((marks g i ks).filter fun c => !isGone c).length = (withoutNodes g i ks).length := by
  induction ks with
  | nil => intro i; rfl
  | cons k ks ih =>
    intro i
    unfold marks withoutNodes
    cases g [.kid i]
    · simp [isGone_mark, ih]
    · have : isGone .gone = true := rfl
      simp [this, ih]

theorem marks_take (g : Place → Bool) (ks : List Node) : ∀ i j, (marks g i ks).take j = marks g i (ks.take j) := by
  induction ks with
  | nil => intro i j; simp [marks]
  | cons k ks ih =>
    intro i j
    cases j with
    | zero => simp [marks]
    | succ j => simp [marks, ih]

theorem there_top {ks : List Node} {p : Place} (h : There ks p) : ks ≠ [] := by
  rintro rfl
  cases p with
  | nil => simp [There] at h
  | cons a p => obtain ⟨i, _, hi⟩ := there_cons h; simp at hi

theorem delete_iff (ps : List Place) (d : Doc) (ht : ∀ p ∈ ps, There d.top p) (r : Doc) :
    delete ps d = some r ↔ (ps.Pairwise (fun a b => ¬ b <+: a) ∧ (d.linked = true ∨ [.kid 0] ∉ ps)) ∧
      r = ⟨without ps d.top, d.linked, lastAfter (marks (fun q => ps.contains q) 0 d.top) d.last⟩ := by
  have hf := freeAll_marks d.top ps.reverse (fun _ => false) (fun p hp => ht p (by simpa using hp))
  rw [marks_false] at hf
  simp only [List.pairwise_reverse, Bool.false_or, List.contains_reverse] at hf
  have hal : ∀ p ∈ ps.reverse, Alive (fun _ => false) p := fun p _ q _ _ => rfl
  unfold delete
  have hh := headFreed_marks d.linked (fun q => ps.contains q) d.top
  cases hc : freeAll (cells d.top) ps.reverse with
  | none =>
    simp only [reduceCtorEq, false_iff]
    rintro ⟨⟨h1, _⟩, _⟩
    rw [(hf _).2 ⟨⟨hal, h1⟩, rfl⟩] at hc
    cases hc
  | some cs =>
    obtain ⟨⟨_, h1⟩, rfl⟩ := (hf _).1 hc
    simp only []
    cases hb : headFreed d.linked (marks (fun q => ps.contains q) 0 d.top) with
    | true =>
      obtain ⟨h2, _, h3⟩ := hh.1 hb
      rw [if_pos rfl]
      simp only [reduceCtorEq, false_iff]
      rintro ⟨⟨_, h4⟩, _⟩
      rcases h4 with h4 | h4
      · rw [h2] at h4; cases h4
      · exact h4 (List.contains_iff_mem.1 h3)
    | false =>
      rw [if_neg (by simp), nodes_marks, Option.some.injEq]
      have h4 : d.linked = true ∨ [Hop.kid 0] ∉ ps := by
        rcases Bool.eq_false_or_eq_true d.linked with h | h
        · exact .inl h
        · refine .inr fun hm => ?_
          rw [hh.2 ⟨h, there_top (ht _ hm), List.contains_iff_mem.2 hm⟩] at hb
          cases hb
      simp only [h1, h4, and_self, true_and]
      exact eq_comm

/-- **C88.**  Deleting is defined exactly if no node comes after one at or below it and, when the top nodes do not know their
    document, the first node stays. -/
theorem C88_delete_defined (ps : List Place) (d : Doc) (ht : ∀ p ∈ ps, There d.top p) :
    (delete ps d).isSome ↔ ps.Pairwise (fun a b => ¬ b <+: a) ∧ (d.linked = true ∨ [.kid 0] ∉ ps) := by
  rw [Option.isSome_iff_exists]
  constructor
  · rintro ⟨r, hr⟩; exact ((delete_iff ps d ht r).1 hr).1
  · intro h; exact ⟨_, (delete_iff ps d ht _).2 ⟨h, rfl⟩⟩

/-- **C88.**  What is left after deleting: the document without what is at the places, and `doc->last` is where it was. -/
theorem C88_delete (ps : List Place) (d r : Doc) (ht : ∀ p ∈ ps, There d.top p) (hr : delete ps d = some r) :
    r.top = without ps d.top ∧ r.linked = d.linked ∧ (∀ i < d.top.length, d.last = some i →
      r.last = if [.kid i] ∈ ps then none else some (without ps (d.top.take i)).length) := by
  obtain ⟨_, rfl⟩ := (delete_iff ps d ht r).1 hr
  refine ⟨rfl, rfl, fun i hi hl => ?_⟩
  simp only [hl, lastAfter, marks_get, List.getElem?_eq_getElem hi, Option.map_some, Nat.zero_add]
  rw [marks_take, marks_alive]
  by_cases h : [Hop.kid i] ∈ ps
  · simp [h, isGone]
  · simp [h, isGone_mark, without]

/-- **C88.**  What an XPath finds in a document that has been loaded can be deleted, and the rest is as it was. -/
theorem C88_delete_loaded (ps : List Place) (top : List Node) (ht : ∀ p ∈ ps, There top p) (ho : ps.Pairwise Before) :
    ∃ r, delete ps (loaded top) = some r ∧ r.top = without ps top ∧ r.linked = true := by
  have h := (C88_delete_defined ps (loaded top) ht).2 ⟨ho.imp fun h => before_not_prefix _ _ h, .inl rfl⟩
  obtain ⟨r, hr⟩ := Option.isSome_iff_exists.1 h
  obtain ⟨h1, h2, _⟩ := C88_delete ps (loaded top) r ht hr
  exact ⟨r, hr, h1, h2⟩

/-! ## Selecting -/

theorem taken_reverse (ks : List Node) (ps : List Place) : takenPlaces ks ps.reverse = (takenPlaces ks ps).reverse := by
  simp [takenPlaces, List.filter_reverse]

theorem pieces_reverse (ks : List Node) (ts : List Place) :
    pieces ks (fun _ => false) ts.reverse = (ts.filterMap (piece ks ts)).reverse := by
  unfold pieces
  rw [List.filterMap_reverse]
  simp only [Bool.false_or, List.contains_reverse]
  rfl

/-- When the places can be selected one after the other. -/
def Selectable (top : List Node) (linked : Bool) (ps : List Place) : Prop :=
  (ps.Pairwise fun a b => chosen top b ≠ [] → ¬ chosen top b <+: a) ∧
    (ps.Pairwise fun a b => chosen top a = [] → chosen top b = []) ∧ (linked = true ∨ [.kid 0] ∉ takenPlaces top ps)

theorem select_iff (ps : List Place) (d : Doc) (ht : ∀ p ∈ ps, p = [] ∨ There d.top p) (r : Doc) :
    select ps d = some r ↔ Selectable d.top d.linked ps ∧
      r = ⟨((takenPlaces d.top ps).filterMap (piece d.top (takenPlaces d.top ps))).reverse,
        ((takenPlaces d.top ps).filterMap (piece d.top (takenPlaces d.top ps))).reverse.isEmpty,
        if ((takenPlaces d.top ps).filterMap (piece d.top (takenPlaces d.top ps))).reverse.isEmpty then none
        else some (((takenPlaces d.top ps).filterMap (piece d.top (takenPlaces d.top ps))).reverse.length - 1)⟩ := by
  have hf := selectLoop_marks d.top ps.reverse (fun _ => false) [] (fun p hp => ht p (by simpa using hp))
  rw [marks_false] at hf
  simp only [taken_reverse, pieces_reverse, Bool.false_or, List.contains_reverse, List.nil_append] at hf
  have hal : ∀ p ∈ ps.reverse, Alive (fun _ => false) p := fun p _ q _ _ => rfl
  have hok : LoopOk d.top (fun _ => false) ([] : List Node).isEmpty ps.reverse ↔
      (ps.Pairwise fun a b => chosen d.top b ≠ [] → ¬ chosen d.top b <+: a) ∧
        (ps.Pairwise fun a b => chosen d.top a = [] → chosen d.top b = []) := by
    unfold LoopOk
    simp only [List.pairwise_reverse]
    constructor
    · rintro ⟨_, h1, h2, _⟩; exact ⟨h1, h2⟩
    · rintro ⟨h1, h2⟩; exact ⟨hal, h1, h2, by simp⟩
  rw [hok] at hf
  unfold select Selectable
  have hh := headFreed_marks d.linked (fun q => (takenPlaces d.top ps).contains q) d.top
  cases hc : selectLoop (cells d.top) [] ps.reverse with
  | none =>
    simp only [reduceCtorEq, false_iff]
    rintro ⟨⟨h1, h2, _⟩, _⟩
    rw [(hf _ _).2 ⟨⟨h1, h2⟩, rfl, rfl⟩] at hc
    cases hc
  | some x =>
    obtain ⟨cs, new⟩ := x
    obtain ⟨⟨h1, h2⟩, rfl, rfl⟩ := (hf _ _).1 hc
    simp only []
    cases hb : headFreed d.linked (marks (fun q => (takenPlaces d.top ps).contains q) 0 d.top) with
    | true =>
      obtain ⟨h3, _, h4⟩ := hh.1 hb
      rw [if_pos rfl]
      simp only [reduceCtorEq, false_iff]
      rintro ⟨⟨_, _, h5⟩, _⟩
      rcases h5 with h5 | h5
      · rw [h3] at h5; cases h5
      · exact h5 (List.contains_iff_mem.1 h4)
    | false =>
      rw [if_neg (by simp), Option.some.injEq]
      have h5 : d.linked = true ∨ [Hop.kid 0] ∉ takenPlaces d.top ps := by
        rcases Bool.eq_false_or_eq_true d.linked with h | h
        · exact .inl h
        · refine .inr fun hm => ?_
          have hne : d.top ≠ [] := by
            obtain ⟨h6, p, hp, h7⟩ := mem_taken hm
            rcases ht p hp with rfl | h8
            · simp [chosen, nodeAt] at h7
            · exact there_top h8
          rw [hh.2 ⟨h, hne, List.contains_iff_mem.2 hm⟩] at hb
          cases hb
      simp only [h1, h2, h5, and_self, true_and]
      exact eq_comm

/-- **C88.**  When selecting is defined. -/
theorem C88_select_defined (ps : List Place) (d : Doc) (ht : ∀ p ∈ ps, p = [] ∨ There d.top p) :
    (select ps d).isSome ↔ Selectable d.top d.linked ps := by
  rw [Option.isSome_iff_exists]
  constructor
  · rintro ⟨r, hr⟩; exact ((select_iff ps d ht r).1 hr).1
  · intro h; exact ⟨_, (select_iff ps d ht _).2 ⟨h, rfl⟩⟩

/-- **C88.**  What selecting gives: what is taken in the opposite order, each without what is below it and taken too; and these top
    nodes do not know their document. -/
theorem C88_select (ps : List Place) (d r : Doc) (ht : ∀ p ∈ ps, p = [] ∨ There d.top p) (hr : select ps d = some r) :
    r.top = ((takenPlaces d.top ps).filterMap (piece d.top (takenPlaces d.top ps))).reverse ∧
      (r.linked = true ↔ r.top = []) ∧ (r.top ≠ [] → r.last = some (r.top.length - 1)) := by
  obtain ⟨_, rfl⟩ := (select_iff ps d ht r).1 hr
  refine ⟨rfl, by simp only [List.isEmpty_iff], fun h => ?_⟩
  simp only []
  rw [if_neg (by simpa using h)]

theorem taken_self {top : List Node} {ps : List Place} (he : ∀ p ∈ ps, p ≠ [] ∧ chosen top p = p) : takenPlaces top ps = ps := by
  induction ps with
  | nil => rfl
  | cons p ps ih =>
    obtain ⟨h1, h2⟩ := he p (by simp)
    rw [taken_cons, h2, if_neg h1, ih fun q hq => he q (by simp [hq])]

/-- **C88.**  Elements and texts that an XPath finds in a document that has been loaded can be selected. -/
theorem C88_select_loaded (ps : List Place) (top : List Node) (ht : ∀ p ∈ ps, There top p) (ho : ps.Pairwise Before)
    (he : ∀ p ∈ ps, chosen top p = p) :
    ∃ r, select ps (loaded top) = some r ∧ r.top = (ps.filterMap (piece top ps)).reverse ∧ r.top.length = ps.length := by
  have hne : ∀ p ∈ ps, p ≠ [] := by rintro p hp rfl; simpa [There] using ht _ hp
  have hts : takenPlaces top ps = ps := taken_self fun p hp => ⟨hne p hp, he p hp⟩
  have hsel : Selectable top true ps := by
    refine ⟨?_, ?_, .inl rfl⟩
    · apply ho.imp_of_mem
      intro a b _ hb h _
      rw [he b hb]; exact before_not_prefix _ _ h
    · apply ho.imp_of_mem
      intro a b ha _ _ h
      rw [he a ha] at h; exact absurd h (hne a ha)
  obtain ⟨r, hr⟩ := Option.isSome_iff_exists.1 ((C88_select_defined ps (loaded top) fun p hp => .inr (ht p hp)).2 hsel)
  obtain ⟨h1, _⟩ := C88_select ps (loaded top) r (fun p hp => .inr (ht p hp)) hr
  simp only [loaded, hts] at h1
  refine ⟨r, hr, h1, ?_⟩
  have hlen : ∀ qs : List Place, (∀ p ∈ qs, p ∈ ps) → (qs.filterMap (piece top ps)).length = qs.length := by
    intro qs
    induction qs with
    | nil => intro _; rfl
    | cons p qs ih =>
      intro h
      have hp := h p (by simp)
      have hc : chosen top p ≠ [] := by rw [he p hp]; exact hne p hp
      obtain ⟨_, k, hk⟩ := chosen_there p top (ht p hp) hc
      rw [he p hp] at hk
      rw [List.filterMap_cons]
      simp only [piece, hk, Option.map_some, List.length_cons]
      exact congrArg (· + 1) (ih fun q hq => h q (by simp [hq]))
  rw [h1, List.length_reverse, hlen ps fun p h => h]

/-- **C88.**  If none of them is below another one, what is selected is complete, but in the opposite order. -/
theorem C88_select_partial (ps : List Place) (top : List Node) (ht : ∀ p ∈ ps, There top p) (ho : ps.Pairwise Before)
    (he : ∀ p ∈ ps, chosen top p = p) (hn : ps.Pairwise fun a b => ¬ a <+: b) :
    ∃ r, select ps (loaded top) = some r ∧ r.top = (ps.filterMap (nodeAt top)).reverse ∧ r.top.length = ps.length := by
  obtain ⟨r, hr, h1, h2⟩ := C88_select_loaded ps top ht ho he
  refine ⟨r, hr, ?_, h2⟩
  rw [h1]
  congr 1
  have hp : ∀ p ∈ ps, piece top ps p = nodeAt top p := by
    intro p hp
    unfold piece
    cases nodeAt top p with
    | none => rfl
    | some k =>
      rw [Option.map_some, withoutNode_congr _ (fun _ => false) k, without_none]
      intro q hq
      rw [Bool.eq_false_iff]
      intro hc
      have hm := List.contains_iff_mem.1 hc
      have hne : p ≠ p ++ q := fun e => hq (by simpa using e.symm)
      obtain ⟨i, hi, hpi⟩ := List.mem_iff_getElem.1 hp
      obtain ⟨j, hj, hqj⟩ := List.mem_iff_getElem.1 hm
      rcases Nat.lt_trichotomy i j with h | h | h
      · have := List.pairwise_iff_getElem.1 hn i j hi hj h
        rw [hpi, hqj] at this
        exact this (List.prefix_append _ _)
      · subst h; rw [hpi] at hqj; exact hne hqj
      · have := before_not_prefix _ _ (List.pairwise_iff_getElem.1 ho j i hj hi h)
        rw [hpi, hqj] at this
        exact this (List.prefix_append _ _)
  have hgen : ∀ qs : List Place, (∀ p ∈ qs, p ∈ ps) → qs.filterMap (piece top ps) = qs.filterMap (nodeAt top) := by
    intro qs
    induction qs with
    | nil => intro _; rfl
    | cons p qs ih =>
      intro h
      rw [List.filterMap_cons, List.filterMap_cons, hp p (h p (by simp)), ih fun q hq => h q (by simp [hq])]
  exact hgen ps fun p h => h

/-- `There` computed. -/
def thereB : List Node → Place → Bool
  | ks, [.kid i] => i < ks.length
  | ks, [.kid i, .attr j] =>
    match ks[i]? with
    | some (.element _ as _) => j < as.length
    | _ => false
  | ks, .kid i :: p =>
    match ks[i]? with
    | some (.element _ _ ls) => thereB ls p
    | _ => false
  | _, _ => false

theorem there_of (ks : List Node) (p : Place) (h : thereB ks p = true) : There ks p := by
  induction p generalizing ks with
  | nil => simp [thereB] at h
  | cons a p ih =>
    cases a with
    | attr j => simp [thereB] at h
    | kid i =>
      cases p with
      | nil => simpa [thereB, There] using h
      | cons b p =>
        by_cases hb : p = [] ∧ ∃ j, b = .attr j
        · obtain ⟨rfl, j, rfl⟩ := hb
          unfold thereB at h
          split at h
          · rename_i n as ls hk; exact ⟨n, as, ls, hk, by simpa using h⟩
          · cases h
        · have h' : thereB ks (.kid i :: b :: p) = match ks[i]? with
              | some (.element _ _ ls) => thereB ls (b :: p)
              | _ => false := by
            cases b with
            | attr j =>
              cases p with
              | nil => exact absurd ⟨rfl, j, rfl⟩ hb
              | cons c p => conv => lhs; unfold thereB
            | kid j => conv => lhs; unfold thereB
          rw [h'] at h
          rw [there_deep _ _ _ _ hb]
          split at h
          · rename_i n as ls hk; exact ⟨n, as, ls, hk, ih ls h⟩
          · cases h

/-- `<r><a>x</a><b y="1" z="2"/><!--c--><a><a/></a></r>` -/
def doc88 : List Node := [.element b#"r" [] [.element b#"a" [] [.text b#"x"], .element b#"b" [⟨b#"y", [.text b#"1"]⟩, ⟨b#"z", [.text b#"2"]⟩] [],
  .comment b#"c", .element b#"a" [] [.element b#"a" [] []]]]

/-- `//a` -/
def allA : List Place := [[.kid 0, .kid 0], [.kid 0, .kid 3], [.kid 0, .kid 3, .kid 0]]

example : (∀ p ∈ allA, There doc88 p) ∧ allA.Pairwise Before ∧ ∀ p ∈ allA, chosen doc88 p = p := by
  refine ⟨?_, ?_, by decide +kernel⟩
  · exact fun p hp => there_of _ _ ((by decide +kernel : ∀ p ∈ allA, thereB doc88 p = true) p hp)
  · simp [allA, Before, HopBefore]

example : (delete allA (loaded doc88)).map (·.top) = some [.element b#"r" [] [.element b#"b" [⟨b#"y", [.text b#"1"]⟩, ⟨b#"z", [.text b#"2"]⟩] [],
    .comment b#"c"]] := by decide +kernel

example : (select allA (loaded doc88)).map (·.top) = some [.element b#"a" [] [], .element b#"a" [] [], .element b#"a" [] [.text b#"x"]] := by
  decide +kernel

example : (delete [[.kid 0, .kid 1, .attr 0]] (loaded doc88)).map (·.top) = some [.element b#"r" [] [.element b#"a" [] [.text b#"x"],
    .element b#"b" [⟨b#"z", [.text b#"2"]⟩] [], .comment b#"c", .element b#"a" [] [.element b#"a" [] []]]] := by decide +kernel

/-- What is selected is in the order of the document. -/
def C88_select_ordered : Prop := ∀ top ps r, (∀ p ∈ ps, There top p) → ps.Pairwise Before → select ps (loaded top) = some r →
  r.top = ps.filterMap (nodeAt top)

/-- It is in the opposite order. -/
theorem C88_false_order : ¬ C88_select_ordered := fun h => by
  have := h [.element b#"a" [] [], .element b#"b" [] []] [[.kid 0], [.kid 1]] ⟨[.element b#"b" [] [], .element b#"a" [] []], false, some 1⟩
    (by simp [There]) (by simp [Before, HopBefore]) (by decide +kernel)
  exact absurd this (by decide +kernel)

/-- What is selected is selected with everything in it. -/
def C88_select_whole : Prop := ∀ top ps r p k, (∀ p ∈ ps, There top p) → ps.Pairwise Before → select ps (loaded top) = some r →
  p ∈ ps → nodeAt top p = some (.element k [] [.element k [] []]) → .element k [] [.element k [] []] ∈ r.top

/-- An element is missing where another one that is selected too was. -/
theorem C88_false_whole : ¬ C88_select_whole := fun h => by
  have := h [.element b#"a" [] [.element b#"a" [] []]] [[.kid 0], [.kid 0, .kid 0]] ⟨[.element b#"a" [] [], .element b#"a" [] []], false, some 1⟩
    [.kid 0] b#"a" (fun p hp => there_of _ _ (by revert p; decide +kernel)) (by simp [Before, HopBefore]) (by decide +kernel) (by decide +kernel) (by decide +kernel)
  exact absurd this (by decide +kernel)

/-- What an XPath finds can be selected. -/
def C88_select_any : Prop := ∀ top ps, (∀ p ∈ ps, There top p) → ps.Pairwise Before → (select ps (loaded top)).isSome

/-- Two attributes of an element: the element is freed twice. -/
theorem C88_false_attributes : ¬ C88_select_any := fun h => by
  have := h doc88 [[.kid 0, .kid 1, .attr 0], [.kid 0, .kid 1, .attr 1]]
    (fun p hp => there_of _ _ (by revert p; decide +kernel)) (by simp [Before, HopBefore])
  exact absurd this (by decide +kernel)

/-- An element and a comment behind it: the comment stands for the parent, which is freed with the element. -/
theorem C88_false_comment : ¬ C88_select_any := fun h => by
  have := h doc88 [[.kid 0, .kid 1], [.kid 0, .kid 2]]
    (fun p hp => there_of _ _ (by revert p; decide +kernel)) (by simp [Before, HopBefore])
  exact absurd this (by decide +kernel)

/-- A comment before the root element and the root element: NULL is used. -/
theorem C88_false_prolog : ¬ C88_select_any := fun h => by
  have := h [.comment b#"c", .element b#"a" [] []] [[.kid 0], [.kid 1]]
    (fun p hp => there_of _ _ (by revert p; decide +kernel)) (by simp [Before, HopBefore])
  exact absurd this (by decide +kernel)

/-! ## Adding -/

/-- A text before siblings that have been joined. -/
def textBefore (s : List Byte) : List Node → List Node
  | .text t :: r => .text (s ++ t) :: r
  | r => .text s :: r

/-- The joining of `xmlAddChild`, first node first. -/
def joinTexts : List Node → List Node
  | [] => []
  | .text s :: ks => textBefore s (joinTexts ks)
  | k :: ks => k :: joinTexts ks

theorem textBefore_other (s : List Byte) (r : List Node) (h : ∀ t r', r ≠ .text t :: r') : textBefore s r = .text s :: r := by
  cases r with
  | nil => rfl
  | cons k r =>
    cases k with
    | text t => exact absurd rfl (h t r)
    | _ => rfl

theorem joinTexts_text (s t : List Byte) (ks : List Node) : joinTexts (.text s :: .text t :: ks) = joinTexts (.text (s ++ t) :: ks) := by
  simp only [joinTexts]
  cases joinTexts ks with
  | nil => rfl
  | cons k r => cases k <;> simp [textBefore]

theorem addAll_join (ks : List Node) : ∀ acc : List Node,
    (∀ s acc', acc = .text s :: acc' → (addAll acc ks).reverse = acc'.reverse ++ joinTexts (.text s :: ks)) ∧
    ((∀ s acc', acc ≠ .text s :: acc') → (addAll acc ks).reverse = acc.reverse ++ joinTexts ks) := by
  induction ks with
  | nil =>
    intro acc
    refine ⟨?_, fun _ => by simp [addAll, joinTexts]⟩
    rintro s acc' rfl
    simp [addAll, joinTexts, textBefore]
  | cons k ks ih =>
    intro acc
    by_cases hk : ∃ t, k = .text t
    · obtain ⟨t, rfl⟩ := hk
      refine ⟨?_, fun hacc => ?_⟩
      · rintro s acc' rfl
        rw [addAll, addChild, (ih _).1 _ _ rfl, joinTexts_text]
      · have : addChild acc (.text t) = .text t :: acc := by
          cases acc with
          | nil => rfl
          | cons a acc =>
            cases a with
            | text s => exact absurd rfl (hacc _ _)
            | _ => rfl
        rw [addAll, this, (ih _).1 _ _ rfl]
    · have hk' : ∀ t, k ≠ .text t := fun t e => hk ⟨t, e⟩
      have hadd : addChild acc k = k :: acc := by
        cases k with
        | text t => exact absurd rfl (hk' t)
        | _ => rfl
      have hj : joinTexts (k :: ks) = k :: joinTexts ks := by
        cases k with
        | text t => exact absurd rfl (hk' t)
        | _ => rfl
      have h := (ih (k :: acc)).2 (fun s a e => hk' s (List.cons.inj e).1)
      rw [addAll, hadd, h]
      refine ⟨?_, fun _ => by rw [hj]; simp⟩
      rintro s acc' rfl
      have : joinTexts (.text s :: k :: ks) = .text s :: k :: joinTexts ks := by
        conv => lhs; unfold joinTexts
        rw [hj]
        cases k with
        | text t => exact absurd rfl (hk' t)
        | _ => rfl
      rw [this]; simp

theorem joined_joinTexts (ks : List Node) : Joined ks (joinTexts ks) := by
  induction ks with
  | nil => exact .nil
  | cons k ks ih =>
    by_cases hk : ∃ t, k = .text t
    · obtain ⟨s, rfl⟩ := hk
      have hone : (∀ s a', ks ≠ .text s :: a') → Joined (.text s :: ks) (.text s :: joinTexts ks) := by
        intro h
        have := Joined.run (ss := [s]) (by simp) h ih
        simpa using this
      rw [joinTexts]
      generalize joinTexts ks = r at ih hone
      cases ih with
      | nil => exact hone (by simp)
      | @other k a b h1 h2 =>
        rw [textBefore_other s _ fun t r' e => h1 t (List.cons.inj e).1]
        exact hone (fun s a' e => h1 s (List.cons.inj e).1)
      | @run ss a b h1 h2 h3 =>
        have := Joined.run (ss := s :: ss) (by simp) h2 h3
        simpa [textBefore] using this
    · have hk' : ∀ t, k ≠ .text t := fun t e => hk ⟨t, e⟩
      have hj : joinTexts (k :: ks) = k :: joinTexts ks := by
        cases k with
        | text t => exact absurd rfl (hk' t)
        | _ => rfl
      rw [hj]
      exact .other hk' ih

theorem appended_addAll (top new : List Node) : Appended top new (addAll top.reverse new).reverse := by
  by_cases h : ∃ s acc, top.reverse = .text s :: acc
  · obtain ⟨s, acc, h⟩ := h
    refine ⟨acc.reverse, [.text s], _, ?_, (addAll_join new top.reverse).1 s acc h, joined_joinTexts _, .inl ⟨s, rfl⟩⟩
    rw [← List.reverse_reverse top, h]; simp
  · refine ⟨top, [], joinTexts new, by simp, ?_, joined_joinTexts _, .inr ⟨rfl, fun s hs => h ?_⟩⟩
    · have := (addAll_join new top.reverse).2 (fun s acc e => h ⟨s, acc, e⟩)
      rwa [List.reverse_reverse] at this
    · rw [List.getLast?_eq_head?_reverse] at hs
      cases hr : top.reverse with
      | nil => rw [hr] at hs; cases hs
      | cons a l => rw [hr] at hs; cases hs; exact ⟨s, l, rfl⟩

/-- **C88.**  What is added comes behind the document, and texts that meet are one text.  It is not defined if `doc->last` has been
    freed. -/
theorem C88_add (new : List Node) (d : Doc) : ((add new d).isSome ↔ d.linked = true ∨ d.last.isSome) ∧
    ∀ r, add new d = some r → Appended d.top new r.top ∧ r.linked = d.linked := by
  unfold add
  cases hl : d.linked
  · cases hd : d.last with
    | none => simp
    | some i =>
      simp only [Bool.false_eq_true, if_false, Option.isSome_some, or_true, true_and, Option.some.injEq]
      rintro r rfl
      exact ⟨appended_addAll _ _, rfl⟩
  · simp only [if_true, Option.isSome_some, true_or, true_and, Option.some.injEq]
    rintro r rfl
    exact ⟨appended_addAll _ _, rfl⟩

/-- **C88.**  A root that is added holds the document, texts that meet being one text, and knows its document. -/
theorem C88_add_root (name : List Byte) (d : Doc) :
    ∃ r ks, addRoot name d = some r ∧ r.top = [.element name [] ks] ∧ Joined d.top ks ∧ r.linked = true := by
  refine ⟨_, joinTexts d.top, rfl, ?_, joined_joinTexts _, rfl⟩
  have := (addAll_join d.top []).2 (by simp)
  rw [this]; rfl

/-- **C88.**  There is one way to join. -/
theorem C88_joined {a b : List Node} (h : Joined a b) : b = joinTexts a := by
  induction h with
  | nil => rfl
  | @other k a b h1 _ ih =>
    cases k with
    | text t => exact absurd rfl (h1 t)
    | _ => rw [ih]; rfl
  | @run ss a b h1 h2 _ ih =>
    have h0 : ∀ s, joinTexts (.text s :: a) = .text s :: joinTexts a := by
      intro s
      conv => lhs; unfold joinTexts
      cases a with
      | nil => rfl
      | cons k a =>
        cases k with
        | text t => exact absurd rfl (h2 _ _)
        | _ => rfl
    have : ∀ ss : List (List Byte), ∀ s, joinTexts (.text s :: (ss.map Node.text ++ a)) = .text (s ++ ss.flatten) :: joinTexts a := by
      intro ss
      induction ss with
      | nil => intro s; simpa using h0 s
      | cons t ss ih => intro s; rw [List.map_cons, List.cons_append, joinTexts_text, ih]; simp
    cases ss with
    | nil => exact absurd rfl h1
    | cons s ss => rw [List.map_cons, List.cons_append, this, ih]; simp

example : (add [.text b#"b", .element b#"e" [] []] (loaded [.element b#"r" [] [], .text b#"a"])).map (·.top) =
    some [.element b#"r" [] [], .text b#"ab", .element b#"e" [] []] := by decide +kernel

example : (addRoot b#"r" (loaded [.text b#"a", .text b#"b", .element b#"e" [] []])).map (·.top) =
    some [.element b#"r" [] [.text b#"ab", .element b#"e" [] []]] := by decide +kernel

/-! ## One command after the other -/

/-- What an XPath finds: nodes of the document, in its order. -/
def SoundXPath (x : List Node → List Place) : Prop := ∀ top, (∀ p ∈ x top, There top p) ∧ (x top).Pairwise Before

/-- It finds elements and texts only. -/
def ElementsXPath (x : List Node → List Place) : Prop := ∀ top, ∀ p ∈ x top, chosen top p = p

/-- The command is no `select`, and its XPath is one. -/
def KeepsLinks : Edit → Prop
  | .delete x => SoundXPath x
  | .select _ => False
  | .add _ => True
  | .addRoot _ => True

theorem keeps_linked (e : Edit) (d : Doc) (he : KeepsLinks e) (hd : d.linked = true) : ∃ r, edit e d = some r ∧ r.linked = true := by
  cases e with
  | delete x =>
    have h := (C88_delete_defined (x d.top) d (he d.top).1).2 ⟨(he d.top).2.imp fun h => before_not_prefix _ _ h, .inl hd⟩
    obtain ⟨r, hr⟩ := Option.isSome_iff_exists.1 h
    exact ⟨r, hr, (C88_delete _ d r (he d.top).1 hr).2.1.trans hd⟩
  | select x => exact he.elim
  | add new =>
    obtain ⟨h1, h2⟩ := C88_add new d
    obtain ⟨r, hr⟩ := Option.isSome_iff_exists.1 (h1.2 (.inl hd))
    exact ⟨r, hr, (h2 r hr).2.trans hd⟩
  | addRoot name =>
    obtain ⟨r, _, hr, _, _, h⟩ := C88_add_root name d
    exact ⟨r, hr, h⟩

theorem edits_append (es es' : List Edit) (d : Doc) : edits (es ++ es') d = (edits es d).bind (edits es') := by
  induction es generalizing d with
  | nil => rfl
  | cons e es ih =>
    simp only [List.cons_append, edits]
    cases edit e d with
    | none => rfl
    | some r => exact ih r

/-- **C88.**  Deleting and adding, as often as one likes, is defined; then elements and texts can be selected once, and something can
    be added to that. -/
theorem C88_edits_partial (es : List Edit) (x : List Node → List Place) (news : List (List Node)) (top : List Node)
    (he : ∀ e ∈ es, KeepsLinks e) (hx : SoundXPath x) (hx' : ElementsXPath x) :
    (∃ r, edits es (loaded top) = some r ∧ r.linked = true) ∧
      (edits (es ++ .select x :: news.map Edit.add) (loaded top)).isSome := by
  have hes : ∀ (es : List Edit) (d : Doc), (∀ e ∈ es, KeepsLinks e) → d.linked = true → ∃ r, edits es d = some r ∧ r.linked = true := by
    intro es
    induction es with
    | nil => intro d _ hd; exact ⟨d, rfl, hd⟩
    | cons e es ih =>
      intro d he hd
      obtain ⟨r, hr, hl⟩ := keeps_linked e d (he e (by simp)) hd
      obtain ⟨r', hr', hl'⟩ := ih r (fun e h => he e (by simp [h])) hl
      exact ⟨r', by simp [edits, hr, hr'], hl'⟩
  obtain ⟨d, hd, hl⟩ := hes es (loaded top) he rfl
  refine ⟨⟨d, hd, hl⟩, ?_⟩
  have hsel : Selectable d.top d.linked (x d.top) := by
    refine ⟨?_, ?_, .inl hl⟩
    · apply (hx d.top).2.imp_of_mem
      intro a b _ hb h _
      rw [hx' _ b hb]; exact before_not_prefix _ _ h
    · apply (hx d.top).2.imp_of_mem
      intro a b ha _ _ h
      rw [hx' _ a ha] at h
      subst h
      exact absurd ((hx d.top).1 _ ha) (by simp [There])
  have hthere : ∀ p ∈ x d.top, p = [] ∨ There d.top p := fun p hp => .inr ((hx d.top).1 p hp)
  obtain ⟨r, hr⟩ := Option.isSome_iff_exists.1 ((C88_select_defined (x d.top) d hthere).2 hsel)
  obtain ⟨_, h1, h2⟩ := C88_select _ d r hthere hr
  rw [edits_append, hd, Option.bind_some, edits, edit, hr, Option.bind_some]
  have hadd : ∀ (news : List (List Node)) (r : Doc), (r.linked = true ∨ r.last.isSome) → (edits (news.map Edit.add) r).isSome := by
    intro news
    induction news with
    | nil => intro r _; rfl
    | cons new news ih =>
      intro r h
      obtain ⟨r', hr'⟩ := Option.isSome_iff_exists.1 ((C88_add new r).1.2 h)
      rw [List.map_cons, edits, edit, hr', Option.bind_some]
      apply ih
      unfold add at hr'
      split at hr'
      · cases hr'; exact .inl rfl
      · split at hr'
        · cases hr'
        · cases hr'; exact .inr rfl
  apply hadd
  by_cases h : r.top = []
  · exact .inl (h1.2 h)
  · exact .inr (by rw [h2 h]; rfl)

/-- A command with an XPath for elements. -/
def ElementEdit : Edit → Prop
  | .delete x => SoundXPath x ∧ ElementsXPath x
  | .select x => SoundXPath x ∧ ElementsXPath x
  | .add _ => True
  | .addRoot _ => True

/-- All commands for elements can follow each other. -/
def C88_edits : Prop := ∀ es top, (∀ e ∈ es, ElementEdit e) → (edits es (loaded top)).isSome

/-- `/*` for documents that begin with an element. -/
def firstElement : List Node → List Place
  | .element _ _ _ :: _ => [[.kid 0]]
  | _ => []

theorem firstElement_sound : SoundXPath firstElement ∧ ElementsXPath firstElement := by
  constructor
  · intro top
    cases top with
    | nil => simp [firstElement]
    | cons k ks => cases k <;> simp [firstElement, There]
  · intro top
    cases top with
    | nil => simp [firstElement]
    | cons k ks => cases k <;> simp [firstElement, chosen, nodeAt]

/-- What has been selected cannot be selected: it is freed twice. -/
theorem C88_false_twice : ¬ C88_edits := fun h => by
  have := h [.select firstElement, .select firstElement] doc88
    (by intro e he; simp at he; subst he; exact firstElement_sound)
  exact absurd this (by decide +kernel)

/-- What has been selected cannot be deleted: the document is used after that. -/
theorem C88_false_delete : ¬ C88_edits := fun h => by
  have := h [.select firstElement, .delete firstElement] doc88
    (by intro e he; simp at he; rcases he with rfl | rfl <;> exact firstElement_sound)
  exact absurd this (by decide +kernel)

/-- `/*[last()]` for documents that end with an element. -/
def lastElement (top : List Node) : List Place :=
  match top.getLast? with
  | some (.element _ _ _) => [[.kid (top.length - 1)]]
  | _ => []

theorem lastElement_sound : SoundXPath lastElement ∧ ElementsXPath lastElement := by
  have h : ∀ top : List Node, lastElement top = [] ∨
      ∃ n as ks, top[top.length - 1]? = some (.element n as ks) ∧ lastElement top = [[.kid (top.length - 1)]] := by
    intro top
    unfold lastElement
    split
    · rename_i n as ks hk; exact .inr ⟨n, as, ks, by rw [← List.getLast?_eq_getElem?]; exact hk, rfl⟩
    · exact .inl rfl
  constructor
  · intro top
    rcases h top with h | ⟨n, as, ks, h1, h⟩
    · rw [h]; simp
    · rw [h]
      refine ⟨fun p hp => ?_, by simp⟩
      rw [List.mem_singleton] at hp
      subst hp
      exact (List.getElem?_eq_some_iff.1 h1).1
  · intro top p hp
    rcases h top with h | ⟨n, as, ks, h1, h⟩
    · rw [h] at hp; cases hp
    · rw [h, List.mem_singleton] at hp
      subst hp
      unfold chosen nodeAt
      rw [h1]

/-- After the last of two selected nodes has been deleted nothing can be added. -/
theorem C88_false_add : ¬ C88_edits := fun h => by
  have := h [.select fun top => if top = doc88 then [[.kid 0, .kid 0], [.kid 0, .kid 1]] else [], .delete lastElement, .add [.text b#"x"]] doc88
    (by
      intro e he
      simp only [List.mem_cons, List.not_mem_nil, or_false] at he
      rcases he with rfl | rfl | rfl
      · constructor
        · intro top
          dsimp only
          split
          · rename_i h; subst h
            refine ⟨fun p hp => there_of _ _ (by revert p; decide +kernel), by simp [Before, HopBefore]⟩
          · simp
        · intro top p hp
          dsimp only at hp
          split at hp
          · rename_i h; subst h; revert p; decide +kernel
          · cases hp
      · exact lastElement_sound
      · trivial)
  exact absurd this (by decide +kernel)

end Xmq.Props
