import Verif.Spec.Forest
/-!
# C100: the document of all parses has every parse, and nothing else
-/
namespace Xmq.Props

open Xmq Xmq.Ixml Xmq.Forest Xmq.Spec

theorem chosen_append {a b ds : List Piece} : Chosen (a ++ b) ds ↔ ∃ d e, ds = d ++ e ∧ Chosen a d ∧ Chosen b e := by
  constructor
  · intro h
    induction a generalizing ds with
    | nil => exact ⟨[], ds, rfl, .nil, h⟩
    | cons p a ih =>
      simp only [List.cons_append] at h
      cases h with
      | text b' _ ds h => obtain ⟨d, e, rfl, h1, h2⟩ := ih h; exact ⟨.text b' :: d, e, rfl, .text _ _ _ h1, h2⟩
      | attr nm v _ ds h => obtain ⟨d, e, rfl, h1, h2⟩ := ih h; exact ⟨.attr nm v :: d, e, rfl, .attr _ _ _ _ h1, h2⟩
      | elem nm kids ks _ ds hn hk h =>
        obtain ⟨d, e, rfl, h1, h2⟩ := ih h; exact ⟨.elem nm ks :: d, e, rfl, .elem _ _ _ _ _ hn hk h1, h2⟩
      | amb kids q qs _ ds hq hk h =>
        obtain ⟨d, e, rfl, h1, h2⟩ := ih h; exact ⟨qs ++ d, e, by simp, .amb _ _ _ _ _ hq hk h1, h2⟩
  · rintro ⟨d, e, rfl, h1, h2⟩
    induction h1 with
    | nil => exact h2
    | text b' _ _ _ ih => exact .text _ _ _ ih
    | attr nm v _ _ _ ih => exact .attr _ _ _ _ ih
    | elem nm kids ks _ _ hn hk _ _ ih => exact .elem _ _ _ _ _ hn hk ih
    | amb kids q qs ps ds hq hk _ _ ih => rw [List.append_assoc]; exact .amb _ _ _ _ _ hq hk ih

theorem chosen_text {b : List Byte} {ds : List Piece} : Chosen [.text b] ds ↔ ds = [.text b] := by
  constructor
  · intro h; cases h with | text _ _ ds h => cases h; rfl
  · rintro rfl; exact .text _ _ _ .nil

theorem chosen_attr {n v : List Byte} {ds : List Piece} : Chosen [.attr n v] ds ↔ ds = [.attr n v] := by
  constructor
  · intro h; cases h with | attr _ _ _ ds h => cases h; rfl
  · rintro rfl; exact .attr _ _ _ _ .nil

theorem chosen_elem {n : List Byte} {kids ds : List Piece} (hn : n ≠ b#"AMBIGUOUS") :
    Chosen [.elem n kids] ds ↔ ∃ ks, ds = [.elem n ks] ∧ Chosen kids ks := by
  constructor
  · intro h
    cases h with
    | elem _ _ ks _ ds _ hk h => cases h; exact ⟨ks, rfl, hk⟩
    | amb => exact absurd rfl hn
  · rintro ⟨ks, rfl, h⟩; exact .elem _ _ _ _ _ hn h .nil

theorem chosen_amb {kids ds : List Piece} : Chosen [.elem b#"AMBIGUOUS" kids] ds ↔ ∃ q ∈ kids, Chosen [q] ds := by
  constructor
  · intro h
    cases h with
    | elem _ _ ks _ ds hn _ h => exact absurd rfl hn
    | amb _ q qs _ ds hq hk h => cases h; exact ⟨q, hq, by simpa using hk⟩
  · rintro ⟨q, hq, h⟩
    have := Chosen.amb kids q ds [] [] hq h .nil
    simpa using this

mutual
theorem plain_collect : ∀ f, Plain1 f → ∃ v, collect f = some v ∧ (∀ t, Parse f t → collectText t = v) ∧ f ≠ .null
  | .null, h => by simp [Plain1] at h
  | .term m c, _ => ⟨_, by rw [collect], fun t ht => by cases ht; rw [collectText], by simp⟩
  | .node nm m ks, h => by
    obtain ⟨v, h1, h2⟩ := plain_collects ks (by simpa [Plain1] using h)
    exact ⟨v, by rw [collect, h1], fun t ht => by cases ht with | node _ _ _ ts hts => rw [collectText, h2 ts hts], by simp⟩
  | .alt _ _, h => by simp [Plain1] at h
theorem plain_collects : ∀ fs, PlainAll fs → ∃ v, collects fs = some v ∧ ∀ ts, ParseAll fs ts → collectTexts ts = v
  | [], _ => ⟨[], by rw [collects], fun ts h => by cases h; rw [collectTexts]⟩
  | f :: fs, h => by
    simp only [PlainAll] at h
    obtain ⟨v, h1, h2, h0⟩ := plain_collect f h.1
    obtain ⟨w, h3, h4⟩ := plain_collects fs h.2
    refine ⟨v ++ w, by rw [collects, h1, h3]; rfl; exact h0, fun ts ht => ?_⟩
    cases ht with
    | cons _ _ t ts ht hts => rw [collectTexts, h2 t ht, h4 ts hts]
end

/-- The pieces of a forest: one choice for every parse, one parse for every choice. -/
def Same (f : Forest) (ps : List Piece) : Prop := ∀ ds, (∃ t, Parse f t ∧ pieces t = ds) ↔ Chosen ps ds

theorem clear_ne {f : Forest} (h : Clear f) : f ≠ .null := by rintro rfl; simp [Clear] at h

mutual
theorem gen_same : ∀ f, Clear f → (∃ t, Parse f t) ∧ ∃ ps, gen f = some ps ∧ Same f ps ∧ (Visible f → ∃ q, ps = [q])
  | .null, h => by simp [Clear] at h
  | .term m c, _ => by
    refine ⟨⟨_, .term m c⟩, _, by rw [gen], fun ds => ?_, fun h => by simp [Visible] at h⟩
    have e : (∃ t, Parse (.term m c) t ∧ pieces t = ds) ↔ pieces (.term m c) = ds :=
      ⟨fun ⟨t, ht, e⟩ => by cases ht; exact e, fun e => ⟨_, .term m c, e⟩⟩
    rw [e, pieces]
    split
    · rw [chosen_text]; exact eq_comm
    · exact ⟨fun e => by subst e; exact .nil, fun h => by cases h; rfl⟩
  | .node nm m ks, h => by
    simp only [Clear] at h
    obtain ⟨hn, ha, hk⟩ := h
    obtain ⟨⟨ts, hts⟩, ps, h1, h2⟩ := gens_same ks hk
    refine ⟨⟨_, .node _ _ _ _ hts⟩, ?_⟩
    have e : ∀ ds, (∃ t, Parse (.node nm m ks) t ∧ pieces t = ds) ↔ ∃ ts, ParseAll ks ts ∧ pieces (.node nm m ts) = ds := fun ds =>
      ⟨fun ⟨t, ht, e⟩ => by cases ht with | node _ _ _ ts h => exact ⟨ts, h, e⟩, fun ⟨ts, h, e⟩ => ⟨_, .node _ _ _ _ h, e⟩⟩
    by_cases hp : nm.take 2 = b#"|+"
    · refine ⟨[.text (nm.drop 2)], by rw [gen, if_pos hp], fun ds => ?_, fun _ => ⟨_, rfl⟩⟩
      rw [e, chosen_text]
      simp only [pieces, if_pos hp]
      exact ⟨fun ⟨_, _, e⟩ => e.symm, fun e => ⟨ts, hts, e.symm⟩⟩
    by_cases hm : m = b#'-'
    · refine ⟨ps, by rw [gen, if_neg hp, if_pos hm, h1], fun ds => ?_, fun h => by simp [Visible, hm] at h⟩
      rw [e, ← h2 ds]
      simp only [pieces, if_neg hp, if_pos hm]
    by_cases hat : m = b#'@'
    · obtain ⟨v, h3, h4⟩ := plain_collects ks (ha hat)
      refine ⟨[.attr nm v], by rw [gen, if_neg hp, if_neg hm, if_pos hat, h3]; rfl, fun ds => ?_, fun _ => ⟨_, rfl⟩⟩
      rw [e, chosen_attr]
      simp only [pieces, if_neg hp, if_neg hm, if_pos hat]
      exact ⟨fun ⟨us, hu, e⟩ => by rw [← e, h4 us hu], fun e => ⟨ts, hts, by rw [e, h4 ts hts]⟩⟩
    · refine ⟨[.elem nm ps], by rw [gen, if_neg hp, if_neg hm, if_neg hat, h1]; rfl, fun ds => ?_, fun _ => ⟨_, rfl⟩⟩
      rw [e, chosen_elem hn]
      simp only [pieces, if_neg hp, if_neg hm, if_neg hat]
      constructor
      · rintro ⟨us, hu, rfl⟩; exact ⟨_, rfl, (h2 _).mp ⟨us, hu, rfl⟩⟩
      · rintro ⟨ks', rfl, hc⟩
        obtain ⟨us, hu, rfl⟩ := (h2 _).mpr hc
        exact ⟨us, hu, rfl⟩
  | .alt n nx, h => by
    simp only [Clear] at h
    obtain ⟨⟨t, ht⟩, ps, h1, h2, h3⟩ := gen_same n h.2.1
    obtain ⟨q, rfl⟩ := h3 h.1
    obtain ⟨qs, h4, h5⟩ := alts_same nx h.2.2
    refine ⟨⟨t, .this _ _ _ ht⟩, [.elem b#"AMBIGUOUS" (q :: qs)], by rw [gen, h1, h4]; rfl, fun ds => ?_, fun _ => ⟨_, rfl⟩⟩
    rw [chosen_amb]
    constructor
    · rintro ⟨t, ht, e⟩
      cases ht with
      | this _ _ _ ht => exact ⟨q, by simp, (h2 ds).mp ⟨t, ht, e⟩⟩
      | next _ _ _ ht => obtain ⟨p, hp, hc⟩ := (h5 ds).mp ⟨t, ht, e⟩; exact ⟨p, by simp [hp], hc⟩
    · rintro ⟨p, hp, hc⟩
      rcases List.mem_cons.mp hp with rfl | hp
      · obtain ⟨t, ht, e⟩ := (h2 ds).mpr hc; exact ⟨t, .this _ _ _ ht, e⟩
      · obtain ⟨t, ht, e⟩ := (h5 ds).mpr ⟨p, hp, hc⟩; exact ⟨t, .next _ _ _ ht, e⟩
theorem gens_same : ∀ fs, ClearAll fs → (∃ ts, ParseAll fs ts) ∧
    ∃ ps, gens fs = some ps ∧ ∀ ds, (∃ ts, ParseAll fs ts ∧ piecesList ts = ds) ↔ Chosen ps ds
  | [], _ => by
    refine ⟨⟨[], .nil⟩, [], by rw [gens], fun ds => ?_⟩
    constructor
    · rintro ⟨ts, h, rfl⟩; cases h; rw [piecesList]; exact .nil
    · intro h; cases h; exact ⟨[], .nil, by rw [piecesList]⟩
  | f :: fs, h => by
    simp only [ClearAll] at h
    obtain ⟨⟨t, ht⟩, ps, h1, h2, -⟩ := gen_same f h.1
    obtain ⟨⟨ts, hts⟩, qs, h3, h4⟩ := gens_same fs h.2
    have h0 := clear_ne h.1
    refine ⟨⟨_, .cons _ _ _ _ ht hts⟩, ps ++ qs, by rw [gens, h1, h3]; rfl; exact h0, fun ds => ?_⟩
    rw [chosen_append]
    constructor
    · rintro ⟨us, hu, rfl⟩
      cases hu with
      | cons _ _ u us hu hus => exact ⟨pieces u, piecesList us, by rw [piecesList], (h2 _).mp ⟨u, hu, rfl⟩, (h4 _).mp ⟨us, hus, rfl⟩⟩
    · rintro ⟨d, e, rfl, hd, he⟩
      obtain ⟨u, hu, rfl⟩ := (h2 _).mpr hd
      obtain ⟨us, hus, rfl⟩ := (h4 _).mpr he
      exact ⟨_, .cons _ _ _ _ hu hus, by rw [piecesList]⟩
theorem alts_same : ∀ f, ClearAlts f → ∃ qs, genAlts f = some qs ∧
    ∀ ds, (∃ t, Parse f t ∧ pieces t = ds) ↔ ∃ q ∈ qs, Chosen [q] ds
  | .null, _ => by
    refine ⟨[], by rw [genAlts]; simp, fun ds => ?_⟩
    constructor
    · rintro ⟨t, h, -⟩; cases h
    · rintro ⟨q, hq, -⟩; cases hq
  | .term _ _, h => by simp [ClearAlts] at h
  | .node _ _ _, h => by simp [ClearAlts] at h
  | .alt n nx, h => by
    simp only [ClearAlts] at h
    obtain ⟨-, ps, h1, h2, h3⟩ := gen_same n h.2.1
    obtain ⟨q, rfl⟩ := h3 h.1
    obtain ⟨qs, h4, h5⟩ := alts_same nx h.2.2
    refine ⟨q :: qs, by rw [genAlts, h1, h4]; rfl, fun ds => ?_⟩
    constructor
    · rintro ⟨t, ht, e⟩
      cases ht with
      | this _ _ _ ht => exact ⟨q, by simp, (h2 ds).mp ⟨t, ht, e⟩⟩
      | next _ _ _ ht => obtain ⟨p, hp, hc⟩ := (h5 ds).mp ⟨t, ht, e⟩; exact ⟨p, by simp [hp], hc⟩
    · rintro ⟨p, hp, hc⟩
      rcases List.mem_cons.mp hp with rfl | hp
      · obtain ⟨t, ht, e⟩ := (h2 ds).mpr hc; exact ⟨t, .this _ _ _ ht, e⟩
      · obtain ⟨t, ht, e⟩ := (h5 ds).mpr ⟨p, hp, hc⟩; exact ⟨t, .next _ _ _ ht, e⟩
end

/-- The full claim: the document is made, and choosing one child of each AMBIGUOUS gives the documents of the single parses and no others. -/
def C100_All (ok : Forest → Prop) : Prop :=
  ∀ f, ok f → ∃ ps, gen f = some ps ∧ ∀ ds, (∃ t, Parse f t ∧ pieces t = ds) ↔ Chosen ps ds

theorem C100_all_partial : C100_All Clear := fun f h => by
  obtain ⟨-, ps, h1, h2, -⟩ := gen_same f h
  exact ⟨ps, h1, h2⟩

/-- The example of tests/ixml_parse_020_ambig.test: S = X, Y over `abc`. -/
def abcForest : Forest :=
  placeAll [
    .node b#"S" 0 [.node b#"X" 0 [.term 0 97], .node b#"Y" 0 [.term 0 98, .term 0 99]],
    .node b#"S" 0 [.node b#"X" 0 [.term 0 97, .term 0 98], .node b#"Y" 0 [.term 0 99]]]

example : Clear abcForest := by
  simp [abcForest, placeAll, place, Clear, ClearAll, ClearAlts, Visible]

example : (gen abcForest).map (·.length) = some 1 := by decide +kernel

/-- The places: what is in a place after all readings were put into it has the parses of all of them and no others. -/
theorem place_parse {p n : Forest} (t : Tree) : Parse (place p n) t ↔ Parse p t ∨ Parse n t := by
  have a1 : ∀ {a b : Forest}, Parse (.alt a b) t ↔ Parse a t ∨ Parse b t := fun {a b} =>
    ⟨fun h => by cases h with | this _ _ _ h => exact .inl h | next _ _ _ h => exact .inr h,
     fun h => h.elim (.this _ _ _) (.next _ _ _)⟩
  have a0 : ¬ Parse .null t := fun h => by cases h
  cases p with
  | null => simp [place, a0]
  | term m c => simp only [place, a1, a0, or_false]; exact or_comm
  | node nm m ks => simp only [place, a1, a0, or_false]; exact or_comm
  | alt a b =>
    simp only [place, a1]
    exact or_comm

theorem C100_place (ns : List Forest) (t : Tree) : Parse (placeAll ns) t ↔ ∃ n ∈ ns, Parse n t := by
  have : ∀ (ns : List Forest) p, Parse (ns.foldl place p) t ↔ Parse p t ∨ ∃ n ∈ ns, Parse n t := by
    intro ns
    induction ns with
    | nil => intro p; simp
    | cons n ns ih => intro p; rw [List.foldl_cons, ih, place_parse]; simp [or_assoc]
  rw [placeAll, this]
  exact ⟨fun h => h.elim (fun h => by cases h) id, .inr⟩

/-- A node of a rule. -/
def IsNode (f : Forest) : Prop := ∃ nm m ks, f = .node nm m ks

theorem genAlts_chain {ns : List Forest} {p : Forest} {b c : List Piece} (hp : genAlts p = some b) (ha : ∃ x y, p = .alt x y)
    (h : ∀ n ∈ ns, IsNode n) (hg : (ns.reverse.mapM gen).map List.flatten = some c) :
    genAlts (ns.foldl place p) = some (c ++ b) ∧ ∃ x y, ns.foldl place p = .alt x y := by
  induction ns generalizing p b c with
  | nil => simp at hg; subst hg; exact ⟨by simpa using hp, ha⟩
  | cons n ns ih =>
    obtain ⟨x, y, rfl⟩ := ha
    rw [List.reverse_cons, List.mapM_append] at hg
    simp only [List.mapM_cons, List.mapM_nil] at hg
    cases h1 : ns.reverse.mapM gen with
    | none => simp [h1] at hg
    | some l =>
      cases h2 : gen n with
      | none => simp [h1, h2] at hg
      | some a =>
        simp [h1, h2] at hg
        subst hg
        have e : place (.alt x y) n = .alt n (.alt x y) := by rw [place]
        rw [List.foldl_cons, e]
        have := ih (p := .alt n (.alt x y)) (b := a ++ b) (c := l.flatten) (by rw [genAlts, h2, hp]; rfl) ⟨_, _, rfl⟩
          (fun m hm => h m (by simp [hm])) (by simp [h1])
        simpa using this

/-- Two or more readings of the same part give one element AMBIGUOUS with all of them, the one found last first; a single reading stands
    by itself. -/
theorem C100_order (n : Forest) (ns : List Forest) (h : ∀ m ∈ n :: ns, IsNode m) (c : List Piece)
    (hc : ((n :: ns).reverse.mapM gen).map List.flatten = some c) :
    gen (placeAll (n :: ns)) = some (if ns = [] then c else [.elem b#"AMBIGUOUS" c]) := by
  cases ns with
  | nil => 
    simp only [List.reverse_cons, List.reverse_nil, List.nil_append, List.mapM_cons, List.mapM_nil] at hc
    simp only [placeAll, List.foldl_cons, List.foldl_nil, place]
    cases hg : gen n with
    | none => simp [hg] at hc
    | some a => simp [hg] at hc; simp [hc]
  | cons m ns =>
    obtain ⟨nm, mk, ks, rfl⟩ := h n (by simp)
    obtain ⟨c1, c2, hm1, hm2, e⟩ : ∃ c1 c2, (ns.reverse.mapM gen).map List.flatten = some c1 ∧
        genAlts (.alt m (.alt (.node nm mk ks) .null)) = some c2 ∧ c = c1 ++ c2 := by
      simp only [List.reverse_cons, List.mapM_append, List.mapM_cons, List.mapM_nil] at hc
      cases h1 : ns.reverse.mapM gen with
      | none => simp [h1] at hc
      | some l =>
        cases h2 : gen m with
        | none => simp [h1, h2] at hc
        | some a =>
          cases h3 : gen (.node nm mk ks) with
          | none => simp [h1, h2, h3] at hc
          | some b =>
            simp [h1, h2, h3] at hc
            refine ⟨l.flatten, a ++ b, rfl, ?_, by rw [← hc]⟩
            rw [genAlts, h2, genAlts, h3, genAlts]
            · simp
            · simp
    obtain ⟨g1, x, y, g2⟩ := genAlts_chain (ns := ns) hm2 ⟨_, _, rfl⟩ (fun k hk => h k (by simp [hk])) hm1
    have e2 : placeAll (.node nm mk ks :: m :: ns) = ns.foldl place (.alt m (.alt (.node nm mk ks) .null)) := by
      simp [placeAll, place]
    rw [e2, g2]
    rw [g2, genAlts] at g1
    rw [gen]
    cases h1 : gen x with
    | none => simp [h1] at g1
    | some a =>
      cases h2 : genAlts y with
      | none => simp [h1, h2] at g1
      | some b => simp [h1, h2] at g1; simp [e, g1]

mutual
/-- A parse tree without alternatives as the parser makes it. -/
def ofTree : Tree → Forest
  | .term m c => .term m c
  | .node nm m ts => .node nm m (ofTrees ts)
def ofTrees : List Tree → List Forest
  | [] => []
  | t :: ts => ofTree t :: ofTrees ts
end

mutual
theorem ofTree_plain : ∀ t, Plain1 (ofTree t) ∧ Parse (ofTree t) t
  | .term m c => by rw [ofTree, Plain1]; exact ⟨trivial, .term _ _⟩
  | .node nm m ts => by rw [ofTree, Plain1]; exact ⟨(ofTrees_plain ts).1, .node _ _ _ _ (ofTrees_plain ts).2⟩
theorem ofTrees_plain : ∀ ts, PlainAll (ofTrees ts) ∧ ParseAll (ofTrees ts) ts
  | [] => by rw [ofTrees, PlainAll]; exact ⟨trivial, .nil⟩
  | t :: ts => by
    rw [ofTrees, PlainAll]
    exact ⟨⟨(ofTree_plain t).1, (ofTrees_plain ts).1⟩, .cons _ _ _ _ (ofTree_plain t).2 (ofTrees_plain ts).2⟩
end

mutual
theorem gen_ofTree : ∀ t, gen (ofTree t) = some (pieces t) ∧ ofTree t ≠ .null
  | .term m c => by rw [ofTree, gen, pieces]; exact ⟨rfl, by simp⟩
  | .node nm m ts => by
    obtain ⟨v, h1, h2⟩ := plain_collects _ (ofTrees_plain ts).1
    rw [ofTree, gen, pieces, gens_ofTrees ts, h1, h2 ts (ofTrees_plain ts).2]
    refine ⟨?_, by simp⟩
    split
    · rfl
    · split
      · rfl
      · split <;> rfl
theorem gens_ofTrees : ∀ ts, gens (ofTrees ts) = some (piecesList ts)
  | [] => by rw [ofTrees, gens, piecesList]
  | t :: ts => by
    have h := gen_ofTree t
    rw [ofTrees, gens, h.1, gens_ofTrees ts, piecesList]
    · rfl
    · exact h.2
end

/-- A text with one parse gives the document of that parse. -/
theorem C100_one (t : Tree) : gen (ofTree t) = some (pieces t) := (gen_ofTree t).1

/-- Not for all: an ambiguity inside an attribute fails an assertion. -/
theorem C100_attr_false : ¬ ∀ ns : List Forest, (∀ n ∈ ns, IsNode n ∧ Clear n ∧ Visible n) →
    (gen (.node b#"a" b#'@' [placeAll ns])).isSome = true := fun h => by
  have := h [.node b#"x" 0 [.term 0 97], .node b#"y" 0 [.term 0 97]]
    (by simp [IsNode, Clear, ClearAll, Visible])
  exact absurd this (by decide +kernel)

/-- Not for all: the readings of a hidden rule run into each other. -/
theorem C100_hidden_false : ¬ C100_All fun f => ∃ n m, f = placeAll [n, m] ∧ IsNode n ∧ IsNode m ∧ Clear n ∧ Clear m := fun h => by
  obtain ⟨ps, h1, h2⟩ := h (placeAll [.node b#"s" b#'-' [.node b#"x" 0 [], .node b#"y" 0 []], .node b#"s" b#'-' [.node b#"z" 0 []]])
    ⟨_, _, rfl, ⟨_, _, _, rfl⟩, ⟨_, _, _, rfl⟩, by simp [Clear, ClearAll], by simp [Clear, ClearAll]⟩
  have e : gen (placeAll [.node b#"s" b#'-' [.node b#"x" 0 [], .node b#"y" 0 []], .node b#"s" b#'-' [.node b#"z" 0 []]])
      = some [.elem b#"AMBIGUOUS" [.elem b#"z" [], .elem b#"x" [], .elem b#"y" []]] := by rfl
  rw [e] at h1
  cases h1
  obtain ⟨t, ht, e2⟩ := (h2 [.elem b#"x" []]).mpr (chosen_amb.mpr ⟨.elem b#"x" [], by simp, .elem _ _ _ _ _ (by decide) .nil .nil⟩)
  rw [C100_place] at ht
  obtain ⟨n, hn, ht⟩ := ht
  have hl : ∀ {nm m ts}, pieces (.node nm m ts) = [.elem b#"x" []] → m = b#'-' → nm.take 2 ≠ b#"|+" →
      piecesList ts = [.elem b#"x" []] := fun e a b => by simpa [pieces, a, b] using e
  have nil : ∀ {nm : List Byte} {t}, Parse (.node nm 0 []) t → t = .node nm 0 [] := fun h => by
    cases h with | node _ _ _ ts h => cases h; rfl
  simp only [List.mem_cons, List.not_mem_nil, or_false] at hn
  rcases hn with rfl | rfl
  · cases ht with
    | node _ _ _ ts hts =>
      cases hts with
      | cons _ _ t1 _ q1 hts => cases hts with
        | cons _ _ t2 _ q2 hts =>
          cases hts
          rw [nil q1, nil q2] at e2
          simp [pieces, piecesList] at e2
  · cases ht with
    | node _ _ _ ts hts =>
      cases hts with
      | cons _ _ t1 _ q1 hts =>
        cases hts
        rw [nil q1] at e2
        simp [pieces, piecesList] at e2

/-- Not for all: a rule called AMBIGUOUS cannot be told from an ambiguity. -/
theorem C100_name_false : ∃ f g : Forest, Clear f ∧ Plain1 g ∧ gen f = gen g := by
  refine ⟨placeAll [.node b#"x" 0 [], .node b#"y" 0 []], .node b#"AMBIGUOUS" 0 [.node b#"y" 0 [], .node b#"x" 0 []], ?_, ?_, rfl⟩
  · simp [placeAll, place, Clear, ClearAll, ClearAlts, Visible]
  · simp [Plain1, PlainAll]

/-- Not for all: the readings of a rule marked as attribute give several attributes of the same name on one element. -/
theorem C100_twice_false : ∃ f v w, Parse f (.node b#"a" b#'@' [.node b#"x" 0 [.term 0 97]]) ∧
    gen f = some [.elem b#"AMBIGUOUS" [.attr b#"a" v, .attr b#"a" w]] := by
  refine ⟨placeAll [.node b#"a" b#'@' [.node b#"x" 0 [.term 0 97]], .node b#"a" b#'@' [.node b#"y" 0 [.term 0 97]]], b#"a", b#"a", ?_, rfl⟩
  rw [C100_place]
  exact ⟨_, by simp, .node _ _ _ _ (.cons _ _ _ _ (.node _ _ _ _ (.cons _ _ _ _ (.term _ _) .nil)) .nil)⟩

end Xmq.Props
