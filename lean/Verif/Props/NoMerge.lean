import Verif.Lemmas.NoMerge
import Verif.Props.CharRef
/-!
# C89: reading with and without merging of texts
-/
namespace Xmq.Props
open Xmq Xmq.Spec Xmq.Spec.NoMerge

/-- A document that is read is the document read with `--no-merge`, its texts merged. -/
theorem C89_merge {input : List Byte} {d : List Node} (h : Reads input d) :
    ∃ r, NoMerge.Reads input r ∧ merged charEntityText r = some d := by
  obtain ⟨toks, ht, hb⟩ := h
  obtain ⟨r, h1, h2⟩ := NoMerge.buildTree_merged charEntityText (fun t _ _ => NoMerge.entityVal_decoded t.text) hb
  exact ⟨r, ⟨toks, ht, h1⟩, h2⟩

/-- Reading with `--no-merge` gives one document. -/
theorem C89_unique {input : List Byte} {r r' : List Node} (h : NoMerge.Reads input r) (h' : NoMerge.Reads input r') : r = r' := by
  obtain ⟨toks, ht, hb⟩ := h
  obtain ⟨toks', ht', hb'⟩ := h'
  rw [tokenizes_iff] at ht ht'
  rw [ht] at ht'
  injection ht' with ht'
  subst ht'
  rw [hb] at hb'
  injection hb'

/-- The other direction: what can be read with `--no-merge` can be read without, if every reference can be decoded. -/
theorem C89_split {input : List Byte} {r : List Node} (h : NoMerge.Reads input r)
    (hd : ∀ toks, Tokenizes input toks → ∀ t ∈ toks, NoMerge.isRef t.kind = true → (entityVal t.text).isSome = true) :
    ∃ d, Reads input d ∧ merged charEntityText r = some d := by
  obtain ⟨toks, ht, hb⟩ := h
  let f : List Byte → Option (List Byte) := fun n => some ((charEntityText n).getD [])
  have hf : ∀ n, (f n).isSome = true := fun _ => rfl
  have he : ∀ t ∈ toks, NoMerge.isRef t.kind = true → entityVal t.text = decodedVal f (NoMerge.entityVal t.text) := by
    intro t htm hk
    have h1 := hd toks ht t htm hk
    rw [NoMerge.entityVal_decoded] at h1 ⊢
    cases hv : NoMerge.entityVal t.text with
    | text s => rfl
    | entity n =>
      rw [hv] at h1
      simp only [decodedVal] at h1 ⊢
      split
      · rename_i hc
        rw [if_pos hc] at h1
        obtain ⟨x, hx⟩ := Option.isSome_iff_exists.1 h1
        simp only [Option.map_eq_some_iff] at hx
        obtain ⟨y, hy, _⟩ := hx
        simp [f, hy]
      · rfl
  obtain ⟨d, h1, _⟩ := NoMerge.buildTree_total f hf he hb
  obtain ⟨r', h3, h4⟩ := C89_merge ⟨toks, ht, h1⟩
  rw [C89_unique ⟨toks, ht, hb⟩ h3]
  exact ⟨d, ⟨toks, ht, h1⟩, h4⟩

/-- The text of a character reference: the UTF-8 of its number, decimal. -/
theorem C89_decimal {bs : List Byte} {n : Nat} (h : Spells 10 bs n) (h0 : n ≠ 0) (hn : n < 0x110000) :
    charEntityText bs = some ((rfc3629 n).map UInt8.ofNat) := by
  rw [← NoMerge.charEntityText_semi]
  exact charEntityText_spells h (by omega) [] (.inl ⟨rfl, rfl⟩) h0 hn

/-- The same, hexadecimal. -/
theorem C89_hex {bs : List Byte} {n : Nat} (h : Spells 16 bs n) (h0 : n ≠ 0) (hn : n < 0x110000) :
    charEntityText (120 :: bs) = some ((rfc3629 n).map UInt8.ofNat) := by
  rw [← NoMerge.charEntityText_semi]
  exact charEntityText_spells h (by omega) [120] (.inr ⟨rfl, rfl⟩) h0 hn

/-! ## What is merged has no texts beside each other -/

theorem apart_nil : Apart [] := by intro i s t h; simp at h

theorem apart_cons {k : Node} {r : List Node} (h : Apart r) (hk : ∀ s t r', k = .text s → r ≠ .text t :: r') : Apart (k :: r) := by
  intro i s t h1 h2
  cases i with
  | zero =>
    simp at h1
    cases r with
    | nil => simp at h2
    | cons x r => simp at h2; exact hk s t r h1 (by rw [h2])
  | succ i => exact h i s t (by simpa using h1) (by simpa using h2)

theorem apart_tail {k : Node} {r : List Node} (h : Apart (k :: r)) : Apart r := fun i s t h1 h2 => h (i + 1) s t (by simpa using h1) (by simpa using h2)

theorem apart_glue (k : Node) {r : List Node} (h : Apart r) : Apart (glue k r) := by
  unfold glue
  split
  · rename_i a b r'
    refine apart_cons (apart_tail h) fun s t r2 _ e => ?_
    subst e
    exact h 0 b t (by simp) (by simp)
  · rename_i hk
    exact apart_cons h fun s t r2 e1 e2 => hk s t r2 e1 e2

theorem apart_joined (ks : List Node) : Apart (joined ks) := by
  induction ks with
  | nil => exact apart_nil
  | cons k ks ih => exact apart_glue k ih

theorem allFinished_glue {k : Node} {r : List Node} (hk : Finished k) (h : AllFinished r) : AllFinished (glue k r) := by
  unfold glue
  split
  · exact ⟨trivial, h.2⟩
  · exact ⟨hk, h⟩

theorem allFinished_joined : ∀ ks, AllFinished ks → AllFinished (joined ks)
  | [], _ => trivial
  | _ :: ks, h => allFinished_glue h.1 (allFinished_joined ks h.2)

theorem entity_glueVal {v : Val} {r : List Val} {n : List Byte} (h : Val.entity n ∈ glueVal v r) : Val.entity n = v ∨ Val.entity n ∈ r := by
  unfold glueVal at h
  split at h
  · simp at h; exact .inr (by simp [h])
  · simpa using h

theorem entity_glued : ∀ (vs : List Val) {n : List Byte}, Val.entity n ∈ vs.foldr glueVal [] → Val.entity n ∈ vs
  | [], n, h => by simp at h
  | v :: vs, n, h => by
    rcases entity_glueVal h with h | h
    · simp [h]
    · simp [entity_glued vs h]

theorem decodedVals_ref (f : List Byte → Option (List Byte)) : ∀ (vs ws : List Val), vs.mapM (decodedVal f) = some ws →
    ∀ n, Val.entity n ∈ ws → n.head? ≠ some b#'#'
  | [], ws, h => by simp at h; subst h; simp
  | v :: vs, ws, h => by
    simp only [List.mapM_cons, Option.bind_eq_bind, Option.bind_eq_some_iff, Option.pure_def, Option.some.injEq] at h
    obtain ⟨w, h1, ws', h2, rfl⟩ := h
    intro n hn
    rcases List.mem_cons.1 hn with rfl | hn
    · cases v with
      | text s => simp [decodedVal] at h1
      | entity m =>
        simp only [decodedVal] at h1
        split at h1
        · simp at h1
        · rename_i hm; simp at h1; subst h1; exact hm
    · exact decodedVals_ref f vs ws' h2 n hn

theorem mergedAttr_finished (f : List Byte → Option (List Byte)) {a b : Attr} (h : mergedAttr f a = some b) :
    Apart (b.value.map Val.node) ∧ ∀ n, Val.entity n ∈ b.value → n.head? ≠ some b#'#' := by
  simp only [mergedAttr, mergedVals, Option.map_eq_some_iff] at h
  obtain ⟨w, ⟨ws, h1, rfl⟩, rfl⟩ := h
  refine ⟨?_, fun n hn => decodedVals_ref f _ _ h1 n (entity_glued ws hn)⟩
  rw [← NoMerge.joined_map]
  exact apart_joined _

theorem mapM_mem {α β : Type} (g : α → Option β) : ∀ (l : List α) (m : List β), l.mapM g = some m → ∀ b ∈ m, ∃ a ∈ l, g a = some b
  | [], m, h => by simp at h; subst h; simp
  | a :: l, m, h => by
    simp only [List.mapM_cons, Option.bind_eq_bind, Option.bind_eq_some_iff, Option.pure_def, Option.some.injEq] at h
    obtain ⟨b, h1, m', h2, rfl⟩ := h
    intro c hc
    rcases List.mem_cons.1 hc with rfl | hc
    · exact ⟨a, by simp, h1⟩
    · obtain ⟨x, hx, hg⟩ := mapM_mem g l m' h2 c hc
      exact ⟨x, by simp [hx], hg⟩

mutual
theorem decoded_finished (f : List Byte → Option (List Byte)) : ∀ (k d : Node), decoded f k = some d → Finished d
  | .text s, d, h => by simp [decoded] at h; subst h; trivial
  | .comment s, d, h => by simp [decoded] at h; subst h; trivial
  | .entity n, d, h => by
    simp only [decoded] at h
    split at h
    · simp only [Option.map_eq_some_iff] at h; obtain ⟨s, _, rfl⟩ := h; trivial
    · rename_i hn; simp at h; subst h; exact hn
  | .element name attrs kids, d, h => by
    simp only [decoded, Option.bind_eq_some_iff, Option.map_eq_some_iff] at h
    obtain ⟨as, h1, ks, h2, rfl⟩ := h
    refine ⟨fun a ha => ?_, apart_joined ks, allFinished_joined ks (decodeds_finished f kids ks h2)⟩
    obtain ⟨x, _, hx⟩ := mapM_mem _ attrs as h1 a ha
    exact mergedAttr_finished f hx
theorem decodeds_finished (f : List Byte → Option (List Byte)) : ∀ (ks ds : List Node), decodeds f ks = some ds → AllFinished ds
  | [], ds, h => by simp [decodeds] at h; subst h; trivial
  | k :: ks, ds, h => by
    simp only [decodeds, Option.bind_eq_some_iff, Option.map_eq_some_iff] at h
    obtain ⟨d, h1, ds', h2, rfl⟩ := h
    exact ⟨decoded_finished f k d h1, decodeds_finished f ks ds' h2⟩
end

/-- A document that is read without the flag has no texts beside each other and no character references, at any depth and in no
    attribute. -/
theorem C89_finished {input : List Byte} {d : List Node} (h : Reads input d) : Apart d ∧ AllFinished d := by
  obtain ⟨r, _, h2⟩ := C89_merge h
  simp only [merged, Option.map_eq_some_iff] at h2
  obtain ⟨ds, h3, rfl⟩ := h2
  exact ⟨apart_joined ds, allFinished_joined ds (decodeds_finished _ r ds h3)⟩

/-! ## Every piece is kept -/

/-- What a token of a quote or a reference becomes with the flag: the text of the quote, or the name between `&` and `;`. -/
inductive PieceOf : Tok → Val → Prop
  | quote (t : Tok) (s : List Byte) : t.kind = .quote ∨ t.kind = .element_value_compound_quote ∨ t.kind = .attr_value_compound_quote →
      quoteVal t.col t.text = some (.text s) → PieceOf t (.text s)
  | ref (t : Tok) (name : List Byte) : t.kind = .entity ∨ t.kind = .element_value_compound_entity ∨ t.kind = .attr_value_compound_entity →
      t.text = 38 :: (name ++ [59]) → PieceOf t (.entity name)

/-- Tokens and their pieces, one by one. -/
inductive Pieces : List Tok → List Val → Prop
  | nil : Pieces [] []
  | cons {t v ts vs} : PieceOf t v → Pieces ts vs → Pieces (t :: ts) (v :: vs)

/-- With the flag a run of quotes and references gives as many nodes, in the order in which they are written. -/
theorem C89_pieces {toks : List Tok} {vs : List Val} (h : Pieces toks vs) : ∀ (o : Open) (st : List Open), ∃ la,
    toks.foldlM NoMerge.buildStep (o :: st) = some ({ o with kids := (vs.map Val.node).reverse ++ o.kids, lastAttr := la } :: st) := by
  induction h with
  | nil => intro o st; exact ⟨o.lastAttr, rfl⟩
  | @cons t v ts vs hp _ ih =>
    intro o st
    have h1 : NoMerge.buildStep (o :: st) t = some ({ o with kids := v.node :: o.kids, lastAttr := false } :: st) := by
      obtain ⟨kind, line, col, text⟩ := t
      cases hp with
      | quote s hk hq =>
        simp only at hk hq
        rcases hk with rfl | rfl | rfl <;> simp [NoMerge.buildStep, hq, NoMerge.addTop, Val.node]
      | ref name hk ht =>
        simp only at hk ht
        subst ht
        rcases hk with rfl | rfl | rfl <;> simp [NoMerge.buildStep, NoMerge.entityVal, NoMerge.addTop, Val.node]
    obtain ⟨la, h2⟩ := ih { o with kids := v.node :: o.kids, lastAttr := false } st
    exact ⟨la, by rw [List.foldlM_cons, h1]; simpa using h2⟩

/-! ## Cases -/

/-- A document with a compound value and neighbouring quotes. -/
def doc89 : List Byte := b#"a = ('x'&#10;'y'&z;) b { 'p' 'q' &#x41; }  c(d = ('u' &#66;))"

def raw89 : List Node :=
  [.element b#"a" [] [.text b#"x", .entity b#"#10", .text b#"y", .entity b#"z"],
   .element b#"b" [] [.text b#"p", .text b#"q", .entity b#"#x41"],
   .element b#"c" [⟨b#"d", [.text b#"u", .entity b#"#66"]⟩] []]

example : NoMerge.readDoc 200 doc89 = some raw89 := by decide +kernel
example : merged charEntityText raw89 = some
    [.element b#"a" [] [.text b#"x\ny", .entity b#"z"], .element b#"b" [] [.text b#"pqA"], .element b#"c" [⟨b#"d", [.text b#"uB"]⟩] []] := by
  decide +kernel

theorem reads_raw {fuel : Nat} {input : List Byte} {r : List Node} (h : NoMerge.readDoc fuel input = some r) : NoMerge.Reads input r := by
  unfold NoMerge.readDoc at h
  split at h
  · rename_i st hp; exact ⟨_, ⟨fuel, st, hp, rfl⟩, h⟩
  · cases h

example : NoMerge.Reads doc89 raw89 := reads_raw (fuel := 200) (by decide +kernel)
example : Pieces [⟨.quote, 1, 1, b#"'x'"⟩, ⟨.entity, 1, 4, b#"&#10;"⟩] [.text b#"x", .entity b#"#10"] :=
  .cons (.quote _ _ (.inl rfl) (by decide +kernel)) (.cons (.ref _ _ (.inl rfl) rfl) .nil)
example : Spells 10 b#"10" 10 := .snoc [49] 1 48 0 (.one 49 1 (.inl ⟨by decide, by decide⟩) (by decide)) (.inl ⟨by decide, by decide⟩) (by decide)

/-- The full claim about printing: what was read with the flag, printed compactly and read again with the flag, is the same. -/
def C89_Stable : Prop := ∀ input r, NoMerge.Reads input r → NoMerge.Reads (printDoc ⟨true, true, false, false, 4, b#" "⟩ r) r

/-- It is false: the newline in a quote is printed as `&#10;`, and that stays a reference of its own. -/
theorem C89_false_compact : ¬ C89_Stable := by
  intro h
  have h1 : NoMerge.Reads b#"a = 'x\n     y'" [.element b#"a" [] [.text b#"x\ny"]] := reads_raw (fuel := 100) (by decide +kernel)
  have h2 := h _ _ h1
  have h3 : printDoc ⟨true, true, false, false, 4, b#" "⟩ [.element b#"a" [] [.text b#"x\ny"]] = b#"a=('x'&#10;'y')\n" := by decide +kernel
  rw [h3] at h2
  have h4 : NoMerge.Reads b#"a=('x'&#10;'y')\n" [.element b#"a" [] [.text b#"x", .entity b#"#10", .text b#"y"]] :=
    reads_raw (fuel := 100) (by decide +kernel)
  exact absurd (C89_unique h2 h4) (by decide)

end Xmq.Props
