import Verif.Lemmas.IxmlGrammar
/-!
# What the rules built for an expression generate

`Enc R ok r X`: in the rules `R` the expression `r` is represented by the alternatives `X`.  `ok` is the proposition that the marks
and names are right; the language does not depend on it.
-/
namespace Xmq.Ixml
open Xmq.Spec Xmq.Spec.Ixml

/-! ## Parse trees -/

mutual
def Tree.size : Tree → Nat
  | .term _ _ => 1
  | .node _ _ ts => 1 + sizes ts
def sizes : List Tree → Nat
  | [] => 0
  | t :: ts => t.size + sizes ts
end

theorem sizes_append : ∀ a b : List Tree, sizes (a ++ b) = sizes a + sizes b
  | [], b => by simp [sizes]
  | t :: a, b => by rw [List.cons_append, sizes, sizes, sizes_append a b]; omega

theorem piecesList_append : ∀ a b : List Tree, piecesList (a ++ b) = piecesList a ++ piecesList b
  | [], b => by simp [piecesList]
  | t :: a, b => by rw [List.cons_append, piecesList, piecesList, piecesList_append a b, List.append_assoc]

theorem derives_append {R : List Rule} {a b : List Term} {ta tb : List Tree} {u v : List Nat} (h1 : Derives R a ta u) (h2 : Derives R b tb v) :
    Derives R (a ++ b) (ta ++ tb) (u ++ v) := by
  induction h1 with
  | nil => exact h2
  | term m c ts trees w _ ih => exact .term m c _ _ _ ih
  | node m r kids u ts trees w hr hk _ _ ih => rw [List.append_assoc]; exact .node m r kids u _ _ _ hr hk ih

theorem derives_split {R : List Rule} : ∀ {a b : List Term} {trees : List Tree} {w : List Nat}, Derives R (a ++ b) trees w →
    ∃ ta tb u v, trees = ta ++ tb ∧ w = u ++ v ∧ Derives R a ta u ∧ Derives R b tb v
  | [], b, trees, w, h => ⟨[], trees, [], w, rfl, rfl, .nil, h⟩
  | x :: a, b, trees, w, h => by
    rw [List.cons_append] at h
    generalize hx : x :: (a ++ b) = l at h
    cases h with
    | nil => cases hx
    | term m c ts trees w h =>
      obtain ⟨rfl, rfl⟩ := List.cons.inj hx
      obtain ⟨ta, tb, u, v, rfl, rfl, h1, h2⟩ := derives_split h
      exact ⟨_ :: ta, tb, c :: u, v, rfl, rfl, .term m c a ta u h1, h2⟩
    | node m r kids z ts trees w hr hk h =>
      obtain ⟨rfl, rfl⟩ := List.cons.inj hx
      obtain ⟨ta, tb, u, v, rfl, rfl, h1, h2⟩ := derives_split h
      exact ⟨_ :: ta, tb, z ++ u, v, rfl, by rw [List.append_assoc], .node m r kids z a ta u hr hk h1, h2⟩

theorem derives_nil {R : List Rule} {trees : List Tree} {w : List Nat} (h : Derives R [] trees w) : trees = [] ∧ w = [] := by
  cases h; exact ⟨rfl, rfl⟩

theorem derives_t {R : List Rule} {m : Byte} {c : Nat} {trees : List Tree} {w : List Nat} (h : Derives R [⟨m, .t c⟩] trees w) : trees = [.term m c] ∧ w = [c] := by
  generalize hx : [(⟨m, .t (c : Int)⟩ : Term)] = l at h
  cases h with
  | nil => cases hx
  | term m' c' ts trees w h =>
    obtain ⟨e, rfl⟩ := List.cons.inj hx
    obtain ⟨rfl, rfl⟩ := derives_nil h
    simp only [Term.mk.injEq, Sym.t.injEq] at e
    obtain ⟨rfl, e2⟩ := e
    obtain rfl : c = c' := by omega
    exact ⟨rfl, rfl⟩
  | node m' r kids z ts trees w hr hk h =>
    obtain ⟨e, rfl⟩ := List.cons.inj hx
    simp at e

theorem derives_n {R : List Rule} {m : Byte} {nm : List Byte} {trees : List Tree} {w : List Nat} (h : Derives R [⟨m, .n nm⟩] trees w) :
    ∃ ρ kids, ρ ∈ R ∧ ρ.name = nm ∧ Derives R ρ.rhs kids w ∧ trees = [.node (ρ.alias.getD ρ.name) (if m ≠ 0 then m else ρ.mark) kids] := by
  generalize hx : [(⟨m, .n nm⟩ : Term)] = l at h
  cases h with
  | nil => cases hx
  | term m' c' ts trees w h =>
    obtain ⟨e, rfl⟩ := List.cons.inj hx
    simp at e
  | node m' r kids z ts trees w hr hk h =>
    obtain ⟨e, rfl⟩ := List.cons.inj hx
    obtain ⟨rfl, rfl⟩ := derives_nil h
    simp only [Term.mk.injEq, Sym.n.injEq] at e
    obtain ⟨rfl, rfl⟩ := e
    exact ⟨r, kids, hr, rfl, by rw [List.append_nil]; exact hk, rfl⟩

/-- A parse tree under another mark. -/
theorem derives_remark {R : List Rule} {m : Byte} {x : Sym} {trees : List Tree} {w : List Nat} (h : Derives R [⟨m, x⟩] trees w) (m' : Byte) :
    ∃ trees', Derives R [⟨m', x⟩] trees' w ∧ sizes trees' = sizes trees := by
  generalize hx : [(⟨m, x⟩ : Term)] = l at h
  cases h with
  | nil => cases hx
  | term m' c' ts trees w h =>
    obtain ⟨e, rfl⟩ := List.cons.inj hx
    obtain ⟨rfl, rfl⟩ := derives_nil h
    simp only [Term.mk.injEq] at e
    obtain ⟨rfl, rfl⟩ := e
    exact ⟨_, .term _ _ _ _ _ .nil, rfl⟩
  | node m' r kids z ts trees w hr hk h =>
    obtain ⟨e, rfl⟩ := List.cons.inj hx
    obtain ⟨rfl, rfl⟩ := derives_nil h
    simp only [Term.mk.injEq] at e
    obtain ⟨rfl, rfl⟩ := e
    exact ⟨_, .node _ r kids z _ _ _ hr hk .nil, rfl⟩

/-! ## Representation -/

/-- The rules with this name. -/
def Only (R : List Rule) (nm : List Byte) (X : List (List Term)) : Prop :=
  nm.take 2 ≠ b#"|+" ∧ ∀ ρ, (ρ ∈ R ∧ ρ.name = nm) ↔ ∃ ts ∈ X, ρ = hidden nm ts

/-- Nothing changes in the document if the symbol is marked with `m'` instead of `m`. -/
def Conv (R : List Rule) (m m' : Byte) (x : Sym) : Prop :=
  ∀ trees w, Derives R [⟨m, x⟩] trees w → ∃ trees', Derives R [⟨m', x⟩] trees' w ∧ sizes trees' = sizes trees ∧ piecesList trees' = piecesList trees

/-- No rule is an insertion. -/
def NoIns (R : List Rule) : Prop := ∀ ρ ∈ R, (ρ.alias.getD ρ.name).take 2 ≠ b#"|+"

inductive Enc (cat : List Byte → Nat → Prop) (used : Nat → Bool) (R : List Rule) (ok : Prop) : Rx → List (List Term) → Prop
  | litNil (m : Byte) : Enc cat used R ok (.lit m []) [[]]
  | litOne (m : Byte) (c : Nat) : c < 0x110000 → Enc cat used R ok (.lit m [c]) [[⟨m, .t c⟩]]
  | litMany (m : Byte) (cs : List Nat) (nm : List Byte) : (∀ c ∈ cs, c < 0x110000) → Only R nm [cs.map fun (c : Nat) => ⟨m, .t c⟩] →
      Enc cat used R ok (.lit m cs) [[⟨b#'-', .n nm⟩]]
  | set (m : Byte) (ex : Bool) (ms : List Member) (nm : List Byte) : nm.take 2 ≠ b#"|+" → m = 0 ∨ m = b#'-' →
      (∀ ρ, (ρ ∈ R ∧ ρ.name = nm) ↔ ∃ c : Nat, used c = true ∧ c < 0x110000 ∧ ((∃ x ∈ ms, x.has cat c) ↔ ex = false) ∧
        ρ = hidden nm [⟨if m = b#'-' then b#'-' else 0, .t c⟩]) → Enc cat used R ok (.set m ex ms) [[⟨m, .n nm⟩]]
  | ref (m : Byte) (n : List Byte) (al : Option (List Byte)) : IsName n → (ok → al = none) → (ok → m = b#'@' → NoIns R) →
      Enc cat used R ok (.ref m n al) [[⟨m, .n n⟩]]
  | ins (cs : List Nat) : (∀ ρ, (ρ ∈ R ∧ ρ.name = b#"|+" ++ insBytes cs) ↔ ρ = ⟨b#"|+" ++ insBytes cs, none, b#' ', []⟩) →
      Enc cat used R ok (.ins cs) [[⟨0, .n (b#"|+" ++ insBytes cs)⟩]]
  | groupEps : Enc cat used R ok (.group .eps) [[]]
  | group (r : Rx) (X : List (List Term)) (nm : List Byte) : Enc cat used R ok r X → Only R nm X → Enc cat used R ok (.group r) [[⟨b#'-', .n nm⟩]]
  | opt (f : Rx) (m fm : Byte) (x : Sym) (nm : List Byte) : Enc cat used R ok f [[⟨m, x⟩]] → Only R nm [[⟨fm, x⟩], []] →
      (ok → Conv R fm m x ∧ Conv R m fm x) → Enc cat used R ok (.opt f) [[⟨b#'-', .n nm⟩]]
  | plus (f : Rx) (m fm : Byte) (x : Sym) (nm : List Byte) : Enc cat used R ok f [[⟨m, x⟩]] → Only R nm [[⟨fm, x⟩], [⟨b#'-', .n nm⟩, ⟨fm, x⟩]] →
      (ok → Conv R fm m x ∧ Conv R m fm x) → Enc cat used R ok (.plus f) [[⟨b#'-', .n nm⟩]]
  | star (f : Rx) (m fm : Byte) (x : Sym) (nm : List Byte) : Enc cat used R ok f [[⟨m, x⟩]] → Only R nm [[], [⟨b#'-', .n nm⟩, ⟨fm, x⟩]] →
      (ok → Conv R fm m x ∧ Conv R m fm x) → Enc cat used R ok (.star f) [[⟨b#'-', .n nm⟩]]
  | plusSep (f s : Rx) (m fm l lm : Byte) (x y : Sym) (nm : List Byte) : Enc cat used R ok f [[⟨m, x⟩]] → Enc cat used R ok s [[⟨l, y⟩]] →
      Only R nm [[⟨fm, x⟩], [⟨b#'-', .n nm⟩, ⟨lm, y⟩, ⟨fm, x⟩]] → (ok → Conv R fm m x ∧ Conv R m fm x) → (ok → Conv R lm l y ∧ Conv R l lm y) →
      Enc cat used R ok (.plusSep f s) [[⟨b#'-', .n nm⟩]]
  | starSep (f s : Rx) (nm o : List Byte) : Enc cat used R ok (.plusSep f s) [[⟨b#'-', .n nm⟩]] → Only R o [[⟨b#'-', .n nm⟩], []] →
      Enc cat used R ok (.starSep f s) [[⟨b#'-', .n o⟩]]
  | eps : Enc cat used R ok .eps [[]]
  | seq (a b : Rx) (x y : List Term) : Enc cat used R ok a [x] → Enc cat used R ok b [y] → Enc cat used R ok (.seq a b) [x ++ y]
  | alt (a b : Rx) (x : List Term) (Y : List (List Term)) : Enc cat used R ok a [x] → Enc cat used R ok b Y → Enc cat used R ok (.alt a b) (x :: Y)

/-- The rules of the grammar are represented. -/
def EncAll (cat : List Byte → Nat → Prop) (used : Nat → Bool) (R : List Rule) (ok : Prop) (g : List GRule) : Prop :=
  (∀ ρ ∈ R, IsName ρ.name → ∃ r ∈ g, r.name = ρ.name ∧ r.mark = ρ.mark ∧ (ok → r.alias = ρ.alias) ∧ (ok → r.mark = b#'@' → NoIns R) ∧
    (∀ a, ρ.alias = some a → IsName a) ∧ ∃ X, Enc cat used R ok r.body X ∧ ρ.rhs ∈ X) ∧
  (∀ r ∈ g, ∃ X, Enc cat used R ok r.body X ∧ ∀ ts ∈ X, ∃ ρ ∈ R, ρ.name = r.name ∧ ρ.mark = r.mark ∧ (ok → ρ.alias = r.alias) ∧ ρ.rhs = ts ∧
    (ok → r.mark = b#'@' → NoIns R) ∧ IsName r.name ∧ (∀ a, ρ.alias = some a → IsName a))

/-! ## Text in attributes -/

theorem textsOf_append : ∀ a b : List Piece, textsOf (a ++ b) = textsOf a ++ textsOf b
  | [], b => by simp [textsOf]
  | t :: a, b => by rw [List.cons_append, textsOf, textsOf, textsOf_append a b, List.append_assoc]

mutual
/-- No node is an insertion. -/
def plain : Tree → Prop
  | .term _ _ => True
  | .node nm _ ts => nm.take 2 ≠ b#"|+" ∧ plains ts
def plains : List Tree → Prop
  | [] => True
  | t :: ts => plain t ∧ plains ts
end

mutual
theorem collectText_eq : ∀ t : Tree, plain t → collectText t = textsOf (pieces t)
  | .term m c, _ => by
    rw [collectText, pieces]
    split <;> simp [textsOf, textOf]
  | .node nm m ts, h => by
    rw [plain] at h
    have ih := collectTexts_eq ts h.2
    rw [collectText, pieces, if_neg h.1]
    split
    · exact ih
    · split
      · simp [textsOf, textOf]
      · simp [textsOf, textOf, ih]
theorem collectTexts_eq : ∀ ts : List Tree, plains ts → collectTexts ts = textsOf (piecesList ts)
  | [], _ => by simp [collectTexts, piecesList, textsOf]
  | t :: ts, h => by
    rw [plains] at h
    rw [collectTexts, piecesList, textsOf_append, collectText_eq t h.1, collectTexts_eq ts h.2]
end

theorem derives_plain {R : List Rule} (hR : NoIns R) {ts : List Term} {trees : List Tree} {w : List Nat} (h : Derives R ts trees w) : plains trees := by
  induction h with
  | nil => trivial
  | term m c ts trees w _ ih => exact ⟨trivial, ih⟩
  | node m r kids u ts trees w hr _ _ ih1 ih2 => exact ⟨⟨hR r hr, ih1⟩, ih2⟩

/-! ## Hidden nodes -/

theorem take_append_mark (nm : List Byte) (m : Byte) (kids : List Tree) (h : nm.take 2 ≠ b#"|+") (hm : m = b#'-') : piecesList [.node nm m kids] = piecesList kids := by
  subst hm
  rw [piecesList, piecesList, pieces, if_neg h, if_pos rfl, List.append_nil]

theorem codeBytes_eq {c : Nat} (h : c < 0x110000) : codeBytes c = utf8 c := by
  unfold codeBytes
  rw [encodeUtf8_rfc3629 c (by omega)]
  rfl

theorem pieces_terms (R : List Rule) (m : Byte) : ∀ (cs : List Nat), (∀ c ∈ cs, c < 0x110000) → ∀ {trees : List Tree} {w : List Nat},
    Derives R (cs.map fun (c : Nat) => ⟨m, .t c⟩) trees w → w = cs ∧ piecesList trees = (if m = b#'-' then [] else cs.map fun c => .text (utf8 c))
  | [], _, trees, w, h => by
    obtain ⟨rfl, rfl⟩ := derives_nil h
    simp [piecesList]
  | c :: cs, hc, trees, w, h => by
    rw [List.map_cons] at h
    obtain ⟨ta, tb, u, v, rfl, rfl, h1, h2⟩ := derives_split (a := [⟨m, .t c⟩]) h
    obtain ⟨rfl, rfl⟩ := derives_t h1
    obtain ⟨rfl, e⟩ := pieces_terms R m cs (fun d hd => hc d (by simp [hd])) h2
    refine ⟨rfl, ?_⟩
    rw [List.singleton_append, piecesList, e, pieces, codeBytes_eq (hc c (by simp))]
    by_cases hm : m = b#'-' <;> simp [hm]

theorem derives_terms (R : List Rule) (m : Byte) : ∀ (cs : List Nat), ∃ trees, Derives R (cs.map fun (c : Nat) => ⟨m, .t c⟩) trees cs
  | [] => ⟨[], .nil⟩
  | c :: cs => by
    obtain ⟨trees, h⟩ := derives_terms R m cs
    exact ⟨_, .term m c _ _ _ h⟩

/-- A symbol for generated rules. -/
theorem only_elim {R : List Rule} {nm : List Byte} {X : List (List Term)} (h : Only R nm X) {trees : List Tree} {w : List Nat} (hd : Derives R [⟨b#'-', .n nm⟩] trees w) :
    ∃ ts ∈ X, ∃ kids, Derives R ts kids w ∧ sizes kids < sizes trees ∧ piecesList trees = piecesList kids := by
  obtain ⟨ρ, kids, h1, h2, h3, rfl⟩ := derives_n hd
  obtain ⟨ts, hts, rfl⟩ := (h.2 ρ).1 ⟨h1, h2⟩
  refine ⟨ts, hts, kids, h3, ?_, take_append_mark _ _ _ h.1 rfl⟩
  simp only [sizes, Tree.size]
  omega

theorem only_intro {R : List Rule} {nm : List Byte} {X : List (List Term)} (h : Only R nm X) {ts : List Term} (hts : ts ∈ X) {kids : List Tree} {w : List Nat}
    (hd : Derives R ts kids w) : ∃ trees, Derives R [⟨b#'-', .n nm⟩] trees w ∧ piecesList trees = piecesList kids := by
  obtain ⟨h1, h2⟩ := (h.2 (hidden nm ts)).2 ⟨ts, hts, rfl⟩
  have := Derives.node (rules := R) b#'-' (hidden nm ts) kids w [] [] [] h1 hd .nil
  rw [List.append_nil] at this
  exact ⟨_, this, take_append_mark _ _ _ h.1 rfl⟩

theorem isName_take {n : List Byte} (h : IsName n) : n.take 2 ≠ b#"|+" := by
  obtain ⟨c, t, rfl, hc⟩ := isName_head h
  intro e
  have : c = b#'|' := by
    cases t with
    | nil => simp at e
    | cons d t => simp at e; exact e.1
  exact (letter_class hc).2.2.2.2.2.2.2.2.2.2.2.2.1 this

/-- The document for a node of the grammar. -/
theorem pieces_node {R : List Rule} {nm : List Byte} {mark : Byte} {kids : List Tree} {ts : List Term} {w : List Nat} (hn : nm.take 2 ≠ b#"|+")
    (hd : Derives R ts kids w) (hI : mark = b#'@' → NoIns R) : piecesList [.node nm mark kids] = wrap mark nm (piecesList kids) := by
  rw [piecesList, piecesList, pieces, if_neg hn, List.append_nil]
  unfold wrap
  split
  · rfl
  · split
    · rename_i h
      rw [collectTexts_eq kids (derives_plain (hI h) hd)]
    · rfl

/-- A symbol under the mark it is repeated with. -/
theorem conv_size {R : List Rule} {ok : Prop} {m m' : Byte} {x : Sym} (h : ok → Conv R m m' x) {trees : List Tree} {w : List Nat} (hd : Derives R [⟨m, x⟩] trees w) :
    ∃ trees', Derives R [⟨m', x⟩] trees' w ∧ sizes trees' = sizes trees ∧ (ok → piecesList trees' = piecesList trees) := by
  by_cases hok : ok
  · obtain ⟨t, h1, h2, h3⟩ := h hok trees w hd
    exact ⟨t, h1, h2, fun _ => h3⟩
  · obtain ⟨t, h1, h2⟩ := derives_remark hd m'
    exact ⟨t, h1, h2, fun h => absurd h hok⟩

/-! ## Soundness -/

theorem enc_sound {cat : List Byte → Nat → Prop} {used : Nat → Bool} {R : List Rule} {ok : Prop} {g : List GRule} (hG : EncAll cat used R ok g) :
    ∀ (N : Nat) {r : Rx} {X : List (List Term)}, Enc cat used R ok r X → ∀ ts ∈ X, ∀ (trees : List Tree) (w : List Nat), Derives R ts trees w → sizes trees ≤ N →
      ∃ ps, Out cat g r w ps ∧ (ok → piecesList trees = ps) := by
  intro N
  induction N using Nat.strongRecOn with
  | ind N IH =>
    intro r X hE
    induction hE with
    | litNil m =>
      intro ts hts trees w hd _
      obtain rfl := List.mem_singleton.1 hts
      obtain ⟨rfl, rfl⟩ := derives_nil hd
      exact ⟨_, .lit m [], fun _ => by simp [piecesList]⟩
    | litOne m c hc =>
      intro ts hts trees w hd _
      obtain rfl := List.mem_singleton.1 hts
      obtain ⟨rfl, h⟩ := pieces_terms R m [c] (by simpa using hc) hd
      exact ⟨_, .lit m [c], fun _ => h⟩
    | litMany m cs nm hc ho =>
      intro ts hts trees w hd hsz
      obtain rfl := List.mem_singleton.1 hts
      obtain ⟨ts, hts, kids, h1, h2, h3⟩ := only_elim ho hd
      obtain rfl := List.mem_singleton.1 hts
      obtain ⟨rfl, h⟩ := pieces_terms R m cs hc h1
      exact ⟨_, .lit m _, fun _ => by rw [h3, h]⟩
    | set m ex ms nm h1 h2 h3 =>
      intro ts hts trees w hd hsz
      obtain rfl := List.mem_singleton.1 hts
      obtain ⟨ρ, kids, hR, hn, hk, rfl⟩ := derives_n hd
      obtain ⟨c, hc1, hc2, hc3, rfl⟩ := (h3 ρ).1 ⟨hR, hn⟩
      obtain ⟨rfl, rfl⟩ := derives_t hk
      refine ⟨_, .set m ex ms c hc2 hc3, fun _ => ?_⟩
      have hm : (if m ≠ 0 then m else (hidden nm [⟨if m = b#'-' then b#'-' else 0, .t c⟩]).mark) = b#'-' := by
        rcases h2 with rfl | rfl <;> rfl
      refine (take_append_mark nm _ _ h1 hm).trans ?_
      rw [piecesList, piecesList, pieces, codeBytes_eq hc2]
      by_cases hm : m = b#'-' <;> simp [hm]
    | ref m n al hn ha hI =>
      intro ts hts trees w hd hsz
      obtain rfl := List.mem_singleton.1 hts
      obtain ⟨ρ, kids, hR, rfl, hk, rfl⟩ := derives_n hd
      obtain ⟨r, hr, e1, e2, e3, e4, e5, X, hE, hX⟩ := hG.1 ρ hR hn
      obtain ⟨ps, hO, hp⟩ := IH (sizes kids) (by simp only [sizes, Tree.size] at hsz; omega) hE _ hX kids w hk (Nat.le_refl _)
      have := Out.ref (cat := cat) (g := g) m al r w ps hr hO
      rw [e1] at this
      refine ⟨_, this, fun hok => ?_⟩
      have hnm : (ρ.alias.getD ρ.name).take 2 ≠ b#"|+" := by
        cases hal : ρ.alias with
        | none => exact isName_take hn
        | some a => exact isName_take (e5 a hal)
      rw [ha hok, e2, ← hp hok, pieces_node hnm hk, e3 hok]
      · rfl
      · intro h
        by_cases hm : m ≠ 0
        · rw [if_pos hm] at h; exact hI hok h
        · rw [if_neg hm] at h; exact e4 hok (e2.trans h)
    | ins cs h =>
      intro ts hts trees w hd hsz
      obtain rfl := List.mem_singleton.1 hts
      obtain ⟨ρ, kids, hR, hn, hk, rfl⟩ := derives_n hd
      obtain rfl := (h ρ).1 ⟨hR, hn⟩
      obtain ⟨rfl, rfl⟩ := derives_nil hk
      refine ⟨_, .ins cs, fun _ => ?_⟩
      rw [piecesList, piecesList, pieces, if_pos (by rfl)]
      rfl
    | groupEps =>
      intro ts hts trees w hd hsz
      obtain rfl := List.mem_singleton.1 hts
      obtain ⟨rfl, rfl⟩ := derives_nil hd
      exact ⟨_, .group _ _ _ .eps, fun _ => by simp [piecesList]⟩
    | group r X nm hE ho ih =>
      intro ts hts trees w hd hsz
      obtain rfl := List.mem_singleton.1 hts
      obtain ⟨ts, hts, kids, h1, h2, h3⟩ := only_elim ho hd
      obtain ⟨ps, hO, hp⟩ := IH (sizes kids) (by omega) hE ts hts kids w h1 (Nat.le_refl _)
      exact ⟨ps, .group _ _ _ hO, fun hok => by rw [h3, hp hok]⟩
    | opt f m fm x nm hE ho hc ih =>
      intro ts hts trees w hd hsz
      obtain rfl := List.mem_singleton.1 hts
      obtain ⟨ts, hts, kids, h1, h2, h3⟩ := only_elim ho hd
      simp only [List.mem_cons, List.not_mem_nil, or_false] at hts
      rcases hts with rfl | rfl
      · obtain ⟨k2, h4, h5, h6⟩ := conv_size (fun h => (hc h).1) h1
        obtain ⟨ps, hO, hp⟩ := IH (sizes kids) (by omega) hE _ (by simp) k2 w h4 (by omega)
        exact ⟨ps, .optSome _ _ _ hO, fun hok => by rw [h3, ← h6 hok, hp hok]⟩
      · obtain ⟨rfl, rfl⟩ := derives_nil h1
        exact ⟨_, .optNone _, fun _ => by rw [h3]; simp [piecesList]⟩
    | plus f m fm x nm hE ho hc ih =>
      intro ts hts trees w hd hsz
      obtain rfl := List.mem_singleton.1 hts
      obtain ⟨ts, hts, kids, h1, h2, h3⟩ := only_elim ho hd
      simp only [List.mem_cons, List.not_mem_nil, or_false] at hts
      rcases hts with rfl | rfl
      · obtain ⟨k2, h4, h5, h6⟩ := conv_size (fun h => (hc h).1) h1
        obtain ⟨ps, hO, hp⟩ := IH (sizes kids) (by omega) hE _ (by simp) k2 w h4 (by omega)
        exact ⟨ps, .plusOne _ _ _ hO, fun hok => by rw [h3, ← h6 hok, hp hok]⟩
      · obtain ⟨ka, kb, u, v, rfl, rfl, ha, hb⟩ := derives_split (a := [⟨b#'-', .n nm⟩]) h1
        rw [sizes_append] at h2
        obtain ⟨k2, h4, h5, h6⟩ := conv_size (fun h => (hc h).1) hb
        obtain ⟨ps, hO, hp⟩ := IH (sizes kb) (by omega) hE _ (by simp) k2 v h4 (by omega)
        obtain ⟨qs, hO2, hq⟩ := IH (sizes ka) (by omega) (.plus f m fm x nm hE ho hc) _ (by simp) ka u ha (Nat.le_refl _)
        exact ⟨_, .plusMore _ _ _ _ _ hO2 hO, fun hok => by rw [h3, piecesList_append, hq hok, ← h6 hok, hp hok]⟩
    | star f m fm x nm hE ho hc ih =>
      intro ts hts trees w hd hsz
      obtain rfl := List.mem_singleton.1 hts
      obtain ⟨ts, hts, kids, h1, h2, h3⟩ := only_elim ho hd
      simp only [List.mem_cons, List.not_mem_nil, or_false] at hts
      rcases hts with rfl | rfl
      · obtain ⟨rfl, rfl⟩ := derives_nil h1
        exact ⟨_, .starNil _, fun _ => by rw [h3]; simp [piecesList]⟩
      · obtain ⟨ka, kb, u, v, rfl, rfl, ha, hb⟩ := derives_split (a := [⟨b#'-', .n nm⟩]) h1
        rw [sizes_append] at h2
        obtain ⟨k2, h4, h5, h6⟩ := conv_size (fun h => (hc h).1) hb
        obtain ⟨ps, hO, hp⟩ := IH (sizes kb) (by omega) hE _ (by simp) k2 v h4 (by omega)
        obtain ⟨qs, hO2, hq⟩ := IH (sizes ka) (by omega) (.star f m fm x nm hE ho hc) _ (by simp) ka u ha (Nat.le_refl _)
        exact ⟨_, .starMore _ _ _ _ _ hO2 hO, fun hok => by rw [h3, piecesList_append, hq hok, ← h6 hok, hp hok]⟩
    | plusSep f s m fm l lm x y nm hE hS ho hc hc2 ih ih2 =>
      intro ts hts trees w hd hsz
      obtain rfl := List.mem_singleton.1 hts
      obtain ⟨ts, hts, kids, h1, h2, h3⟩ := only_elim ho hd
      simp only [List.mem_cons, List.not_mem_nil, or_false] at hts
      rcases hts with rfl | rfl
      · obtain ⟨k2, h4, h5, h6⟩ := conv_size (fun h => (hc h).1) h1
        obtain ⟨ps, hO, hp⟩ := IH (sizes kids) (by omega) hE _ (by simp) k2 w h4 (by omega)
        exact ⟨ps, .plusSepOne _ _ _ _ hO, fun hok => by rw [h3, ← h6 hok, hp hok]⟩
      · obtain ⟨ka, kr, u, v, rfl, rfl, ha, hr⟩ := derives_split (a := [⟨b#'-', .n nm⟩]) h1
        obtain ⟨ky, kb, v, z, rfl, rfl, hy, hb⟩ := derives_split (a := [⟨lm, y⟩]) hr
        rw [sizes_append, sizes_append] at h2
        obtain ⟨k2, h4, h5, h6⟩ := conv_size (fun h => (hc h).1) hb
        obtain ⟨k3, h7, h8, h9⟩ := conv_size (fun h => (hc2 h).1) hy
        obtain ⟨ps, hO, hp⟩ := IH (sizes kb) (by omega) hE _ (by simp) k2 z h4 (by omega)
        obtain ⟨rs, hO3, hrs⟩ := IH (sizes ky) (by omega) hS _ (by simp) k3 v h7 (by omega)
        obtain ⟨qs, hO2, hq⟩ := IH (sizes ka) (by omega) (.plusSep f s m fm l lm x y nm hE hS ho hc hc2) _ (by simp) ka u ha (Nat.le_refl _)
        exact ⟨_, .plusSepMore _ _ _ _ _ _ _ _ hO2 hO3 hO, fun hok => by
          rw [h3, piecesList_append, piecesList_append, hq hok, ← h6 hok, hp hok, ← h9 hok, hrs hok]⟩
    | starSep f s nm o hE ho ih =>
      intro ts hts trees w hd hsz
      obtain rfl := List.mem_singleton.1 hts
      obtain ⟨ts, hts, kids, h1, h2, h3⟩ := only_elim ho hd
      simp only [List.mem_cons, List.not_mem_nil, or_false] at hts
      rcases hts with rfl | rfl
      · obtain ⟨ps, hO, hp⟩ := IH (sizes kids) (by omega) hE _ (by simp) kids w h1 (Nat.le_refl _)
        exact ⟨ps, .starSepSome _ _ _ _ hO, fun hok => by rw [h3, hp hok]⟩
      · obtain ⟨rfl, rfl⟩ := derives_nil h1
        exact ⟨_, .starSepNil _ _, fun _ => by rw [h3]; simp [piecesList]⟩
    | eps =>
      intro ts hts trees w hd hsz
      obtain rfl := List.mem_singleton.1 hts
      obtain ⟨rfl, rfl⟩ := derives_nil hd
      exact ⟨_, .eps, fun _ => by simp [piecesList]⟩
    | seq a b x y hA hB iha ihb =>
      intro ts hts trees w hd hsz
      obtain rfl := List.mem_singleton.1 hts
      obtain ⟨ka, kb, u, v, rfl, rfl, ha, hb⟩ := derives_split hd
      rw [sizes_append] at hsz
      obtain ⟨ps, hO, hp⟩ := iha x (by simp) ka u ha (by omega)
      obtain ⟨qs, hO2, hq⟩ := ihb y (by simp) kb v hb (by omega)
      exact ⟨_, .seq _ _ _ _ _ _ hO hO2, fun hok => by rw [piecesList_append, hp hok, hq hok]⟩
    | alt a b x Y hA hB iha ihb =>
      intro ts hts trees w hd hsz
      rcases List.mem_cons.1 hts with rfl | hts
      · obtain ⟨ps, hO, hp⟩ := iha _ (by simp) trees w hd hsz
        exact ⟨ps, .altL _ _ _ _ hO, hp⟩
      · obtain ⟨ps, hO, hp⟩ := ihb ts hts trees w hd hsz
        exact ⟨ps, .altR _ _ _ _ hO, hp⟩

/-! ## Completeness -/

theorem enc_complete {cat : List Byte → Nat → Prop} {used : Nat → Bool} {R : List Rule} {ok : Prop} {g : List GRule} (hG : EncAll cat used R ok g)
    {r : Rx} {w : List Nat} {ps : List Piece} (hO : Out cat g r w ps) : (∀ c ∈ w, used c = true) → ∀ {X : List (List Term)}, Enc cat used R ok r X →
      ∃ ts ∈ X, ∃ trees, Derives R ts trees w ∧ (ok → piecesList trees = ps) := by
  induction hO with
  | lit m cs =>
    intro hu X hE
    cases hE with
    | litNil => exact ⟨[], by simp, [], .nil, fun _ => by simp [piecesList]⟩
    | litOne _ c hc =>
      obtain ⟨trees, h⟩ := derives_terms R m [c]
      exact ⟨_, by simp, trees, h, fun _ => (pieces_terms R m [c] (by simpa using hc) h).2⟩
    | litMany _ _ nm hc ho =>
      obtain ⟨kids, h⟩ := derives_terms R m cs
      obtain ⟨trees, h1, h2⟩ := only_intro ho (by simp) h
      exact ⟨_, by simp, trees, h1, fun _ => by rw [h2, (pieces_terms R m cs hc h).2]⟩
  | set m ex ms c hc hm =>
    intro hu X hE
    cases hE with
    | set _ _ _ nm h1 h2 h3 =>
      obtain ⟨h4, h5⟩ := (h3 (hidden nm [⟨if m = b#'-' then b#'-' else 0, .t c⟩])).2 ⟨c, hu c (by simp), hc, hm, rfl⟩
      have hd : Derives R [⟨m, .n nm⟩] _ _ := Derives.node m _ _ [c] [] [] [] h4 (.term (if m = b#'-' then b#'-' else 0) c [] [] [] .nil) .nil
      refine ⟨_, by simp, _, hd, fun _ => ?_⟩
      have hmk : (if m ≠ 0 then m else (hidden nm [⟨if m = b#'-' then b#'-' else 0, .t c⟩]).mark) = b#'-' := by
        rcases h2 with rfl | rfl <;> rfl
      refine (take_append_mark nm _ _ h1 hmk).trans ?_
      rw [piecesList, piecesList, pieces, codeBytes_eq hc]
      by_cases hm : m = b#'-' <;> simp [hm]
  | ref m al r w ps hr hO ih =>
    intro hu X hE
    obtain ⟨X', hE', hX'⟩ := hG.2 r hr
    obtain ⟨ts, hts, kids, hd, hp⟩ := ih hu hE'
    obtain ⟨ρ, hR, e1, e2, e3, rfl, e4, e5, e6⟩ := hX' ts hts
    have hd2 : Derives R [⟨m, .n ρ.name⟩] _ _ := Derives.node m ρ kids w [] [] [] hR hd .nil
    rw [List.append_nil, e1] at hd2
    cases hE with
    | ref _ _ _ hn ha hI =>
      refine ⟨_, by simp, _, hd2, fun hok => ?_⟩
      have hnm : (ρ.alias.getD r.name).take 2 ≠ b#"|+" := by
        cases hal : ρ.alias with
        | none => exact isName_take hn
        | some a => exact isName_take (e6 a hal)
      rw [ha hok, ← hp hok, pieces_node hnm hd, e3 hok, e2]
      · rfl
      · intro h
        by_cases hm : m ≠ 0
        · rw [if_pos hm] at h; exact hI hok h
        · rw [if_neg hm] at h; exact e4 hok (e2.symm.trans h)
  | ins cs =>
    intro hu X hE
    cases hE with
    | ins _ h =>
      obtain ⟨h1, h2⟩ := (h _).2 rfl
      have hd : Derives R [⟨0, .n (b#"|+" ++ insBytes cs)⟩] _ _ := Derives.node 0 _ _ [] [] [] [] h1 .nil .nil
      refine ⟨_, by simp, _, hd, fun _ => ?_⟩
      rw [piecesList, piecesList, pieces, if_pos (by rfl)]
      rfl
  | group r w ps hO ih =>
    intro hu X hE
    cases hE with
    | groupEps =>
      cases hO
      exact ⟨[], by simp, [], .nil, fun _ => by simp [piecesList]⟩
    | group _ X nm hE ho =>
      obtain ⟨ts, hts, kids, hd, hp⟩ := ih hu hE
      obtain ⟨trees, h1, h2⟩ := only_intro ho hts hd
      exact ⟨_, by simp, trees, h1, fun hok => by rw [h2, hp hok]⟩
  | optNone f =>
    intro hu X hE
    cases hE with
    | opt _ m fm x nm hE ho hc =>
      obtain ⟨trees, h1, h2⟩ := only_intro ho (ts := []) (by simp) .nil
      exact ⟨_, by simp, trees, h1, fun hok => by rw [h2]; simp [piecesList]⟩
  | optSome f w ps hO ih =>
    intro hu X hE
    cases hE with
    | opt _ m fm x nm hE ho hc =>
      obtain ⟨ts, hts, kids, hd, hp⟩ := ih hu hE
      obtain rfl := List.mem_singleton.1 hts
      obtain ⟨k2, h4, _, h6⟩ := conv_size (fun h => (hc h).2) hd
      obtain ⟨trees, h1, h2⟩ := only_intro ho (by simp) h4
      exact ⟨_, by simp, trees, h1, fun hok => by rw [h2, h6 hok, hp hok]⟩
  | plusOne f w ps hO ih =>
    intro hu X hE
    cases hE with
    | plus _ m fm x nm hE ho hc =>
      obtain ⟨ts, hts, kids, hd, hp⟩ := ih hu hE
      obtain rfl := List.mem_singleton.1 hts
      obtain ⟨k2, h4, _, h6⟩ := conv_size (fun h => (hc h).2) hd
      obtain ⟨trees, h1, h2⟩ := only_intro ho (by simp) h4
      exact ⟨_, by simp, trees, h1, fun hok => by rw [h2, h6 hok, hp hok]⟩
  | plusMore f u v ps qs hO1 hO2 ih1 ih2 =>
    intro hu X hE
    cases hE with
    | plus _ m fm x nm hE ho hc =>
      obtain ⟨ts, hts, kids, hd, hp⟩ := ih2 (fun c hc => hu c (by simp [hc])) hE
      obtain rfl := List.mem_singleton.1 hts
      obtain ⟨k2, h4, _, h6⟩ := conv_size (fun h => (hc h).2) hd
      obtain ⟨ts, hts, kidsA, hdA, hpA⟩ := ih1 (fun c hc => hu c (by simp [hc])) (.plus f m fm x nm hE ho hc)
      obtain rfl := List.mem_singleton.1 hts
      obtain ⟨trees, h1, h2⟩ := only_intro ho (ts := [⟨b#'-', .n nm⟩, ⟨fm, x⟩]) (by simp) (derives_append hdA h4)
      exact ⟨_, by simp, trees, h1, fun hok => by rw [h2, piecesList_append, hpA hok, h6 hok, hp hok]⟩
  | starNil f =>
    intro hu X hE
    cases hE with
    | star _ m fm x nm hE ho hc =>
      obtain ⟨trees, h1, h2⟩ := only_intro ho (ts := []) (by simp) .nil
      exact ⟨_, by simp, trees, h1, fun hok => by rw [h2]; simp [piecesList]⟩
  | starMore f u v ps qs hO1 hO2 ih1 ih2 =>
    intro hu X hE
    cases hE with
    | star _ m fm x nm hE ho hc =>
      obtain ⟨ts, hts, kids, hd, hp⟩ := ih2 (fun c hc => hu c (by simp [hc])) hE
      obtain rfl := List.mem_singleton.1 hts
      obtain ⟨k2, h4, _, h6⟩ := conv_size (fun h => (hc h).2) hd
      obtain ⟨ts, hts, kidsA, hdA, hpA⟩ := ih1 (fun c hc => hu c (by simp [hc])) (.star f m fm x nm hE ho hc)
      obtain rfl := List.mem_singleton.1 hts
      obtain ⟨trees, h1, h2⟩ := only_intro ho (ts := [⟨b#'-', .n nm⟩, ⟨fm, x⟩]) (by simp) (derives_append hdA h4)
      exact ⟨_, by simp, trees, h1, fun hok => by rw [h2, piecesList_append, hpA hok, h6 hok, hp hok]⟩
  | plusSepOne f s w ps hO ih =>
    intro hu X hE
    cases hE with
    | plusSep _ _ m fm l lm x y nm hE hS ho hc hc2 =>
      obtain ⟨ts, hts, kids, hd, hp⟩ := ih hu hE
      obtain rfl := List.mem_singleton.1 hts
      obtain ⟨k2, h4, _, h6⟩ := conv_size (fun h => (hc h).2) hd
      obtain ⟨trees, h1, h2⟩ := only_intro ho (by simp) h4
      exact ⟨_, by simp, trees, h1, fun hok => by rw [h2, h6 hok, hp hok]⟩
  | plusSepMore f s u v w ps qs rs hO1 hO2 hO3 ih1 ih2 ih3 =>
    intro hu X hE
    cases hE with
    | plusSep _ _ m fm l lm x y nm hE hS ho hc hc2 =>
      obtain ⟨ts, hts, kids, hd, hp⟩ := ih3 (fun c hc => hu c (by simp [hc])) hE
      obtain rfl := List.mem_singleton.1 hts
      obtain ⟨k2, h4, _, h6⟩ := conv_size (fun h => (hc h).2) hd
      obtain ⟨ts, hts, kids3, hd3, hp3⟩ := ih2 (fun c hc => hu c (by simp [hc])) hS
      obtain rfl := List.mem_singleton.1 hts
      obtain ⟨k3, h7, _, h9⟩ := conv_size (fun h => (hc2 h).2) hd3
      obtain ⟨ts, hts, kidsA, hdA, hpA⟩ := ih1 (fun c hc => hu c (by simp [hc])) (.plusSep f s m fm l lm x y nm hE hS ho hc hc2)
      obtain rfl := List.mem_singleton.1 hts
      obtain ⟨trees, h1, h2⟩ := only_intro ho (ts := [⟨b#'-', .n nm⟩, ⟨lm, y⟩, ⟨fm, x⟩]) (by simp) (derives_append hdA (derives_append h7 h4))
      exact ⟨_, by simp, trees, h1, fun hok => by rw [h2, piecesList_append, piecesList_append, hpA hok, h6 hok, hp hok, h9 hok, hp3 hok]⟩
  | starSepNil f s =>
    intro hu X hE
    cases hE with
    | starSep _ _ nm o hE ho =>
      obtain ⟨trees, h1, h2⟩ := only_intro ho (ts := []) (by simp) .nil
      exact ⟨_, by simp, trees, h1, fun hok => by rw [h2]; simp [piecesList]⟩
  | starSepSome f s w ps hO ih =>
    intro hu X hE
    cases hE with
    | starSep _ _ nm o hE ho =>
      obtain ⟨ts, hts, kids, hd, hp⟩ := ih hu hE
      obtain rfl := List.mem_singleton.1 hts
      obtain ⟨trees, h1, h2⟩ := only_intro ho (by simp) hd
      exact ⟨_, by simp, trees, h1, fun hok => by rw [h2, hp hok]⟩
  | eps =>
    intro hu X hE
    cases hE
    exact ⟨[], by simp, [], .nil, fun _ => by simp [piecesList]⟩
  | seq a b u v ps qs hO1 hO2 ih1 ih2 =>
    intro hu X hE
    cases hE with
    | seq _ _ x y hA hB =>
      obtain ⟨ts, hts, kidsA, hdA, hpA⟩ := ih1 (fun c hc => hu c (by simp [hc])) hA
      obtain rfl := List.mem_singleton.1 hts
      obtain ⟨ts, hts, kidsB, hdB, hpB⟩ := ih2 (fun c hc => hu c (by simp [hc])) hB
      obtain rfl := List.mem_singleton.1 hts
      exact ⟨_, by simp, _, derives_append hdA hdB, fun hok => by rw [piecesList_append, hpA hok, hpB hok]⟩
  | altL a b w ps hO ih =>
    intro hu X hE
    cases hE with
    | alt _ _ x Y hA hB =>
      obtain ⟨ts, hts, kids, hd, hp⟩ := ih hu hA
      obtain rfl := List.mem_singleton.1 hts
      exact ⟨_, by simp, kids, hd, hp⟩
  | altR a b w ps hO ih =>
    intro hu X hE
    cases hE with
    | alt _ _ x Y hA hB =>
      obtain ⟨ts, hts, kids, hd, hp⟩ := ih hu hB
      exact ⟨ts, by simp [hts], kids, hd, hp⟩

end Xmq.Ixml
