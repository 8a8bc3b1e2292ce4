import Verif.Model.IxmlParse
import Verif.Props.Earley
import Verif.Props.Ixml
import Verif.Props.Charset
import Verif.Lemmas.IxmlFit
/-!
# C60, C61: reading a content with a grammar in invisible XML, and reading another one
-/
namespace Xmq.Props
open Xmq Xmq.Ixml Xmq.Spec Xmq.Spec.Ixml Xmq.Yaep

/-! ## Trees of the Earley parser and trees with names and marks -/

theorem allRules_get {rs : List Ixml.Rule} {r : Nat} {ρ : Yaep.Rule} (h : (allRules rs)[r]? = some ρ) (hn : ρ.lhs ≠ b#"$S") :
    ∃ q, rs[r - 1]? = some q ∧ ρ = ⟨q.name, q.rhs.map fun t => t.sym⟩ ∧ 1 ≤ r := by
  cases rs with
  | nil => simp [allRules] at h
  | cons r0 rs =>
    unfold allRules at h
    cases r with
    | zero =>
      simp at h
      rw [← h] at hn
      exact absurd rfl hn
    | succ r =>
      simp only [List.cons_append, List.getElem?_cons_succ] at h
      by_cases hr : r < (plainRules (r0 :: rs)).length
      · rw [List.getElem?_append_left hr] at h
        unfold plainRules at h
        rw [List.getElem?_map] at h
        obtain ⟨q, hq, e⟩ := Option.map_eq_some_iff.1 h
        exact ⟨q, by simpa using hq, e.symm, by omega⟩
      · rw [List.getElem?_append_right (by omega)] at h
        have := List.mem_of_getElem? h
        rw [List.mem_singleton.1 this] at hn
        exact absurd rfl hn

theorem allRules_own {rs : List Ixml.Rule} {q : Ixml.Rule} (h : q ∈ rs) : ∃ r, rs[r]? = some q ∧ (allRules rs)[r + 1]? = some ⟨q.name, q.rhs.map fun t => t.sym⟩ := by
  obtain ⟨r, hr⟩ := List.mem_iff_getElem?.1 h
  refine ⟨r, hr, ?_⟩
  cases rs with
  | nil => cases h
  | cons r0 rs =>
    have hlt : r < (plainRules (r0 :: rs)).length := by
      unfold plainRules
      rw [List.length_map]
      exact (List.getElem?_eq_some_iff.1 hr).1
    unfold allRules
    simp only [List.cons_append, List.getElem?_cons_succ]
    rw [List.getElem?_append_left hlt]
    unfold plainRules
    rw [List.getElem?_map, hr]
    rfl

/-- The symbol of the parser's own does not occur. -/
def NoAxiom (ts : List Term) : Prop := ∀ t ∈ ts, t.sym ≠ .n b#"$S"

theorem parses_derives {rs : List Ixml.Rule} (hS : ∀ r ∈ rs, NoAxiom r.rhs) {α : List Sym} {ts : List PT} {v : List Int} (h : Parses (allRules rs) α ts v) :
    ∀ (terms : List Term) (w : List Nat), NoAxiom terms → terms.map (fun t => t.sym) = α → v = tokens w → Derives rs terms (dressAll rs terms ts) w := by
  induction h with
  | nil =>
    intro terms w _ he hw
    cases terms with
    | cons _ _ => cases he
    | nil =>
      cases w with
      | cons _ _ => cases hw
      | nil => exact .nil
  | leaf c α ts v _ ih =>
    intro terms w hn he hw
    cases terms with
    | nil => cases he
    | cons t terms =>
      cases w with
      | nil => cases hw
      | cons x w =>
        obtain ⟨m, s⟩ := t
        simp only [List.map_cons, List.cons.injEq] at he
        obtain ⟨rfl, he⟩ := he
        simp only [tokens, List.map_cons, List.cons.injEq] at hw
        obtain ⟨rfl, hw⟩ := hw
        exact .term m x _ _ w (ih terms w (fun t ht => hn t (List.mem_cons_of_mem _ ht)) he hw)
  | node r ρ kids u α ts v hr _ _ ih1 ih2 =>
    intro terms w hn he hw
    cases terms with
    | nil => cases he
    | cons t terms =>
      obtain ⟨m, s⟩ := t
      simp only [List.map_cons, List.cons.injEq] at he
      obtain ⟨rfl, he⟩ := he
      have hne : ρ.lhs ≠ b#"$S" := fun e => hn _ List.mem_cons_self (by rw [e])
      obtain ⟨q, hq, rfl, h1⟩ := allRules_get hr hne
      have hmem := List.mem_of_getElem? hq
      obtain ⟨w1, w2, rfl, e1, e2⟩ := List.map_eq_append_iff.1 hw.symm
      have := Derives.node m q _ w1 _ _ w2 hmem (ih1 q.rhs w1 (hS q hmem) rfl e1.symm) (ih2 terms w2 (fun t ht => hn t (List.mem_cons_of_mem _ ht)) he e2.symm)
      show Derives rs _ (dress rs m (.node r kids) :: dressAll rs terms ts) _
      rw [dress]
      simp only [hq]
      exact this

theorem derives_parses {rs : List Ixml.Rule} {terms : List Term} {trees : List Tree} {w : List Nat} (h : Derives rs terms trees w) :
    ∃ ts, Parses (allRules rs) (terms.map fun t => t.sym) ts (tokens w) ∧ dressAll rs terms ts = trees := by
  induction h with
  | nil => exact ⟨[], .nil, rfl⟩
  | term m c terms trees w _ ih =>
    obtain ⟨ts, h1, h2⟩ := ih
    exact ⟨.leaf c :: ts, .leaf _ _ _ _ h1, by rw [dressAll, h2, dress]; rfl⟩
  | node m q kids u terms trees w hq _ _ ih1 ih2 =>
    obtain ⟨ks, h1, h2⟩ := ih1
    obtain ⟨ts, h3, h4⟩ := ih2
    obtain ⟨r, hr, hr'⟩ := allRules_own hq
    refine ⟨.node (r + 1) ks :: ts, ?_, ?_⟩
    · have := Parses.node (R := allRules rs) (r + 1) _ ks (tokens u) _ ts (tokens w) hr' h1 h3
      simpa [tokens] using this
    · rw [dressAll, h4, dress]
      simp only [Nat.add_sub_cancel, hr, h2]

theorem plain_fit {R : List Ixml.Rule} (h0 : R ≠ []) (h : PlainRules R) : Fit R := by
  refine ⟨⟨h0, fun r hr => ⟨(h r hr).1.2, (h r hr).1.1, fun t ht => ⟨?_, ?_⟩⟩⟩, fun r hr t ht => ?_⟩
  · intro e
    have := (h r hr).2 t ht
    rw [e] at this
    exact this.2 rfl
  · intro c e
    have := (h r hr).2 t ht
    rw [e] at this
    exact this
  · intro e
    have := (h r hr).2 t ht
    rw [e] at this
    exact this.1 rfl

/-- Text with code points of Unicode. -/
def IsText (w : List Nat) : Prop := ∀ c ∈ w, c < 0x110000

theorem parseBuffer_fresh {st : St} {w : List Nat} {R : List Ixml.Rule} (hw : IsText w) (hR : grammarFor st w = some R) :
    (parseBuffer (Kept.fresh st) (utf8Text w)).1 = match parseWith R (tokens w) with
      | none => .refused
      | some (.stopped _) => .stopped
      | some (.noTree i) => .nothing i
      | some (.tree t amb) => .document (pieces (dress R 0 t)) amb := by
  unfold parseBuffer
  rw [C48_scan_partial w hw]
  unfold grammarFor at hR
  simp only [Kept.fresh, List.drop_zero]
  split at hR
  · cases hR
  · next l hl =>
    cases hR
    simp only [hl]
    rfl

theorem parseBuffer_document {st : St} {w : List Nat} {R : List Ixml.Rule} (hw : IsText w) (hR : grammarFor st w = some R) {ps : List Piece} {warning : Bool}
    (h : (parseBuffer (Kept.fresh st) (utf8Text w)).1 = .document ps warning) : ∃ t, parseWith R (tokens w) = some (.tree t warning) ∧ ps = pieces (dress R 0 t) := by
  rw [parseBuffer_fresh hw hR] at h
  cases hy : parseWith R (tokens w) with
  | none => rw [hy] at h; cases h
  | some a =>
    rw [hy] at h
    cases a with
    | tree t amb => cases h; exact ⟨t, rfl, rfl⟩
    | noTree k => cases h
    | stopped s => cases h

/-- The parts that the theorems below have in common. -/
theorem parse_parts {r0 : GRule} {g : List GRule} {text : List Byte} (h : WGrammar true (r0 :: g) text) (he : AllNames (· ≠ b#"error") (r0 :: g)) (w : List Nat) :
    ∃ st R q, readGrammar text = .ok st ∧ grammarFor st w = some R ∧ Fit R ∧ R.head? = some q ∧ q.name = r0.name ∧ NoAxiom [⟨0, .n r0.name⟩] ∧ (∀ r ∈ R, NoAxiom r.rhs) := by
  obtain ⟨st, R, e1, e2, h0, hp⟩ := grammar_plain h he w
  have hf := plain_fit h0 hp
  obtain ⟨q, hq⟩ := fit_head hf
  obtain ⟨st', R', e1', e2', _, _, _, hs⟩ := grammar_enc h w
  rw [e1] at e1'
  cases e1'
  rw [e2] at e2'
  cases e2'
  unfold startOf at hs
  rw [hq] at hs
  have hs : q.name = r0.name := by simpa using hs
  refine ⟨st, R, q, e1, e2, hf, hq, hs, ?_, fun r hr t ht => hf.2 r hr t ht⟩
  intro t ht
  rw [List.mem_singleton.1 ht, ← hs]
  intro e
  injection e with e
  exact (hf.1.2 q (List.mem_of_head? hq)).2.1 e

theorem parses_single {R : List Yaep.Rule} {a : List Byte} {ts : List PT} {v : List Int} (h : Parses R [.n a] ts v) : ∃ t, ts = [t] := by
  generalize hα : [Sym.n a] = α at h
  cases h with
  | nil => cases hα
  | leaf => cases hα
  | node r ρ kids u α ts w hr hk hrest =>
    simp only [List.cons.injEq] at hα
    obtain ⟨_, rfl⟩ := hα
    generalize w = w' at hrest
    cases hrest
    exact ⟨_, rfl⟩

theorem derives_yields {rs : List Ixml.Rule} {terms : List Term} {trees : List Tree} {w : List Nat} (h : Derives rs terms trees w) :
    Yields (GivenRules rs) (terms.map fun t => t.sym) (letters w) := by
  induction h with
  | nil => exact .refl
  | term m c terms trees w _ ih => exact Cfg.Yields.append (α := [.t c]) (β := [.t c]) .refl ih
  | node m q kids u terms trees w hq _ _ ih1 ih2 =>
    have h1 : Yields (GivenRules rs) [.n q.name] (letters u) := Cfg.Yields.trans (Cfg.Yields.rule (given_of q hq)) ih1
    have := Cfg.Yields.append h1 ih2
    simpa [letters] using this

/-! ## C60 -/

/-- C60, as it should be: with a grammar of ixml every text is read, the document is one that ixml prescribes for it, and a text that the grammar does not match gives none. -/
def C60_reads : Prop :=
  ∀ (r0 : GRule) (g : List GRule) (text : List Byte) (w : List Nat), WGrammar false (r0 :: g) text → IsText w →
    ∃ st, readGrammar text = .ok st ∧
      ((∃ ps warning, (parseBuffer (Kept.fresh st) (utf8Text w)).1 = .document ps warning ∧ Out tableCat (r0 :: g) (.ref 0 r0.name none) w ps) ∨
        (∃ k, (parseBuffer (Kept.fresh st) (utf8Text w)).1 = .nothing k) ∧ ¬ Matches tableCat (r0 :: g) (.ref 0 r0.name none) w)

/-- What comes into the document is what ixml prescribes for the text, for the grammars the reader understands. -/
theorem C60_document_partial (r0 : GRule) (g : List GRule) (text : List Byte) (w : List Nat) (h : WGrammar true (r0 :: g) text) (ht : TidyGrammar (r0 :: g))
    (he : AllNames (· ≠ b#"error") (r0 :: g)) (hw : IsText w) (st : St) (hst : readGrammar text = .ok st) (ps : List Piece) (warning : Bool)
    (hp : (parseBuffer (Kept.fresh st) (utf8Text w)).1 = .document ps warning) : Out tableCat (r0 :: g) (.ref 0 r0.name none) w ps := by
  obtain ⟨st', R, q, e1, e2, hf, hq, hn, hN, hS⟩ := parse_parts h he w
  rw [hst] at e1
  cases e1
  obtain ⟨t, hy, rfl⟩ := parseBuffer_document hw e2 hp
  obtain ⟨q', hq', hparse⟩ := C58_tree R w t warning hf hy
  rw [hq] at hq'
  cases hq'
  rw [hn] at hparse
  have hd := parses_derives hS hparse [⟨0, .n r0.name⟩] w hN rfl rfl
  obtain ⟨st', R', e1', e2', h1, _⟩ := C53_document_partial r0 g text h ht w
  rw [hst] at e1'
  cases e1'
  rw [e2] at e2'
  cases e2'
  have := h1 _ hd
  simpa [dressAll, piecesList] using this

/-- A text is accepted exactly if the grammar matches it, where the grammar is not refused and no rule gets in its own way; otherwise the document is left as it is. -/
theorem C60_language_partial (r0 : GRule) (g : List GRule) (text : List Byte) (w : List Nat) (h : WGrammar true (r0 :: g) text)
    (he : AllNames (· ≠ b#"error") (r0 :: g)) (hw : IsText w) (st : St) (hst : readGrammar text = .ok st)
    (hfree : ∀ R, grammarFor st w = some R → Free R w) (hr : (parseBuffer (Kept.fresh st) (utf8Text w)).1 ≠ .refused) :
    ((∃ ps warning, (parseBuffer (Kept.fresh st) (utf8Text w)).1 = .document ps warning) ↔ Matches tableCat (r0 :: g) (.ref 0 r0.name none) w) ∧
      ((∃ k, (parseBuffer (Kept.fresh st) (utf8Text w)).1 = .nothing k) ↔ ¬ Matches tableCat (r0 :: g) (.ref 0 r0.name none) w) := by
  obtain ⟨st', R, q, e1, e2, hf, hq, hn, hN, hS⟩ := parse_parts h he w
  rw [hst] at e1
  cases e1
  obtain ⟨st', R', e1', e2', _, hlang⟩ := C52_same_language_partial r0 g text h w
  rw [hst] at e1'
  cases e1'
  rw [e2] at e2'
  cases e2'
  rw [parseBuffer_fresh hw e2] at hr ⊢
  have hin : Matches tableCat (r0 :: g) (.ref 0 r0.name none) w → InLanguage R w := by
    intro hm
    obtain ⟨trees, hd⟩ := hlang.2 hm
    rw [← hn] at hd
    exact ⟨q, hq, derives_yields hd⟩
  have htree : ∀ t amb, parseWith R (tokens w) = some (.tree t amb) → Matches tableCat (r0 :: g) (.ref 0 r0.name none) w := by
    intro t amb hy
    obtain ⟨q', hq', hparse⟩ := C58_tree R w t amb hf hy
    rw [hq] at hq'
    cases hq'
    rw [hn] at hparse
    exact hlang.1 ⟨_, parses_derives hS hparse [⟨0, .n r0.name⟩] w hN rfl rfl⟩
  cases hy : parseWith R (tokens w) with
  | none => rw [hy] at hr; exact absurd rfl hr
  | some a =>
    obtain ⟨h1, h2⟩ := C57_exact_partial R w a hf (hfree R e2) hy
    cases a with
    | tree t amb =>
      have hm := htree t amb hy
      exact ⟨⟨fun _ => hm, fun _ => ⟨_, _, rfl⟩⟩, ⟨fun ⟨k, e⟩ => (by cases e), fun hc => absurd hm hc⟩⟩
    | noTree k =>
      have hm := fun hm => h2.1 ⟨k, rfl⟩ (hin hm)
      exact ⟨⟨fun ⟨_, _, e⟩ => (by cases e), fun hc => absurd hc hm⟩, ⟨fun _ => hm, fun _ => ⟨k, rfl⟩⟩⟩
    | stopped s =>
      exfalso
      by_cases hl : InLanguage R w
      · obtain ⟨_, _, e⟩ := h1.2 hl
        cases e
      · obtain ⟨_, e⟩ := h2.2 hl
        cases e

/-- Without the warning there is nothing else that ixml prescribes for the text. -/
theorem C60_only_partial (r0 : GRule) (g : List GRule) (text : List Byte) (w : List Nat) (h : WGrammar true (r0 :: g) text) (ht : TidyGrammar (r0 :: g))
    (he : AllNames (· ≠ b#"error") (r0 :: g)) (hw : IsText w) (st : St) (hst : readGrammar text = .ok st) (hfree : ∀ R, grammarFor st w = some R → Free R w) (ps : List Piece)
    (hp : (parseBuffer (Kept.fresh st) (utf8Text w)).1 = .document ps false) (qs : List Piece) : Out tableCat (r0 :: g) (.ref 0 r0.name none) w qs ↔ qs = ps := by
  constructor
  · intro ho
    obtain ⟨st', R, q, e1, e2, hf, hq, hn, hN, hS⟩ := parse_parts h he w
    rw [hst] at e1
    cases e1
    obtain ⟨t, hy, rfl⟩ := parseBuffer_document hw e2 hp
    obtain ⟨st', R', e1', e2', _, h2⟩ := C53_document_partial r0 g text h ht w
    rw [hst] at e1'
    cases e1'
    rw [e2] at e2'
    cases e2'
    obtain ⟨trees, hd, rfl⟩ := h2 qs ho
    obtain ⟨ts, hts, rfl⟩ := derives_parses hd
    rw [← hn] at hts
    obtain ⟨u, rfl⟩ := parses_single hts
    rw [C58_unambiguous_partial R w t hf (hfree R e2) hy q hq u hts]
    simp [dressAll, piecesList]
  · rintro rfl
    exact C60_document_partial r0 g text w h ht he hw st hst qs false hp

/-- The grammar is refused exactly if a symbol derives itself. -/
theorem C60_refused_partial (r0 : GRule) (g : List GRule) (text : List Byte) (w : List Nat) (h : WGrammar true (r0 :: g) text) (he : AllNames (· ≠ b#"error") (r0 :: g)) (hw : IsText w)
    (st : St) (hst : readGrammar text = .ok st) :
    ∃ R, grammarFor st w = some R ∧ ((parseBuffer (Kept.fresh st) (utf8Text w)).1 = .refused ↔ ∃ x, Loops (GivenRules R) x) := by
  obtain ⟨st', R, q, e1, e2, hf, hq, hn, hN, hS⟩ := parse_parts h he w
  rw [hst] at e1
  cases e1
  refine ⟨R, e2, ?_⟩
  rw [parseBuffer_fresh hw e2]
  obtain ⟨h1, h2⟩ := accepted_iff R hf.1
  unfold parseWith
  cases hy : readYaep R with
  | accepted rules fl ff =>
    have hl : ¬ ∃ x, Loops (GivenRules R) x := h1.1 ⟨_, _, _, hy⟩
    refine ⟨fun e => ?_, fun hc => absurd hc hl⟩
    simp only at e
    split at e <;> simp_all
  | loop n => exact ⟨fun _ => h2.1 ⟨n, hy⟩, fun _ => rfl⟩
  | _ =>
    exfalso
    by_cases hl : ∃ x, Loops (GivenRules R) x
    · obtain ⟨n, e⟩ := h2.2 hl
      rw [hy] at e
      cases e
    · obtain ⟨_, _, _, e⟩ := h1.2 hl
      rw [hy] at e
      cases e

theorem C60_false : ¬ C60_reads := by
  intro h
  obtain ⟨g, text, hw, he⟩ := C52_false_rejected
  cases g with
  | nil =>
    obtain ⟨s, p, t, hs, hp, ht, hx⟩ := hw
    cases ht
  | cons r0 g =>
    obtain ⟨st, e, _⟩ := h r0 g text [] hw (by intro c hc; cases hc)
    rw [he] at e
    cases e

/-! ## Concrete cases -/

theorem w_ref (c : Byte) (hc : IsLetter c) : W true .term (.ref 0 [c] none) [c] := .one _ _ (.ref _ _ _ _ (naming_one c hc))
theorem w_lit (c : Nat) (h0 : 0 < c) (h1 : c < 0x110000) (h2 : c ≠ 34) : W true .term (.lit 0 [c]) (b#'"' :: ((utf8 c ++ []) ++ [b#'"'])) := by
  have := W.lit (lim := true) 0 [c] [] _ [] .none (quoted_one c h0 h1 h2) .nil
  simp only [List.nil_append, List.append_nil] at this ⊢
  exact .one _ _ this
theorem w_seq {a b : Rx} {t u : List Byte} (ha : W true .term a t) (hb : W true .seq b u) (hne : b ≠ .eps) : W true .seq (.seq a b) (t ++ b#',' :: u) :=
  .seq a b t [] u ha .nil hb hne
theorem w_alt {a b : Rx} {t u : List Byte} (ha : W true .seq a t) (hb : W true .alts b u) : W true .alts (.alt a b) (t ++ b#'|' :: u) :=
  .alt a b (b#'|') t [] u ha (.inr rfl) .nil hb (fun _ _ => rfl)

/-- `s:"x"++-",",@a.a:"y"|.` -/
def caseText : List Byte := b#"s:\"x\"++-\",\",@a.a:\"y\"|."
def caseGrammar : List GRule :=
  [⟨0, b#"s", none, .seq (.plusSep (.lit 0 [120]) (.lit (b#'-') [44])) (.ref (b#'@') b#"a" none)⟩, ⟨0, b#"a", none, .alt (.lit 0 [121]) .eps⟩]
def caseRules : List Ixml.Rule :=
  [⟨b#"s", none, 0, [⟨b#'-', .n b#"|0"⟩, ⟨b#'@', .n b#"a"⟩]⟩, hidden b#"|0" [⟨0, .t 120⟩], hidden b#"|0" [⟨b#'-', .n b#"|0"⟩, ⟨b#'-', .t 44⟩, ⟨0, .t 120⟩],
   ⟨b#"a", none, 0, [⟨0, .t 121⟩]⟩, ⟨b#"a", none, 0, []⟩]
def caseState : St := ⟨[], caseRules, 4, 1, 0, []⟩

theorem case_written : WGrammar true caseGrammar caseText := by
  have ha : W true .term (.ref (b#'@') b#"a" none) _ :=
    .one _ _ (.ref _ _ _ _ (.mk (b#'@') b#"a" none [b#'@'] [] [] (.mk _ [] (.inl rfl) ⟨.nil, by simp⟩) (name_one _ (.inl (by decide))) .nil .none))
  have hx : W true .fac (.lit 0 [120]) _ := .lit 0 _ [] _ [] .none (quoted_one 120 (by decide) (by decide) (by decide)) .nil
  have hsep : W true .fac (.lit (b#'-') [44]) _ :=
    .lit _ _ [b#'-'] _ [] (.mk _ [] (.inr rfl) ⟨.nil, by simp⟩) (quoted_one 44 (by decide) (by decide) (by decide)) .nil
  have hb := w_alt (.last _ _ (w_lit 121 (by decide) (by decide) (by decide))) (.alone _ _ .eps)
  have hs : W true .alts (.seq (.plusSep (.lit 0 [120]) (.lit (b#'-') [44])) (.ref (b#'@') b#"a" none)) _ :=
    .alone _ _ (.seq _ _ _ [] _ (.plusSep _ _ _ [] _ hx .nil hsep (fun _ => ⟨by simp [Spec.Ixml.Empty], by simp [Spec.Ixml.Empty]⟩)) .nil (.last _ _ ha) (by simp))
  exact WGrammar.mk (lim := true) caseGrammar [] [] _ .nil .none
    (.cons _ _ _ _ (rule_one (b#'s') (.inl (by decide)) _ _ hs) (.one _ _ (rule_one (b#'a') (.inl (by decide)) _ _ hb))) (by intro _ _ c u e; simp at e)
theorem case_tidy : TidyGrammar caseGrammar := by
  refine ⟨?_, .inr ?_⟩
  · simp [caseGrammar, TidyRules, Tidy, markAfter, Unmarked]
  · simp [caseGrammar, Inserts]
theorem case_names : AllNames (· ≠ b#"error") caseGrammar := by simp [caseGrammar, AllNames, Refs]
theorem case_read : readGrammar caseText = .ok caseState ∧ ∀ w, grammarFor caseState w = some caseRules := ⟨by rfl, fun _ => by rfl⟩

theorem case_nullable (x : Sym) (h : Nullable (GivenRules caseRules) x) : x = .n b#"a" := by
  refine Cfg.gen_nil (E := fun x => x = .n b#"a") ?_ (Cfg.yields_gen h) rfl x (by simp)
  rintro x rhs ⟨r, hr, rfl, rfl⟩ hall
  simp only [caseRules, List.mem_cons, List.not_mem_nil, or_false] at hr
  rcases hr with rfl | rfl | rfl | rfl | rfl <;> simp_all [hidden]
theorem case_free (w : List Nat) : Free caseRules w := by
  refine free_of_single caseRules ?_ w
  rintro x rhs ⟨r, hr, rfl, rfl⟩ y z rest e hy hz
  simp only [caseRules, List.mem_cons, List.not_mem_nil, or_false] at hr
  have h1 := case_nullable y hy
  rcases hr with rfl | rfl | rfl | rfl | rfl <;> simp [hidden] at e
  · obtain ⟨rfl, _⟩ := e
    simp at h1
  · obtain ⟨rfl, _⟩ := e
    simp at h1

/-- What is needed of an outcome, as a test. -/
def gives (t : List Piece → Bool) (warning : Bool) : Outcome → Bool
  | .document ps w => t ps && w == warning
  | _ => false
def givesNothing (k : Nat) : Outcome → Bool
  | .nothing k' => k' == k
  | _ => false
def isCase : List Piece → Bool
  | [.elem [115] [.text [120], .text [120], .attr [97] [121]]] => true
  | _ => false
theorem gives_some {t : List Piece → Bool} {warning : Bool} {o : Outcome} (h : gives t warning o = true) : ∃ ps, o = .document ps warning ∧ t ps = true := by
  unfold gives at h
  split at h
  · next ps w =>
    simp only [Bool.and_eq_true, beq_iff_eq] at h
    exact ⟨ps, by rw [h.2], h.1⟩
  · cases h
theorem givesNothing_some {k : Nat} {o : Outcome} (h : givesNothing k o = true) : o = .nothing k := by
  unfold givesNothing at h
  split at h
  · rw [eq_of_beq h]
  · cases h

/-- `x,xy` is read as `s(a=y){xx}`. -/
theorem case_document : ∃ ps, (parseBuffer (Kept.fresh caseState) b#"x,xy").1 = .document ps false ∧ isCase ps = true := gives_some (by decide +kernel)
theorem case_nothing : (parseBuffer (Kept.fresh caseState) b#"x,y").1 = .nothing 2 := givesNothing_some (by decide +kernel)

example (qs : List Piece) : Out tableCat caseGrammar (.ref 0 b#"s" none) [120, 44, 120, 121] qs → isCase qs = true := by
  obtain ⟨ps, h1, h2⟩ := case_document
  intro h
  rw [(C60_only_partial _ _ _ [120, 44, 120, 121] case_written case_tidy case_names (by simp [IsText]) caseState case_read.1
    (fun R e => by rw [case_read.2] at e; cases e; exact case_free _) ps h1 qs).1 h]
  exact h2

/-- The function says that all is well exactly if the grammar matches the text. -/
def C60_returns : Prop :=
  ∀ (r0 : GRule) (g : List GRule) (text : List Byte) (w : List Nat) (st : St), WGrammar true (r0 :: g) text → IsText w → readGrammar text = .ok st →
    ((parseBuffer (Kept.fresh st) (utf8Text w)).1.returned = some true ↔ Matches tableCat (r0 :: g) (.ref 0 r0.name none) w)

/-- It says so for `x,y` as well. -/
theorem C60_returns_false : ¬ C60_returns := by
  intro h
  have h1 := (h _ _ _ [120, 44, 121] caseState case_written (by simp [IsText]) case_read.1).1 (by
    have : utf8Text [120, 44, 121] = b#"x,y" := by decide +kernel
    rw [this, case_nothing]
    rfl)
  have hn : (parseBuffer (Kept.fresh caseState) (utf8Text [120, 44, 121])).1 = .nothing 2 := case_nothing
  exact (C60_language_partial _ _ _ [120, 44, 121] case_written case_names (by simp [IsText]) caseState case_read.1
    (fun R e => by rw [case_read.2] at e; cases e; exact case_free _) (by rw [hn]; simp)).2.1 ⟨2, hn⟩ h1

/-- `s:a,"q"|"b",a,"r".a:b,c,"d".b:"b"|.c:.` matches `bdr`, but nothing is read. -/
def lostGrammar : List GRule :=
  [⟨0, b#"s", none, .alt (.seq (.ref 0 b#"a" none) (.lit 0 [113])) (.seq (.lit 0 [98]) (.seq (.ref 0 b#"a" none) (.lit 0 [114])))⟩,
   ⟨0, b#"a", none, .seq (.ref 0 b#"b" none) (.seq (.ref 0 b#"c" none) (.lit 0 [100]))⟩, ⟨0, b#"b", none, .alt (.lit 0 [98]) .eps⟩, ⟨0, b#"c", none, .eps⟩]
theorem lost_written : WGrammar true lostGrammar lostText := by
  have hl : ∀ c : Byte, (97 ≤ c.toNat ∧ c.toNat ≤ 122) → IsLetter c := fun c h => .inl h
  have ra := w_ref (b#'a') (hl _ (by decide))
  have hs := w_alt (w_seq ra (.last _ _ (w_lit 113 (by decide) (by decide) (by decide))) (by simp))
    (.alone _ _ (w_seq (w_lit 98 (by decide) (by decide) (by decide)) (w_seq ra (.last _ _ (w_lit 114 (by decide) (by decide) (by decide))) (by simp)) (by simp)))
  have ha : W true .alts _ _ := .alone _ _ (w_seq (w_ref (b#'b') (hl _ (by decide)))
    (w_seq (w_ref (b#'c') (hl _ (by decide))) (.last _ _ (w_lit 100 (by decide) (by decide) (by decide))) (by simp)) (by simp))
  have hb := w_alt (.last _ _ (w_lit 98 (by decide) (by decide) (by decide))) (.alone _ _ .eps)
  have hc : W true .alts .eps [] := .alone _ _ .eps
  exact WGrammar.mk (lim := true) lostGrammar [] [] _ .nil .none
    (.cons _ _ _ _ (rule_one (b#'s') (hl _ (by decide)) _ _ hs) (.cons _ _ _ _ (rule_one (b#'a') (hl _ (by decide)) _ _ ha)
      (.cons _ _ _ _ (rule_one (b#'b') (hl _ (by decide)) _ _ hb) (.one _ _ (rule_one (b#'c') (hl _ (by decide)) _ _ hc))))) (by intro _ _ c u e; simp at e)

theorem C60_false_lost : ∃ st, readGrammar lostText = .ok st ∧ (parseBuffer (Kept.fresh st) b#"bdr").1 = .nothing 2 ∧
    Matches tableCat lostGrammar (.ref 0 b#"s" none) [98, 100, 114] := by
  refine ⟨⟨[], lostRules, 5, 0, 0, []⟩, by rfl, givesNothing_some (by decide +kernel), ?_⟩
  have hb := Out.ref (cat := tableCat) (g := lostGrammar) 0 none ⟨0, b#"b", none, .alt (.lit 0 [98]) .eps⟩ [] _ (by simp [lostGrammar]) (.altR _ _ _ _ .eps)
  have hc := Out.ref (cat := tableCat) (g := lostGrammar) 0 none ⟨0, b#"c", none, .eps⟩ [] _ (by simp [lostGrammar]) .eps
  have ha := Out.ref (cat := tableCat) (g := lostGrammar) 0 none ⟨0, b#"a", none, .seq (.ref 0 b#"b" none) (.seq (.ref 0 b#"c" none) (.lit 0 [100]))⟩ [100] _
    (by simp [lostGrammar]) (.seq _ _ [] [100] _ _ hb (.seq _ _ [] [100] _ _ hc (.lit 0 [100])))
  exact ⟨_, Out.ref (cat := tableCat) (g := lostGrammar) 0 none lostGrammar[0] [98, 100, 114] _ (by simp [lostGrammar])
    (.altR _ _ _ _ (.seq _ _ [98] [100, 114] _ _ (.lit 0 [98]) (.seq _ _ [100] [114] _ _ ha (.lit 0 [114]))))⟩

/-! ## C61 -/

/-- C61, as it should be: a grammar that has been used for a content can be used for another one. -/
def C61_again : Prop :=
  ∀ (text : List Byte) (st : St) (c1 c2 : List Byte), readGrammar text = .ok st → (parseBuffer (Kept.fresh st) c1).1.returned = some true →
    (parseBuffer (parseBuffer (Kept.fresh st) c1).2 c2).1 = (parseBuffer (Kept.fresh st) c2).1

/-- What happens instead: the second time there are no rules but those for the characters of the sets. -/
theorem C61_instead_partial (st : St) (c1 c2 : List Byte) (h : (parseBuffer (Kept.fresh st) c1).1.returned = some true) :
    (parseBuffer (parseBuffer (Kept.fresh st) c1).2 c2).1 = (parseBuffer ⟨[], st.sets, 0⟩ c2).1 := by
  have hk : ∃ rules, (parseBuffer (Kept.fresh st) c1).2 = ⟨rules, st.sets, rules.length⟩ := by
    revert h
    unfold parseBuffer
    split
    · intro h; cases h
    · intro h; cases h
    · split
      · intro h; cases h
      · intro _
        exact ⟨_, rfl⟩
  obtain ⟨rules, hk⟩ := hk
  rw [hk]
  unfold parseBuffer
  split
  · rfl
  · rfl
  · dsimp only
    split
    · rfl
    · simp only [List.drop_append_length, List.nil_append, List.drop_zero]

theorem parseWith_nil (text : List Int) : parseWith [] text = none := rfl

/-- A grammar without sets is refused the second time. -/
theorem C61_without_sets (st : St) (c1 : List Byte) (w : List Nat) (h : (parseBuffer (Kept.fresh st) c1).1.returned = some true) (hs : st.sets = []) (hw : IsText w) :
    (parseBuffer (parseBuffer (Kept.fresh st) c1).2 (utf8Text w)).1 = .refused := by
  rw [C61_instead_partial st c1 _ h, hs]
  unfold parseBuffer
  rw [C48_scan_partial w hw]
  rfl

theorem sets_plain {sets : List CSet} {used : Nat → Bool} {l : List (List Ixml.Rule)} (h : sets.mapM (setRules used) = some l) :
    PlainRules l.flatten ∧ ∀ r ∈ l.flatten, ∃ m c, r.rhs = [⟨m, .t c⟩] := by
  constructor
  · intro r hr
    obtain ⟨x, hx, hrx⟩ := List.mem_flatten.1 hr
    obtain ⟨cs, hcs, e⟩ := mapM_mem h x hx
    unfold setRules at e
    obtain ⟨codes, _, rfl⟩ := Option.map_eq_some_iff.1 e
    obtain ⟨c, _, rfl⟩ := List.mem_map.1 hrx
    exact ⟨plain_set cs, plain_one (Int.natCast_nonneg c)⟩
  · intro r hr
    obtain ⟨x, hx, hrx⟩ := List.mem_flatten.1 hr
    obtain ⟨cs, hcs, e⟩ := mapM_mem h x hx
    unfold setRules at e
    obtain ⟨codes, _, rfl⟩ := Option.map_eq_some_iff.1 e
    obtain ⟨c, _, rfl⟩ := List.mem_map.1 hrx
    exact ⟨_, _, rfl⟩

/-- With any grammar the second text is read only if it is a single character. -/
theorem C61_one_character (st : St) (c1 : List Byte) (w : List Nat) (h : (parseBuffer (Kept.fresh st) c1).1.returned = some true) (hw : IsText w) (ps : List Piece) (warning : Bool)
    (hd : (parseBuffer (parseBuffer (Kept.fresh st) c1).2 (utf8Text w)).1 = .document ps warning) : w.length = 1 := by
  rw [C61_instead_partial st c1 _ h] at hd
  cases hl : st.sets.mapM (setRules fun c => w.contains c) with
  | none =>
    unfold parseBuffer at hd
    rw [C48_scan_partial w hw] at hd
    simp only [hl] at hd
    cases hd
  | some l =>
    have hg : grammarFor ⟨[], [], 0, 0, 0, st.sets⟩ w = some l.flatten := by
      unfold grammarFor
      simp only [hl, List.nil_append]
    obtain ⟨t, hy, _⟩ := parseBuffer_document (st := ⟨[], [], 0, 0, 0, st.sets⟩) hw hg hd
    obtain ⟨h1, h2⟩ := sets_plain hl
    have hne : l.flatten ≠ [] := by
      intro e
      rw [e] at hy
      cases hy
    obtain ⟨r0, _, hin⟩ := C57_sound l.flatten w t warning (plain_fit hne h1) hy
    have key : ∀ δ, Yields (GivenRules l.flatten) [.n r0.name] δ → δ.length = 1 := by
      intro δ hδ
      induction hδ with
      | refl => rfl
      | step u x v rhs _ hp ih =>
        obtain ⟨r, hr, _, rfl⟩ := hp
        obtain ⟨m, c, e⟩ := h2 r hr
        rw [e]
        simpa using ih
    simpa [letters] using key _ hin

/-- `x,xy` can be read with `caseText` only once. -/
theorem C61_false : ¬ C61_again := by
  intro h
  obtain ⟨ps, h1, _⟩ := case_document
  have hr : (parseBuffer (Kept.fresh caseState) b#"x,xy").1.returned = some true := by rw [h1]; rfl
  have h2 := h caseText caseState b#"x,xy" b#"x,xy" case_read.1 hr
  have h3 := C61_without_sets caseState b#"x,xy" [120, 44, 120, 121] hr rfl (by simp [IsText])
  rw [show utf8Text [120, 44, 120, 121] = b#"x,xy" by decide +kernel, h2, h1] at h3
  cases h3

end Xmq.Props
