import Verif.Lemmas.IxmlAll
import Verif.Lemmas.IxmlEnds
/-!
# C52, C53, C54: grammars in invisible XML

`Derives R [⟨0, .n s⟩] trees w` says that the trees are a parse of `w` by the rules `R` from the symbol `s`.  The Earley parser itself is not modelled.
-/
namespace Xmq.Props
open Xmq Xmq.Ixml Xmq.Spec.Ixml

/-! ## Small grammars used below -/

theorem s_one (c : Byte) (h : Blank c) : S lim [c] := .blank c [] h .nil
theorem s_space : S lim [b#' '] := s_one _ (.inl rfl)

theorem quoted_one (c : Nat) (h0 : 0 < c) (h1 : c < 0x110000) (h2 : c ≠ 34) : Quoted [c] (b#'"' :: ((utf8 c ++ []) ++ [b#'"'])) :=
  .mk (b#'"') [c] _ (.inl rfl) (.char c [] [] h0 h1 h2 .nil)

theorem name_one (c : Byte) (h : IsLetter c) : IsName [c] := ⟨c, [], rfl, h, by simp⟩

theorem naming_one (c : Byte) (h : IsLetter c) : WNaming lim 0 [c] none [c] := by
  have := WNaming.mk (lim := lim) 0 [c] none [] [] [] .none (name_one c h) .nil .none
  simpa using this

/-- A rule `n:body.` with a name of one letter. -/
theorem rule_one (c : Byte) (h : IsLetter c) (body : Rx) (t : List Byte) (hb : W lim .alts body t) :
    WRule lim ⟨0, [c], none, body⟩ ([c] ++ b#':' :: ([] ++ (t ++ b#'.' :: []))) :=
  .mk ⟨0, [c], none, body⟩ [c] (b#':') [] t [] (naming_one c h) (.inr rfl) .nil hb .nil

/-- `s:["x"-"z"]++-",",@a.a:"y"|.` -/
def sampleText : List Byte := b#"s:[\"x\"-\"z\"]++-\",\",@a.a:\"y\"|."
def sampleGrammar : List GRule :=
  [⟨0, b#"s", none, .seq (.plusSep (.set 0 false [.range 120 122 false]) (.lit (b#'-') [44])) (.ref (b#'@') b#"a" none)⟩,
   ⟨0, b#"a", none, .alt (.lit 0 [121]) .eps⟩]

theorem sample_written : WGrammar true sampleGrammar sampleText := by
  have ha : W true .term (.ref (b#'@') b#"a" none) _ :=
    .one _ _ (.ref _ _ _ _ (.mk (b#'@') b#"a" none [b#'@'] [] [] (.mk _ [] (.inl rfl) ⟨.nil, by simp⟩) (name_one _ (.inl (by decide))) .nil .none))
  have hset : W true .fac (.set 0 false [.range 120 122 false]) _ :=
    .incl 0 _ [] [] _ [] .none .nil
      (.one _ _ (.range 120 122 false false _ [] [] _ [] (.chr 120 _ (quoted_one 120 (by decide) (by decide) (by decide)) (fun _ => by decide)) .nil .nil
        (.chr 122 _ (quoted_one 122 (by decide) (by decide) (by decide)) (by simp)) .nil)) .nil (fun _ => by decide)
  have hsep : W true .fac (.lit (b#'-') [44]) _ :=
    .lit _ _ [b#'-'] _ [] (.mk _ [] (.inr rfl) ⟨.nil, by simp⟩) (quoted_one 44 (by decide) (by decide) (by decide)) .nil
  have hb : W true .alts (.alt (.lit 0 [121]) .eps) _ :=
    .alt _ _ (b#'|') _ [] [] (.last _ _ (.one _ _ (.lit 0 _ [] _ [] .none (quoted_one 121 (by decide) (by decide) (by decide)) .nil))) (.inr rfl) .nil
      (.alone _ _ .eps) (by simp)
  have hs : W true .alts (.seq (.plusSep (.set 0 false [.range 120 122 false]) (.lit (b#'-') [44])) (.ref (b#'@') b#"a" none)) _ :=
    .alone _ _ (.seq _ _ _ [] _ (.plusSep _ _ _ [] _ hset .nil hsep (fun _ => ⟨by simp [Spec.Ixml.Empty], by simp [Spec.Ixml.Empty]⟩)) .nil (.last _ _ ha) (by simp))
  have := WGrammar.mk (lim := true) sampleGrammar [] [] _ .nil .none
    (.cons _ _ _ _ (rule_one (b#'s') (.inl (by decide)) _ _ hs) (.one _ _ (rule_one (b#'a') (.inl (by decide)) _ _ hb)))
    (by intro _ _ c u e; simp at e)
  exact this

/-! ## What an expression can match -/

theorem out_ref {cat : List Byte → Nat → Prop} {g : List GRule} {m : Byte} {n : List Byte} {al : Option (List Byte)} {w : List Nat} {ps : List Piece}
    (h : Out cat g (.ref m n al) w ps) : ∃ r ∈ g, r.name = n ∧ ∃ qs, Out cat g r.body w qs ∧
      ps = wrap (if m ≠ 0 then m else r.mark) ((al.or r.alias).getD r.name) qs := by
  generalize hx : Rx.ref m n al = x at h
  cases h with
  | ref m' al' r w ps hr ho =>
    cases hx
    exact ⟨r, hr, rfl, ps, ho, rfl⟩
  | _ => cases hx

theorem out_seq {cat : List Byte → Nat → Prop} {g : List GRule} {a b : Rx} {w : List Nat} {ps : List Piece} (h : Out cat g (.seq a b) w ps) :
    ∃ u v qs rs, w = u ++ v ∧ Out cat g a u qs ∧ Out cat g b v rs ∧ ps = qs ++ rs := by
  generalize hx : Rx.seq a b = x at h
  cases h with
  | seq _ _ u v qs rs h1 h2 =>
    cases hx
    exact ⟨u, v, qs, rs, rfl, h1, h2, rfl⟩
  | _ => cases hx

theorem out_lit {cat : List Byte → Nat → Prop} {g : List GRule} {m : Byte} {cs w : List Nat} {ps : List Piece} (h : Out cat g (.lit m cs) w ps) : w = cs := by
  generalize hx : Rx.lit m cs = x at h
  cases h with
  | lit _ _ => cases hx; rfl
  | _ => cases hx

theorem out_lit_pieces {cat : List Byte → Nat → Prop} {g : List GRule} {m : Byte} {cs w : List Nat} {ps : List Piece} (h : Out cat g (.lit m cs) w ps) :
    ps = if m = b#'-' then [] else cs.map fun c => .text (utf8 c) := by
  generalize hx : Rx.lit m cs = x at h
  cases h with
  | lit _ _ => cases hx; rfl
  | _ => cases hx

theorem out_opt {cat : List Byte → Nat → Prop} {g : List GRule} {f : Rx} {w : List Nat} {ps : List Piece} (h : Out cat g (.opt f) w ps) :
    (w = [] ∧ ps = []) ∨ Out cat g f w ps := by
  generalize hx : Rx.opt f = x at h
  cases h with
  | optNone _ => exact .inl ⟨rfl, rfl⟩
  | optSome _ _ _ h => cases hx; exact .inr h
  | _ => cases hx

theorem out_group {cat : List Byte → Nat → Prop} {g : List GRule} {f : Rx} {w : List Nat} {ps : List Piece} (h : Out cat g (.group f) w ps) : Out cat g f w ps := by
  generalize hx : Rx.group f = x at h
  cases h with
  | group _ _ _ h => cases hx; exact h
  | _ => cases hx

/-! ## C52: the language -/

/-- C52, as it should be: the rules made from a written grammar, and cut down to the characters of a content, accept that content exactly
    if the grammar does. -/
def C52_same_language : Prop :=
  ∀ (r0 : GRule) (g : List GRule) (text : List Byte), WGrammar false (r0 :: g) text → ∀ w : List Nat,
    ∃ st R, readGrammar text = .ok st ∧ grammarFor st w = some R ∧ startOf R = some r0.name ∧
      ((∃ trees, Derives R [⟨0, .n r0.name⟩] trees w) ↔ Matches tableCat (r0 :: g) (.ref 0 r0.name none) w)

/-- **C52** for grammars without what the reader does not understand. -/
theorem C52_same_language_partial (r0 : GRule) (g : List GRule) (text : List Byte) (h : WGrammar true (r0 :: g) text) (w : List Nat) :
    ∃ st R, readGrammar text = .ok st ∧ grammarFor st w = some R ∧ startOf R = some r0.name ∧
      ((∃ trees, Derives R [⟨0, .n r0.name⟩] trees w) ↔ Matches tableCat (r0 :: g) (.ref 0 r0.name none) w) := by
  obtain ⟨st, R, e1, e2, hE, hn, _, hs⟩ := grammar_enc h w
  refine ⟨st, R, e1, e2, hs, ?_⟩
  have hr : Enc tableCat (fun c => w.contains c) R (TidyGrammar (r0 :: g)) (.ref 0 r0.name none) [[⟨0, .n r0.name⟩]] :=
    .ref 0 r0.name none (hn r0 (by simp)) (fun _ => rfl) (fun _ h => absurd h (by decide))
  constructor
  · rintro ⟨trees, hd⟩
    obtain ⟨ps, ho, _⟩ := enc_sound hE _ hr _ (by simp) trees w hd (Nat.le_refl _)
    exact ⟨ps, ho⟩
  · rintro ⟨ps, ho⟩
    obtain ⟨ts, hts, trees, hd, _⟩ := enc_complete hE ho (by simp) hr
    obtain rfl := List.mem_singleton.1 hts
    exact ⟨trees, hd⟩

/-- The sample grammar accepts `x,zy`. -/
theorem sample_out : Out tableCat sampleGrammar (.ref 0 b#"s" none) [120, 44, 122, 121]
    [.elem b#"s" [.text b#"x", .text b#"z", .attr b#"a" b#"y"]] := by
  have h1 : Out tableCat sampleGrammar (.ref (b#'@') b#"a" none) [121] [.attr b#"a" b#"y"] :=
    Out.ref (b#'@') none _ [121] [.text b#"y"] (List.mem_cons_of_mem _ (List.mem_cons_self ..)) (.altL _ _ _ _ (.lit 0 [121]))
  have h2 : ∀ c, 120 ≤ c → c ≤ 122 → Out tableCat sampleGrammar (.set 0 false [.range 120 122 false]) [c] [.text (utf8 c)] := by
    intro c a b
    have := Out.set (cat := tableCat) (g := sampleGrammar) 0 false [.range 120 122 false] c (by omega) (by simp [Member.has]; omega)
    simpa using this
  have h3 : Out tableCat sampleGrammar (.lit (b#'-') [44]) [44] [] := by
    have := Out.lit (cat := tableCat) (g := sampleGrammar) (b#'-') [44]
    simpa using this
  have h4 := Out.seq _ _ _ _ _ _ (.plusSepMore _ _ _ _ _ _ _ _ (.plusSepOne _ _ _ _ (h2 120 (by decide) (by decide))) h3 (h2 122 (by decide) (by decide))) h1
  exact Out.ref 0 none _ _ _ (List.mem_cons_self ..) h4

example : ∃ st R, readGrammar sampleText = .ok st ∧ grammarFor st [120, 44, 122, 121] = some R ∧ ∃ trees, Derives R [⟨0, .n b#"s"⟩] trees [120, 44, 122, 121] := by
  obtain ⟨st, R, e1, e2, _, h⟩ := C52_same_language_partial _ _ _ sample_written [120, 44, 122, 121]
  exact ⟨st, R, e1, e2, h.2 ⟨_, sample_out⟩⟩

/-- `s:-{u}"x".`: a comment behind a mark is not understood. -/
theorem C52_false_rejected : ∃ (g : List GRule) (text : List Byte), WGrammar false g text ∧ readGrammar text = .err := by
  refine ⟨_, b#"s:-{u}\"x\".", WGrammar.mk _ [] [] _ .nil .none (.one _ _ (rule_one (b#'s') (.inl (by decide)) (.lit (b#'-') [120]) _
    (.alone _ _ (.last _ _ (.one _ _ (.lit _ _ [b#'-', b#'{', b#'u', b#'}'] _ [] (.mk _ _ (.inr rfl) ⟨.comment [b#'u'] [] (.char _ [] (by decide) (by decide) (by decide) .nil) .nil, by simp⟩)
      (quoted_one 120 (by decide) (by decide) (by decide)) .nil)))))) (by simp), ?_⟩
  rfl

/-- `s:"z",""?.` should match only `z`, but matches nothing as well. -/
def optText : List Byte := b#"s:\"z\",\"\"?."
def optGrammar : List GRule := [⟨0, b#"s", none, .seq (.lit 0 [122]) (.opt (.lit 0 []))⟩]

theorem opt_written : WGrammar false optGrammar optText := by
  have h1 : W false .term (.lit 0 [122]) _ := .one _ _ (.lit 0 _ [] _ [] .none (quoted_one 122 (by decide) (by decide) (by decide)) .nil)
  have h2 : W false .seq (.opt (.lit 0 [])) _ := .last _ _ (.opt _ _ [] (.lit 0 [] [] _ [] .none (.mk (b#'"') [] [] (.inl rfl) .nil) .nil) .nil (by simp))
  exact WGrammar.mk (lim := false) optGrammar [] [] _ .nil .none (.one _ _ (rule_one (b#'s') (.inl (by decide)) _ _ (.alone _ _ (.seq _ _ _ [] _ h1 .nil h2 (by simp))))) (by simp)

theorem C52_false_accepts : ∃ st R trees, readGrammar optText = .ok st ∧ grammarFor st [] = some R ∧ Derives R [⟨0, .n b#"s"⟩] trees [] ∧
    ¬ Matches tableCat optGrammar (.ref 0 b#"s" none) [] := by
  refine ⟨_, _, [.node b#"s" 0 [.node b#"|0" (b#'-') []]], rfl, rfl, ?_, ?_⟩
  · refine Derives.node 0 _ _ [] [] [] [] (List.mem_cons_self ..) ?_ .nil
    exact Derives.node _ _ _ [] [] [] [] (List.mem_cons_of_mem _ (List.mem_cons_of_mem _ (List.mem_cons_self ..))) .nil .nil
  · rintro ⟨ps, h⟩
    obtain ⟨r, hr, _, qs, ho, _⟩ := out_ref h
    obtain rfl := List.mem_singleton.1 hr
    obtain ⟨u, v, _, _, e, h1, _, _⟩ := out_seq ho
    rw [out_lit h1] at e
    cases e

theorem C52_false : ¬ C52_same_language := by
  intro h
  obtain ⟨g, text, hw, he⟩ := C52_false_rejected
  cases g with
  | nil =>
    obtain ⟨s, p, t, hs, hp, ht, hx⟩ := hw
    cases ht
  | cons r0 g =>
    obtain ⟨st, R, e, _⟩ := h r0 g text hw []
    rw [he] at e
    cases e


/-! ## C53: the document -/

/-- C53, as it should be: what a parse becomes in the document is what ixml prescribes for it, and everything ixml prescribes is obtained. -/
def C53_document : Prop :=
  ∀ (r0 : GRule) (g : List GRule) (text : List Byte), WGrammar true (r0 :: g) text → ∀ w : List Nat,
    ∃ st R, readGrammar text = .ok st ∧ grammarFor st w = some R ∧
      (∀ trees, Derives R [⟨0, .n r0.name⟩] trees w → Out tableCat (r0 :: g) (.ref 0 r0.name none) w (piecesList trees)) ∧
      (∀ ps, Out tableCat (r0 :: g) (.ref 0 r0.name none) w ps → ∃ trees, Derives R [⟨0, .n r0.name⟩] trees w ∧ piecesList trees = ps)

/-- **C53** for grammars whose marks and names the reader gets right. -/
theorem C53_document_partial (r0 : GRule) (g : List GRule) (text : List Byte) (h : WGrammar true (r0 :: g) text) (ht : TidyGrammar (r0 :: g)) (w : List Nat) :
    ∃ st R, readGrammar text = .ok st ∧ grammarFor st w = some R ∧
      (∀ trees, Derives R [⟨0, .n r0.name⟩] trees w → Out tableCat (r0 :: g) (.ref 0 r0.name none) w (piecesList trees)) ∧
      (∀ ps, Out tableCat (r0 :: g) (.ref 0 r0.name none) w ps → ∃ trees, Derives R [⟨0, .n r0.name⟩] trees w ∧ piecesList trees = ps) := by
  obtain ⟨st, R, e1, e2, hE, hn, _, _⟩ := grammar_enc h w
  refine ⟨st, R, e1, e2, ?_⟩
  have hr : Enc tableCat (fun c => w.contains c) R (TidyGrammar (r0 :: g)) (.ref 0 r0.name none) [[⟨0, .n r0.name⟩]] :=
    .ref 0 r0.name none (hn r0 (by simp)) (fun _ => rfl) (fun _ h => absurd h (by decide))
  constructor
  · intro trees hd
    obtain ⟨ps, ho, hp⟩ := enc_sound hE _ hr _ (by simp) trees w hd (Nat.le_refl _)
    rw [hp ht]
    exact ho
  · intro ps ho
    obtain ⟨ts, hts, trees, hd, hp⟩ := enc_complete hE ho (by simp) hr
    obtain rfl := List.mem_singleton.1 hts
    exact ⟨trees, hd, hp ht⟩

/-- If ixml prescribes exactly one result for a content, every parse gives that result. -/
theorem C53_unambiguous_partial (r0 : GRule) (g : List GRule) (text : List Byte) (h : WGrammar true (r0 :: g) text) (ht : TidyGrammar (r0 :: g)) (w : List Nat)
    (ps : List Piece) (hu : ∀ qs, Out tableCat (r0 :: g) (.ref 0 r0.name none) w qs ↔ qs = ps) :
    ∃ st R, readGrammar text = .ok st ∧ grammarFor st w = some R ∧ (∃ trees, Derives R [⟨0, .n r0.name⟩] trees w) ∧
      ∀ trees, Derives R [⟨0, .n r0.name⟩] trees w → piecesList trees = ps := by
  obtain ⟨st, R, e1, e2, h1, h2⟩ := C53_document_partial r0 g text h ht w
  obtain ⟨trees, hd, _⟩ := h2 ps ((hu ps).2 rfl)
  exact ⟨st, R, e1, e2, ⟨trees, hd⟩, fun trees hd => (hu _).1 (h1 trees hd)⟩

theorem sample_tidy : TidyGrammar sampleGrammar := by
  refine ⟨?_, .inr ?_⟩
  · simp [sampleGrammar, TidyRules, Tidy, markAfter, Unmarked, Member.number]
  · simp [sampleGrammar, Inserts]

example : ∃ st R, readGrammar sampleText = .ok st ∧ grammarFor st [120, 44, 122, 121] = some R ∧
    ∃ trees, Derives R [⟨0, .n b#"s"⟩] trees [120, 44, 122, 121] ∧ piecesList trees = [.elem b#"s" [.text b#"x", .text b#"z", .attr b#"a" b#"y"]] := by
  obtain ⟨st, R, e1, e2, _, h⟩ := C53_document_partial _ _ _ sample_written sample_tidy [120, 44, 122, 121]
  exact ⟨st, R, e1, e2, h _ sample_out⟩

/-- `s:a>b.a:"x".`: the name given at the reference is lost. -/
def renameText : List Byte := b#"s:a>b.a:\"x\"."
def renameGrammar : List GRule := [⟨0, b#"s", none, .ref 0 b#"a" (some b#"b")⟩, ⟨0, b#"a", none, .lit 0 [120]⟩]

theorem rename_written : WGrammar true renameGrammar renameText := by
  have h1 : W true .alts (.ref 0 b#"a" (some b#"b")) _ := .alone _ _ (.last _ _ (.one _ _ (.ref _ _ _ _
    (.mk 0 b#"a" (some b#"b") [] [] _ .none (name_one _ (.inl (by decide))) .nil (.some b#"b" [] [] .nil (name_one _ (.inl (by decide))) .nil)))))
  have h2 : W true .alts (.lit 0 [120]) _ := .alone _ _ (.last _ _ (.one _ _ (.lit 0 _ [] _ [] .none (quoted_one 120 (by decide) (by decide) (by decide)) .nil)))
  exact WGrammar.mk (lim := true) renameGrammar [] [] _ .nil .none
    (.cons _ _ _ _ (rule_one (b#'s') (.inl (by decide)) _ _ h1) (.one _ _ (rule_one (b#'a') (.inl (by decide)) _ _ h2))) (by intro _ _ c u e; simp at e)

theorem C53_false_renamed : ∃ st R trees, readGrammar renameText = .ok st ∧ grammarFor st [120] = some R ∧ Derives R [⟨0, .n b#"s"⟩] trees [120] ∧
    ¬ Out tableCat renameGrammar (.ref 0 b#"s" none) [120] (piecesList trees) := by
  refine ⟨_, _, [.node b#"s" 0 [.node b#"a" 0 [.term 0 120]]], rfl, rfl, ?_, ?_⟩
  · refine Derives.node 0 _ _ [120] [] [] [] (List.mem_cons_self ..) ?_ .nil
    exact Derives.node 0 _ _ [120] [] [] [] (List.mem_cons_of_mem _ (List.mem_cons_self ..)) (.term 0 120 [] [] [] .nil) .nil
  · intro h
    obtain ⟨r, hr, hn, qs, ho, e⟩ := out_ref h
    rcases List.mem_cons.1 hr with rfl | hr
    · obtain ⟨r, hr, hn, qs', _, e'⟩ := out_ref ho
      subst e'
      rcases List.mem_cons.1 hr with rfl | hr
      · exact absurd hn (by decide)
      · obtain rfl := List.mem_singleton.1 hr
        simp [wrap, piecesList, pieces] at e
    · obtain rfl := List.mem_singleton.1 hr
      exact absurd hn (by decide)

theorem C53_false : ¬ C53_document := by
  intro h
  obtain ⟨st, R, trees, e1, e2, hd, hn⟩ := C53_false_renamed
  obtain ⟨st', R', e1', e2', h1, _⟩ := h _ _ _ rename_written [120]
  rw [e1] at e1'
  cases e1'
  rw [e2] at e2'
  cases e2'
  exact hn (h1 trees hd)

/-- `s:("x",@a)?.a:"y".`: the whole group becomes an attribute, because the mark of `@a` is still around. -/
def markText : List Byte := b#"s:(\"x\",@a)?.a:\"y\"."
def markGrammar : List GRule :=
  [⟨0, b#"s", none, .opt (.group (.seq (.lit 0 [120]) (.ref (b#'@') b#"a" none)))⟩, ⟨0, b#"a", none, .lit 0 [121]⟩]

theorem mark_written : WGrammar true markGrammar markText := by
  have ha : W true .term (.ref (b#'@') b#"a" none) _ :=
    .one _ _ (.ref _ _ _ _ (.mk (b#'@') b#"a" none [b#'@'] [] [] (.mk _ [] (.inl rfl) ⟨.nil, by simp⟩) (name_one _ (.inl (by decide))) .nil .none))
  have hx : W true .term (.lit 0 [120]) _ := .one _ _ (.lit 0 _ [] _ [] .none (quoted_one 120 (by decide) (by decide) (by decide)) .nil)
  have hg : W true .fac (.group (.seq (.lit 0 [120]) (.ref (b#'@') b#"a" none))) _ :=
    .group _ [] _ [] .nil (.alone _ _ (.seq _ _ _ [] _ hx .nil (.last _ _ ha) (by simp))) .nil (by simp)
  have h2 : W true .alts (.lit 0 [121]) _ := .alone _ _ (.last _ _ (.one _ _ (.lit 0 _ [] _ [] .none (quoted_one 121 (by decide) (by decide) (by decide)) .nil)))
  exact WGrammar.mk (lim := true) markGrammar [] [] _ .nil .none
    (.cons _ _ _ _ (rule_one (b#'s') (.inl (by decide)) _ _ (.alone _ _ (.last _ _ (.opt _ _ [] hg .nil (fun _ => by simp [Spec.Ixml.Empty])))))
      (.one _ _ (rule_one (b#'a') (.inl (by decide)) _ _ h2))) (by intro _ _ c u e; simp at e)

theorem C53_false_mark : ∃ st R trees, readGrammar markText = .ok st ∧ grammarFor st [120, 121] = some R ∧ Derives R [⟨0, .n b#"s"⟩] trees [120, 121] ∧
    piecesList trees = [.elem b#"s" [.attr b#"|0" b#"xy"]] ∧
    (∀ ps, Out tableCat markGrammar (.ref 0 b#"s" none) [120, 121] ps ↔ ps = [.elem b#"s" [.text b#"x", .attr b#"a" b#"y"]]) := by
  refine ⟨_, _, [.node b#"s" 0 [.node b#"|1" (b#'-') [.node b#"|0" (b#'@') [.term 0 120, .node b#"a" (b#'@') [.term 0 121]]]]], rfl, rfl, ?_, by rfl, ?_⟩
  · refine Derives.node 0 _ _ [120, 121] [] [] [] (List.mem_cons_self ..) ?_ .nil
    refine Derives.node (b#'-') ⟨b#"|1", none, b#'-', [⟨b#'@', .n b#"|0"⟩]⟩ _ [120, 121] [] [] [] (by decide) ?_ .nil
    refine Derives.node (b#'@') ⟨b#"|0", none, b#'-', [⟨0, .t 120⟩, ⟨b#'@', .n b#"a"⟩]⟩ _ [120, 121] [] [] [] (by decide) ?_ .nil
    refine Derives.term 0 120 _ _ [121] ?_
    exact Derives.node (b#'@') ⟨b#"a", none, 0, [⟨0, .t 121⟩]⟩ _ [121] [] [] [] (by decide) (.term 0 121 [] [] [] .nil) .nil
  · intro ps
    constructor
    · intro h
      obtain ⟨r, hr, hn, qs, ho, e⟩ := out_ref h
      rcases List.mem_cons.1 hr with rfl | hr
      · subst e
        obtain ⟨e, -⟩ | ho := out_opt ho
        · cases e
        · obtain ⟨u, v, as, bs, ew, h1, h2, rfl⟩ := out_seq (out_group ho)
          obtain ⟨r, hr, hn, qs', h3, rfl⟩ := out_ref h2
          rcases List.mem_cons.1 hr with rfl | hr
          · exact absurd hn (by decide)
          · obtain rfl := List.mem_singleton.1 hr
            rw [out_lit_pieces h1, out_lit_pieces h3]
            rfl
      · obtain rfl := List.mem_singleton.1 hr
        exact absurd hn (by decide)
    · rintro rfl
      have h1 : Out tableCat markGrammar (.ref (b#'@') b#"a" none) [121] [.attr b#"a" b#"y"] :=
        Out.ref (b#'@') none _ [121] [.text b#"y"] (List.mem_cons_of_mem _ (List.mem_cons_self ..)) (.lit 0 [121])
      exact Out.ref 0 none _ [120, 121] [.text b#"x", .attr b#"a" b#"y"] (List.mem_cons_self ..) (.optSome _ _ _ (.group _ _ _ (.seq _ _ _ _ _ _ (.lit 0 [120]) h1)))

/-! ## C54: malformed grammars -/

/-- C54, as it should be: every text is read as a grammar or reported as wrong. -/
def C54_always_answers : Prop := ∀ text : List Byte, (∃ st, readGrammar text = .ok st) ∨ readGrammar text = .err

/-- **C54**: reading always comes to an end, unless there is a `{` in the text. -/
theorem C54_ends_partial (text : List Byte) : readGrammar text ≠ .fuel ∧ ((∀ b ∈ text, b ≠ b#'{') → readGrammar text ≠ .hang) :=
  ⟨(readGrammar_fine text).1, (readGrammar_fine text).2.1⟩

/-- A grammar without what the reader does not understand is accepted, and nothing of the text is left. -/
theorem C54_accepts_partial (g : List GRule) (text : List Byte) (h : WGrammar true g text) : ∃ st, readGrammar text = .ok st ∧ st.rest = [] := by
  obtain ⟨st, _, e, _, _, _, hr, _⟩ := grammar_enc h []
  exact ⟨st, e, hr⟩

set_option maxRecDepth 100000 in
example : (∀ b ∈ b#"a: ~x.", b ≠ b#'{') ∧ (∀ b ∈ sampleText, b ≠ b#'{') := by decide

/-- `a:["x"{`: looking ahead for a range behind `"x"` never ends. -/
theorem C54_false_hang : readGrammar b#"a:[\"x\"{" = .hang := by rfl

/-- `a:~x.`, `a:b++.` and `a>:`: an assertion fails. -/
theorem C54_false_abort : readGrammar b#"a:~x." = .abort ∧ readGrammar b#"a:b++." = .abort ∧ readGrammar b#"a>:" = .abort := ⟨by rfl, by rfl, by rfl⟩

theorem C54_false : ¬ C54_always_answers := by
  intro h
  rcases h b#"a:[\"x\"{" with ⟨st, e⟩ | e <;> (rw [C54_false_hang] at e; cases e)

end Xmq.Props
