import Verif.Lemmas.PrettyComment
/-!
# `current_indent` behind a list of attributes

Behind the attributes the column counted by the printer is right if the last attribute is a text of one line.
-/
namespace Xmq
open Spec

set_option linter.unusedSectionVars false

variable [Mode]

theorem Cur.refl (ps : PS) : Cur ps ps := ⟨[], by simp, rfl⟩

theorem Cur.trans {a b c : PS} (h1 : Cur a b) (h2 : Cur b c) : Cur a c := by
  obtain ⟨w1, o1, c1⟩ := h1
  obtain ⟨w2, o2, c2⟩ := h2
  exact ⟨w1 ++ w2, by rw [o2, o1, List.append_assoc], by rw [c2, c1, colw_append]⟩

/-- `line` and `last` do not matter. -/
theorem Cur.same {a b c d : PS} (h : Cur a b) (h1 : c.out = a.out) (h2 : c.cur = a.cur) (h3 : d.out = b.out) (h4 : d.cur = b.cur) : Cur c d := by
  obtain ⟨w, o, e⟩ := h
  exact ⟨w, by rw [h3, h1, o], by rw [h4, h2, e]⟩

theorem Cur.nlIndent {cfg : OutCfg} (hsp : cfg.indentationSpace = [32]) (ps : PS) : Cur ps (ps.nlIndent cfg) := by
  rw [nlIndent_eq _ _ hsp]
  exact ⟨_, rfl, by rw [colw_nl_spaces]⟩

theorem Cur.whiteSpaces {cfg : OutCfg} (hsp : cfg.indentationSpace = [32]) (ps : PS) (n : Nat) : Cur ps (ps.whiteSpaces cfg n) := by
  refine ⟨List.replicate n 32, by simp [PS.whiteSpaces, hsp], ?_⟩
  rw [colw_spaces]
  show ps.cur + n + 1 = _
  omega

theorem colw_one (col : Nat) {c : Byte} (h : c ≠ 10) : colw col [c] = if isCont c then col else col + 1 := by
  simp only [colw, walk_cons, walk_nil, incPos]
  split
  · rfl
  · rw [if_neg (by simpa using h)]

theorem colw_text (col : Nat) (s : List Byte) (h : (10 : Byte) ∉ s) : colw col s = col + (s.filter fun c => !isCont c).length := by
  induction s generalizing col with
  | nil => rfl
  | cons c t ih =>
    simp at h
    rw [← List.singleton_append, colw_append, ih _ h.2, colw_one _ (fun e => h.1 e.symm)]
    cases hc : isCont c <;> simp [hc] <;> omega

theorem colw_quotes (col n : Nat) : colw col (List.replicate n 39) = col + n := by
  rw [colw_text _ _ (by simp), List.filter_replicate]
  rw [if_pos (by decide)]; simp

theorem Cur.quotes (ps : PS) (n : Nat) : Cur ps (ps.quotes n) := by
  refine ⟨List.replicate n 39, rfl, ?_⟩
  rw [colw_quotes]
  show ps.cur + n + 1 = _
  omega

theorem Cur.print1 (ps : PS) {c : Byte} (h : isCont c = false) (h10 : c ≠ 10) : Cur ps (ps.print [c]) := by
  refine ⟨[c], rfl, ?_⟩
  rw [colw_one _ h10, h]; rfl

theorem Cur.name (ps : PS) {name : List Byte} (h : NameOk name) : Cur ps (ps.print name) := by
  obtain ⟨c, -, -, e⟩ := print_name ps h
  rw [e]
  refine ⟨name, rfl, ?_⟩
  rw [colw_name h.bytes]
  show ps.cur + name.length + 1 = _
  omega

/-- Only continuation bytes are left out, which do not count. -/
theorem keepChars_filter (s : List Byte) (b : Bool) : (keepChars b s).filter (fun c => !isCont c) = s.filter fun c => !isCont c := by
  induction s generalizing b with
  | nil => rfl
  | cons c t ih =>
    rw [keepChars]
    split
    · rename_i h
      simp only [Bool.and_eq_true] at h
      rw [ih]; simp [h.2]
    · simp only [List.filter_cons, ih]

theorem keepChars_head (s : List Byte) : (keepChars false s).head? = s.head? := by
  cases s with
  | nil => rfl
  | cons c t => rw [keepChars]; rfl

theorem Cur.printSpan (ps : PS) {s : List Byte} (h10 : (10 : Byte) ∉ s) (hh : ∀ c, s.head? = some c → isCont c = false) : Cur ps (ps.printSpan s) := by
  cases s with
  | nil => exact Cur.refl ps
  | cons c t =>
    have hc := hh c rfl
    refine ⟨keepChars false (c :: t), rfl, ?_⟩
    rw [colw_text _ _ (fun h => h10 ((keepChars_sublist _ _).subset h)), keepChars_filter]
    unfold PS.printSpan
    cases hg : (c :: t).getLast? with
    | none => simp at hg
    | some d => simp [uLen, hc]; omega

theorem Cur.quoteLoop (cfg : OutCfg) (s : List Byte) : ∀ (inChar : Bool) (ps : PS), (10 : Byte) ∉ s →
    (inChar = false → ∀ c, s.head? = some c → isCont c = false) → Cur ps (PS.quoteLoop cfg inChar ps s) := by
  induction s with
  | nil => intro _ ps _ _; exact Cur.refl ps
  | cons c t ih =>
    intro inChar ps h10 hh
    simp at h10
    have hc10 : c ≠ 10 := fun e => h10.1 e.symm
    rw [PS.quoteLoop]
    split
    · rename_i h
      simp only [Bool.and_eq_true] at h
      refine Cur.trans ⟨[c], rfl, ?_⟩ (ih true _ h10.2 (by simp))
      rw [colw_one _ hc10, h.2]; rfl
    · rename_i h
      have hcont : isCont c = false := by
        cases hi : inChar
        · exact hh hi c rfl
        · rw [hi] at h; simpa using h
      rw [if_neg (by simpa using hc10)]
      refine Cur.trans ⟨[c], rfl, ?_⟩ (ih true _ h10.2 (by simp))
      rw [colw_one _ hc10, hcont]; rfl

theorem Cur.quoteLines (cfg : OutCfg) (ps : PS) {s : List Byte} (h10 : (10 : Byte) ∉ s) (hh : ∀ c, s.head? = some c → isCont c = false) :
    Cur ps (ps.quoteLines cfg s) := by
  unfold PS.quoteLines
  have h1 : ¬ (peek s == (10 : Byte)) = true := by
    intro h; simp only [beq_iff_eq] at h
    rw [peek_eq_head? _ _ (by decide)] at h
    exact h10 (List.mem_of_head? h)
  have h2 : ¬ (s.getLast? == some (10 : Byte)) = true := by
    intro h; simp only [beq_iff_eq] at h
    exact h10 (List.mem_of_getLast? h)
  dsimp only
  rw [if_neg h1, if_neg h2]
  exact Cur.quoteLoop cfg _ false ps (fun h => h10 ((keepChars_sublist _ _).subset h)) (fun _ => by rw [keepChars_head]; exact hh)

theorem Cur.safeLeafQuote {cfg : OutCfg} (hsp : cfg.indentationSpace = [32]) (ps : PS) {s : List Byte} (h10 : (10 : Byte) ∉ s)
    (hh : ∀ c, s.head? = some c → isCont c = false) : Cur ps (ps.safeLeafQuote cfg s) := by
  unfold PS.safeLeafQuote
  dsimp only
  split
  · refine Cur.same (a := { ps with line := ps.cur }) ?_ rfl rfl rfl rfl
    refine Cur.trans ?_ (Cur.quotes _ _)
    refine Cur.trans ?_ (Cur.nlIndent hsp _)
    refine Cur.trans ?_ (Cur.quoteLines cfg _ h10 hh)
    exact Cur.trans (Cur.quotes _ _) (Cur.nlIndent hsp _)
  · generalize (if countNecessaryQuotes s = 0 then 1 else countNecessaryQuotes s) = n
    refine Cur.trans (Cur.quotes ps n) ?_
    have := Cur.quoteLines cfg { ps.quotes n with line := (ps.quotes n).cur } h10 hh
    exact Cur.same (Cur.trans this ((Cur.quotes _ n).same (a := _) rfl rfl rfl rfl)) rfl rfl rfl rfl

theorem Cur.beforeQuote {cfg : OutCfg} (hsp : cfg.indentationSpace = [32]) (ps : PS) (lv : Level) : Cur ps (ps.beforeQuote cfg lv) := by
  unfold PS.beforeQuote
  split
  · exact Cur.refl _
  · split
    · exact Cur.nlIndent hsp _
    · split
      · exact Cur.whiteSpaces hsp _ _
      · exact Cur.refl _

theorem Cur.beforeAttribute {cfg : OutCfg} (hsp : cfg.indentationSpace = [32]) (ps : PS) : Cur ps (ps.beforeAttribute cfg) := by
  unfold PS.beforeAttribute
  split
  · exact Cur.refl _
  · split
    · exact Cur.nlIndent hsp _
    · split
      · exact Cur.whiteSpaces hsp _ _
      · exact Cur.refl _

/-- A text of one line that is not escaped and not only white space. -/
structure PlainLine (cfg : OutCfg) (s : List Byte) : Prop where
  nl : (10 : Byte) ∉ s
  esc : ∀ b ∈ s, Esc cfg b = false
  text : ∃ b ∈ s, isXmlWhitespace b = false
  cont : ∀ c, s.head? = some c → isCont c = false
  notQuotes : hasAllQuotes s = false

theorem PlainLine.notWhite {cfg : OutCfg} {s : List Byte} (h : PlainLine cfg s) : hasAllWhitespace s = (false, false, false) := by
  unfold hasAllWhitespace
  rw [if_neg]
  intro hw
  obtain ⟨b, hb, hn⟩ := h.text
  rw [List.all_eq_true.1 hw b hb] at hn; cases hn

theorem Cur.plainValue {cfg : OutCfg} (hc : cfg.compact = false) (hsp : cfg.indentationSpace = [32]) {s : List Byte} (h : PlainLine cfg s) (ps : PS) :
    Cur ps (ps.value cfg [.text s] .attrValue) := by
  have hne : s ≠ [] := by rintro rfl; obtain ⟨b, hb, -⟩ := h.text; cases hb
  have ha : addCompound s false = false := addCompound_nonl h.nl
  have hq : quoteNeedsCompounded cfg s = false := by
    unfold quoteNeedsCompounded
    split
    · rfl
    · rw [hasLeadingSpaceNl_nonl h.nl, hasEndingNlSpace_nonl h.nl, hc]
      simp only [Bool.false_and, Bool.false_or]
      rw [List.any_eq_false]
      intro b hb
      rw [Bool.not_eq_true]
      exact h.esc b hb
  have e : ps.value cfg [.text s] .attrValue = { PS.internalText cfg .attrValue (s.length + 1) ps s with line := ps.line } := by
    rw [value_eq]
    simp only [compounded, hq, Bool.and_false]
    rfl
  rw [e]
  refine Cur.same (a := ps) (b := PS.internalText cfg .attrValue (s.length + 1) ps s) ?_ rfl rfl rfl rfl
  rw [PS.internalText, if_neg (by simpa using hne), if_neg (by simp [h.notQuotes])]
  dsimp only
  rw [h.notWhite]
  simp only [Bool.false_eq_true, if_false, Bool.false_and]
  split
  · exact Cur.printSpan ps h.nl h.cont
  · rw [textParts_leaf hc hne h.esc ha]
    exact (Cur.beforeQuote hsp _ _).trans (Cur.safeLeafQuote hsp _ h.nl h.cont)

/-- An attribute behind which the column is right. -/
def PlainAttr (cfg : OutCfg) (a : Attr) : Prop := noAttrValue a.value = true ∨ ∃ s, a.value = [.text s] ∧ PlainLine cfg s

/-- What an attribute adds behind the white space. -/
theorem Cur.attrRest {cfg : OutCfg} (hc : cfg.compact = false) (hsp : cfg.indentationSpace = [32]) {a : Attr} (hn : NameOk a.name)
    (h : PlainAttr cfg a) (align : Nat) (ps : PS) : Cur (ps.beforeAttribute cfg) (ps.attribute cfg align a) := by
  unfold PS.attribute
  dsimp only
  refine (Cur.name _ hn).trans ?_
  split
  · exact Cur.refl _
  · rename_i hv
    simp only [hc, Bool.not_false, if_true]
    refine (Cur.whiteSpaces hsp _ (1 + align - nameWidth a.name)).trans ?_
    refine (Cur.print1 _ (c := 61) (by decide) (by decide)).trans ?_
    refine (Cur.whiteSpaces hsp _ 1).trans ?_
    rcases h with h | ⟨s, h, hp⟩
    · exact absurd h hv
    · rw [h]; exact Cur.plainValue hc hsp hp _

/-- Behind a newline earlier columns do not matter. -/
theorem Cur.afterNl {cfg : OutCfg} (hsp : cfg.indentationSpace = [32]) {a b : PS} {w : List Byte} (ho : b.out = a.out ++ w) : Cur a (b.nlIndent cfg) := by
  rw [nlIndent_eq _ _ hsp]
  refine ⟨w ++ 10 :: List.replicate b.line 32, by rw [ho]; simp, ?_⟩
  rw [colw_append, colw_nl_spaces]

/-- The last byte of an attribute value is not an opening parenthesis. -/
theorem value_last40 {cfg : OutCfg} (hc : cfg.compact = false) (hsp : cfg.indentationSpace = [32]) {S : Prop} {vs : List Val}
    (h : PrettyVals S cfg vs) (ps : PS) : (ps.value cfg vs .attrValue).last ≠ 40 := by
  have hcomp : compounded cfg vs = true → (ps.value cfg vs .attrValue).last ≠ 40 := by
    intro hh
    rw [value_eq]
    simp only [show (Level.attrValue == Level.xmq) = false from rfl, Bool.false_eq_true, if_false]
    rw [if_pos (by rw [hh]; rfl)]
    exact (by decide : (41 : Byte) ≠ 40)
  match vs, h, hcomp with
  | [], h, _ => exact absurd rfl h.ne
  | [.text s], h, hcomp =>
    cases hq : quoteNeedsCompounded cfg s
    · have e : ps.value cfg [.text s] .attrValue = { PS.internalText cfg .attrValue (s.length + 1) ps s with line := ps.line } := by
        rw [value_eq]
        simp only [compounded, hq, Bool.and_false]
        rfl
      rw [e]
      show (PS.internalText cfg .attrValue (s.length + 1) ps s).last ≠ 40
      rcases internalText_single_pretty (S := S) hc hsp s.length (h.single s rfl).1 hq (level := .attrValue) (ps := ps) with ⟨hne, hv, he, -⟩ | ⟨-, hl⟩
      · rw [he]
        obtain ⟨c, hcl⟩ : ∃ c, s.getLast? = some c := by
          cases hg : s.getLast? with
          | none => simp at hg; exact absurd hg hne
          | some c => exact ⟨c, rfl⟩
        simp only [PS.printSpan, hcl]
        exact (safeLast_class hv hcl).2.1
      · rcases hl with hl | hl <;> rw [hl] <;> decide
    · exact hcomp hq
  | [.entity n], h, _ =>
    have e : ps.value cfg [.entity n] .attrValue = { ps.entityNode cfg n with line := ps.line } := by
      rw [value_eq]; rfl
    rw [e]
    show (ps.entityNode cfg n).last ≠ 40
    rw [(emits_entityNode (S := S) (cfg := cfg) (ps := ps) (.inl hsp) (h.names n (by simp))).2]
    decide
  | a :: b :: t, h, hcomp => exact hcomp (by cases a <;> rfl)

theorem attribute_last40 {cfg : OutCfg} (hc : cfg.compact = false) (hsp : cfg.indentationSpace = [32]) {S : Prop} {a : Attr} (hn : NameOk a.name)
    (h : noAttrValue a.value = false → PrettyVals S cfg a.value) (align : Nat) (ps : PS) : (ps.attribute cfg align a).last ≠ 40 := by
  unfold PS.attribute
  dsimp only
  cases hv : noAttrValue a.value
  · simp only [Bool.false_eq_true, if_false]
    exact value_last40 hc hsp (h hv) _
  · simp only [if_true]
    obtain ⟨c, hoc, -, e⟩ := print_name (ps.beforeAttribute cfg) hn
    rw [e]; exact (other_facts hoc).2.2.1

/-- The name and the attributes of an element. -/
theorem Cur.nameAndAttributes {cfg : OutCfg} (hc : cfg.compact = false) (hsp : cfg.indentationSpace = [32]) {S : Prop} {name : List Byte}
    (hn : ElemName name) {as : List Attr} (ha : ∀ a ∈ as, AttrOk cfg a) (hv : ∀ a ∈ as, noAttrValue a.value = false → PrettyVals S cfg a.value)
    (hp : ∀ a, as.getLast? = some a → PlainAttr cfg a) (ps : PS) : Cur (ps.beforeKey cfg) (ps.nameAndAttributes cfg name as) := by
  unfold PS.nameAndAttributes
  dsimp only
  by_cases hne : as = []
  · subst hne
    exact Cur.name _ hn.toNameOk
  rw [if_neg (by simpa using hne)]
  refine Cur.trans ?_ (Cur.print1 _ (by decide) (by decide))
  refine (Cur.name _ hn.toNameOk).trans ?_
  refine (Cur.print1 _ (c := 40) (by decide) (by decide)).trans ?_
  unfold PS.attributes
  dsimp only
  let q0 := ((ps.beforeKey cfg).print name).print [40]
  let q : PS := { q0 with line := q0.cur }
  generalize hm : (if (!cfg.compact) = true then as.foldl (fun m a => max m (nameWidth a.name)) 0 else 0) = m
  refine Cur.same (a := q) (b := List.foldl (PS.attribute cfg m) q as) ?_ rfl rfl rfl rfl
  rcases List.eq_nil_or_concat as with h0 | ⟨pre, a, h0⟩
  · exact absurd h0 hne
  · rw [List.concat_eq_append] at h0
    have hla : as.getLast? = some a := by rw [h0]; simp
    have hmem : a ∈ as := List.mem_of_getLast? hla
    have hpre : ∀ b ∈ pre, b ∈ as := fun b hb => by rw [h0]; simp [hb]
    rw [h0, List.foldl_append]
    refine Cur.trans ?_ (Cur.attrRest hc hsp (ha a hmem).name (hp a hla) m _)
    by_cases hpne : pre = []
    · subst hpne; exact Cur.beforeAttribute hsp q
    · have h40 : (pre.foldl (PS.attribute cfg m) q).last ≠ 40 := by
        rcases List.eq_nil_or_concat pre with h1 | ⟨pre', b, h1⟩
        · exact absurd h1 hpne
        · rw [List.concat_eq_append] at h1
          rw [h1, List.foldl_append]
          have hb : b ∈ as := hpre b (by rw [h1]; simp)
          exact attribute_last40 hc hsp (ha b hb).name (hv b hb) m _
      obtain ⟨⟨w, ho, -, -⟩, -⟩ := emits_attrs hsp (align := m) pre (fun b hb => ha b (hpre b hb)) q (by decide : (40 : Byte) ≠ 1)
      have e : PS.beforeAttribute cfg (pre.foldl (PS.attribute cfg m) q) = PS.nlIndent cfg (pre.foldl (PS.attribute cfg m) q) := by
        unfold PS.beforeAttribute
        rw [if_neg (by simpa using h40), if_pos (by simp [hc])]
      rw [e]
      exact Cur.afterNl hsp ho

end Xmq
