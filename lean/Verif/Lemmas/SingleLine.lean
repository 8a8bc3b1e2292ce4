import Verif.Lemmas.CompactTree
/-!
# Compact printing adds no line breaks
-/
namespace Xmq
open Spec

theorem _root_.Xmq.Spec.OneLine.nil : OneLine [] := ⟨by simp, by simp⟩
theorem _root_.Xmq.Spec.OneLine.append {a b : List Byte} (ha : OneLine a) (hb : OneLine b) : OneLine (a ++ b) :=
  ⟨by simp [ha.1, hb.1], by simp [ha.2, hb.2]⟩
theorem _root_.Xmq.Spec.OneLine.replicate (n : Nat) {b : Byte} (h : b ≠ 10 ∧ b ≠ 13) : OneLine (List.replicate n b) :=
  ⟨fun hm => h.1 (List.eq_of_mem_replicate hm).symm, fun hm => h.2 (List.eq_of_mem_replicate hm).symm⟩
theorem _root_.Xmq.Spec.OneLine.replicateFlat (n : Nat) {b : List Byte} (h : OneLine b) : OneLine (List.replicate n b).flatten := by
  constructor <;> intro hm <;> obtain ⟨l, hl, hm⟩ := List.mem_flatten.1 hm <;> rw [List.eq_of_mem_replicate hl] at hm
  · exact h.1 hm
  · exact h.2 hm
theorem _root_.Xmq.Spec.OneLine.of_subset {a b : List Byte} (hb : OneLine b) (h : ∀ x ∈ a, x ∈ b) : OneLine a := ⟨fun hm => hb.1 (h _ hm), fun hm => hb.2 (h _ hm)⟩

/-- What is added to the output contains no line break. -/
def Adds (ps ps' : PS) : Prop := ∃ w, ps'.out = ps.out ++ w ∧ OneLine w

theorem Adds.refl (ps : PS) : Adds ps ps := ⟨[], by simp, .nil⟩
theorem Adds.trans {a b c : PS} (h1 : Adds a b) (h2 : Adds b c) : Adds a c := by
  obtain ⟨w1, o1, l1⟩ := h1
  obtain ⟨w2, o2, l2⟩ := h2
  exact ⟨w1 ++ w2, by rw [o2, o1, List.append_assoc], l1.append l2⟩

theorem adds_print (ps : PS) {s : List Byte} (h : OneLine s) : Adds ps (ps.print s) := by
  unfold PS.print
  cases s.getLast? with
  | none => exact .refl _
  | some c => exact ⟨s, rfl, h⟩

theorem adds_printSpan (ps : PS) {s : List Byte} (h : OneLine s) : Adds ps (ps.printSpan s) := by
  unfold PS.printSpan
  cases s.getLast? with
  | none => exact .refl _
  | some c => exact ⟨keepChars false s, rfl, h.of_subset fun _ hx => (keepChars_sublist _ _).subset hx⟩


theorem adds_write (ps : PS) {s : List Byte} (h : OneLine s) : Adds ps (ps.write s) := ⟨s, rfl, h⟩

section
variable {cfg : OutCfg} (hsp : OneLine cfg.indentationSpace)
include hsp

theorem adds_white (ps : PS) (n : Nat) : Adds ps (ps.whiteSpaces cfg n) := ⟨_, rfl, .replicateFlat n hsp⟩

variable (hc : cfg.compact = true)
include hc

theorem adds_beforeQuote (ps : PS) (lv : Level) : Adds ps (ps.beforeQuote cfg lv) := by
  unfold PS.beforeQuote
  simp only [hc, Bool.not_true, Bool.false_and, Bool.false_eq_true, if_false]
  split
  · exact .refl _
  · split
    · exact adds_white hsp _ _
    · exact .refl _

theorem adds_beforeEntity (ps : PS) : Adds ps (ps.beforeEntity cfg) := by
  unfold PS.beforeEntity
  simp only [hc, Bool.not_true, Bool.false_and, Bool.false_eq_true, if_false]
  split
  · exact .refl _
  · split
    · exact adds_white hsp _ _
    · exact .refl _

theorem adds_beforeKey (ps : PS) : Adds ps (ps.beforeKey cfg) := by
  unfold PS.beforeKey
  simp only [hc, Bool.not_true, Bool.false_eq_true, if_false]
  split
  · exact .refl _
  · split
    · exact adds_white hsp _ _
    · exact .refl _

theorem adds_beforeAttribute (ps : PS) : Adds ps (ps.beforeAttribute cfg) := by
  unfold PS.beforeAttribute
  simp only [hc, Bool.not_true, Bool.false_eq_true, if_false]
  split
  · exact .refl _
  · split
    · exact adds_white hsp _ _
    · exact .refl _

theorem adds_beforeComment (ps : PS) : Adds ps (ps.beforeComment cfg) := by
  unfold PS.beforeComment
  simp only [hc, Bool.not_true, Bool.false_eq_true, if_false]
  split
  · exact .refl _
  · split
    · exact adds_white hsp _ _
    · exact .refl _

omit hsp hc in
theorem adds_quotedSpaces (ps : PS) (n : Nat) : Adds ps (ps.quotedSpaces n) :=
  ⟨_, rfl, by
    have := (OneLine.replicate n (b := 32) ⟨by decide, by decide⟩)
    exact ⟨by simp [this.1], by simp [this.2]⟩⟩

omit hsp hc in
theorem decDigits_oneLine (k n : Nat) : OneLine (decDigits k n) := by
  have key : ∀ m, m < 10 → OneLine [UInt8.ofNat (48 + m)] := by
    intro m hm
    constructor <;> simp <;> intro h <;> have := congrArg UInt8.toNat h <;> simp at this <;> omega
  induction k generalizing n with
  | zero => exact .nil
  | succ k ih =>
    rw [decDigits]
    split
    · exact key n (by omega)
    · exact (ih _).append (key _ (by omega))

omit hsp hc in
theorem adds_charEntity (ps : PS) (s : List Byte) : Adds ps (ps.charEntity s).1 := by
  unfold PS.charEntity
  dsimp only
  split
  · have : OneLine (charEntity (decodeUtf8 s).char) := by
      unfold charEntity
      exact (OneLine.append ⟨by decide, by decide⟩ (decDigits_oneLine _ _)).append ⟨by decide, by decide⟩
    exact (adds_print ps this)
  · exact adds_write _ ⟨by decide, by decide⟩

theorem adds_allWhitespace (k : Nat) (ps : PS) (s : List Byte) (lv : Level) : Adds ps (PS.allWhitespace cfg k ps s lv) := by
  induction k generalizing ps s with
  | zero => exact .refl _
  | succ k ih =>
    cases s with
    | nil => exact .refl _
    | cons c t =>
      rw [PS.allWhitespace]
      dsimp only
      split
      · exact ((adds_beforeQuote hsp hc ps lv).trans (adds_quotedSpaces _ _)).trans (ih _ _)
      · exact ((adds_beforeEntity hsp hc ps).trans (adds_charEntity _ _)).trans (ih _ _)

theorem adds_escapeNls (ps : PS) (s : List Byte) : Adds ps (PS.escapeNls cfg ps s).1 ∧ (PS.escapeNls cfg ps s).2 <:+ s := by
  induction s generalizing ps with
  | nil => exact ⟨.refl _, List.suffix_refl _⟩
  | cons c t ih =>
    rw [PS.escapeNls]
    split
    · obtain ⟨h1, h2⟩ := ih ((ps.beforeEntity cfg).charEntity (c :: t)).1
      exact ⟨((adds_beforeEntity hsp hc ps).trans (adds_charEntity _ _)).trans h1, h2.trans (List.suffix_cons _ _)⟩
    · exact ⟨.refl _, List.suffix_refl _⟩

omit hsp hc in
theorem adds_safeLeafQuote (ps : PS) {s : List Byte} (h : OneLine s) (hn : addNls s false = false) (hr : NoRun 39 3 s) :
    Adds ps (ps.safeLeafQuote cfg s) := by
  obtain ⟨d, hd, -, -, -, h4⟩ := numQuotes s hr
  unfold PS.safeLeafQuote
  simp only [hn, h4, decide_false, Bool.or_self, Bool.false_eq_true, if_false, hd]
  obtain ⟨h1, -⟩ := quoteLines_keep cfg { ps.quotes d with line := (ps.quotes d).cur } s h.1
  have h : OneLine (keepChars false s) := h.of_subset fun _ hx => (keepChars_sublist _ _).subset hx
  refine ⟨List.replicate d 39 ++ (keepChars false s ++ List.replicate d 39), ?_, ?_⟩
  · simp only [PS.quotes] at h1 ⊢
    rw [h1]; simp
  · exact (OneLine.replicate d ⟨by decide, by decide⟩).append (h.append (.replicate d ⟨by decide, by decide⟩))

variable (hen : cfg.escapeNewlines = true)
include hen

omit hsp hc in
theorem esc_oneLine {s : List Byte} (h : ∀ b ∈ s, Esc cfg b = false) : OneLine s := by
  constructor
  · intro hm; have := h _ hm; simp [Esc, hen] at this
  · intro hm; have := h _ hm; simp [Esc] at this

theorem adds_textLoop (lv : Level) (rec : PS → List Byte → PS) (hrec : ∀ ps s, NoRun 39 3 s → Adds ps (rec ps s)) (k : Nat) (ps : PS)
    (s : List Byte) (hr : NoRun 39 3 s) : Adds ps (PS.textLoop cfg lv rec k ps s) := by
  induction k generalizing ps s with
  | zero => exact .refl _
  | succ k ih =>
    cases s with
    | nil => exact .refl _
    | cons c t =>
      rw [PS.textLoop]
      dsimp only
      split
      · split
        · obtain ⟨h1, h2⟩ := adds_escapeNls hsp hc ((ps.beforeEntity cfg).charEntity (c :: t)).1 t
          exact (((adds_beforeEntity hsp hc ps).trans (adds_charEntity _ _)).trans h1).trans
            (ih _ _ (noRun_infix hr (h2.isInfix.trans (List.suffix_cons _ _).isInfix)))
        · exact ((adds_beforeEntity hsp hc ps).trans (adds_charEntity _ _)).trans
            (ih _ _ (noRun_infix hr (List.drop_suffix _ _).isInfix))
      · refine Adds.trans ?_ (ih _ _ (noRun_infix hr (List.drop_suffix _ _).isInfix))
        have hr' := noRun_infix hr (List.take_prefix (findEscape cfg (c :: t)) (c :: t)).isInfix
        split
        · rename_i hcond
          simp only [hc, Bool.not_true, Bool.or_false, Bool.and_eq_true, Bool.not_eq_true'] at hcond
          refine (adds_beforeQuote hsp hc ps lv).trans (adds_safeLeafQuote _ (esc_oneLine hen ?_) hcond.2 hr')
          exact findEscape_before cfg (c :: t)
        · exact hrec _ _ hr'

theorem adds_textTail (lv : Level) (rec : PS → List Byte → PS) (hrec : ∀ ps s, NoRun 39 3 s → Adds ps (rec ps s)) (r : PS × List Byte)
    (hr : NoRun 39 3 r.2) : Adds r.1 (match hasEndingNlSpace r.2 with
  | some e =>
    if e.onlyNewlines = 0 then
      let spaces := e.ws.takeWhile (· == b#' ')
      let text := e.text ++ spaces
      let ws := e.ws.drop spaces.length
      PS.allWhitespace cfg ws.length (PS.textLoop cfg lv rec text.length r.1 text) ws lv
    else PS.textLoop cfg lv rec r.2.length r.1 r.2
  | none => PS.textLoop cfg lv rec r.2.length r.1 r.2) := by
  split
  · rename_i e he
    split
    · refine (adds_textLoop hsp hc hen lv rec hrec _ _ _ (noRun_infix hr ?_)).trans (adds_allWhitespace hsp hc _ _ _ _)
      have := (hasEndingNlSpace_split he).1
      refine ⟨[], e.ws.drop (e.ws.takeWhile (· == b#' ')).length, ?_⟩
      have h2 := List.takeWhile_append_dropWhile (p := (· == (32 : Byte))) (l := e.ws)
      have h3 : e.ws.drop (e.ws.takeWhile (· == (32 : Byte))).length = e.ws.dropWhile (· == (32 : Byte)) := by
        conv => lhs; arg 2; rw [← h2]
        rw [List.drop_left' rfl]
      rw [h3]; simp [this]
    · exact adds_textLoop hsp hc hen lv rec hrec _ _ _ hr
  · exact adds_textLoop hsp hc hen lv rec hrec _ _ _ hr

theorem adds_textParts (lv : Level) (rec : PS → List Byte → PS) (hrec : ∀ ps s, NoRun 39 3 s → Adds ps (rec ps s)) (ps : PS)
    (s : List Byte) (hr : NoRun 39 3 s) : Adds ps (PS.textParts cfg lv rec ps s) := by
  unfold PS.textParts
  cases hl : hasLeadingSpaceNl s with
  | none => exact adds_textTail hsp hc hen lv rec hrec (ps, s) hr
  | some l =>
    dsimp only
    by_cases h0 : l.onlyNewlines = 0
    · rw [if_pos h0]
      refine (adds_allWhitespace hsp hc l.ws.length ps l.ws lv).trans
        (adds_textTail hsp hc hen lv rec hrec (PS.allWhitespace cfg l.ws.length ps l.ws lv, l.text) (noRun_infix hr ?_))
      have := (hasLeadingSpaceNl_split hl).1
      exact ⟨l.ws, [], by rw [← this]; simp⟩
    · rw [if_neg h0]
      exact adds_textTail hsp hc hen lv rec hrec (ps, s) hr

omit hsp hc hen in
theorem value_oneLine {s : List Byte} (h : isXmqTextValue s = true) : OneLine s := by
  constructor <;> intro hm
  · rw [notValue_of_delimiter ⟨10, hm, by decide⟩] at h; cases h
  · rw [notValue_of_delimiter ⟨13, hm, by decide⟩] at h; cases h

theorem adds_internalText (lv : Level) (k : Nat) (ps : PS) (s : List Byte) (hr : NoRun 39 3 s) :
    Adds ps (PS.internalText cfg lv k ps s) := by
  induction k generalizing ps s with
  | zero => exact .refl _
  | succ k ih =>
    rw [PS.internalText]
    split
    · exact (adds_beforeQuote hsp hc ps lv).trans (adds_print _ ⟨by decide, by decide⟩)
    · split
      · refine (adds_beforeEntity hsp hc ps).trans ?_
        generalize ps.beforeEntity cfg = p
        generalize s.length = n
        induction n generalizing p with
        | zero => exact .refl _
        | succ n ihn => exact (adds_print p ⟨by decide, by decide⟩).trans (ihn _)
      · dsimp only
        split
        · exact (adds_beforeQuote hsp hc ps lv).trans (adds_quotedSpaces _ _)
        · split
          · exact adds_allWhitespace hsp hc _ _ _ _
          · split
            · rename_i h
              simp only [Bool.and_eq_true] at h
              exact adds_printSpan _ (value_oneLine h.1)
            · exact adds_textParts hsp hc hen lv _ (fun p s hs => ih p s hs) ps s hr

omit hen in
theorem adds_entityNode (ps : PS) {name : List Byte} (h : OneLine name) : Adds ps (ps.entityNode cfg name) :=
  (((adds_beforeEntity hsp hc ps).trans (adds_print _ ⟨by decide, by decide⟩)).trans (adds_print _ h)).trans
    (adds_print _ ⟨by decide, by decide⟩)

theorem adds_values (lv : Level) (vs : List Val) (h : ValsLine vs) (ps : PS) : Adds ps (vs.foldl (PS.valueInternal cfg lv) ps) := by
  induction vs generalizing ps with
  | nil => exact .refl _
  | cons v t ih =>
    refine Adds.trans ?_ (ih ⟨fun s hs => h.1 s (by simp [hs]), fun n hn => h.2 n (by simp [hn])⟩ _)
    cases v with
    | text s => exact adds_internalText hsp hc hen lv _ ps s (h.1 s (by simp))
    | entity n => exact adds_entityNode hsp hc ps (h.2 n (by simp))

theorem adds_value (lv : Level) (vs : List Val) (h : ValsLine vs) (ps : PS) : Adds ps (ps.value cfg vs lv) := by
  have h' : ValsLine (if lv == .xmq then vs.take 1 else vs) := by
    split
    · exact ⟨fun s hs => h.1 s (List.mem_of_mem_take hs), fun n hn => h.2 n (List.mem_of_mem_take hn)⟩
    · exact h
  have key : ∀ (b : Bool) (ns : List Val), ValsLine ns → Adds ps (if b = true then
      { (PS.print (ns.foldl (PS.valueInternal cfg (PS.value.enterCompound lv)) { ps.print b#"(" with line := (ps.print b#"(").cur }) b#")") with line := ps.line }
      else { ns.foldl (PS.valueInternal cfg lv) ps with line := ps.line }) := by
    intro b ns hns
    split
    · have h2 := adds_values hsp hc hen (PS.value.enterCompound lv) ns hns { ps.print b#"(" with line := (ps.print b#"(").cur }
      have h3 := adds_print (ns.foldl (PS.valueInternal cfg (PS.value.enterCompound lv)) { ps.print b#"(" with line := (ps.print b#"(").cur })
        (s := b#")") ⟨by decide, by decide⟩
      have h1 : Adds ps { ps.print b#"(" with line := (ps.print b#"(").cur } := adds_print ps (s := b#"(") ⟨by decide, by decide⟩
      exact (h1.trans h2).trans h3
    · exact adds_values hsp hc hen _ ns hns ps
  unfold PS.value
  simp only [hc, Bool.not_true, Bool.false_eq_true, if_false]
  exact key _ _ h'

omit hen in
theorem adds_commentRest (n k : Nat) (ps : PS) (s : List Byte) (h : (13 : Byte) ∉ s) : Adds ps (PS.commentRest cfg n k ps s) := by
  induction k generalizing ps s with
  | zero => exact .refl _
  | succ k ih =>
    cases s with
    | nil => exact .refl _
    | cons c t =>
      rw [PS.commentRest]
      simp only [hc, if_true]
      refine Adds.trans ?_ (ih _ _ (fun hm => h (List.mem_of_mem_drop (List.mem_of_mem_drop hm))))
      refine (adds_write ps ?_).trans (adds_printSpan _ ?_)
      · have := OneLine.replicate n (b := 47) ⟨by decide, by decide⟩
        exact ⟨by simp [this.1], by simp [this.2]⟩
      · refine ⟨fun hm => ?_, fun hm => h ((List.takeWhile_sublist _).subset hm)⟩
        simpa using mem_takeWhile_pos hm

omit hen in
theorem adds_commentNode (ps : PS) (s : List Byte) (h : (13 : Byte) ∉ s) : Adds ps (ps.commentNode cfg s) := by
  have hr : ∀ n, OneLine (List.replicate n 47) := fun n => .replicate n ⟨by decide, by decide⟩
  unfold PS.commentNode
  simp only [hc, if_true]
  refine (adds_beforeComment hsp hc ps).trans ?_
  generalize ps.beforeComment cfg = p
  split
  · rename_i hn
    have h10 : (10 : Byte) ∉ s := by
      intro hm
      simp only [hasNewlines, Bool.not_eq_true', List.any_eq_false, beq_iff_eq] at hn
      exact hn _ hm rfl
    exact ((adds_print p (s := b#"/*") ⟨by decide, by decide⟩).trans (adds_printSpan _ ⟨h10, h⟩)).trans
      (adds_print _ (s := b#"*/") ⟨by decide, by decide⟩)
  · unfold PS.commentLines
    simp only [hc, Bool.not_true, Bool.false_and, Bool.false_eq_true, if_false]
    have h1 := adds_write p (s := List.replicate (countNecessarySlashes s) 47 ++ [42]) ((hr _).append ⟨by decide, by decide⟩)
    have h2 := adds_printSpan { p.write (List.replicate (countNecessarySlashes s) 47 ++ [42]) with
      line := (p.write (List.replicate (countNecessarySlashes s) 47 ++ [42])).cur + 1 + countNecessarySlashes s }
      (s := s.takeWhile (· != b#'\n')) ⟨fun hm => by simpa using mem_takeWhile_pos hm, fun hm => h ((List.takeWhile_sublist _).subset hm)⟩
    exact Adds.trans (b := { p.write (List.replicate (countNecessarySlashes s) 47 ++ [42]) with
      line := (p.write (List.replicate (countNecessarySlashes s) 47 ++ [42])).cur + 1 + countNecessarySlashes s }) h1
      ((h2.trans (adds_commentRest hsp hc _ _ _ _ (fun hm => h (List.mem_of_mem_drop hm)))).trans
        (adds_write _ (s := 42 :: List.replicate (countNecessarySlashes s) 47) ⟨by simp [(hr _).1], by simp [(hr _).2]⟩))

theorem adds_attribute (align : Nat) (ps : PS) (a : Attr) (h : AttrLine a) : Adds ps (ps.attribute cfg align a) := by
  unfold PS.attribute
  simp only [hc, Bool.not_true, Bool.false_eq_true, if_false]
  have h1 := (adds_beforeAttribute hsp hc ps).trans (adds_print (ps.beforeAttribute cfg) h.1)
  split
  · exact h1
  · exact (h1.trans (adds_print _ (s := b#"=") ⟨by decide, by decide⟩)).trans (adds_value hsp hc hen _ _ h.2 _)

theorem adds_attributes (as : List Attr) (h : ∀ a ∈ as, AttrLine a) (align : Nat) (ps : PS) : Adds ps (as.foldl (PS.attribute cfg align) ps) := by
  induction as generalizing ps with
  | nil => exact .refl _
  | cons a t ih => exact (adds_attribute hsp hc hen align ps a (h a (by simp))).trans (ih (fun b hb => h b (by simp [hb])) _)

theorem adds_nameAndAttributes (ps : PS) {name : List Byte} (hn : OneLine name) (as : List Attr) (h : ∀ a ∈ as, AttrLine a) :
    Adds ps (ps.nameAndAttributes cfg name as) := by
  unfold PS.nameAndAttributes
  dsimp only
  have h1 := (adds_beforeKey hsp hc ps).trans (adds_print (ps.beforeKey cfg) hn)
  split
  · exact h1
  · refine ((h1.trans (adds_print _ (s := b#"(") ⟨by decide, by decide⟩)).trans ?_).trans (adds_print _ (s := b#")") ⟨by decide, by decide⟩)
    unfold PS.attributes
    generalize hp : PS.print _ b#"(" = p
    exact adds_attributes hsp hc hen as h _ { p with line := p.cur }

omit hsp hc hen in
theorem nodesLine_vals {v : List Val} (h : NodesLine (v.map Val.node)) : ValsLine v := by
  induction v with
  | nil => exact ⟨by simp, by simp⟩
  | cons x t ih =>
    rw [List.map_cons, NodesLine] at h
    have := ih h.2
    refine ⟨fun s hs => ?_, fun n hn => ?_⟩
    · rcases List.mem_cons.1 hs with rfl | hs
      · simpa [Val.node, NodeLine] using h.1
      · exact this.1 s hs
    · rcases List.mem_cons.1 hn with rfl | hn
      · simpa [Val.node, NodeLine] using h.1
      · exact this.2 n hn

mutual
theorem adds_node (n : Node) (h : NodeLine n) (ps : PS) (align : Nat) : Adds ps (ps.node cfg align n) := by
  cases n with
  | text s => exact adds_value hsp hc hen .xmq [.text s] ⟨fun t ht => by simp at ht; subst ht; simpa [NodeLine] using h, by simp⟩ ps
  | entity n => exact adds_entityNode hsp hc ps (by simpa [NodeLine] using h)
  | comment s => exact adds_commentNode hsp hc ps s (by simpa [NodeLine] using h)
  | element name attrs kids =>
    rw [NodeLine] at h
    rw [PS.node]
    dsimp only
    have h1 := adds_nameAndAttributes hsp hc hen ps h.1 attrs h.2.1
    generalize ps.nameAndAttributes cfg name attrs = p at h1
    refine h1.trans ?_
    by_cases hk : kids = []
    · subst hk; exact .refl _
    · rw [if_neg (by simpa using hk)]
      cases hkv : keyValues kids with
      | some v =>
        obtain ⟨rfl, hv⟩ := keyValues_some hkv
        show Adds p (p.keyValue cfg align v)
        unfold PS.keyValue
        simp only [hc, Bool.not_true, Bool.false_eq_true, if_false]
        exact (adds_print p (s := b#"=") ⟨by decide, by decide⟩).trans (adds_value hsp hc hen _ _ (nodesLine_vals h.2.2) _)
      | none =>
        have e1 : p.beforeOpeningBrace cfg = p := by simp [PS.beforeOpeningBrace, hc]
        have e2 : ∀ q : PS, q.beforeClosingBrace cfg = q := fun q => by simp [PS.beforeClosingBrace, hc]
        simp only [e1, e2]
        have h2 := adds_nodes kids h.2.2 { p.print b#"{" with line := (p.print b#"{").line + cfg.addIndent } (some 0) 0
        have h0 : Adds p { p.print b#"{" with line := (p.print b#"{").line + cfg.addIndent } := adds_print p (s := b#"{") ⟨by decide, by decide⟩
        exact (h0.trans h2).trans (adds_print { PS.nodes cfg { p.print b#"{" with line := (p.print b#"{").line + cfg.addIndent } (some 0) 0 kids with
          line := (p.print b#"{").line } (s := b#"}") ⟨by decide, by decide⟩)
theorem adds_nodes (ns : List Node) (h : NodesLine ns) (ps : PS) (restart : Option Nat) (max : Nat) :
    Adds ps (PS.nodes cfg ps restart max ns) := by
  cases ns with
  | nil => rw [PS.nodes]; exact .refl _
  | cons n t =>
    rw [NodesLine] at h
    rw [PS.nodes]
    generalize (if (!cfg.compact && restart == some 0) = true then keyMaxWidth (n :: t) 0 0 else (max, restart)) = r
    exact (adds_node n h.1 ps r.1).trans (adds_nodes t h.2 _ (r.2.map (· - 1)) r.1)
end

end

end Xmq
