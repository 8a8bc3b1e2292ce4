import Verif.Lemmas.NsUnflat
import Verif.Lemmas.PrettyTree
import Verif.Model.NsPrint
import Verif.Spec.NsSafe
/-!
# Printing documents with namespaces, processing instructions and doctypes
-/
namespace Xmq
open Spec

set_option linter.unusedSectionVars false

variable [Mode]

/-! ## Texts of one line -/

theorem textParts_nonl {cfg : OutCfg} {level : Level} {rec : PS → List Byte → PS} {ps : PS} {s : List Byte}
    (hne : s ≠ []) (hesc : ∀ b ∈ s, Esc cfg b = false) (hh : s.head? ≠ some 39) (hl : s.getLast? ≠ some 39)
    (h10 : (10 : Byte) ∉ s) : PS.textParts cfg level rec ps s = (ps.beforeQuote cfg level).safeLeafQuote cfg s := by
  unfold PS.textParts
  rw [hasLeadingSpaceNl_nonl h10]
  dsimp only
  rw [hasEndingNlSpace_nonl h10]
  dsimp only
  cases s with
  | nil => exact absurd rfl hne
  | cons c t =>
    rw [List.length_cons, PS.textLoop]
    simp only [findEscape_none cfg (c :: t) hesc (fun _ => ⟨hh, hl⟩)]
    rw [if_neg (by simp), if_pos (by rw [List.take_length, addCompound_nonl h10, addNls_false hh hl]; rfl)]
    rw [List.take_length, List.drop_length]
    have : ∀ (k : Nat) (p : PS), PS.textLoop cfg level rec k p [] = p := by intro k p; cases k <;> rfl
    rw [this]

theorem Spec.LineSafe.esc {cfg : OutCfg} {s : List Byte} (h : LineSafe cfg s) : ∀ b ∈ s, Esc cfg b = false := by
  intro b hb
  cases he : Esc cfg b with
  | false => rfl
  | true => exact absurd (esc_iff.1 he) (h.plain b hb)

theorem Spec.LineSafe.white {cfg : OutCfg} {s : List Byte} (h : LineSafe cfg s) : hasAllWhitespace s = (false, false, false) := by
  unfold hasAllWhitespace
  rw [if_neg]
  rw [List.all_eq_true]
  intro hw
  obtain ⟨b, hb, hn⟩ := h.notBlank
  exact hn (white_iff.2 (hw b hb))

theorem Spec.LineSafe.quotes {cfg : OutCfg} {s : List Byte} (h : LineSafe cfg s) : hasAllQuotes s = false := by
  cases hq : hasAllQuotes s with
  | false => rfl
  | true =>
    simp only [hasAllQuotes, List.all_eq_true, beq_iff_eq] at hq
    cases s with
    | nil => exact absurd rfl h.ne
    | cons c t => exact absurd (by rw [hq c (by simp)]; rfl) h.head

/-- How such a text is printed. -/
theorem internalText_line {cfg : OutCfg} {lv : Level} (hlv : ValueLevel lv) {s : List Byte} (h : LineSafe cfg s) (ps : PS) (k : Nat) :
    PS.internalText cfg lv (k + 1) ps s = if isXmqTextValue s then ps.printSpan s else (ps.beforeQuote cfg lv).safeLeafQuote cfg s := by
  rw [PS.internalText, if_neg (by simpa using h.ne), if_neg (by simp [h.quotes])]
  simp only [h.white, Bool.false_eq_true, if_false, Bool.false_and]
  have hx : (lv == .elementValue || lv == .attrValue) = true := by rcases hlv with rfl | rfl <;> rfl
  rw [hx, Bool.and_true, textParts_nonl h.ne h.esc h.head h.last h.line]

/-- The last byte of a bare value. -/
theorem Spec.LineSafe.bareEnd {cfg : OutCfg} {s : List Byte} (h : LineSafe cfg s) (hv : isXmqTextValue s = true) :
    ∃ c, s.getLast? = some c ∧ BareEnd cfg c ∧ c ≠ 1 ∧ c ≠ 0 ∧ c ≠ 40 ∧ c ≠ 61 := by
  obtain ⟨c, hcl⟩ : ∃ c, s.getLast? = some c := by
    cases hg : s.getLast? with
    | none => simp at hg; exact absurd hg h.ne
    | some c => exact ⟨c, rfl⟩
  have hmem := List.mem_of_getLast? hcl
  have hcc := safeLast_class hv hcl
  have hb : c ≠ 61 ∧ (cfg.compact = true → c ≠ 47 ∧ c ≠ 59) := by
    rcases h.bare with hd | hl
    · rw [notValue_of_delimiter hd] at hv; cases hv
    · exact hl c hcl
  have h0 : c ≠ 0 := by
    rintro rfl
    have := h.esc _ hmem
    simp [Esc] at this
  have h1 : c ≠ 1 := by
    rintro rfl
    have := h.esc _ hmem
    simp [Esc] at this
  refine ⟨c, hcl, ?_, h1, h0, hcc.2.1, hb.1⟩
  cases hc : cfg.compact with
  | true =>
    left
    have := hb.2 hc
    simp only [Other, List.mem_cons, List.not_mem_nil]
    grind
  | false => exact .inr ⟨hc, by simp [h0, hcc.2.1, hb.1]⟩

/-- Such a text is read back, also as the value of a declaration or of a processing instruction. -/
theorem line_reads {cfg : OutCfg} (hsp : cfg.indentationSpace = [32]) {lv : Level} (hlv : ValueLevel lv) {s : List Byte} (h : LineSafe cfg s)
    (ps : PS) (h1 : ps.last ≠ 1) (k : Nat) (sp : Bool) {S : Prop} : ReadsSp sp cfg S lv ps (PS.internalText cfg lv (k + 1) ps s) [.text s] := by
  rw [internalText_line hlv h]
  split
  · rename_i hv
    obtain ⟨c, hcl, hb, hc1, hc0, hc40, hc61⟩ := h.bareEnd hv
    exact ⟨⟨_, Splits.refl _, value_bare hlv h.ne hv c hcl hb hc1 hc0 hc40 hc61 rfl⟩, by simp [PS.printSpan, hcl, hc1]⟩
  · have hs : SepQ cfg ps := .inl hsp
    have h13 : (13 : Byte) ∉ s := by
      intro hm; have := h.esc _ hm; simp [Esc] at this
    have hrun : NoRun 39 3 s := h.noTriple
    have hem := emits_leaf (S := S) (level := lv) hs h.ne h.head h.last h.line h13 hrun h.noStray
    obtain ⟨d, ho, hli, hla, hd0, -⟩ := safeLeafQuote_nonl cfg (ps.beforeQuote cfg lv) s h.head h.last h.line hrun h.noStray
    obtain ⟨ws, -, hwo, -⟩ := beforeQuote_spec (S := S) cfg ps lv hs
    refine ⟨⟨_, Splits.refl _, value_single hlv (fun _ => h1) (.inl hla) hem (fun _ w hw => ?_)⟩, by rw [hla]; decide⟩
    rw [ho, hwo, List.append_assoc] at hw
    rw [← List.append_cancel_left hw]
    obtain ⟨m, rfl⟩ : ∃ m, d = m + 1 := ⟨d - 1, by omega⟩
    rw [List.replicate_succ', ← List.append_assoc, ← List.append_assoc, ← List.append_assoc, List.getLast?_append]
    rfl

theorem Spec.LineSafe.flatLines {cfg : OutCfg} {s : List Byte} (h : LineSafe cfg s) : flatLines cfg s = s := by
  unfold Xmq.flatLines
  split
  · have : s.map (fun c => if c == b#'\n' then b#' ' else c) = s.map id := List.map_congr_left (fun c hc => by
      rw [if_neg]; · rfl
      · simp only [beq_iff_eq]; rintro rfl; exact h.line hc)
    rw [this, List.map_id]
  · rfl

/-! ## Processing instructions and doctypes -/

/-- The two kinds of such names. -/
def SpecialKind (kind : ElemKind) (name : List Byte) : Prop :=
  (kind = .pi ∧ ∃ t, name = 63 :: t ∧ (∀ b ∈ t, isXmqTextName b = true) ∧ (58 : Byte) ∉ t) ∨ (kind = .doctype ∧ name = b#"!DOCTYPE")

theorem SpecialKind.shape {kind : ElemKind} {name : List Byte} (h : SpecialKind kind name) :
    ∃ x t, name = x :: t ∧ (x = 63 ∨ x = 33) ∧ (∀ b ∈ t, isXmqTextName b = true) ∧ (58 : Byte) ∉ name := by
  rcases h with ⟨-, t, rfl, hb, hc⟩ | ⟨-, rfl⟩
  · exact ⟨63, t, rfl, .inl rfl, hb, by simp [hc]⟩
  · exact ⟨33, b#"DOCTYPE", rfl, .inr rfl, by decide, by decide⟩

theorem special_step {st : St} {kind : ElemKind} {name ws r : List Byte} {col : Nat} {b : List Open} (hn : SpecialKind kind name) (hw : Ws ws)
    (h : At st (name ++ (ws ++ 61 :: r)) col b) (F : Nat) :
    parseXmq (F + 1) st = (parseXmqElementInternal F (parseXmq F) st kind).bind (parseXmq F) := by
  rcases hn with ⟨rfl, t, rfl, hb, hc⟩ | ⟨rfl, rfl⟩
  · have hr : st.rest = 63 :: (t ++ (ws ++ 61 :: r)) := h.rest
    rw [parseXmq]
    simp only [hr]
    rw [if_neg (by decide), if_neg (by decide), if_neg (by decide), if_neg (by simp [isXmqCommentStart]), if_neg (by decide),
      if_neg (by simp [isXmqDoctypeStart]), if_pos (by simp [isXmqPiStart]; omega)]
  · have hr : st.rest = 33 :: (b#"DOCTYPE" ++ (ws ++ 61 :: r)) := h.rest
    rw [parseXmq]
    simp only [hr]
    rw [if_neg (by decide), if_neg (by decide), if_neg (by decide), if_neg (by simp [isXmqCommentStart]), if_neg (by decide), if_pos]
    unfold isXmqDoctypeStart
    rw [if_pos (by simp)]
    cases ws with
    | nil => simp
    | cons y ws => rcases hw y (by simp) with rfl | rfl <;> simp

theorem special_name (hq : Mode.qual = true) {st : St} {kind : ElemKind} {name k : List Byte} {col : Nat} {o : Open} {stk : List Open}
    (hn : SpecialKind kind name) (hk : NameEnd k) (h : At st (name ++ k) col (o :: stk)) :
    At (parseElementName st kind) k (colw col name) (o.elem name [] [] :: stk) := by
  obtain ⟨x, t, rfl, hx, hb, hc⟩ := hn.shape
  have hkind : kind ≠ .element := by rcases hn with ⟨rfl, -⟩ | ⟨rfl, -⟩ <;> simp
  have hname : eatXmqDoctypeOrPi st = (st.advance (x :: t).length, x :: t) := by
    unfold eatXmqDoctypeOrPi
    simp only [h.rest, List.cons_append, List.take_succ_cons, List.take_zero, List.drop_succ_cons, List.drop_zero, takeName hb hk, List.nil_append]
  unfold parseElementName
  have key : At (emitName st (st.advance (x :: t).length) none (x :: t) .element_ns
      (if peekXmqNextIsEqual (st.advance (x :: t).length).rest then .element_key else .element_name)) k (colw col (x :: t)) (o.elem (x :: t) [] [] :: stk) := by
    refine At.named h (fun l => ?_)
    split <;> simp [nameToks, flatStep, hq, addTop, addChild, Open.elem] <;> simpa using hc
  cases kind with
  | element => exact absurd rfl hkind
  | pi => simp only [hname]; exact key
  | doctype => simp only [hname]; exact key

/-- A processing instruction or a doctype with its value. -/
theorem X_special (hq : Mode.qual = true) {kind : ElemKind} {name ws vw k : List Byte} {col : Nat} {o : Open} {stk : List Open} {ks : List Node}
    (hn : SpecialKind kind name) (hw : Ws ws)
    (hv : P (fun F st => parseXmqValue F st .elementValue) (vw ++ k) (colw (colw col name) (ws ++ [61])) (o.elem name [] [] :: stk) k
      (colw (colw (colw col name) (ws ++ [61])) vw) (o.elem name [] ks :: stk)) :
    X (name ++ (ws ++ 61 :: (vw ++ k))) col (o :: stk) k (colw col (name ++ (ws ++ 61 :: vw))) (o.elem name [] ks :: stk) := by
  refine X.step (fun F st => parseXmqElementInternal F (parseXmq F) st kind) (fun st hst F => special_step hn hw hst F) ?_
  intro st hst
  have h0 := special_name hq hn (nameEnd_ws (.inl rfl) hw _) hst
  have h61 : countWhitespace (61 :: (vw ++ k)) = 0 := countWhitespace_of_head (by decide) (by decide) (by decide)
  obtain ⟨s1, he1, h1⟩ := PA_none hw h61 (by simp) (colw col name) (o.elem name [] [] :: stk) _ h0
  have h2 := h1.one .equals (b' := o.elem name [] [] :: stk) (fun _ => by rw [bstep_same _ _ (by simp)]; rfl)
  rw [← colw_append] at h2
  obtain ⟨s3, he3, h3⟩ := hv _ h2
  refine ⟨s3, Ev.bind he1 (Ev.congr (fun F => ?_) he3), ?_⟩
  · unfold parseElementBody
    simp only [h1.skipWs_same h61, h1.rest]
    rfl
  · rw [← colw_append, ← colw_append, List.append_assoc] at h3
    exact h3

theorem starts_special {x : Byte} (h : x = 63 ∨ x = 33) : Starts x := by
  rcases h with rfl | rfl <;> exact ⟨by decide, by decide, by decide, by decide⟩

theorem print_special (ps : PS) {kind : ElemKind} {name : List Byte} (h : SpecialKind kind name) : ∃ c,
    ps.print name = { ps with out := ps.out ++ name, cur := ps.cur + name.length, last := c } := by
  obtain ⟨x, t, rfl, -⟩ := h.shape
  cases hl : (x :: t).getLast? with
  | none => simp at hl
  | some c => exact ⟨c, by simp [PS.print, hl]⟩

/-- What the value of a processing instruction or doctype must do. -/
def SpecialValue (cfg : OutCfg) (name s : List Byte) (q : PS → PS) : Prop :=
  ∀ p : PS, p.last = 61 → (q p).last ≠ 1 ∧ ∃ w, (q p).out = p.out ++ w ∧ (q p).line = p.line ∧ ∀ col ws, Ws ws →
    Sync True cfg (q p) (colw col (ws ++ w)) ∧ ∀ k, K cfg (q p).last k → ∀ o stk,
      P (fun F st => parseXmqValue F st .elementValue) (ws ++ (w ++ k)) col (Open.elem o name [] [] :: stk) k (colw col (ws ++ w))
        (o.elem name [] [.text s] :: stk)

theorem emits_special (hq : Mode.qual = true) {cfg : OutCfg} (hsp : cfg.indentationSpace = [32]) {kind : ElemKind} {name s : List Byte}
    (hn : SpecialKind kind name) {q : PS → PS} (hv : SpecialValue cfg name s q) (ps : PS) :
    NEmits cfg ps (q (((ps.beforeKey cfg).print name).plainEquals cfg)) [.element name [] [.text s]] ∧
      (q (((ps.beforeKey cfg).print name).plainEquals cfg)).last ≠ 1 := by
  obtain ⟨x, t, hxt, hx, hb, hc⟩ := hn.shape
  obtain ⟨c, hpn⟩ := print_special (ps.beforeKey cfg) hn
  obtain ⟨p2, ep2, ws1, ws2, hw1, hw2, eo, el, elast, -⟩ := equals_spec hsp ((ps.beforeKey cfg).print name) 1
  have e : ((ps.beforeKey cfg).print name).plainEquals cfg = p2 := ep2
  rw [e]
  obtain ⟨hl1, w, vo, vl, hvw⟩ := hv p2 elast
  refine ⟨?_, hl1⟩
  rw [hpn] at eo el
  refine N_step (x := x) (t := t ++ (ws1 ++ 61 :: (ws2 ++ w))) (beforeKey_starts hsp ps (starts_special hx) (by rcases hx with rfl | rfl <;> decide))
    (starts_special hx) ?_ ?_ (fun col _ => ?_)
  · rw [vo, eo, hxt]; simp
  · rw [vl, el]
  · obtain ⟨h1, h2⟩ := hvw (colw (colw col name) (ws1 ++ [61])) ws2 hw2
    have ecol : colw col (x :: (t ++ (ws1 ++ 61 :: (ws2 ++ w)))) = colw (colw (colw col name) (ws1 ++ [61])) (ws2 ++ w) := by
      rw [← colw_append, ← colw_append, hxt]; simp
    refine ⟨by rw [ecol]; exact h1, fun k hk o stk => ?_⟩
    have haft : aft (q p2).last k = k := by simp [aft, hl1]
    have hcaft : ∀ n, colAft (q p2).last n = n := fun n => by simp [colAft, hl1]
    rw [haft, hcaft, elem_add]
    have := X_special hq (vw := ws2 ++ w) (k := k) (col := col) (o := o) (stk := stk) hn hw1 (by
      rw [List.append_assoc]; exact h2 k hk o stk)
    rw [hxt] at this
    rw [hxt]
    simpa using this

theorem line_special {cfg : OutCfg} (hsp : cfg.indentationSpace = [32]) {name s : List Byte} (hp : peek name ≠ 33) (h : LineSafe cfg s) :
    SpecialValue cfg name s (fun p => PS.internalText cfg .elementValue (s.length + 1) p s) := by
  intro p hp61
  obtain ⟨⟨es, hes, w, ho, hl, hw⟩, h1⟩ := line_reads hsp (lv := .elementValue) (.inl rfl) h p (by rw [hp61]; decide) s.length true (S := False)
  refine ⟨h1, w, ho, hl, fun col ws hws => ?_⟩
  obtain ⟨h2, h3⟩ := hw col ws hws (fun h => h.elim)
  refine ⟨h2, fun k hk o stk => ?_⟩
  have := h3 k hk _ _ (recv_element { o with lastAttr := false } stk name [] o.kids rfl (sp := true) (by simp) hp)
  have e : mergeNodes (es.map Val.node) = [.text s] := by
    rw [mergeNodes_vals, hes.merge]; rfl
  rw [e] at this
  exact this

theorem bare_special {cfg : OutCfg} {name s : List Byte} (h : LineSafe cfg s) (hv : isXmqTextValue s = true) :
    SpecialValue cfg name s (fun p => PS.internalText cfg .elementValue (s.length + 1) p s) := by
  intro p hp61
  dsimp only
  rw [internalText_line (.inl rfl) h, if_pos hv]
  obtain ⟨c, hcl, hb, hc1, hc0, hc40, hc61⟩ := h.bareEnd hv
  refine ⟨by simp [PS.printSpan, hcl, hc1], s, printSpan_keep p (bare_noStray hv), by simp [PS.printSpan, hcl], fun col ws hws => ⟨?_, fun k hk o stk => ?_⟩⟩
  · simp [Sync, PS.printSpan, hcl, hc1, hc0, hc40, hc61]
  · simp only [PS.printSpan, hcl] at hk
    exact P_value_text (f := fun vs => o.elem name [] (mergeNodes (vs.map Val.node)) :: stk) (.inl rfl) (recv0_element o stk name []).one ws s k hws h.ne hv (endsValue_of_K hk hb) col

end Xmq
