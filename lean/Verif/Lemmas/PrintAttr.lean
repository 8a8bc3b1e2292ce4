import Verif.Lemmas.PrintNode
/-!
# Attributes
-/
namespace Xmq
open Spec

set_option linter.unusedSectionVars false

variable [Mode]

/-- From `ps` to `ps'` the printer counts the columns like the parser. -/
def Cur (ps ps' : PS) : Prop := ∃ w, ps'.out = ps.out ++ w ∧ ps'.cur + 1 = colw (ps.cur + 1) w

theorem Cur.col {a b : PS} {w : List Byte} (h : Cur a b) (ho : b.out = a.out ++ w) : b.cur + 1 = colw (a.cur + 1) w := by
  obtain ⟨w', o, e⟩ := h
  rw [ho] at o
  rw [List.append_cancel_left o]; exact e

theorem name_last {name : List Byte} (h : NameOk name) : ∃ c, name.getLast? = some c ∧ isXmqTextName c = true ∧ Other c := by
  cases hg : name.getLast? with
  | none => simp at hg; exact absurd hg h.ne
  | some c =>
    have hb := h.bytes c (List.mem_of_getLast? hg)
    have := nameByte_class c hb
    exact ⟨c, rfl, hb, by simp [Other]; grind⟩

theorem colw_name {name : List Byte} (h : ∀ b ∈ name, isXmqTextName b = true) (col : Nat) : colw col name = col + name.length := by
  induction name generalizing col with
  | nil => rfl
  | cons c t ih =>
    rw [← List.singleton_append, colw_append, ih (fun b hb => h b (by simp [hb]))]
    have hc := nameByte_class c (h c (by simp))
    have : colw col [c] = col + 1 := by
      simp [colw, walk, incPos, hc]
    rw [this]; simp; omega

theorem print_name (ps : PS) {name : List Byte} (h : NameOk name) : ∃ c, Other c ∧ isXmqTextName c = true ∧
    ps.print name = { ps with out := ps.out ++ name, cur := ps.cur + name.length, last := c } := by
  obtain ⟨c, hc, hb, ho⟩ := name_last h
  exact ⟨c, ho, hb, by simp [PS.print, hc]⟩

theorem other_facts {c : Byte} (h : Other c) : c ≠ 0 ∧ c ≠ 1 ∧ c ≠ 40 ∧ c ≠ 61 ∧ c ≠ 39 ∧ c ≠ 41 ∧ c ≠ 47 ∧ c ≠ 123 ∧ c ≠ 125 ∧ c ≠ 59 := by
  simp [Other] at h; grind

theorem K.nameEnd {cfg : OutCfg} {c : Byte} {k : List Byte} (hk : K cfg c k) (hc : Other c) : NameEnd k := by
  intro x hx
  rcases hk.other (.inl hc) with h | ⟨y, hy, hm⟩
  · subst h; cases hx
  · rw [hx] at hy; cases hy
    simp at hm
    rcases hm with rfl | rfl | rfl | rfl | rfl <;> decide

/-- Attributes added to the top of the stack. -/
def Open.attrs' (o : Open) (as : List Attr) : Open := as.foldl (fun o a => o.attr a.name a.value) o

theorem attrs'_eq (o : Open) (as : List Attr) (hne : as ≠ []) :
    o.attrs' as = { o with attrs := as.reverse ++ o.attrs, lastAttr := true } := by
  induction as generalizing o with
  | nil => exact absurd rfl hne
  | cons a as ih =>
    show (o.attr a.name a.value).attrs' as = _
    by_cases h : as = []
    · subst h; simp [Open.attrs', Open.attr]
    · rw [ih _ h]; simp [Open.attr]

def AEmits (cfg : OutCfg) (ps ps' : PS) (as : List Attr) : Prop :=
  ∃ w, ps'.out = ps.out ++ w ∧ ps'.line = ps.line ∧ ∀ col, Sync True cfg ps col → Sync True cfg ps' (colw col w) ∧
    ∀ k, K cfg ps'.last k → K cfg ps.last (w ++ k) ∧ ∀ o stk,
      A (w ++ k) col (o :: stk) k (colw col w) (o.attrs' as :: stk)

theorem AEmits.refl (cfg : OutCfg) (ps : PS) : AEmits cfg ps ps [] :=
  ⟨[], by simp, rfl, fun _ h => ⟨h, fun k hk => ⟨hk, fun o stk => A.refl _ _ _⟩⟩⟩

theorem AEmits.trans {cfg : OutCfg} {a b c : PS} {as1 as2 : List Attr} (h1 : AEmits cfg a b as1) (h2 : AEmits cfg b c as2) :
    AEmits cfg a c (as1 ++ as2) := by
  obtain ⟨w1, o1, l1, p1⟩ := h1
  obtain ⟨w2, o2, l2, p2⟩ := h2
  refine ⟨w1 ++ w2, by rw [o2, o1, List.append_assoc], by rw [l2, l1], fun col hs => ?_⟩
  obtain ⟨s1, q1⟩ := p1 col hs
  obtain ⟨s2, q2⟩ := p2 _ s1
  refine ⟨by rw [colw_append]; exact s2, fun k hk => ?_⟩
  obtain ⟨k2, x2⟩ := q2 k hk
  obtain ⟨k1, x1⟩ := q1 _ k2
  refine ⟨by rw [List.append_assoc]; exact k1, fun o stk => ?_⟩
  rw [List.append_assoc, colw_append, show o.attrs' (as1 ++ as2) = (o.attrs' as1).attrs' as2 by simp [Open.attrs', List.foldl_append]]
  exact (x1 o stk).trans (x2 _ stk)

/-- How an attribute comes back: adjacent texts are one text, and an empty text is no value. -/
def normAttr (a : Attr) : Attr := ⟨a.name, if noAttrValue a.value then [] else mergeVals a.value⟩

/-- The names and values of attributes are read back. -/
structure AttrOk (cfg : OutCfg) (a : Attr) : Prop where
  name : NameOk a.name
  notNs : Mode.qual = true ∨ a.name ≠ b#"xmlns"
  value : noAttrValue a.value = false → ∀ p : PS, p.last = 61 →
    ReadsSp (specialAttr a.name) cfg (cfg.compact = false) .attrValue p (p.value cfg a.value .attrValue) a.value

/-- The text between a name and its value. -/
theorem equals_spec {cfg : OutCfg} (hsp : cfg.indentationSpace = [32]) (ps : PS) (pad : Nat) :
    ∃ p2, (if !cfg.compact then ((if !cfg.compact then ps.whiteSpaces cfg pad else ps).print b#"=").whiteSpaces cfg 1
        else (if !cfg.compact then ps.whiteSpaces cfg pad else ps).print b#"=") = p2 ∧ ∃ ws1 ws2, Ws ws1 ∧ Ws ws2 ∧ p2.out = ps.out ++ (ws1 ++ 61 :: ws2) ∧ p2.line = ps.line ∧ p2.last = 61 ∧
      (cfg.compact = false → ∀ col, p2.cur + col = ps.cur + colw (colw col (ws1 ++ [61])) ws2) := by
  cases hc : cfg.compact
  · refine ⟨_, rfl, List.replicate pad 32, [32], ws_spaces _, ws_spaces 1, ?_, rfl, rfl, fun _ col => ?_⟩
    · simp [PS.whiteSpaces, PS.print, hsp]
    · rw [colw_append, colw_spaces]
      show ps.cur + pad + 1 + 1 + col = ps.cur + (col + pad + 1 + 1)
      omega
  · exact ⟨_, rfl, [], [], Ws.nil, Ws.nil, by simp [PS.print], rfl, rfl, by simp⟩

/-- An attribute without a value. -/
theorem emits_key {cfg : OutCfg} (hsp : cfg.indentationSpace = [32]) {name : List Byte} (hn : NameOk name)
    (hx : Mode.qual = true ∨ name ≠ b#"xmlns") (ps : PS) :
    AEmits cfg ps ((ps.beforeAttribute cfg).print name) [⟨name, []⟩] ∧ ((ps.beforeAttribute cfg).print name).last ≠ 1 := by
  obtain ⟨x, t, hxt⟩ : ∃ x t, name = x :: t := by
    cases he : name with
    | nil => exact absurd he hn.ne
    | cons x t => exact ⟨x, t, rfl⟩
  have hxb : isXmqTextName x = true := hn.bytes x (by rw [hxt]; simp)
  obtain ⟨ws, hw, ho, hl, hs⟩ := beforeAttribute_sep hsp ps hxb
  obtain ⟨c, hoc, hbc, hpn⟩ := print_name (ps.beforeAttribute cfg) hn
  have hcount : ∀ k, countWhitespace (name ++ k) = 0 := fun k => by
    rw [hxt]; exact (starts_name hxb).count _
  rw [hpn]
  refine ⟨⟨ws ++ name, by simp [ho], hl, fun col hsync => ?_⟩, (other_facts hoc).2.1⟩
  obtain ⟨hcur, hK⟩ := hs col hsync
  refine ⟨?_, fun k hk => ⟨?_, fun o stk => ?_⟩⟩
  · have := other_facts hoc
    simp [Sync, this]
  · rw [hxt]
    have := hK (t ++ k)
    simpa using this
  · have hA0 := A_ws hw (hcount k) col (o :: stk)
    have hA := A_attr_bare hn hx (hk.nameEnd hoc) (hk.calm.mono (by simp)) (colw col ws) o stk
    have := hA0.trans hA
    rw [colw_append, List.append_assoc]
    simpa [Open.attrs'] using this

/-- An attribute with a value, printed by `q`. -/
theorem emits_keyed {cfg : OutCfg} (hsp : cfg.indentationSpace = [32]) {name : List Byte} (hn : NameOk name)
    (hx : Mode.qual = true ∨ name ≠ b#"xmlns") (ps : PS) (pad : Nat) (q : PS → PS) (vs : List Val)
    (hv : ∀ p : PS, p.last = 61 → ReadsSp (specialAttr name) cfg (cfg.compact = false) .attrValue p (q p) vs) :
    AEmits cfg ps (q (if !cfg.compact then ((if !cfg.compact then ((ps.beforeAttribute cfg).print name).whiteSpaces cfg pad
        else (ps.beforeAttribute cfg).print name).print b#"=").whiteSpaces cfg 1
      else (if !cfg.compact then ((ps.beforeAttribute cfg).print name).whiteSpaces cfg pad else (ps.beforeAttribute cfg).print name).print b#"="))
      [⟨name, mergeVals vs⟩] ∧
    (q (if !cfg.compact then ((if !cfg.compact then ((ps.beforeAttribute cfg).print name).whiteSpaces cfg pad
        else (ps.beforeAttribute cfg).print name).print b#"=").whiteSpaces cfg 1
      else (if !cfg.compact then ((ps.beforeAttribute cfg).print name).whiteSpaces cfg pad else (ps.beforeAttribute cfg).print name).print b#"=")).last ≠ 1 := by
  obtain ⟨x, t, hxt⟩ : ∃ x t, name = x :: t := by
    cases he : name with
    | nil => exact absurd he hn.ne
    | cons x t => exact ⟨x, t, rfl⟩
  have hxb : isXmqTextName x = true := hn.bytes x (by rw [hxt]; simp)
  obtain ⟨ws, hw, ho, hl, hs⟩ := beforeAttribute_sep hsp ps hxb
  obtain ⟨c, hoc, hbc, hpn⟩ := print_name (ps.beforeAttribute cfg) hn
  have hcount : ∀ k, countWhitespace (name ++ k) = 0 := fun k => by
    rw [hxt]; exact (starts_name hxb).count _
  rw [hpn]
  obtain ⟨p2, ep2, ws1, ws2, hw1, hw2, eo, el, elast, ecur⟩ := equals_spec hsp
    { ps.beforeAttribute cfg with out := (ps.beforeAttribute cfg).out ++ name, cur := (ps.beforeAttribute cfg).cur + name.length, last := c }
    pad
  dsimp only at eo el elast ecur
  rw [ep2]
  obtain ⟨⟨es, hsplit, w, vo, vl, hvw⟩, hlast⟩ := hv _ elast
  refine ⟨⟨ws ++ (name ++ (ws1 ++ 61 :: (ws2 ++ w))), ?_, ?_, fun col hsync => ?_⟩, hlast⟩
  · rw [vo, eo, ho]; simp
  · rw [vl, el, hl]
  · obtain ⟨hcur, hK⟩ := hs col hsync
    have hcol : cfg.compact = false → p2.cur + 1 =
        colw (colw (colw col ws) (name ++ (ws1 ++ [61]))) ws2 := by
      intro hc
      have e := ecur hc ((ps.beforeAttribute cfg).cur + name.length + 1)
      have : colw (colw col ws) (name ++ (ws1 ++ [61])) = colw ((ps.beforeAttribute cfg).cur + name.length + 1) (ws1 ++ [61]) := by
        rw [colw_append, colw_name hn.bytes, ← hcur hc]
        congr 1; omega
      rw [this]
      omega
    obtain ⟨hsync', hP⟩ := hvw (colw (colw col ws) (name ++ (ws1 ++ [61]))) ws2 hw2 hcol
    have ecol : colw col (ws ++ (name ++ (ws1 ++ 61 :: (ws2 ++ w)))) = colw (colw (colw col ws) (name ++ (ws1 ++ [61]))) (ws2 ++ w) := by
      rw [← colw_append, ← colw_append]; simp
    refine ⟨by rw [ecol]; exact hsync', fun k hk => ⟨?_, fun o stk => ?_⟩⟩
    · rw [hxt]
      have := hK (t ++ (ws1 ++ 61 :: (ws2 ++ w)) ++ k)
      simpa using this
    · have hA := A_attr_value (k := k) (col := colw col ws) (o := o) (stk := stk) (vw := ws2 ++ w) (vs := es) hn hx hw1
        (fun b f hb => by
          have := hP k hk b f hb
          rwa [List.append_assoc])
      have hA0 := A_ws hw (hcount (ws1 ++ 61 :: ((ws2 ++ w) ++ k))) col (o :: stk)
      have := hA0.trans hA
      rw [ecol, ← colw_append]
      rw [show name ++ (ws1 ++ 61 :: (ws2 ++ w)) = (name ++ (ws1 ++ [61])) ++ (ws2 ++ w) by simp, colw_append] at this
      rw [show (o.attrs' [⟨name, mergeVals vs⟩]) = o.attr name (mergeVals es) by simp [Open.attrs', hsplit.merge]]
      rw [colw_append]
      simpa using this

theorem emits_attr {cfg : OutCfg} (hsp : cfg.indentationSpace = [32]) {align : Nat} {a : Attr} (h : AttrOk cfg a) (ps : PS) :
    AEmits cfg ps (ps.attribute cfg align a) [normAttr a] ∧ (ps.attribute cfg align a).last ≠ 1 := by
  unfold PS.attribute normAttr
  dsimp only
  cases hv : noAttrValue a.value
  · simp only [Bool.false_eq_true, if_false]
    exact emits_keyed hsp h.name h.notNs ps (1 + align - nameWidth a.name) (fun p => p.value cfg a.value .attrValue) a.value (h.value hv)
  · simp only [if_true]
    exact emits_key hsp h.name h.notNs ps

theorem emits_attrs {cfg : OutCfg} (hsp : cfg.indentationSpace = [32]) {align : Nat} (as : List Attr) (h : ∀ a ∈ as, AttrOk cfg a) (ps : PS)
    (h1 : ps.last ≠ 1) :
    AEmits cfg ps (as.foldl (PS.attribute cfg align) ps) (as.map normAttr) ∧ (as.foldl (PS.attribute cfg align) ps).last ≠ 1 := by
  induction as generalizing ps with
  | nil => exact ⟨AEmits.refl _ _, h1⟩
  | cons a as ih =>
    obtain ⟨e1, l1⟩ := emits_attr hsp (align := align) (h a (by simp)) ps
    obtain ⟨e2, l2⟩ := ih (fun b hb => h b (by simp [hb])) _ l1
    exact ⟨e1.trans e2, l2⟩

end Xmq
