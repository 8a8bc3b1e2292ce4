import Verif.Lemmas.PrintAttr
/-!
# Elements
-/
namespace Xmq
open Spec

set_option linter.unusedSectionVars false

variable [Mode]

/-- White space before the value or the body of an element. -/
theorem PB_ws {x : Byte} {ws r k : List Byte} {col col' : Nat} {b b' : List Open} (hw : Ws ws)
    (hx : countWhitespace (x :: r) = 0)
    (h : P (fun F => parseElementBody F (parseXmq F)) (x :: r) (colw col ws) b k col' b') :
    P (fun F => parseElementBody F (parseXmq F)) (ws ++ x :: r) col b k col' b' := by
  intro st hst
  have h1 := hst.skipWs hw hx
  obtain ⟨st', he, ha⟩ := h _ h1
  refine ⟨st', Ev.congr (fun F => ?_) he, ha⟩
  show parseElementBody F (parseXmq F) st = parseElementBody F (parseXmq F) (skipWs st)
  simp only [parseElementBody, h1.skipWs_same hx]

/-- What is printed behind the name and the attributes of an element is read as its children `ks`. -/
def BodyEmitsSp (sp : Bool) (cfg : OutCfg) (S : Prop) (ps ps' : PS) (ks : List Node) : Prop :=
  ps'.last ≠ 1 ∧ ∃ ws x bw, Ws ws ∧ (x = 61 ∨ x = 123) ∧ ps'.out = ps.out ++ (ws ++ x :: bw) ∧ ps'.line = ps.line ∧
    ∀ col, (S → ps.cur + 1 = col) → Sync True cfg ps' (colw col (ws ++ x :: bw)) ∧ ∀ k, K cfg ps'.last k → ∀ o stk name as,
      (sp = false → specialName name = false) → peek name ≠ 33 → P (fun F => parseElementBody F (parseXmq F)) (x :: (bw ++ k)) (colw col ws) (Open.elem o name as [] :: stk) k
        (colw col (ws ++ x :: bw)) (Open.elem o name as ks :: stk)

abbrev BodyEmits := BodyEmitsSp false

theorem eqbrace_count {x : Byte} (h : x = 61 ∨ x = 123) (t : List Byte) : countWhitespace (x :: t) = 0 := by
  rcases h with rfl | rfl <;> exact countWhitespace_of_head (by decide) (by decide) (by decide)

theorem nameEnd_ws {x : Byte} (h : x = 61 ∨ x = 123 ∨ x = 40) {ws : List Byte} (hw : Ws ws) (t : List Byte) : NameEnd (ws ++ x :: t) := by
  intro c hc
  cases ws with
  | nil => simp at hc; subst hc; rcases h with rfl | rfl | rfl <;> decide
  | cons y ws => simp at hc; subst hc; rcases hw y (by simp) with rfl | rfl <;> decide

theorem nameAndAttributes_nil (cfg : OutCfg) (ps : PS) (name : List Byte) :
    ps.nameAndAttributes cfg name [] = (ps.beforeKey cfg).print name := rfl

/-- The name and the attribute list of an element have been printed. -/
def NameAttrs (cfg : OutCfg) (ps ps1 : PS) (name : List Byte) (as : List Attr) : Prop :=
  (as = [] ∧ ps1 = (ps.beforeKey cfg).print name) ∨ ∃ aw, ps1.out = (ps.beforeKey cfg).out ++ (name ++ 40 :: (aw ++ [41])) ∧
    ps1.line = (ps.beforeKey cfg).line ∧ ps1.last = 41 ∧
    ∀ col, (cfg.compact = false → (ps.beforeKey cfg).cur + 1 = col) → ∀ k o stk,
      P parseElementAttributes (40 :: (aw ++ 41 :: k)) (colw col name) (Open.elem o name [] [] :: stk) k
        (colw (colw col name) (40 :: (aw ++ [41]))) (Open.elem o name as [] :: stk)

/-- An attribute list with its parentheses. -/
theorem attrList_spec {cfg : OutCfg} {name : List Byte} (hn : ElemName name) {as : List Attr} (hne : as ≠ []) {ps q r : PS}
    (hq : q = { ((ps.beforeKey cfg).print name).print b#"(" with line := (((ps.beforeKey cfg).print name).print b#"(").cur })
    (he : AEmits cfg q r as) (hlast : r.last ≠ 1) :
    NameAttrs cfg ps ({ r with line := (ps.beforeKey cfg).line }.print b#")") name as := by
  obtain ⟨c, hoc, hbc, hpn⟩ := print_name (ps.beforeKey cfg) hn.toNameOk
  obtain ⟨aw, ho, hl, hw⟩ := he
  subst hq
  refine .inr ⟨aw, ?_, rfl, rfl, fun col hcol k o stk => ?_⟩
  · show r.out ++ [41] = _
    rw [ho]
    show (((ps.beforeKey cfg).print name).out ++ [40]) ++ aw ++ [41] = _
    rw [hpn]; simp
  · refine PA_attrs hn.notSpecial (fun o' stk' ho' => ?_)
    have hsync : Sync True cfg { ((ps.beforeKey cfg).print name).print b#"(" with line := (((ps.beforeKey cfg).print name).print b#"(").cur }
        (colw (colw col name) [40]) := by
      unfold Sync
      split
      · exact (by decide : (40 : Byte) ≠ 1)
      · rename_i hc
        intro _ _
        have := hcol (by simpa using hc)
        show ((ps.beforeKey cfg).print name).cur + 1 + 1 = _
        rw [hpn, colw_name hn.bytes, ← this]
        show _ = (ps.beforeKey cfg).cur + 1 + name.length + 1
        simp; omega
    have := ((hw _ hsync).2 (41 :: k) (by simpa using K_paren cfg _ k [] (.inl rfl) hlast)).2 o' stk'
    rwa [attrs'_eq _ _ hne, ho', List.append_nil] at this

theorem nameAttrs_spec {cfg : OutCfg} (hsp : cfg.indentationSpace = [32]) {name : List Byte} (hn : ElemName name) {as : List Attr}
    (ha : ∀ a ∈ as, AttrOk cfg a) (ps : PS) : NameAttrs cfg ps (ps.nameAndAttributes cfg name as) name (as.map normAttr) := by
  by_cases hne : as = []
  · subst hne; exact .inl ⟨rfl, nameAndAttributes_nil _ _ _⟩
  · unfold PS.nameAndAttributes
    dsimp only
    rw [if_neg (by simpa using hne)]
    unfold PS.attributes
    dsimp only
    obtain ⟨he, hlast⟩ := emits_attrs hsp (align := if !cfg.compact then as.foldl (fun m a => max m (nameWidth a.name)) 0 else 0) as ha
      { ((ps.beforeKey cfg).print name).print b#"(" with line := (((ps.beforeKey cfg).print name).print b#"(").cur } (by show (40 : Byte) ≠ 1; decide)
    have hl : (((ps.beforeKey cfg).print name).print b#"(").line = (ps.beforeKey cfg).line := by
      obtain ⟨c, hoc, hbc, hpn⟩ := print_name (ps.beforeKey cfg) hn.toNameOk
      rw [hpn]; rfl
    rw [hl]
    exact attrList_spec hn (by simpa using hne) rfl he hlast

theorem elem_add (o : Open) (name : List Byte) (as : List Attr) (ks : List Node) :
    o.addAll [.element name as ks] = o.elem name as ks := by
  simp [Open.addAll, Open.add, Open.elem, addChild]

theorem elem_head {name : List Byte} (hn : ElemName name) : ∃ x t, name = x :: t ∧ isXmqTextName x = true := by
  cases h : name with
  | nil => exact absurd h hn.ne
  | cons x t => exact ⟨x, t, rfl, hn.bytes x (by rw [h]; simp)⟩

/-- An element with a value or a body. -/
theorem emits_named_body {cfg : OutCfg} (hsp : cfg.indentationSpace = [32]) {name : List Byte} (hn : ElemName name) {as : List Attr}
    {S : Prop} {ps ps1 ps' : PS} {ks : List Node} (ha : NameAttrs cfg ps ps1 name as)
    (hS : S → cfg.compact = false ∧ Cur (ps.beforeKey cfg) ps1) (hb : BodyEmits cfg S ps1 ps' ks) :
    NEmits cfg ps ps' [.element name as ks] := by
  obtain ⟨hlast, ws, x, bw, hws, hx, ho, hl, hbody⟩ := hb
  obtain ⟨y, t, hyt, hyb⟩ := elem_head hn
  obtain ⟨c, hoc, hbc, hpn⟩ := print_name (ps.beforeKey cfg) hn.toNameOk
  have haft : ∀ k, aft ps'.last k = k := fun k => by simp [aft, hlast]
  have hcaft : ∀ k, colAft ps'.last k = k := fun k => by simp [colAft, hlast]
  rcases ha with ⟨rfl, rfl⟩ | ⟨aw, ao, al, alast, hA⟩
  · rw [hpn] at ho hl hbody
    refine N_step (t := t ++ (ws ++ x :: bw)) (beforeKey_sep hsp ps hyb) (starts_name hyb) ?_ ?_ (fun col hcol => ?_)
    · rw [ho, hyt]; simp
    · rw [hl]
    · obtain ⟨h1, h2⟩ := hbody (colw col name) (fun h => by
        rw [colw_name hn.bytes, ← hcol (hS h).1]; show _ + _ + 1 = _; omega)
      have e : y :: (t ++ (ws ++ x :: bw)) = name ++ (ws ++ x :: bw) := by rw [hyt]; rfl
      rw [e, colw_append]
      refine ⟨h1, fun k hk o stk => ?_⟩
      rw [haft, hcaft, elem_add]
      have hP := h2 k hk o stk name [] (fun _ => hn.notSpecial) hn.notDoctype
      have hA := PA_none (ws := ws) (k := x :: (bw ++ k)) hws (eqbrace_count hx _) (by rcases hx with rfl | rfl <;> simp)
        (colw col name) (o.elem name [] [] :: stk)
      have hX := X_elem (o := o) (stk := stk) hn (nameEnd_ws (by grind) hws _) hA hP
      simpa using hX
  · refine N_step (t := t ++ (40 :: (aw ++ [41]) ++ (ws ++ x :: bw))) (beforeKey_sep hsp ps hyb) (starts_name hyb) ?_ ?_ (fun col hcol => ?_)
    · rw [ho, ao, hyt]; simp
    · rw [hl, al]
    · obtain ⟨h1, h2⟩ := hbody (colw (colw col name) (40 :: (aw ++ [41]))) (fun h => by
        rw [(hS h).2.col (w := name ++ 40 :: (aw ++ [41])) ao, colw_append, hcol (hS h).1])
      have e : y :: (t ++ (40 :: (aw ++ [41]) ++ (ws ++ x :: bw))) = name ++ (40 :: (aw ++ [41]) ++ (ws ++ x :: bw)) := by rw [hyt]; rfl
      rw [e, colw_append, colw_append]
      refine ⟨h1, fun k hk o stk => ?_⟩
      rw [haft, hcaft, elem_add]
      have hP := PB_ws (ws := ws) hws (eqbrace_count hx _) (h2 k hk o stk name as (fun _ => hn.notSpecial) hn.notDoctype)
      have hX := X_elem (o := o) (stk := stk) hn (nameEnd_ws (ws := []) (by grind) Ws.nil _) (hA col hcol (ws ++ x :: (bw ++ k)) o stk) hP
      simpa using hX

/-- An element without a value or a body. -/
theorem emits_named_bare {cfg : OutCfg} (hsp : cfg.indentationSpace = [32]) {name : List Byte} (hn : ElemName name) {as : List Attr}
    {ps ps1 : PS} (ha : NameAttrs cfg ps ps1 name as) : NEmits cfg ps ps1 [.element name as []] ∧ ps1.last ≠ 1 := by
  obtain ⟨y, t, hyt, hyb⟩ := elem_head hn
  obtain ⟨c, hoc, hbc, hpn⟩ := print_name (ps.beforeKey cfg) hn.toNameOk
  rcases ha with ⟨rfl, rfl⟩ | ⟨aw, ao, al, alast, hA⟩
  · rw [hpn]
    have hof := other_facts hoc
    have haft : ∀ k, aft c k = k := fun k => by simp [aft, hof]
    have hcaft : ∀ k, colAft c k = k := fun k => by simp [colAft, hof]
    refine ⟨N_step (t := t) (beforeKey_sep hsp ps hyb) (starts_name hyb) ?_ rfl (fun col hcol => ?_), hof.2.1⟩
    · show _ ++ name = _; rw [hyt]
    · refine ⟨by simp [Sync, hof], fun k hk o stk => ?_⟩
      rw [← hyt, haft, hcaft, elem_add]
      refine X_elem_bare hn (hk.nameEnd hoc) (hk.calm.mono (by simp)) (fun st hst => ?_)
      obtain ⟨ws, k', hkk, hw, hcw, hh⟩ := hk.calm
      refine ⟨st, skipWs st, hst, ?_, .inr rfl⟩
      subst hkk
      have h1 := hst.skipWs hw hcw
      refine Ev.congr (fun F => ?_) (Ev.const _)
      unfold parseElementAttributes
      simp only [h1.rest]
      rw [if_neg]
      intro h
      simp only [beq_iff_eq] at h
      cases k' with
      | nil => cases h
      | cons z k' => exact hh z rfl (by simp at h; simp [h])
  · refine ⟨N_step (t := t ++ (40 :: (aw ++ [41]))) (beforeKey_sep hsp ps hyb) (starts_name hyb) ?_ ?_ (fun col hcol => ?_), by rw [alast]; decide⟩
    · rw [ao, hyt]; simp
    · rw [al]
    · rw [alast]
      refine ⟨by simp [Sync, alast], fun k hk o stk => ?_⟩
      have e : y :: (t ++ (40 :: (aw ++ [41]))) = name ++ (40 :: (aw ++ [41])) := by rw [hyt]; rfl
      rw [e, colw_append, elem_add]
      simp only [aft, colAft]
      rw [if_neg (by decide), if_neg (by decide)]
      have hX := X_elem_bare (o := o) (stk := stk) (as := as) (k := k) (w1 := 40 :: (aw ++ 41 :: k)) (col := col)
        (col1 := colw (colw col name) (40 :: (aw ++ [41]))) hn (nameEnd_ws (ws := []) (by grind) Ws.nil _) (hk.calm.mono (by simp))
        (fun st hst => by
          obtain ⟨st', he, hat⟩ := hA col hcol k o stk st hst
          exact ⟨st', st', hat, he, .inl rfl⟩)
      simpa using hX

theorem emits_elem_body {cfg : OutCfg} (hsp : cfg.indentationSpace = [32]) {name : List Byte} (hn : ElemName name) {as : List Attr}
    (ha : ∀ a ∈ as, AttrOk cfg a) {S : Prop} {ps ps' : PS} {ks : List Node}
    (hS : S → cfg.compact = false ∧ Cur (ps.beforeKey cfg) (ps.nameAndAttributes cfg name as))
    (hb : BodyEmits cfg S (ps.nameAndAttributes cfg name as) ps' ks) :
    NEmits cfg ps ps' [.element name (as.map normAttr) ks] :=
  emits_named_body hsp hn (nameAttrs_spec hsp hn ha ps) hS hb

theorem emits_elem_bare {cfg : OutCfg} (hsp : cfg.indentationSpace = [32]) {name : List Byte} (hn : ElemName name) {as : List Attr}
    (ha : ∀ a ∈ as, AttrOk cfg a) (ps : PS) :
    NEmits cfg ps (ps.nameAndAttributes cfg name as) [.element name (as.map normAttr) []] ∧ (ps.nameAndAttributes cfg name as).last ≠ 1 :=
  emits_named_bare hsp hn (nameAttrs_spec hsp hn ha ps)

/-- `key=value`. -/
theorem body_value {cfg : OutCfg} (hsp : cfg.indentationSpace = [32]) {S : Prop} (hS : S → cfg.compact = false) {v : List Val} (ps : PS) (align : Nat)
    {sp : Bool} (hv : ∀ p : PS, p.last = 61 → ReadsSp sp cfg S .elementValue p (p.value cfg v .elementValue) v) :
    BodyEmitsSp sp cfg S ps (ps.keyValue cfg align v) ((mergeVals v).map Val.node) := by
  unfold PS.keyValue
  dsimp only
  obtain ⟨p2, ep2, ws1, ws2, hw1, hw2, eo, el, elast, ecur⟩ := equals_spec hsp ps
    (if ps.line ≤ ps.cur ∧ ps.cur - ps.line < align then 1 + align - (ps.cur - ps.line) else 1)
  rw [ep2]
  obtain ⟨⟨es, hsplit, w, vo, vl, hvw⟩, hlast⟩ := hv p2 elast
  refine ⟨hlast, ws1, 61, ws2 ++ w, hw1, .inl rfl, by rw [vo, eo]; simp, by rw [vl, el], fun col hcol => ?_⟩
  obtain ⟨hsync', hP⟩ := hvw (colw col (ws1 ++ [61])) ws2 hw2 (fun hs => by
    have := ecur (hS hs) col
    have := hcol hs
    omega)
  have ecol : colw col (ws1 ++ 61 :: (ws2 ++ w)) = colw (colw col (ws1 ++ [61])) (ws2 ++ w) := by
    rw [← colw_append]; simp
  refine ⟨by rw [ecol]; exact hsync', fun k hk o stk name as hsn hd => ?_⟩
  have := PB_value (ws := []) (vw := ws2 ++ w) (k := k) (col := colw col ws1) (o := o) (stk := stk) (name := name) (as := as) (vs := es) Ws.nil hsn hd
    (fun b f hb => by
      have := hP k hk b f hb
      rw [List.append_assoc]
      simp only [colw_append, colw_nil] at this ⊢
      exact this)
  rw [mergeNodes_vals, hsplit.merge] at this
  rw [colw_append]
  simpa using this

theorem beforeOpeningBrace_spec {cfg : OutCfg} (hsp : cfg.indentationSpace = [32]) (ps : PS) : ∃ ws, Ws ws ∧
    (ps.beforeOpeningBrace cfg).out = ps.out ++ ws ∧ (ps.beforeOpeningBrace cfg).line = ps.line := by
  unfold PS.beforeOpeningBrace
  split
  · split
    · rw [nlIndent_eq _ _ hsp]
      exact ⟨10 :: List.replicate ps.line 32, (ws_spaces _).cons (.inr rfl), rfl, rfl⟩
    · exact ⟨[32], ws_spaces 1, by simp [PS.whiteSpaces, hsp], rfl⟩
  · exact ⟨[], Ws.nil, by simp, rfl⟩

/-- Children in braces. -/
theorem body_braces {cfg : OutCfg} (hsp : cfg.indentationSpace = [32]) {S : Prop} {ns : List Node} (ps r : PS) (l : Nat)
    (hq : NEmits cfg { (ps.beforeOpeningBrace cfg).print b#"{" with line := l } r ns) :
    BodyEmits cfg S ps ((PS.beforeClosingBrace cfg { r with line := ((ps.beforeOpeningBrace cfg).print b#"{").line }).print b#"}")
      (mergeNodes ns) := by
  obtain ⟨ws, hws, ho, hl⟩ := beforeOpeningBrace_spec hsp ps
  obtain ⟨w, qo, ql, hw⟩ := hq
  obtain ⟨ws2, hws2, ro, rl, hsep⟩ := beforeClosingBrace_sep hsp { r with line := ((ps.beforeOpeningBrace cfg).print b#"{").line }
  refine ⟨(by decide : (125 : Byte) ≠ 1), ws, 123, w ++ (ws2 ++ [125]), hws, .inr rfl, ?_, ?_, fun col _ => ?_⟩
  · show (PS.beforeClosingBrace cfg _).out ++ [125] = _
    rw [ro, qo]
    show (ps.beforeOpeningBrace cfg).out ++ [123] ++ w ++ ws2 ++ [125] = _
    rw [ho]; simp
  · show (PS.beforeClosingBrace cfg _).line = _
    rw [rl]
    show (ps.beforeOpeningBrace cfg).line = _
    rw [hl]
  · have hsync : Sync True cfg { (ps.beforeOpeningBrace cfg).print b#"{" with line := l } (colw col (ws ++ [123])) := by
      unfold Sync
      have : (PS.print (ps.beforeOpeningBrace cfg) b#"{").last = 123 := rfl
      split <;> simp only [this] <;> simp
    obtain ⟨hs2, hk2⟩ := hw _ hsync
    have hs3 : Sync True cfg { r with line := ((ps.beforeOpeningBrace cfg).print b#"{").line } (colw (colw col (ws ++ [123])) w) := hs2
    obtain ⟨-, hK⟩ := hsep _ hs3
    refine ⟨?_, fun k hk o stk name as hsn hd => ?_⟩
    · unfold Sync
      have : ∀ p : PS, (p.print b#"}").last = 125 := fun _ => rfl
      split <;> simp only [this] <;> simp
    · have := PB_braces (ws := []) (bw := w ++ ws2) (k := k) (col := colw col ws) (o := o) (stk := stk) (name := name) (as := as) (ns := ns)
        Ws.nil (hsn rfl) (fun o' stk' hk' hl' => by
          obtain ⟨-, hX⟩ := hk2 (ws2 ++ 125 :: k) (hK k)
          have h1 := hX o' stk'
          have h2 := X_aft hws2 starts_brace (hK k) (colw (colw col (ws ++ [123])) w) (o'.addAll ns :: stk')
          have h3 := h1.trans h2
          have e : ∀ x : List Byte, aft (PS.print (ps.beforeOpeningBrace cfg) b#"{").last x = x := fun x => by
            rw [show (PS.print (ps.beforeOpeningBrace cfg) b#"{").last = 123 from rfl]; rfl
          have e' : ∀ x, colAft (PS.print (ps.beforeOpeningBrace cfg) b#"{").last x = x := fun x => by
            rw [show (PS.print (ps.beforeOpeningBrace cfg) b#"{").last = 123 from rfl]; rfl
          dsimp only at h3
          rw [e, e', ← colw_append] at h3
          rw [List.nil_append, ← colw_append]
          simpa using h3)
      rw [colw_append]
      simpa using this

end Xmq
