import Verif.Lemmas.PrintCompact
/-!
# Values of attributes and of `key=value` elements
-/
namespace Xmq
open Spec

set_option linter.unusedSectionVars false

variable [Mode] {S : Prop}

/-- A value printed between `ps` and `ps'` is read as the children `es`; if `S` then `current_indent` must be right.  With `sp` the
value may be that of a declaration or of a processing instruction. -/
def ValueEmitsSp (sp : Bool) (cfg : OutCfg) (S : Prop) (lv : Level) (ps ps' : PS) (es : List Val) : Prop :=
  ∃ w, ps'.out = ps.out ++ w ∧ ps'.line = ps.line ∧ ∀ col ws, Ws ws → (S → ps.cur + 1 = colw col ws) →
    Sync True cfg ps' (colw col (ws ++ w)) ∧ ∀ k, K cfg ps'.last k → ∀ b f, Recv sp b f →
      P (fun F st => parseXmqValue F st lv) (ws ++ (w ++ k)) col b k (colw col (ws ++ w)) (f es)

abbrev ValueEmits := ValueEmitsSp false

theorem endsValue_of_K {cfg : OutCfg} {c : Byte} {k : List Byte} (hk : K cfg c k) (hb : BareEnd cfg c) : EndsValue k := by
  rcases hk.other hb with h | ⟨x, hx, hm⟩
  · exact .inl h
  · obtain ⟨t, rfl⟩ := head_cons hx
    right
    simp at hm
    rcases hm with rfl | rfl | rfl | rfl | rfl <;> simp [isSafeValueChar, countWhitespace]

theorem K_paren (cfg : OutCfg) (c : Byte) (k ws : List Byte) (hw : ws = [] ∨ ws = [32]) (h1 : c ≠ 1) : K cfg c (ws ++ 41 :: k) := by
  have h0 : countWhitespace (41 :: k) = 0 := countWhitespace_of_head (by decide) (by decide) (by decide)
  rcases hw with rfl | rfl
  · exact ⟨.of_ws Ws.nil rfl h0 (by simp), fun _ => by simp, fun _ => by simp, fun h => absurd h h1,
      fun _ => .inr ⟨41, by simp, by simp⟩⟩
  · exact K_space cfg c rfl Ws.nil h0 (by simp) h1

theorem value_single {cfg : OutCfg} {lv : Level} (hlv : ValueLevel lv) {ps ps' : PS} {v : Val} (hs : cfg.compact = true → ps.last ≠ 1)
    (hl' : ps'.last = 39 ∨ ps'.last = 59) (h : Emits S cfg ps ps' [v]) {sp : Bool}
    (hq : sp = true → ∀ w, ps'.out = ps.out ++ w → w.getLast? = some 39) : ValueEmitsSp sp cfg S lv ps ps' [v] := by
  obtain ⟨w, ho, hl, hw⟩ := h
  refine ⟨w, ho, hl, fun col ws hws hcol => ?_⟩
  have hsync : Sync S cfg ps (colw col ws) := by
    unfold Sync
    split
    · exact hs (by assumption)
    · rename_i hc
      exact fun hS _ => hcol hS
  obtain ⟨h1, h2⟩ := hw _ hsync
  refine ⟨by rcases hl' with h | h <;> simp [Sync, h], fun k hk b f hb => ?_⟩
  exact P_value_part hlv hb ws hws (h2 k hk).1 (fun hs => hq hs w ho)

theorem value_bare {cfg : OutCfg} {lv : Level} (hlv : ValueLevel lv) {ps ps' : PS} {s : List Byte} (hne : s ≠ [])
    (hv : isXmqTextValue s = true) (c : Byte) (hc : s.getLast? = some c) (hb : BareEnd cfg c) (h1 : c ≠ 1)
    (h0 : c ≠ 0) (h40 : c ≠ 40) (h61 : c ≠ 61) (ho : ps' = ps.printSpan s) {sp : Bool} : ValueEmitsSp sp cfg S lv ps ps' [.text s] := by
  subst ho
  refine ⟨s, printSpan_keep _ (bare_noStray hv), by simp [PS.printSpan, hc], fun col ws hws hcol => ⟨?_, fun k hk b f hrecv => ?_⟩⟩
  · simp [Sync, PS.printSpan, hc, h1, h0, h40, h61]
  · simp only [PS.printSpan, hc] at hk
    exact P_value_text hlv hrecv.one ws s k hws hne hv (endsValue_of_K hk hb) col

theorem value_compound {cfg : OutCfg} {lv : Level} (hlv : ValueLevel lv) {ps p1 p2 : PS} {es : List Val}
    (hsp : cfg.compact = false → cfg.indentationSpace = [32])
    (h1 : p1 = let ps := ps.print b#"("
      let ps := if !cfg.compact then ps.whiteSpaces cfg 1 else ps
      { ps with line := ps.cur })
    (he : Emits S cfg p1 p2 es) (hlast : p2.last ≠ 1) :
    ValueEmits cfg S lv ps
      { (if !cfg.compact then p2.whiteSpaces cfg 1 else p2).print b#")" with line := ps.line } es := by
  obtain ⟨w, ho, hl, hw⟩ := he
  have e1 : p1.out = ps.out ++ (40 :: (if cfg.compact then [] else [32])) ∧ p1.last = 40 ∧
      p1.cur = ps.cur + 1 + (if cfg.compact then 0 else 1) := by
    rw [h1]
    cases hc : cfg.compact
    · simp [PS.print, PS.whiteSpaces, hsp hc]
    · simp [PS.print]
  obtain ⟨eo, el, ec⟩ := e1
  let ws1 : List Byte := if cfg.compact then [] else [32]
  have hws1 : ws1 = [] ∨ ws1 = [32] := by show (if _ then _ else _) = _ ∨ (if _ then _ else _) = _; split <;> simp
  have hws1' : Ws ws1 := by rcases hws1 with h | h <;> rw [h]; exact Ws.nil; exact ws_spaces 1
  refine ⟨40 :: (ws1 ++ (w ++ (ws1 ++ [41]))), ?_, rfl, fun col ws hws hcol => ?_⟩
  · show (PS.print _ _).out = _
    cases hc : cfg.compact
    · simp only [hc, Bool.not_false, if_true, PS.print, PS.whiteSpaces, ho, eo, hsp hc, ws1]; simp
    · simp only [hc, Bool.not_true, Bool.false_eq_true, if_false, if_true, PS.print, ho, eo, ws1]; simp
  · have hcol1 : Sync S cfg p1 (colw col (ws ++ 40 :: ws1)) := by
      unfold Sync
      cases hc : cfg.compact
      · simp only [Bool.false_eq_true, if_false]
        intro hS _
        rw [ec, colw_append]
        have := hcol hS
        rw [← this]
        simp only [hc, ws1]
        rfl
      · simp [el]
    obtain ⟨-, h2⟩ := hw _ hcol1
    refine ⟨?_, fun k hk b f hrecv => ?_⟩
    · have : (PS.print (if !cfg.compact then p2.whiteSpaces cfg 1 else p2) b#")").last = 41 := rfl
      unfold Sync
      split <;> simp only [this] <;> simp
    · have := P_value_compound hlv hrecv (k := k) (col := col) ws ws1 ws1 hws hws1' hws1' (h2 _ (K_paren cfg _ k ws1 hws1 hlast)).1
      have e : ws ++ ((40 :: (ws1 ++ (w ++ (ws1 ++ [41])))) ++ k) = ws ++ 40 :: (ws1 ++ (w ++ (ws1 ++ 41 :: k))) := by simp
      rw [e]; exact this

/-! ## Texts merge again -/

theorem foldl_addVal_texts (ls : List (List Byte)) (hne : ls ≠ []) (acc : List Val) :
    (ls.map Val.text).foldl addVal acc = addVal acc (.text ls.flatten) := by
  induction ls generalizing acc with
  | nil => exact absurd rfl hne
  | cons a ls ih =>
    by_cases h : ls = []
    · subst h; simp
    · rw [List.map_cons, List.foldl_cons, ih h, List.flatten_cons]
      cases acc with
      | nil => simp [addVal]
      | cons v acc => cases v <;> simp [addVal]

/-- `es` are the values `vs`, possibly with texts split into several. -/
def Splits (es vs : List Val) : Prop := ∀ acc, es.foldl addVal acc = vs.foldl addVal acc

theorem Splits.nil : Splits [] [] := fun _ => rfl
theorem Splits.append {a b c d : List Val} (h1 : Splits a b) (h2 : Splits c d) : Splits (a ++ c) (b ++ d) := by
  intro acc; rw [List.foldl_append, List.foldl_append, h1, h2]
theorem Splits.refl (a : List Val) : Splits a a := fun _ => rfl
theorem Splits.text {ls : List (List Byte)} (hne : ls ≠ []) : Splits (ls.map Val.text) [.text ls.flatten] :=
  fun acc => foldl_addVal_texts ls hne acc

theorem Splits.merge {a b : List Val} (h : Splits a b) : mergeVals a = mergeVals b := by
  unfold mergeVals; rw [h]

/-! ## Lists of values -/

/-- Entity names that are read back. -/
structure EntName (name : List Byte) : Prop where
  bytes : ∀ b ∈ name, isXmqTextName b = true
  plain : name.head? ≠ some 35

theorem entityVal_name {name : List Byte} (h : EntName name) : entityVal (38 :: (name ++ [59])) = some (.entity name) := by
  unfold entityVal
  rw [if_neg]
  · simp
  · simp only [List.drop_succ_cons, List.drop_zero, beq_iff_eq]
    intro hp
    cases name with
    | nil => revert hp; decide
    | cons c t => simp at hp; exact h.plain (by simp [hp])

theorem emits_entityNode {cfg : OutCfg} {ps : PS} {name : List Byte} (hs : SepE cfg ps) (h : EntName name) :
    Emits S cfg ps (ps.entityNode cfg name) [.entity name] ∧ (ps.entityNode cfg name).last = 59 := by
  have hp : ∀ (p : PS), (p.print name).out = p.out ++ name ∧ (p.print name).line = p.line := by
    intro p
    unfold PS.print
    cases hl : name.getLast? with
    | none => simp at hl; simp [hl]
    | some c => simp
  have hl59 : (ps.entityNode cfg name).last = 59 := rfl
  refine ⟨emits_entity hs ?_ ?_ hl59 h.bytes (entityVal_name h), hl59⟩
  · simp only [PS.entityNode]
    show (PS.print (PS.print (PS.print _ _) _) _).out = _
    rw [show ∀ p : PS, (p.print b#";").out = p.out ++ [59] from fun _ => rfl, (hp _).1]
    rw [show ∀ p : PS, (p.print b#"&").out = p.out ++ [38] from fun _ => rfl]
    simp
  · simp only [PS.entityNode]
    rw [show ∀ p : PS, (p.print b#";").line = p.line from fun _ => rfl, (hp _).2]
    rfl

/-- The text is printed as parts at this level. -/
def TextEmits (S : Prop) (cfg : OutCfg) (lv : Level) (s : List Byte) : Prop :=
  ∀ ps, SepQ cfg ps → EmitsText S cfg ps (PS.internalText cfg lv (s.length + 1) ps s) s ∧
    (PS.internalText cfg lv (s.length + 1) ps s).last ≠ 1 ∧
    ∃ ls : List (List Byte), ls ≠ [] ∧ Emits S cfg ps (PS.internalText cfg lv (s.length + 1) ps s) (ls.map Val.text) ∧ ls.flatten = s

theorem EmitsText.textEmits {cfg : OutCfg} {lv : Level} {s : List Byte} (hne : s ≠ [])
    (h : ∀ ps, SepQ cfg ps → EmitsText S cfg ps (PS.internalText cfg lv (s.length + 1) ps s) s) : TextEmits S cfg lv s := by
  intro ps hs
  obtain ⟨⟨ls, he, hf⟩, hl⟩ := h ps hs
  refine ⟨h ps hs, ?_, ls, ?_, he, hf⟩
  · rcases hl with hl | hl | ⟨hl, -⟩
    · rw [hl]; decide
    · rw [hl]; decide
    · exact absurd hl hne
  · rintro rfl; exact hne hf.symm

theorem textEmits_empty {cfg : OutCfg} {lv : Level} : TextEmits S cfg lv [] := by
  intro ps hs
  have h := emits_empty (S := S) (level := lv) hs
  exact ⟨h.text (.inl rfl), (by decide : (39 : Byte) ≠ 1), [[]], by simp, h, rfl⟩

def ValOk (S : Prop) (cfg : OutCfg) (lv : Level) : Val → Prop
  | .text s => TextEmits S cfg lv s
  | .entity name => EntName name

theorem emits_values {cfg : OutCfg} (hsp : cfg.indentationSpace = [32]) {lv : Level} (vs : List Val)
    (hv : ∀ v ∈ vs, ValOk S cfg lv v) (ps : PS) (h1 : ps.last ≠ 1) :
    ∃ es, Splits es vs ∧ Emits S cfg ps (vs.foldl (PS.valueInternal cfg lv) ps) es ∧
      (vs.foldl (PS.valueInternal cfg lv) ps).last ≠ 1 := by
  induction vs generalizing ps with
  | nil => exact ⟨[], .nil, Emits.refl _ _, h1⟩
  | cons v vs ih =>
    have hhead := hv v (by simp)
    cases v with
    | text s =>
      obtain ⟨-, hn1, ls, hne, he, hf⟩ := hhead ps (.inl hsp)
      obtain ⟨es, hs, he2, hn2⟩ := ih (fun v hm => hv v (by simp [hm])) (PS.internalText cfg lv (s.length + 1) ps s) hn1
      refine ⟨ls.map Val.text ++ es, ?_, he.trans he2, hn2⟩
      have := (Splits.text hne).append hs
      rw [hf] at this
      exact this
    | entity name =>
      obtain ⟨he, hl⟩ := emits_entityNode (S := S) (ps := ps) (cfg := cfg) (.inl hsp) hhead
      obtain ⟨es, hs, he2, hn2⟩ := ih (fun v hm => hv v (by simp [hm])) (ps.entityNode cfg name) (by rw [hl]; decide)
      exact ⟨[Val.entity name] ++ es, Splits.append (Splits.refl [Val.entity name]) hs, he.trans he2, hn2⟩

/-! ## The value as a whole -/

/-- What is printed for the value `vs`, starting in `ps`, is read as the same value. -/
def ReadsSp (sp : Bool) (cfg : OutCfg) (S : Prop) (lv : Level) (ps ps' : PS) (vs : List Val) : Prop :=
  (∃ es, Splits es vs ∧ ValueEmitsSp sp cfg S lv ps ps' es) ∧ ps'.last ≠ 1

abbrev ReadsAs := ReadsSp false

theorem valueLevel_ne {lv : Level} (hlv : ValueLevel lv) : lv ≠ .xmq := by
  rcases hlv with rfl | rfl <;> decide

/-- A text that does not need a compound. -/
theorem value_text_plain {cfg : OutCfg} {lv : Level} (hlv : ValueLevel lv) {ps : PS} {s : List Byte}
    (hn : quoteNeedsCompounded cfg s = false) {sp : Bool}
    (h : ReadsSp sp cfg S lv ps (PS.internalText cfg lv (s.length + 1) ps s) [.text s]) :
    ReadsSp sp cfg S lv ps (PS.value cfg ps [.text s] lv) [.text s] := by
  obtain ⟨⟨es, hs, w, ho, hl, hw⟩, h1⟩ := h
  have e : PS.value cfg ps [.text s] lv = PS.internalText cfg lv (s.length + 1) ps s := by
    unfold PS.value
    have hx : (lv == Level.xmq) = false := by simp [valueLevel_ne hlv]
    have : (lv != .xmq && quoteNeedsCompounded cfg s) = false := by simp [hn]
    simp only [hx, Bool.false_eq_true, if_false, this]
    simp only [List.foldl_cons, List.foldl_nil, PS.valueInternal]
    rw [← hl]
  rw [e]
  exact ⟨⟨es, hs, w, ho, hl, hw⟩, h1⟩

theorem value_entity_plain {cfg : OutCfg} {lv : Level} (hlv : ValueLevel lv) {ps : PS} {name : List Byte}
    (hn : EntName name) (hs : SepE cfg ps) (h1 : cfg.compact = true → ps.last ≠ 1) :
    ReadsAs cfg S lv ps (PS.value cfg ps [.entity name] lv) [.entity name] := by
  obtain ⟨he, hl⟩ := emits_entityNode (S := S) hs hn
  have hline : (ps.entityNode cfg name).line = ps.line := he.choose_spec.2.1
  have e : PS.value cfg ps [.entity name] lv = ps.entityNode cfg name := by
    unfold PS.value
    have hx : (lv == Level.xmq) = false := by simp [valueLevel_ne hlv]
    simp only [hx, Bool.false_eq_true, if_false, Bool.and_false]
    simp only [List.foldl_cons, List.foldl_nil, PS.valueInternal]
    rw [← hline]
  rw [e]
  exact ⟨⟨_, Splits.refl [Val.entity name], value_single hlv h1 (.inr hl) he (by simp)⟩, by rw [hl]; decide⟩

/-- The value is printed in parentheses. -/
def compounded (cfg : OutCfg) : List Val → Bool
  | [] => false
  | [.text s] => quoteNeedsCompounded cfg s
  | [.entity _] => false
  | _ => true

theorem value_eq (cfg : OutCfg) (ps : PS) (vs : List Val) (lv : Level) : PS.value cfg ps vs lv =
    let vs' := if lv == .xmq then vs.take 1 else vs
    if lv != .xmq && compounded cfg vs then
      let p1 : PS := { (if !cfg.compact then (ps.print b#"(").whiteSpaces cfg 1 else ps.print b#"(") with
        line := (if !cfg.compact then (ps.print b#"(").whiteSpaces cfg 1 else ps.print b#"(").cur }
      let p2 := vs'.foldl (PS.valueInternal cfg (PS.value.enterCompound lv)) p1
      { (if !cfg.compact then p2.whiteSpaces cfg 1 else p2).print b#")" with line := ps.line }
    else { vs'.foldl (PS.valueInternal cfg lv) ps with line := ps.line } := rfl

/-- Several values, or a text that needs a compound. -/
theorem value_compounded {cfg : OutCfg} {lv : Level} (hlv : ValueLevel lv) {ps : PS} {vs : List Val}
    (hsp : cfg.compact = false → cfg.indentationSpace = [32])
    (hc : compounded cfg vs = true)
    (h : ∀ p1 : PS, p1.last = 40 → ∃ es, Splits es vs ∧ Emits S cfg p1 (vs.foldl (PS.valueInternal cfg (PS.value.enterCompound lv)) p1) es ∧
      (vs.foldl (PS.valueInternal cfg (PS.value.enterCompound lv)) p1).last ≠ 1) :
    ReadsAs cfg S lv ps (PS.value cfg ps vs lv) vs := by
  have hx : (lv == Level.xmq) = false := by simp [valueLevel_ne hlv]
  have hx' : (lv != Level.xmq) = true := by simp [valueLevel_ne hlv]
  let p1 : PS := { (if !cfg.compact then (ps.print b#"(").whiteSpaces cfg 1 else ps.print b#"(") with
    line := (if !cfg.compact then (ps.print b#"(").whiteSpaces cfg 1 else ps.print b#"(").cur }
  have hp1 : p1.last = 40 := by
    show (if !cfg.compact then (ps.print b#"(").whiteSpaces cfg 1 else ps.print b#"(").last = 40
    split <;> rfl
  obtain ⟨es, hs, he, hl⟩ := h p1 hp1
  have e : PS.value cfg ps vs lv = { (if !cfg.compact then
      (vs.foldl (PS.valueInternal cfg (PS.value.enterCompound lv)) p1).whiteSpaces cfg 1
      else vs.foldl (PS.valueInternal cfg (PS.value.enterCompound lv)) p1).print b#")" with line := ps.line } := by
    rw [value_eq]
    simp only [hx, Bool.false_eq_true, if_false]
    rw [if_pos (by rw [hx', hc]; rfl)]
  rw [e]
  refine ⟨⟨es, hs, value_compound hlv hsp rfl he hl⟩, (by decide : (41 : Byte) ≠ 1)⟩

end Xmq
