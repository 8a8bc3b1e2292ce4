import Verif.Lemmas.PrintValue
import Verif.Model.Tree
/-!
# Nodes: what is printed for them is read as the same nodes

After a comment to the end of the line the printer remembers the last character 1: the newline that follows belongs to the
comment for the parser.
-/
namespace Xmq
open Spec

set_option linter.unusedSectionVars false

variable [Mode]

/-- What is left of `k` behind output that ends in `c`. -/
def aft (c : Byte) (k : List Byte) : List Byte := if c = 1 then k.tail else k
def colAft (c : Byte) (col : Nat) : Nat := if c = 1 then 1 else col

def NEmits (cfg : OutCfg) (ps ps' : PS) (ns : List Node) : Prop :=
  ∃ w, ps'.out = ps.out ++ w ∧ ps'.line = ps.line ∧ ∀ col, Sync True cfg ps col → Sync True cfg ps' (colw col w) ∧
    ∀ k, K cfg ps'.last k → K cfg ps.last (w ++ k) ∧ ∀ o stk,
      X (aft ps.last (w ++ k)) (colAft ps.last col) (o :: stk) (aft ps'.last k) (colAft ps'.last (colw col w)) (o.addAll ns :: stk)

theorem NEmits.refl (cfg : OutCfg) (ps : PS) : NEmits cfg ps ps [] :=
  ⟨[], by simp, rfl, fun _ h => ⟨h, fun k hk => ⟨hk, fun o stk => X.refl _ _ _⟩⟩⟩

theorem addAll_append (o : Open) (a b : List Node) : o.addAll (a ++ b) = (o.addAll a).addAll b := by
  simp [Open.addAll, List.foldl_append]

theorem NEmits.trans {cfg : OutCfg} {a b c : PS} {ns1 ns2 : List Node} (h1 : NEmits cfg a b ns1) (h2 : NEmits cfg b c ns2) :
    NEmits cfg a c (ns1 ++ ns2) := by
  obtain ⟨w1, o1, l1, p1⟩ := h1
  obtain ⟨w2, o2, l2, p2⟩ := h2
  refine ⟨w1 ++ w2, by rw [o2, o1, List.append_assoc], by rw [l2, l1], fun col hs => ?_⟩
  obtain ⟨s1, q1⟩ := p1 col hs
  obtain ⟨s2, q2⟩ := p2 _ s1
  refine ⟨by rw [colw_append]; exact s2, fun k hk => ?_⟩
  obtain ⟨k2, x2⟩ := q2 k hk
  obtain ⟨k1, x1⟩ := q1 _ k2
  refine ⟨by rw [List.append_assoc]; exact k1, fun o stk => ?_⟩
  rw [List.append_assoc, colw_append, addAll_append]
  exact (x1 o stk).trans (x2 _ stk)

theorem Part.head {col : Nat} {p k : List Byte} {v : Val} (h : Part col p k v) : ∃ x t, p = x :: t ∧ x ≠ 10 := by
  rcases h.parse with ⟨hp, -, -⟩ | ⟨hp, -, -⟩ <;> obtain ⟨t, rfl⟩ := head_cons hp <;> exact ⟨_, t, rfl, by decide⟩

theorem colw_nl (col : Nat) (w : List Byte) : colw col (10 :: w) = colw 1 w := by
  rw [← List.singleton_append, colw_append]; rfl

/-- Without the newline that belongs to a comment. -/
theorem Parts.dropNl {col : Nat} {w k : List Byte} {vs : List Val} (h : Parts col w k vs) (hne : vs ≠ [])
    (h10 : (w ++ k).head? = some 10) : ∃ w', w = 10 :: w' ∧ Parts 1 w' k vs := by
  cases h with
  | nil => exact absurd rfl hne
  | cons _ ws p w _ v vs hw hp h =>
    obtain ⟨x, t, rfl, hx⟩ := hp.head
    cases ws with
    | nil => simp at h10; exact absurd h10 hx
    | cons y ws =>
      simp at h10; subst h10
      refine ⟨ws ++ ((x :: t) ++ w), rfl, ?_⟩
      rw [colw_nl] at hp h
      exact .cons _ _ _ _ _ _ _ (fun c hc => hw c (by simp [hc])) hp h

theorem Emits.toN {cfg : OutCfg} {ps ps' : PS} {vs : List Val} (h : Emits True cfg ps ps' vs) (hne : vs ≠ []) (hl : ps'.last ≠ 1) :
    NEmits cfg ps ps' (vs.map Val.node) := by
  obtain ⟨w, ho, hli, hw⟩ := h
  refine ⟨w, ho, hli, fun col hs => ⟨(hw col hs).1, fun k hk => ⟨((hw col hs).2 k hk).2, fun o stk => ?_⟩⟩⟩
  obtain ⟨hp, hk'⟩ := (hw col hs).2 k hk
  simp only [aft, colAft, hl, if_false]
  split
  · rename_i h1
    obtain ⟨w', rfl, hp'⟩ := hp.dropNl hne (hk'.eol h1)
    have := X_parts hp' o stk
    rw [colw_nl]
    exact this
  · exact X_parts hp o stk

/-! ## White space before names and comments -/

/-- Bytes that start a token of their own. -/
structure Starts (x : Byte) : Prop where
  ws : isXmlWhitespace x = false
  c2 : x ≠ 0xc2
  e2 : x ≠ 0xe2
  calm : x ∉ ([61, 40, 123] : List Byte)

theorem Starts.count {x : Byte} (h : Starts x) (t : List Byte) : countWhitespace (x :: t) = 0 :=
  countWhitespace_of_head h.ws h.c2 h.e2

theorem starts_name {x : Byte} (h : isXmqTextName x = true) : Starts x := by
  have := nameByte_class x h
  exact ⟨this.2.1, this.2.2.2.1, this.2.2.2.2.1, by simp; grind⟩

theorem starts_slash : Starts 47 := ⟨by decide, by decide, by decide, by decide⟩
theorem starts_brace : Starts 125 := ⟨by decide, by decide, by decide, by decide⟩

/-- `p1` is `ps` with white space that makes room for `x`. -/
def Sep (cfg : OutCfg) (ps p1 : PS) (x : Byte) : Prop :=
  ∃ ws, Ws ws ∧ p1.out = ps.out ++ ws ∧ p1.line = ps.line ∧ ∀ col, Sync True cfg ps col →
    (cfg.compact = false → p1.cur + 1 = colw col ws) ∧ ∀ t, K cfg ps.last (ws ++ x :: t)

theorem Sep.nl {cfg : OutCfg} (hsp : cfg.indentationSpace = [32]) (ps : PS) {x : Byte} (hx : Starts x) :
    Sep cfg ps (ps.nlIndent cfg) x := by
  rw [nlIndent_eq _ _ hsp]
  refine ⟨10 :: List.replicate ps.line 32, (ws_spaces _).cons (.inr rfl), rfl, rfl, fun col _ => ⟨fun _ => ?_, fun t => ?_⟩⟩
  · rw [colw_nl_spaces]
  · exact K_nl _ _ rfl (ws_spaces _) (hx.count t) hx.calm

theorem Sep.space {cfg : OutCfg} (hsp : cfg.indentationSpace = [32]) (hc : cfg.compact = true) (ps : PS) {x : Byte} (hx : Starts x) :
    Sep cfg ps (ps.whiteSpaces cfg 1) x := by
  refine ⟨[32], ws_spaces 1, by simp [PS.whiteSpaces, hsp], rfl, fun col hsync => ⟨fun h => (by rw [hc] at h; cases h), fun t => ?_⟩⟩
  exact K_space _ _ rfl Ws.nil (hx.count t) hx.calm (by simpa [Sync, hc] using hsync)

theorem Sep.none {cfg : OutCfg} (ps : PS) {x : Byte} (hx : Starts x)
    (hpretty : cfg.compact = false → ps.last = 0 ∨ ps.last = 40 ∨ ps.last = 61)
    (hq : ps.last = 39 → x ≠ 39) (hs : ps.last = 47 → x ≠ 47 ∧ x ≠ 42) (hb : Other ps.last → x ∈ ([39, 41, 125] : List Byte)) :
    Sep cfg ps ps x := by
  refine ⟨[], Ws.nil, by simp, rfl, fun col hsync => ⟨fun hc => ?_, fun t => ?_⟩⟩
  · simp only [Sync, hc, Bool.false_eq_true, if_false] at hsync
    exact hsync trivial (hpretty hc)
  · refine ⟨.of_ws Ws.nil rfl (hx.count t) hx.calm, fun h => by simpa using hq h, fun h => by simpa using hs h, fun h => ?_, fun h => ?_⟩
    · exfalso
      cases hc : cfg.compact
      · have := hpretty hc; simp [h] at this
      · simp [Sync, hc, h] at hsync
    · right
      refine ⟨x, rfl, ?_⟩
      rcases h with h | h
      · have := hb h; simp at this ⊢; grind
      · exfalso; have := hpretty h.1; grind

theorem beforeKey_starts {cfg : OutCfg} (hsp : cfg.indentationSpace = [32]) (ps : PS) {x : Byte} (hx : Starts x)
    (hxc : x ≠ 39 ∧ x ≠ 47 ∧ x ≠ 42) :
    Sep cfg ps (ps.beforeKey cfg) x := by
  unfold PS.beforeKey
  split
  · rename_i h
    simp only [beq_iff_eq] at h
    exact .none ps hx (fun _ => .inl h) (by simp [h]) (by simp [h]) (by simp [h, Other])
  · split
    · exact .nl hsp ps hx
    · rename_i hc
      simp at hc
      split
      · exact .space hsp hc ps hx
      · rename_i h
        simp [needSepElementName] at h
        refine .none ps hx (by simp [hc]) (fun _ => by grind) (fun _ => by grind) (fun ho => ?_)
        simp [Other] at ho; grind

theorem beforeKey_sep {cfg : OutCfg} (hsp : cfg.indentationSpace = [32]) (ps : PS) {x : Byte} (hx : isXmqTextName x = true) :
    Sep cfg ps (ps.beforeKey cfg) x := by
  have hxc := nameByte_class x hx
  exact beforeKey_starts hsp ps (starts_name hx) (by grind)

theorem beforeAttribute_sep {cfg : OutCfg} (hsp : cfg.indentationSpace = [32]) (ps : PS) {x : Byte} (hx : isXmqTextName x = true) :
    Sep cfg ps (ps.beforeAttribute cfg) x := by
  have hxc := nameByte_class x hx
  unfold PS.beforeAttribute
  split
  · rename_i h
    simp only [beq_iff_eq] at h
    exact .none ps (starts_name hx) (fun _ => .inr (.inl h)) (by simp [h]) (by simp [h]) (by simp [h, Other])
  · split
    · exact .nl hsp ps (starts_name hx)
    · rename_i hc
      simp at hc
      split
      · exact .space hsp hc ps (starts_name hx)
      · rename_i h
        simp [needSepAttributeKey] at h
        refine .none ps (starts_name hx) (by simp [hc]) (fun _ => by grind) (fun _ => by grind) (fun ho => ?_)
        simp [Other] at ho; grind

theorem beforeComment_sep {cfg : OutCfg} (hsp : cfg.indentationSpace = [32]) (ps : PS) :
    Sep cfg ps (ps.beforeComment cfg) 47 := by
  unfold PS.beforeComment
  split
  · rename_i h
    simp only [beq_iff_eq] at h
    exact .none ps starts_slash (fun _ => .inl h) (by simp [h]) (by simp [h]) (by simp [h, Other])
  · split
    · exact .nl hsp ps starts_slash
    · rename_i hc
      simp at hc
      split
      · exact .space hsp hc ps starts_slash
      · rename_i h
        simp [needSepComment] at h
        refine .none ps starts_slash (by simp [hc]) (fun _ => by decide) (fun _ => by grind) (fun ho => ?_)
        simp [Other] at ho; grind

theorem beforeClosingBrace_sep {cfg : OutCfg} (hsp : cfg.indentationSpace = [32]) (ps : PS) :
    Sep cfg ps (ps.beforeClosingBrace cfg) 125 := by
  unfold PS.beforeClosingBrace
  split
  · exact .nl hsp ps starts_brace
  · rename_i hc
    simp at hc
    exact .none ps starts_brace (by simp [hc]) (fun _ => by decide) (fun _ => by decide) (by simp)

/-- White space behind output that ends in `c`. -/
theorem X_aft {cfg : OutCfg} {c x : Byte} {ws t : List Byte} (hw : Ws ws) (hx : Starts x) (hk : K cfg c (ws ++ x :: t)) (col : Nat)
    (b : List Open) : X (aft c (ws ++ x :: t)) (colAft c col) b (x :: t) (colw col ws) b := by
  simp only [aft, colAft]
  split
  · rename_i hl1
    have := hk.eol hl1
    cases ws with
    | nil =>
      simp at this; subst this
      exact absurd hx.ws (by decide)
    | cons y ws =>
      simp at this; subst this
      rw [colw_nl]
      exact X_ws (fun c hc => hw c (by simp [hc])) (hx.count _) 1 _
  · exact X_ws hw (hx.count _) col _

/-- One node behind white space. -/
theorem N_step {cfg : OutCfg} {ps p1 ps' : PS} {x : Byte} {t : List Byte} {ns : List Node} (hsep : Sep cfg ps p1 x) (hx : Starts x)
    (ho : ps'.out = p1.out ++ x :: t) (hl : ps'.line = p1.line)
    (h : ∀ col, (cfg.compact = false → p1.cur + 1 = col) → Sync True cfg ps' (colw col (x :: t)) ∧ ∀ k, K cfg ps'.last k → ∀ o stk,
      X ((x :: t) ++ k) col (o :: stk) (aft ps'.last k) (colAft ps'.last (colw col (x :: t))) (o.addAll ns :: stk)) :
    NEmits cfg ps ps' ns := by
  obtain ⟨ws, hw, o1, l1, hs⟩ := hsep
  refine ⟨ws ++ x :: t, by rw [ho, o1, List.append_assoc], by rw [hl, l1], fun col hsync => ?_⟩
  obtain ⟨h1, h2⟩ := hs col hsync
  obtain ⟨h3, h4⟩ := h (colw col ws) h1
  refine ⟨by rw [colw_append]; exact h3, fun k hk => ⟨by rw [List.append_assoc]; exact h2 _, fun o stk => ?_⟩⟩
  have hX := h4 k hk o stk
  rw [colw_append]
  refine X.trans ?_ hX
  rw [List.append_assoc]
  exact X_aft hw hx (h2 (t ++ k)) col _

end Xmq
