import Verif.Lemmas.CompactDoc
import Verif.Lemmas.ReadDoc
/-!
# Compact documents are read back
-/
namespace Xmq
open Spec

set_option linter.unusedSectionVars false

variable [Mode]

theorem localNameByte {b : Byte} (h : LocalNameByte b) : isXmqTextName b = true ∧ b ≠ 58 := by
  unfold LocalNameByte at h
  unfold isXmqTextName
  grind

theorem nameOk_of {s : List Byte} (hne : s ≠ []) (h : ∀ b ∈ s, LocalNameByte b) : NameOk s :=
  ⟨hne, fun b hb => (localNameByte (h b hb)).1, .inl fun hm => (localNameByte (h _ hm)).2 rfl⟩

theorem specialAttr_of {s : List Byte} (h : ∀ b ∈ s, LocalNameByte b) (hx : s ≠ b#"xmlns") : specialAttr s = false := by
  rw [specialAttr_plain (fun hm => (localNameByte (h _ hm)).2 rfl)]
  simpa using hx

theorem elemName_of {s : List Byte} (h : ElementName s) : ElemName s := by
  obtain ⟨hb, c, t, rfl, hc⟩ := h
  refine ⟨nameOk_of (by simp) hb, fun x hx => ?_⟩
  simp at hx; subst hx
  unfold isXmqElementStart
  grind

theorem entName_of {s : List Byte} (h : EntityName s) : EntName s :=
  ⟨fun b hb => by
    rcases h.1 b hb with h | rfl
    · exact (localNameByte h).1
    · decide, h.2⟩

theorem compactPart_of {cfg : OutCfg} {s : List Byte} (h : CompactTextSafe cfg s) : CompactPart cfg s where
  noStray := h.noStray
  noNul := h.noNul
  noRun := h.noTriple
  notQuotes := fun hne => by
    obtain ⟨c, hc, hq⟩ := h.notOnlyQuotes hne
    cases hh : hasAllQuotes s with
    | false => rfl
    | true =>
      simp only [hasAllQuotes, List.all_eq_true, beq_iff_eq] at hh
      exact absurd (hh c hc) hq
  utf8 := h.utf8

theorem bareOk_of {cfg : OutCfg} {s : List Byte} (h : CompactValueSafe cfg s) : BareOk s := by
  intro hv c hc
  rcases h.last with hd | hl
  · rw [notValue_of_delimiter hd] at hv; cases hv
  · have := hl c hc; simp at this; exact this

theorem compactVals_of {cfg : OutCfg} {vs : List Val} (hne : vs ≠ []) (ht : ∀ s, Val.text s ∈ vs → CompactTextSafe cfg s)
    (hn : ∀ n, Val.entity n ∈ vs → EntityName n) (hs : ∀ s, vs = [.text s] → CompactValueSafe cfg s) : CompactVals cfg vs where
  ne := hne
  texts := fun s h => compactPart_of (ht s h)
  names := fun n h => entName_of (hn n h)
  single := fun s h => by
    have h1 := compactPart_of (ht s (by rw [h]; simp))
    have h2 := hs s h
    exact ⟨⟨h1.toCompactText, h2.tabs, h1.notQuotes, h1.utf8⟩, bareOk_of h2⟩

theorem compactComment_of {s : List Byte} (h : CompactCommentSafe s) : CompactComment s where
  noStray := h.noStray
  lines := fun l hl => ⟨fun hm => h.noCr ((splitLines_infix hl).subset hm), h.lead l hl, h.trail l hl⟩
  final := h.final
  close := h.close

theorem attrOk_of {cfg : OutCfg} (hc : cfg.compact = true) (hen : cfg.escapeNewlines = true) (hsp : cfg.indentationSpace = [32])
    {a : Attr} (h : CompactAttrSafe cfg a) : AttrOk cfg a where
  name := nameOk_of h.1.1 h.1.2.1
  notNs := .inr h.1.2.2
  value := fun hv p hp => by
    rw [specialAttr_of h.1.2.1 h.1.2.2]
    exact compact_value hc hen hsp (.inr rfl) (by rw [hp]; decide) <|
      compactVals_of (by rintro he; rw [he] at hv; cases hv) h.2.2.1 h.2.2.2.1 h.2.2.2.2

theorem keyValues_some {kids : List Node} {v : List Val} (h : keyValues kids = some v) : kids = v.map Val.node ∧ v ≠ [] := by
  unfold keyValues at h
  split at h
  · cases h
  · rename_i hne
    have key : ∀ (ks : List Node) (v : List Val), ks.mapM Node.val? = some v → ks = v.map Val.node := by
      intro ks
      induction ks with
      | nil => intro v h; simp at h; subst h; rfl
      | cons k ks ih =>
        intro v h
        simp only [List.mapM_cons, Option.pure_def, Option.bind_eq_bind, Option.bind_eq_some_iff, Option.some.injEq] at h
        obtain ⟨x, hx, y, hy, rfl⟩ := h
        rw [List.map_cons, ← ih y hy]
        cases k <;> simp [Node.val?] at hx <;> subst hx <;> rfl
    refine ⟨key kids v h, ?_⟩
    rintro rfl
    rw [key kids [] h] at hne; exact hne rfl

theorem canonNodes_vals (v : List Val) : canonNodes (v.map Val.node) = v.map Val.node := by
  induction v with
  | nil => rfl
  | cons x t ih => cases x <;> simp [canonNodes, canonNode, Val.node] <;> exact ih

theorem compactSafe_mem {cfg : OutCfg} {ns : List Node} (h : CompactSafe cfg ns) : ∀ n ∈ ns, CompactNodeSafe cfg n := by
  induction ns with
  | nil => simp
  | cons m t ih =>
    rw [CompactSafe] at h
    intro n hn
    rcases List.mem_cons.1 hn with rfl | hn
    · exact h.1
    · exact ih h.2 n hn

theorem attrs_canon {cfg : OutCfg} {as : List Attr} (h : ∀ a ∈ as, CompactAttrSafe cfg a) : as.map normAttr = as.map canonAttr := by
  refine List.map_congr_left (fun a ha => normAttr_eq (h a ha).2.1)

/-- The children of an element that is not printed with braces. -/
theorem safe_values {cfg : OutCfg} {v : List Val} (hne : v ≠ []) (h : CompactSafe cfg (v.map Val.node))
    (hs : ∀ s, v.map Val.node = [.text s] → CompactValueSafe cfg s) : CompactVals cfg v := by
  have hm := compactSafe_mem h
  refine compactVals_of hne (fun s hv => ?_) (fun n hv => ?_) (fun s hv => hs s (by rw [hv]; rfl))
  · have := hm (.text s) (List.mem_map.2 ⟨_, hv, rfl⟩)
    simpa [CompactNodeSafe] using this
  · have := hm (.entity n) (List.mem_map.2 ⟨_, hv, rfl⟩)
    simpa [CompactNodeSafe] using this

section
variable {cfg : OutCfg} (hc : cfg.compact = true) (hen : cfg.escapeNewlines = true) (hsp : cfg.indentationSpace = [32])
include hc hen hsp

theorem compact_textNode {s : List Byte} (h : CompactTextSafe cfg s) (ps : PS) (h1 : ps.last ≠ 1) :
    NEmits cfg ps (ps.value cfg [.text s] .xmq) [.text s] ∧ (ps.value cfg [.text s] .xmq).last ≠ 1 := by
  obtain ⟨he, hl, ls, hne, hem, rfl⟩ := compact_textEmits (S := True) hc hen (lv := .xmq) ⟨by decide, by decide⟩ (compactPart_of h) (.inl hsp) ps (.inl hsp)
  have e : ps.value cfg [.text ls.flatten] .xmq = PS.internalText cfg .xmq (ls.flatten.length + 1) ps ls.flatten := by
    have h2 : (PS.internalText cfg .xmq (ls.flatten.length + 1) ps ls.flatten).line = ps.line := by
      obtain ⟨w, -, hli, -⟩ := hem; exact hli
    show { PS.internalText cfg .xmq (ls.flatten.length + 1) ps ls.flatten with line := ps.line } = _
    rw [← h2]
  rw [e]
  refine ⟨?_, hl⟩
  have := hem.toN (by simpa using hne) hl
  rw [List.map_map] at this
  exact NEmits.texts (ls := ls) this hne

mutual
theorem compact_node (n : Node) (h : CompactNodeSafe cfg n) (ps : PS) (h1 : ps.last ≠ 1) (align : Nat) :
    NEmits cfg ps (ps.node cfg align n) [canonNode n] ∧ (ps.node cfg align n).last ≠ 1 := by
  cases n with
  | text s => exact compact_textNode hc hen hsp (by simpa [CompactNodeSafe] using h) ps h1
  | entity n =>
    have h' : EntityName n := by simpa [CompactNodeSafe] using h
    obtain ⟨he, hl⟩ := emits_entityNode (cfg := cfg) (ps := ps) (.inl hsp) (entName_of h')
    refine ⟨?_, by show (ps.entityNode cfg n).last ≠ 1; rw [hl]; decide⟩
    exact he.toN (by simp) (by rw [hl]; decide)
  | comment s => exact emits_comment hsp hc (compactComment_of (by simpa [CompactNodeSafe] using h)) ps
  | element name attrs kids =>
    rw [CompactNodeSafe] at h
    obtain ⟨hname, hattrs, hkids, hsingle⟩ := h
    have hn := elemName_of hname
    have ha : ∀ a ∈ attrs, AttrOk cfg a := fun a hm => attrOk_of hc hen hsp (hattrs a hm)
    rw [canonNode, ← attrs_canon hattrs]
    rw [PS.node]
    dsimp only
    by_cases hk : kids = []
    · subst hk
      exact emits_elem_bare hsp hn ha ps
    · rw [if_neg (by simpa using hk)]
      cases hkv : keyValues kids with
      | some v =>
        obtain ⟨rfl, hv⟩ := keyValues_some hkv
        have hb := body_value hsp (S := False) (fun h => h.elim) (v := v) (ps.nameAndAttributes cfg name attrs) align
          (fun p hp => compact_value hc hen hsp (.inl rfl) (by rw [hp]; decide) (safe_values hv hkids hsingle))
        refine ⟨?_, hb.1⟩
        have := emits_elem_body hsp hn ha (fun h => h.elim) hb
        rw [canonNodes_vals, joinTexts_vals, ← mergeVals_eq]
        exact this
      | none =>
        have hb := body_braces hsp (S := False) (ps.nameAndAttributes cfg name attrs) _ _
          (compact_nodes kids hkids { ((ps.nameAndAttributes cfg name attrs).beforeOpeningBrace cfg).print b#"{" with
              line := (((ps.nameAndAttributes cfg name attrs).beforeOpeningBrace cfg).print b#"{").line + cfg.addIndent } (by
              show (123 : Byte) ≠ 1; decide) (some 0) 0).1
        refine ⟨?_, hb.1⟩
        have := emits_elem_body hsp hn ha (fun h => h.elim) hb
        rw [mergeNodes_eq] at this
        exact this
theorem compact_nodes (ns : List Node) (h : CompactSafe cfg ns) (ps : PS) (h1 : ps.last ≠ 1) (restart : Option Nat) (max : Nat) :
    NEmits cfg ps (PS.nodes cfg ps restart max ns) (canonNodes ns) ∧ (PS.nodes cfg ps restart max ns).last ≠ 1 := by
  cases ns with
  | nil => rw [PS.nodes, canonNodes]; exact ⟨NEmits.refl _ _, h1⟩
  | cons n t =>
    rw [CompactSafe] at h
    rw [PS.nodes, canonNodes]
    generalize (if (!cfg.compact && restart == some 0) = true then keyMaxWidth (n :: t) 0 0 else (max, restart)) = r
    obtain ⟨e1, l1⟩ := compact_node n h.1 ps h1 r.1
    obtain ⟨e2, l2⟩ := compact_nodes t h.2 _ l1 (r.2.map (· - 1)) r.1
    exact ⟨e1.trans e2, l2⟩
end
end

/-! ## Configurations and canonical documents -/

mutual
theorem compactNodeSafe_congr {c1 c2 : OutCfg} (h1 : c1.escapeNon7bit = c2.escapeNon7bit) (h2 : c1.escapeTabs = c2.escapeTabs)
    (n : Node) (h : CompactNodeSafe c1 n) : CompactNodeSafe c2 n := by
  have ht : ∀ s, CompactTextSafe c1 s → CompactTextSafe c2 s := fun s h => ⟨h.1, h.2, h.3, h.4, by rw [← h1]; exact h.5⟩
  have hv : ∀ s, CompactValueSafe c1 s → CompactValueSafe c2 s := fun s h => ⟨by rw [← h2]; exact h.1, h.2⟩
  cases n with
  | text s => simp only [CompactNodeSafe] at h ⊢; exact ht s h
  | entity n => simpa [CompactNodeSafe] using h
  | comment s => simpa [CompactNodeSafe] using h
  | element name attrs kids =>
    simp only [CompactNodeSafe] at h ⊢
    refine ⟨h.1, fun a ha => ?_, compactSafe_congr h1 h2 kids h.2.2.1, fun s hs => hv s (h.2.2.2 s hs)⟩
    obtain ⟨a1, a2, a3, a4, a5⟩ := h.2.1 a ha
    exact ⟨a1, a2, fun s hs => ht s (a3 s hs), a4, fun s hs => hv s (a5 s hs)⟩

theorem compactSafe_congr {c1 c2 : OutCfg} (h1 : c1.escapeNon7bit = c2.escapeNon7bit) (h2 : c1.escapeTabs = c2.escapeTabs)
    (ns : List Node) (h : CompactSafe c1 ns) : CompactSafe c2 ns := by
  cases ns with
  | nil => trivial
  | cons n t =>
    simp only [CompactSafe] at h ⊢
    exact ⟨compactNodeSafe_congr h1 h2 n h.1, compactSafe_congr h1 h2 t h.2⟩
end

theorem NoTextPair.tail {α} {p : α → Bool} {a : α} {l : List α} (h : NoTextPair p (a :: l)) : NoTextPair p l :=
  fun x y u v e => h x y (a :: u) v (by rw [e]; rfl)

theorem noTextPair_nil {α} (p : α → Bool) : NoTextPair p [] := by
  intro a b u v e; cases u <;> cases e
theorem noTextPair_one {α} (p : α → Bool) (a : α) : NoTextPair p [a] := by
  intro x y u v e
  cases u with
  | nil => cases e
  | cons z u => cases u <;> cases e
theorem noTextPair_cons {α} {p : α → Bool} {a b : α} {l : List α} (h : ¬ (p a = true ∧ p b = true)) (ht : NoTextPair p (b :: l)) :
    NoTextPair p (a :: b :: l) := by
  intro x y u v e
  cases u with
  | nil => cases e; exact h
  | cons z u => exact ht x y u v (by simpa using (List.cons.inj e).2)

theorem joinVals_id : ∀ l : List Val, NoTextPair isTextVal l → joinVals l = l
  | [], _ => rfl
  | .entity n :: t, h => by rw [joinVals, joinVals_id t (NoTextPair.tail h)]; intro a; simp
  | .text a :: t, h => by
    have ih := joinVals_id t (NoTextPair.tail h)
    rw [joinVals, ih]
    cases t with
    | nil => rfl
    | cons y u =>
      cases y with
      | entity n => rfl
      | text b => exact absurd ⟨rfl, rfl⟩ (h (.text a) (.text b) [] u rfl)

theorem joinTexts_id : ∀ l : List Node, NoTextPair isTextNode l → joinTexts l = l
  | [], _ => rfl
  | .entity n :: t, h => by rw [joinTexts, joinTexts_id t (NoTextPair.tail h)]; intro a; simp
  | .comment n :: t, h => by rw [joinTexts, joinTexts_id t (NoTextPair.tail h)]; intro a; simp
  | .element n a k :: t, h => by rw [joinTexts, joinTexts_id t (NoTextPair.tail h)]; intro a; simp
  | .text a :: t, h => by
    have ih := joinTexts_id t (NoTextPair.tail h)
    rw [joinTexts, ih]
    cases t with
    | nil => rfl
    | cons y u =>
      cases y with
      | text b => exact absurd ⟨rfl, rfl⟩ (h (.text a) (.text b) [] u rfl)
      | _ => rfl

mutual
theorem canonNode_id (n : Node) (h : CanonicalNode n) : canonNode n = n := by
  cases n with
  | element name attrs kids =>
    simp only [CanonicalNode] at h
    rw [canonNode, canonNodes_id kids h.2.2, joinTexts_id kids h.2.1]
    congr 1
    have : attrs.map canonAttr = attrs.map id := List.map_congr_left (fun a ha => by
      obtain ⟨h1, h2⟩ := h.1 a ha
      unfold canonAttr
      rw [if_neg h1, joinVals_id _ h2]; rfl)
    rw [this, List.map_id]
  | _ => rfl

theorem canonNodes_id (ns : List Node) (h : CanonicalNodes ns) : canonNodes ns = ns := by
  cases ns with
  | nil => rfl
  | cons n t =>
    simp only [CanonicalNodes] at h
    rw [canonNodes, canonNode_id n h.1, canonNodes_id t h.2]
end

theorem canon_id {doc : List Node} (h : Canonical doc) : canon doc = doc := by
  unfold canon
  rw [canonNodes_id doc h.2, joinTexts_id doc h.1]

end Xmq
