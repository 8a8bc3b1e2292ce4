import Verif.Lemmas.Cursor
import Verif.Lemmas.CompactTree
/-!
# Pretty printed documents are read back
-/
namespace Xmq
open Spec

set_option linter.unusedSectionVars false

variable [Mode]

theorem prettyText_of {S : Prop} {cfg : OutCfg} {s : List Byte} (h : PrettyTextSafe cfg s) (hS : (10 : Byte) ∈ s → S) : PrettyPart S cfg s where
  noStray := h.noStray
  noNul := h.noNul
  sync := hS
  pieces := h.pieces
  notQuotes := fun hne => by
    obtain ⟨c, hc, hq⟩ := h.notOnlyQuotes hne
    cases hh : hasAllQuotes s with
    | false => rfl
    | true =>
      simp only [hasAllQuotes, List.all_eq_true, beq_iff_eq] at hh
      exact absurd (hh c hc) hq
  utf8 := h.utf8

theorem prettyBare_of {cfg : OutCfg} {s : List Byte} (h : PrettyValueSafe cfg s) : PrettyBare s := by
  intro hv
  rcases h.last with hd | hl
  · rw [notValue_of_delimiter hd] at hv; cases hv
  · exact hl

theorem prettyVals_of {S : Prop} {cfg : OutCfg} {vs : List Val} (hne : vs ≠ []) (ht : ∀ s, Val.text s ∈ vs → PrettyTextSafe cfg s)
    (hS : ∀ s, Val.text s ∈ vs → (10 : Byte) ∈ s → S)
    (hn : ∀ n, Val.entity n ∈ vs → EntityName n) (hs : ∀ s, vs = [.text s] → PrettyValueSafe cfg s) : PrettyVals S cfg vs where
  ne := hne
  texts := fun s h => prettyText_of (ht s h) (hS s h)
  names := fun n h => entName_of (hn n h)
  single := fun s h => by
    have hm : Val.text s ∈ vs := by rw [h]; simp
    exact ⟨⟨prettyText_of (ht s hm) (hS s hm), (hs s h).tabs⟩, prettyBare_of (hs s h)⟩

theorem prettyComment_of {s : List Byte} (h : PrettyCommentSafe s) : PrettyComment s := ⟨h.noStray, h.noCr, h.trail, h.one, h.many⟩

theorem prettyAttr_vals {cfg : OutCfg} (hc : cfg.compact = false) {a : Attr} (h : PrettyAttrSafe cfg a) (hv : noAttrValue a.value = false) :
    PrettyVals (cfg.compact = false) cfg a.value :=
  prettyVals_of (by rintro he; rw [he] at hv; cases hv) h.2.2.1 (fun _ _ _ => hc) h.2.2.2.1 h.2.2.2.2

theorem prettyAttr_ok {cfg : OutCfg} (hc : cfg.compact = false) (hsp : cfg.indentationSpace = [32])
    {a : Attr} (h : PrettyAttrSafe cfg a) : AttrOk cfg a where
  name := nameOk_of h.1.1 h.1.2.1
  notNs := .inr h.1.2.2
  value := fun hv _ _ => by
    rw [specialAttr_of h.1.2.1 h.1.2.2]
    exact pretty_value hc hsp (.inr rfl) (prettyAttr_vals hc h hv)

theorem plainAttr_of {cfg : OutCfg} {attrs : List Attr} (hs : ∀ a ∈ attrs, PrettyAttrSafe cfg a) (h : ColumnKept cfg attrs) {a : Attr}
    (hl : attrs.getLast? = some a) : PlainAttr cfg a := by
  rcases h a hl with h | ⟨s, h, h10, hesc, hw, hcont⟩
  · left; rw [h]; rfl
  · by_cases hne : s = []
    · left; rw [h, hne]; rfl
    · right
      have hts : PrettyTextSafe cfg s := (hs a (List.mem_of_getLast? hl)).2.2.1 s (by rw [h]; simp)
      refine ⟨s, h, h10, fun b hb => ?_, ?_, fun c hc => ?_, (prettyText_of (S := True) hts (fun _ => trivial)).notQuotes hne⟩
      · cases he : Esc cfg b with
        | false => rfl
        | true => exact absurd (esc_iff.1 he) (hesc b hb)
      · rcases hw with hw | ⟨b, hb, hw⟩
        · exact absurd hw hne
        · refine ⟨b, hb, ?_⟩
          cases he : isXmlWhitespace b with
          | false => rfl
          | true => exact absurd (white_iff.2 he) hw
      · exact (isCont_iff' c).2 (by
          rcases hcont c hc with h | h
          · left; exact h
          · right; exact h)

theorem prettySafe_mem {cfg : OutCfg} {ns : List Node} (h : PrettySafe cfg ns) : ∀ n ∈ ns, PrettyNodeSafe cfg n := by
  induction ns with
  | nil => simp
  | cons m t ih =>
    rw [PrettySafe] at h
    intro n hn
    rcases List.mem_cons.1 hn with rfl | hn
    · exact h.1
    · exact ih h.2 n hn

theorem pretty_safe_values {S : Prop} {cfg : OutCfg} {v : List Val} (hne : v ≠ []) (h : PrettySafe cfg (v.map Val.node))
    (hS : ∀ s, Node.text s ∈ v.map Val.node → (10 : Byte) ∈ s → S)
    (hs : ∀ s, v.map Val.node = [.text s] → PrettyValueSafe cfg s) : PrettyVals S cfg v := by
  have hm := prettySafe_mem h
  refine prettyVals_of hne (fun s hv => ?_) (fun s hv => hS s (List.mem_map.2 ⟨_, hv, rfl⟩)) (fun n hv => ?_) (fun s hv => hs s (by rw [hv]; rfl))
  · have := hm (.text s) (List.mem_map.2 ⟨_, hv, rfl⟩)
    simpa [PrettyNodeSafe] using this
  · have := hm (.entity n) (List.mem_map.2 ⟨_, hv, rfl⟩)
    simpa [PrettyNodeSafe] using this

set_option linter.unusedSectionVars false
section
variable {cfg : OutCfg} (hc : cfg.compact = false) (hsp : cfg.indentationSpace = [32])
include hc hsp

theorem pretty_textNode {s : List Byte} (h : PrettyTextSafe cfg s) (ps : PS) :
    NEmits cfg ps (ps.value cfg [.text s] .xmq) [.text s] := by
  obtain ⟨he, hl, ls, hne, hem, rfl⟩ := pretty_textEmits (S := True) hc hsp (lv := .xmq) ⟨by decide, by decide⟩ (prettyText_of h (fun _ => trivial)) ps (.inl hsp)
  have e : ps.value cfg [.text ls.flatten] .xmq = PS.internalText cfg .xmq (ls.flatten.length + 1) ps ls.flatten := by
    have h2 : (PS.internalText cfg .xmq (ls.flatten.length + 1) ps ls.flatten).line = ps.line := by
      obtain ⟨w, -, hli, -⟩ := hem; exact hli
    show { PS.internalText cfg .xmq (ls.flatten.length + 1) ps ls.flatten with line := ps.line } = _
    rw [← h2]
  rw [e]
  have := hem.toN (by simpa using hne) hl
  rw [List.map_map] at this
  exact NEmits.texts (ls := ls) this hne

mutual
theorem pretty_node (n : Node) (h : PrettyNodeSafe cfg n) (ps : PS) (align : Nat) :
    NEmits cfg ps (ps.node cfg align n) [canonNode n] := by
  cases n with
  | text s => exact pretty_textNode hc hsp (by simpa [PrettyNodeSafe] using h) ps
  | entity n =>
    have h' : EntityName n := by simpa [PrettyNodeSafe] using h
    obtain ⟨he, hl⟩ := emits_entityNode (cfg := cfg) (ps := ps) (.inl hsp) (entName_of h')
    exact he.toN (by simp) (by rw [hl]; decide)
  | comment s => exact emits_comment_pretty hsp hc (prettyComment_of (by simpa [PrettyNodeSafe] using h)) ps
  | element name attrs kids =>
    rw [PrettyNodeSafe] at h
    obtain ⟨hname, hattrs, hkids, hsingle, hcol⟩ := h
    have hn := elemName_of hname
    have ha : ∀ a ∈ attrs, AttrOk cfg a := fun a hm => prettyAttr_ok hc hsp (hattrs a hm)
    have hcanon : attrs.map normAttr = attrs.map canonAttr := List.map_congr_left (fun a ha => normAttr_eq (hattrs a ha).2.1)
    rw [canonNode, ← hcanon]
    rw [PS.node]
    dsimp only
    by_cases hk : kids = []
    · subst hk
      exact (emits_elem_bare hsp hn ha ps).1
    · rw [if_neg (by simpa using hk)]
      cases hkv : keyValues kids with
      | some v =>
        obtain ⟨rfl, hv⟩ := keyValues_some hkv
        have hS : ∀ s, Node.text s ∈ v.map Val.node → (10 : Byte) ∈ s → ColumnKept cfg attrs := by
          intro s hs h10
          rcases hcol with h | h | ⟨k, hk, h⟩
          · exact h
          · exact absurd h10 (h s hs)
          · obtain ⟨x, -, rfl⟩ := List.mem_map.1 hk
            exact absurd rfl (h x)
        have hb := body_value hsp (S := ColumnKept cfg attrs) (fun _ => hc) (v := v) (ps.nameAndAttributes cfg name attrs) align
          (fun p hp => pretty_value hc hsp (.inl rfl) (pretty_safe_values hv hkids hS hsingle))
        have := emits_elem_body hsp hn ha (fun h => ⟨hc, Cur.nameAndAttributes hc hsp hn ha (fun a hm => prettyAttr_vals hc (hattrs a hm))
          (fun a hl => plainAttr_of hattrs h hl) ps⟩) hb
        rw [canonNodes_vals, joinTexts_vals, ← mergeVals_eq]
        exact this
      | none =>
        have hb := body_braces hsp (S := False) (ps.nameAndAttributes cfg name attrs) _ _
          (pretty_nodes kids hkids { ((ps.nameAndAttributes cfg name attrs).beforeOpeningBrace cfg).print b#"{" with
              line := (((ps.nameAndAttributes cfg name attrs).beforeOpeningBrace cfg).print b#"{").line + cfg.addIndent } (some 0) 0)
        have := emits_elem_body hsp hn ha (fun h => h.elim) hb
        rw [mergeNodes_eq] at this
        exact this
theorem pretty_nodes (ns : List Node) (h : PrettySafe cfg ns) (ps : PS) (restart : Option Nat) (max : Nat) :
    NEmits cfg ps (PS.nodes cfg ps restart max ns) (canonNodes ns) := by
  cases ns with
  | nil => rw [PS.nodes, canonNodes]; exact NEmits.refl _ _
  | cons n t =>
    rw [PrettySafe] at h
    rw [PS.nodes, canonNodes]
    generalize (if (!cfg.compact && restart == some 0) = true then keyMaxWidth (n :: t) 0 0 else (max, restart)) = r
    exact (pretty_node n h.1 ps r.1).trans (pretty_nodes t h.2 _ (r.2.map (· - 1)) r.1)
end
end

end Xmq
