import Verif.Lemmas.NsEmitTree
/-!
# The guards of `Verif.Spec.NsSafe` are enough
-/
namespace Xmq
open Spec

set_option linter.unusedSectionVars false

theorem local_colon {s : List Byte} (h : ∀ b ∈ s, LocalNameByte b) : (58 : Byte) ∉ s := fun hm => (localNameByte (h _ hm)).2 rfl

set_option maxRecDepth 4000 in
theorem local_class (c : Byte) (h : LocalNameByte c) : isXmqTextName c = true ∧ c ≠ 33 ∧ c ≠ 63 ∧ c ≠ 32 ∧ c ≠ 10 ∧ c ≠ 13 ∧ c ≠ 9 ∧ c ≠ 160 ∧
    c ≠ 38 ∧ c ≠ 61 ∧ c ≠ 47 ∧ c ≠ 40 ∧ c ≠ 41 ∧ c ≠ 39 ∧ c ≠ 34 ∧ c ≠ 123 ∧ c ≠ 125 := by
  unfold LocalNameByte at h
  revert h; revert c
  apply forall_byte
  decide +kernel

theorem peek_of_head {s : List Byte} {c : Byte} {t : List Byte} (h : s = c :: t) : peek s = c := by subst h; rfl

theorem specialName_local {s : List Byte} (h : ∀ b ∈ s, LocalNameByte b) : specialName s = false := by
  unfold specialName
  cases s with
  | nil => rfl
  | cons c t =>
    have := local_class c (h c (by simp))
    simp [peek, this]

theorem textValue_local {s : List Byte} (h : ∀ b ∈ s, LocalNameByte b) : isXmqTextValue s = true := by
  have hall : allSafeValueChars s = true := by
    induction s with
    | nil => rfl
    | cons c t ih =>
      have hc := local_class c (h c (by simp))
      rw [allSafeValueChars, ih (fun b hb => h b (by simp [hb])), Bool.and_true]
      have hw : countWhitespace (c :: t) = 0 := (starts_name hc.1).count _
      unfold isSafeValueChar
      rw [hw]
      simp [peek, hc]
  unfold isXmqTextValue
  rw [if_neg, hall]
  cases s with
  | nil => decide
  | cons c t =>
    have hc := local_class c (h c (by simp))
    simp [unsafeValueStart, peek, hc]

theorem Spec.LineSafe.newlines {cfg : OutCfg} {s : List Byte} (h : LineSafe cfg s) : LineSafe { cfg with escapeNewlines := true } s where
  noStray := h.noStray
  ne := h.ne
  line := h.line
  plain := fun b hb he => by
    have h10 : b ≠ 10 := by rintro rfl; exact h.line hb
    have := h.plain b hb
    unfold EscapedByte at this he
    grind
  notBlank := h.notBlank
  head := h.head
  last := h.last
  noTriple := h.noTriple
  bare := h.bare

variable [Mode]

section
variable (hq : Mode.qual = true)
include hq

theorem nameOk_qual {pre : Option (List Byte)} {name : List Byte} (hp : ∀ p, pre = some p → p ≠ [] ∧ ∀ b ∈ p, LocalNameByte b)
    (hne : name ≠ []) (hn : ∀ b ∈ name, LocalNameByte b) : NameOk (qual pre name) := by
  cases pre with
  | none => exact nameOk_of hne hn
  | some p =>
    obtain ⟨h1, h2⟩ := hp p rfl
    refine ⟨by simp [qual], fun b hb => ?_, .inr ⟨hq, p, name, rfl, h1, local_colon h2, local_colon hn⟩⟩
    simp only [qual, List.mem_append, List.mem_cons] at hb
    rcases hb with hb | rfl | hb
    · exact (localNameByte (h2 b hb)).1
    · decide
    · exact (localNameByte (hn b hb)).1

theorem elemName_qual {pre : Option (List Byte)} {name : List Byte} (h : ElementNameNs pre name) :
    ElemName (qual pre name) ∧ name ≠ [] ∧ (58 : Byte) ∉ name ∧ specialName (qual pre name) = false ∧ specialName name = false := by
  cases pre with
  | none =>
    have h : ElementName name := h
    refine ⟨elemName_of h, ?_, local_colon h.1, specialName_local h.1, specialName_local h.1⟩
    obtain ⟨-, c, t, rfl, -⟩ := h
    simp
  | some p =>
    obtain ⟨h1, h2, h3⟩ : ElementName p ∧ name ≠ [] ∧ ∀ b ∈ name, LocalNameByte b := h
    have e := elemName_of h1
    refine ⟨⟨nameOk_qual hq (fun p' hp => by cases hp; exact ⟨e.ne, h1.1⟩) h2 h3, ?_⟩, h2, local_colon h3, ?_, specialName_local h3⟩
    · intro c hc
      refine e.start c ?_
      obtain ⟨-, d, t, rfl, -⟩ := h1
      exact hc
    · have := specialName_local h1.1
      obtain ⟨-, d, t, rfl, -⟩ := h1
      exact this

theorem attrName_qual {pre : Option (List Byte)} {name : List Byte} (h : AttrNameNs pre name) :
    NameOk (qual pre name) ∧ name ≠ [] ∧ (58 : Byte) ∉ name ∧ specialAttr (qual pre name) = false := by
  cases pre with
  | none =>
    have h : AttrName name := h
    exact ⟨nameOk_of h.1 h.2.1, h.1, local_colon h.2.1, specialAttr_of h.2.1 h.2.2⟩
  | some p =>
    obtain ⟨h1, h2, h3⟩ : AttrName p ∧ name ≠ [] ∧ ∀ b ∈ name, LocalNameByte b := h
    refine ⟨nameOk_qual hq (fun p' hp => by cases hp; exact ⟨h1.1, h1.2.1⟩) h2 h3, h2, local_colon h3, ?_⟩
    show specialAttr (p ++ 58 :: name) = false
    rw [specialAttr_qual (local_colon h1.2.1)]
    simpa using h1.2.2

theorem declOk_of {cfg : OutCfg} {n : Ns} (h : DeclSafe cfg n) : DeclOk cfg n := by
  refine ⟨?_, fun p hp => (h.1 p hp).1, h.2⟩
  unfold declName
  cases hp : n.pre with
  | none => exact nameOk_of (by simp) (by
      intro b hb
      simp only [List.mem_cons, List.not_mem_nil, or_false] at hb
      unfold LocalNameByte
      rcases hb with rfl | rfl | rfl | rfl | rfl <;> decide)
  | some p =>
    exact nameOk_qual hq (pre := some b#"xmlns") (name := p) (fun p' hp' => by
      cases hp'
      refine ⟨by simp, fun b hb => ?_⟩
      simp only [List.mem_cons, List.not_mem_nil, or_false] at hb
      unfold LocalNameByte
      rcases hb with rfl | rfl | rfl | rfl | rfl <;> decide) (h.1 p hp).1 (h.1 p hp).2

theorem headOk_of {cfg : OutCfg} {heap : List Ns} {values : List Val → Prop} {name : List Byte} {ns : Option Nat} {defs : List Nat}
    {attrs : List NAttr} (h : HeadSafe cfg heap values name ns defs attrs)
    (hv : ∀ vs, vs ≠ [] → values vs → ∀ p : PS, p.last = 61 → ReadsAs cfg (cfg.compact = false) .attrValue p (p.value cfg vs .attrValue) vs) :
    HeadOk cfg heap name ns defs attrs where
  ne := (elemName_qual hq h.1).2.1
  name := (elemName_qual hq h.1).1
  attrs := fun a ha => by
    obtain ⟨h1, h2, h3⟩ := h.2.1 a ha
    obtain ⟨n1, n2, n3, n4⟩ := attrName_qual hq h1
    refine ⟨n2, h2, ⟨n1, .inl hq, fun hn p hp => ?_⟩⟩
    have : (flatNAttr heap a).name = qual (prefixOf heap a.ns) a.name := rfl
    rw [this, n4]
    refine hv a.value ?_ h3 p hp
    intro he
    have hn' : noAttrValue a.value = false := hn
    rw [he] at hn'
    cases hn'
  defs := fun d hd => by
    obtain ⟨n, hn, hs⟩ := h.2.2 d hd
    exact ⟨n, hn, declOk_of hq hs⟩

theorem simple_head {cfg : OutCfg} {heap : List Ns} {values : List Val → Prop} {name : List Byte} {ns : Option Nat} {defs : List Nat}
    {attrs : List NAttr} {kids : List NNode} (h : HeadSafe cfg heap values name ns defs attrs) (hk : SimpleNs (allWritten heap kids)) :
    SimpleN (asWritten heap (.element name ns defs attrs kids)) := by
  obtain ⟨-, -, h3, h4, h5⟩ := elemName_qual hq h.1
  rw [asWritten, SimpleN]
  refine ⟨h3, fun p _ => ⟨h5, h4⟩, fun hs => ?_, fun _ => by simp, ?_, hk⟩
  · rw [h4] at hs; cases hs
  · intro a ha
    simp only [Option.getD_some, List.mem_append, List.mem_map] at ha
    rcases ha with ⟨x, hx, rfl⟩ | ⟨x, hx, rfl⟩
    · obtain ⟨-, -, n3, n4⟩ := attrName_qual hq (h.2.1 x hx).1
      exact ⟨n3, n4⟩
    · show TextVal (x.href.map .quoted)
      cases x.href with
      | none => exact .inl rfl
      | some u => exact .inr ⟨u, .inr rfl⟩

end

theorem simple_pi (heap : List Ns) {cfg : OutCfg} {t c : List Byte} (h : PiSafe cfg t c) : SimpleN (asWritten heap (.pi t c)) := by
  rw [asWritten, SimpleN]
  refine ⟨by simpa using local_colon h.2.1, fun _ (hp : none = some _) => (nomatch hp), fun _ => ⟨rfl, .inr ⟨c, .inr rfl⟩, rfl⟩, fun hp => ?_, by simp, by simp [SimpleNs]⟩
  simp [qual, peek] at hp

theorem simple_dtd (heap : List Ns) (n : List Byte) : SimpleN (asWritten heap (.dtd n)) := by
  rw [asWritten, SimpleN]
  exact ⟨by decide, fun _ (hp : none = some _) => (nomatch hp), fun _ => ⟨rfl, .inr ⟨n, .inl rfl⟩, rfl⟩, fun _ s => by simp, by simp, by simp [SimpleNs]⟩

theorem pi_kind {cfg : OutCfg} {t c : List Byte} (h : PiSafe cfg t c) : SpecialKind .pi (63 :: t) :=
  .inl ⟨rfl, t, rfl, fun b hb => (localNameByte (h.2.1 b hb)).1, local_colon h.2.1⟩

theorem val_kids {kids : List NNode} {v : List Val} (h : kids.map NNode.val? = v.map some) :
    (∀ s, Val.text s ∈ v → NNode.text s ∈ kids) ∧ (∀ n, Val.entity n ∈ v → NNode.entity n ∈ kids) ∧ (∀ s, v = [.text s] → kids = [.text s]) ∧
      ∀ k ∈ kids, k.val? ≠ none := by
  have hm : ∀ x ∈ v, ∃ k ∈ kids, k.val? = some x := by
    intro x hx
    have : some x ∈ kids.map NNode.val? := by rw [h]; exact List.mem_map.2 ⟨x, hx, rfl⟩
    obtain ⟨k, hk, e⟩ := List.mem_map.1 this
    exact ⟨k, hk, e⟩
  refine ⟨fun s hs => ?_, fun n hn => ?_, fun s hs => ?_, fun k hk hn => ?_⟩
  · obtain ⟨k, hk, e⟩ := hm _ hs
    cases k <;> simp [NNode.val?] at e
    subst e; exact hk
  · obtain ⟨k, hk, e⟩ := hm _ hn
    cases k <;> simp [NNode.val?] at e
    subst e; exact hk
  · subst hs
    cases kids with
    | nil => simp at h
    | cons k t =>
      simp only [List.map_cons, List.map_nil, List.cons.injEq, List.map_eq_nil_iff] at h
      obtain ⟨e, rfl⟩ := h
      cases k <;> simp [NNode.val?] at e
      rw [e]
  · have : none ∈ v.map some := by rw [← h]; exact List.mem_map.2 ⟨k, hk, hn⟩
    simp at this

theorem nsCompact_mem {cfg : OutCfg} {heap : List Ns} {l : List NNode} (h : NsCompact cfg heap l) : ∀ n ∈ l, NsCompactNode cfg heap n := by
  induction l with
  | nil => simp
  | cons m t ih =>
    rw [NsCompact] at h
    intro n hn
    rcases List.mem_cons.1 hn with rfl | hn
    · exact h.1
    · exact ih h.2 n hn

theorem nsPretty_mem {cfg : OutCfg} {heap : List Ns} {l : List NNode} (h : NsPretty cfg heap l) : ∀ n ∈ l, NsPrettyNode cfg heap n := by
  induction l with
  | nil => simp
  | cons m t ih =>
    rw [NsPretty] at h
    intro n hn
    rcases List.mem_cons.1 hn with rfl | hn
    · exact h.1
    · exact ih h.2 n hn

/-! ## Compact output -/

section
variable (hq : Mode.qual = true) {cfg : OutCfg} (hc : cfg.compact = true) (hsp : cfg.indentationSpace = [32]) {heap : List Ns}
include hq hc hsp

theorem compact_values {vs : List Val} (hne : vs ≠ []) (h : CompactValuesSafe cfg vs) {lv : Level} (hlv : ValueLevel lv) {S : Prop} (p : PS)
    (hp : p.last = 61) : ReadsAs { cfg with escapeNewlines := true } S lv p (p.value { cfg with escapeNewlines := true } vs lv) vs := by
  refine compact_value (cfg := { cfg with escapeNewlines := true }) hc rfl hsp hlv (by rw [hp]; decide) ?_
  have ht : ∀ s, CompactTextSafe cfg s → CompactTextSafe { cfg with escapeNewlines := true } s := fun s h => ⟨h.1, h.2, h.3, h.4, h.5⟩
  have hv : ∀ s, CompactValueSafe cfg s → CompactValueSafe { cfg with escapeNewlines := true } s := fun s h => ⟨h.1, h.2⟩
  exact compactVals_of hne (fun s hs => ht s (h.1 s hs)) h.2.1 (fun s hs => hv s (h.2.2 s hs))

mutual
theorem nsOk_compact (n : NNode) (h : NsCompactNode cfg heap n) :
    NsOk { cfg with escapeNewlines := true } heap n ∧ SimpleN (asWritten heap n) ∧ emptyPi n = false := by
  cases n with
  | text s =>
    rw [NsCompactNode] at h
    refine ⟨?_, by simp [asWritten, SimpleN], rfl⟩
    rw [NsOk]
    intro ps h1
    have := compact_textNode (cfg := { cfg with escapeNewlines := true }) hc rfl hsp (s := s) ⟨h.1, h.2, h.3, h.4, h.5⟩ ps (h1 hc)
    exact ⟨this.1, fun _ => this.2⟩
  | entity n =>
    rw [NsCompactNode] at h
    refine ⟨?_, by simp [asWritten, SimpleN], rfl⟩
    rw [NsOk]
    exact entName_of h
  | comment s =>
    rw [NsCompactNode] at h
    refine ⟨?_, by simp [asWritten, SimpleN], rfl⟩
    rw [NsOk]
    intro ps _
    have := emits_comment (cfg := { cfg with escapeNewlines := true }) hsp hc (compactComment_of h) ps
    exact ⟨this.1, fun _ => this.2⟩
  | pi t c =>
    rw [NsCompactNode] at h
    refine ⟨?_, simple_pi heap h, by simpa [emptyPi] using h.2.2.ne⟩
    rw [NsOk]
    exact ⟨pi_kind h, h.1, h.2.2.newlines⟩
  | dtd n =>
    rw [NsCompactNode] at h
    refine ⟨?_, simple_dtd heap n, rfl⟩
    rw [NsOk]
    exact ⟨h.1.newlines, textValue_local h.2⟩
  | element name ns defs attrs kids =>
    rw [NsCompactNode] at h
    obtain ⟨hh, hk, hone⟩ := h
    obtain ⟨k1, k2, k3⟩ := nsOks_compact kids hk
    have hh' : HeadSafe { cfg with escapeNewlines := true } heap (CompactValuesSafe cfg) name ns defs attrs :=
      ⟨hh.1, hh.2.1, fun d hd => (hh.2.2 d hd).imp fun n hn => ⟨hn.1, hn.2.1, fun u hu => (hn.2.2 u hu).newlines⟩⟩
    refine ⟨?_, simple_head hq hh k2, by simpa [emptyPi] using k3⟩
    rw [NsOk]
    refine ⟨headOk_of hq hh' (fun vs hne hv p hp => compact_values hq hc hsp hne hv (.inr rfl) p hp), k1, fun v hv => ?_⟩
    obtain ⟨e, hne⟩ := nsKeyValues_some hv
    obtain ⟨v1, v2, v3, -⟩ := val_kids e
    have hm := nsCompact_mem hk
    refine ⟨False, fun h => h.elim, fun p hp => compact_values hq hc hsp hne ⟨fun s hs => ?_, fun n hn => ?_, fun s hs => hone s (v3 s hs)⟩ (.inl rfl) p hp⟩
    · have := hm _ (v1 s hs); rwa [NsCompactNode] at this
    · have := hm _ (v2 n hn); rwa [NsCompactNode] at this
theorem nsOks_compact (l : List NNode) (h : NsCompact cfg heap l) :
    NsOks { cfg with escapeNewlines := true } heap l ∧ SimpleNs (allWritten heap l) ∧ emptyPis l = false := by
  cases l with
  | nil => simp [NsOks, allWritten, SimpleNs, emptyPis]
  | cons n t =>
    rw [NsCompact] at h
    obtain ⟨a1, a2, a3⟩ := nsOk_compact n h.1
    obtain ⟨b1, b2, b3⟩ := nsOks_compact t h.2
    rw [NsOks, allWritten, SimpleNs, emptyPis, a3, b3]
    exact ⟨⟨a1, b1⟩, ⟨a2, b2⟩, rfl⟩
end
end

/-! ## Pretty output -/

section
variable (hq : Mode.qual = true) {cfg : OutCfg} (hc : cfg.compact = false) (hsp : cfg.indentationSpace = [32]) {heap : List Ns}
include hq hc hsp

mutual
theorem nsOk_pretty (n : NNode) (h : NsPrettyNode cfg heap n) : NsOk cfg heap n ∧ SimpleN (asWritten heap n) ∧ emptyPi n = false := by
  have hcn : ∀ {P : Prop}, cfg.compact = true → P := fun h => by rw [hc] at h; cases h
  cases n with
  | text s =>
    rw [NsPrettyNode] at h
    refine ⟨?_, by simp [asWritten, SimpleN], rfl⟩
    rw [NsOk]
    exact fun ps _ => ⟨pretty_textNode hc hsp h ps, hcn⟩
  | entity n =>
    rw [NsPrettyNode] at h
    refine ⟨?_, by simp [asWritten, SimpleN], rfl⟩
    rw [NsOk]
    exact entName_of h
  | comment s =>
    rw [NsPrettyNode] at h
    refine ⟨?_, by simp [asWritten, SimpleN], rfl⟩
    rw [NsOk]
    exact fun ps _ => ⟨emits_comment_pretty hsp hc (prettyComment_of h) ps, hcn⟩
  | pi t c =>
    rw [NsPrettyNode] at h
    refine ⟨?_, simple_pi heap h, by simpa [emptyPi] using h.2.2.ne⟩
    rw [NsOk]
    exact ⟨pi_kind h, h.1, h.2.2⟩
  | dtd n =>
    rw [NsPrettyNode] at h
    refine ⟨?_, simple_dtd heap n, rfl⟩
    rw [NsOk]
    exact ⟨h.1, textValue_local h.2⟩
  | element name ns defs attrs kids =>
    rw [NsPrettyNode] at h
    obtain ⟨hh, hk, hone, hcol⟩ := h
    obtain ⟨k1, k2, k3⟩ := nsOks_pretty kids hk
    refine ⟨?_, simple_head hq hh k2, by simpa [emptyPi] using k3⟩
    rw [NsOk]
    refine ⟨headOk_of hq hh (fun vs hne hv p hp => pretty_value hc hsp (.inr rfl) (prettyVals_of hne hv.1 (fun _ _ _ => hc) hv.2.1 hv.2.2)), k1, fun v hv => ?_⟩
    obtain ⟨e, hne⟩ := nsKeyValues_some hv
    obtain ⟨v1, v2, v3, v4⟩ := val_kids e
    have hm := nsPretty_mem hk
    refine ⟨attrs = [] ∧ defs = [], fun h => ⟨hc, h⟩, fun p hp => pretty_value hc hsp (.inl rfl) (prettyVals_of hne (fun s hs => ?_) (fun s hs h10 => ?_)
      (fun n hn => ?_) (fun s hs => hone s (v3 s hs)))⟩
    · have := hm _ (v1 s hs); rwa [NsPrettyNode] at this
    · rcases hcol with h | h | ⟨k, hk, h⟩
      · exact h
      · exact absurd h10 (h s (v1 s hs))
      · exact absurd h (v4 k hk)
    · have := hm _ (v2 n hn); rwa [NsPrettyNode] at this
theorem nsOks_pretty (l : List NNode) (h : NsPretty cfg heap l) : NsOks cfg heap l ∧ SimpleNs (allWritten heap l) ∧ emptyPis l = false := by
  cases l with
  | nil => simp [NsOks, allWritten, SimpleNs, emptyPis]
  | cons n t =>
    rw [NsPretty] at h
    obtain ⟨a1, a2, a3⟩ := nsOk_pretty n h.1
    obtain ⟨b1, b2, b3⟩ := nsOks_pretty t h.2
    rw [NsOks, allWritten, SimpleNs, emptyPis, a3, b3]
    exact ⟨⟨a1, b1⟩, ⟨a2, b2⟩, rfl⟩
end
end

theorem K_lineEnd (cfg : OutCfg) (c : Byte) : K cfg c [10] :=
  ⟨⟨[10], [], rfl, by intro x hx; simp at hx; exact .inr hx, rfl, by simp⟩, by simp, by simp, fun _ => rfl, fun _ => .inr ⟨10, rfl, by decide⟩⟩

/-- A printed document is written as the document. -/
theorem ns_written (hq : Mode.qual = true) {cfg : OutCfg} (hsp : cfg.indentationSpace = [32]) {heap : List Ns} {l : List NNode}
    (h : NsOks cfg heap l) (hs : SimpleNs (allWritten heap l)) (ht : Tame (allWritten heap l)) :
    ∃ toks d, Tokenizes ((PS.nsNodes cfg heap ⟨[], 0, 0, 0⟩ (some 0) 0 l).out ++ [10]) toks ∧ Doc (noWs toks) d ∧
      resolve d = resolve (allWritten heap l) ∧ Tame d := by
  have hr := (ns_nodes hq hsp heap l h ⟨[], 0, 0, 0⟩ (fun _ => by decide) (some 0) 0).1.reads (K_lineEnd _ _)
  obtain ⟨toks, d, h1, h2, h3, h4⟩ := flatReads_names hq hr
  refine ⟨toks, d, h1, h2, ?_, h4 ?_⟩
  · rw [h3, mergeNodes_eq]
    unfold resolve
    rw [joinNodes_unflats, resolve_unflats _ hs]
  · unfold Tame at ht ⊢
    rw [mergeNodes_eq, tameTop_unflats, tameTop_flat _ hs]
    exact ht

end Xmq
