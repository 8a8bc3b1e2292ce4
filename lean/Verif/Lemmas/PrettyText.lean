import Verif.Lemmas.PrettyQuote
import Verif.Lemmas.CompactValue
import Verif.Spec.Document
/-!
# Texts in pretty output
-/
namespace Xmq
open Spec

variable {S : Prop}

theorem white_iff {c : Byte} : White c ↔ isXmlWhitespace c = true := by
  unfold White isXmlWhitespace
  simp only [Bool.or_eq_true, beq_iff_eq]
  grind

theorem esc_iff {cfg : OutCfg} {c : Byte} : Esc cfg c = true ↔ EscapedByte cfg c := by
  unfold Esc EscapedByte
  simp only [Bool.or_eq_true, Bool.and_eq_true, beq_iff_eq, decide_eq_true_eq, bne_iff_ne, gt_iff_lt]
  grind

/-! ## Pieces -/

theorem split_suffix (P : Byte → Prop) (w : List Byte) :
    ∃ w1 w2, w = w1 ++ w2 ∧ (∀ c, w1.getLast? = some c → P c) ∧ ∀ x ∈ w2, ¬ P x := by
  induction w with
  | nil => exact ⟨[], [], rfl, by simp, by simp⟩
  | cons c t ih =>
    obtain ⟨t1, t2, rfl, h1, h2⟩ := ih
    cases t1 with
    | nil =>
      by_cases hc : P c
      · exact ⟨[c], t2, rfl, by simpa using hc, h2⟩
      · exact ⟨[], c :: t2, rfl, by simp, by simpa using ⟨hc, h2⟩⟩
    | cons y t1 => exact ⟨c :: y :: t1, t2, rfl, by rw [List.getLast?_cons_cons]; exact h1, h2⟩

theorem split_prefix (P : Byte → Prop) (w : List Byte) :
    ∃ w1 w2, w = w1 ++ w2 ∧ (∀ c, w2.head? = some c → P c) ∧ ∀ x ∈ w1, ¬ P x := by
  induction w with
  | nil => exact ⟨[], [], rfl, by simp, by simp⟩
  | cons c t ih =>
    obtain ⟨t1, t2, rfl, h1, h2⟩ := ih
    by_cases hc : P c
    · exact ⟨[], c :: (t1 ++ t2), rfl, by simpa using hc, by simp⟩
    · exact ⟨c :: t1, t2, rfl, h1, by simpa using ⟨hc, h2⟩⟩

theorem _root_.Xmq.Spec.PieceSafe.dropLeft {w p : List Byte} (h : PieceSafe (w ++ p)) (hw : ∀ x ∈ w, White x) : PieceSafe p where
  edge := by
    rcases h.edge with h | h
    · left
      refine ⟨fun hi => h.1 (hi.trans (List.suffix_append _ _).isInfix), ?_⟩
      intro a b hp
      obtain ⟨⟨x, hx, hn⟩, h2⟩ := h.2 (w ++ a) b (by rw [hp]; simp)
      rw [List.mem_append] at hx
      rcases hx with hx | hx
      · exact absurd (hw x hx) hn
      · exact ⟨⟨x, hx, hn⟩, h2⟩
    · cases w with
      | nil => exact .inr h
      | cons y w => exact absurd (hw y (by simp)) (h.1 y rfl)
  trail := by
    intro a b x hp hx
    rcases h.trail (w ++ a) b x (by rw [hp]; simp) hx with h | h
    · exact .inl (fun y hy => h y (by simp [hy]))
    · exact .inr h

theorem _root_.Xmq.Spec.PieceSafe.dropRight {w p : List Byte} (h : PieceSafe (p ++ w)) (hw : ∀ x ∈ w, White x) : PieceSafe p where
  edge := by
    rcases h.edge with h | h
    · left
      refine ⟨fun hi => h.1 (hi.trans (List.prefix_append _ _).isInfix), ?_⟩
      intro a b hp
      obtain ⟨h1, ⟨x, hx, hn⟩⟩ := h.2 a (b ++ w) (by rw [hp]; simp)
      rw [List.mem_append] at hx
      rcases hx with hx | hx
      · exact ⟨h1, ⟨x, hx, hn⟩⟩
      · exact absurd (hw x hx) hn
    · rcases List.eq_nil_or_concat w with rfl | ⟨w, y, rfl⟩
      · rw [List.append_nil] at h; exact .inr h
      · rw [List.concat_eq_append] at hw h
        exact absurd (hw y (by simp)) (h.2 y (by simp))
  trail := by
    intro a b x hp hx
    rcases h.trail a (b ++ w) x (by rw [hp]; simp) hx with h | h
    · exact .inl h
    · exact .inr (fun y hy => h y (by simp [hy]))

theorem _root_.Xmq.Spec.PiecesSafe.dropLeft {cfg : OutCfg} {w s : List Byte} (h : PiecesSafe cfg (w ++ s)) (hw : ∀ x ∈ w, White x) : PiecesSafe cfg s := by
  intro a p b hs hp ha hb
  cases a with
  | nil =>
    obtain ⟨w1, w2, rfl, h1, h2⟩ := split_suffix (EscapedByte cfg) w
    refine PieceSafe.dropLeft (w := w2) (h w1 (w2 ++ p) b (by rw [hs]; simp) (fun x hx => ?_) h1 hb) (fun x hx => hw x (by simp [hx]))
    rw [List.mem_append] at hx
    rcases hx with hx | hx
    · exact h2 x hx
    · exact hp x hx
  | cons y a =>
    refine h (w ++ (y :: a)) p b (by rw [hs]; simp) hp (fun c hc => ha c ?_) hb
    rw [List.getLast?_append] at hc
    cases hl : (y :: a).getLast? with
    | none => simp at hl
    | some z => rw [hl] at hc; simpa using hc

theorem _root_.Xmq.Spec.PiecesSafe.dropRight {cfg : OutCfg} {w s : List Byte} (h : PiecesSafe cfg (s ++ w)) (hw : ∀ x ∈ w, White x) : PiecesSafe cfg s := by
  intro a p b hs hp ha hb
  cases b with
  | nil =>
    obtain ⟨w1, w2, rfl, h1, h2⟩ := split_prefix (EscapedByte cfg) w
    refine PieceSafe.dropRight (w := w1) (h a (p ++ w1) w2 (by rw [hs]; simp) (fun x hx => ?_) ha h1) (fun x hx => hw x (by simp [hx]))
    rw [List.mem_append] at hx
    rcases hx with hx | hx
    · exact hp x hx
    · exact h2 x hx
  | cons y b => exact h a p (y :: b ++ w) (by rw [hs]; simp) hp ha (by simpa using hb)

theorem _root_.Xmq.Spec.PiecesSafe.next {cfg : OutCfg} {a s : List Byte} (h : PiecesSafe cfg (a ++ s))
    (ha : s = [] ∨ (∀ c, s.head? = some c → EscapedByte cfg c) ∨ (∀ c, a.getLast? = some c → EscapedByte cfg c)) : PiecesSafe cfg s := by
  have hnil : PieceSafe [] := ⟨.inr ⟨by simp, by simp⟩, by simp⟩
  intro a' p b hs hp ha' hb
  cases a' with
  | cons y a' =>
    refine h (a ++ (y :: a')) p b (by rw [hs]; simp) hp (fun c hc => ha' c ?_) hb
    rw [List.getLast?_append] at hc
    cases hl : (y :: a').getLast? with
    | none => simp at hl
    | some z => rw [hl] at hc; simpa using hc
  | nil =>
    rcases ha with h' | h' | h'
    · rw [h'] at hs
      have : p = [] := by
        have := congrArg List.length hs
        simp at this
        exact List.length_eq_zero_iff.1 (by omega)
      rw [this]; exact hnil
    · cases p with
      | nil => exact hnil
      | cons x p => exact absurd (h' x (by rw [hs]; rfl)) (hp x (by simp))
    · exact h a p b (by rw [hs]; rfl) hp h' hb

theorem _root_.Xmq.Spec.PiecesSafe.afterEsc {cfg : OutCfg} (hc : cfg.compact = false) {a s : List Byte} (h : PiecesSafe cfg (a ++ s)) (ha : AfterEsc cfg a) :
    PiecesSafe cfg s := by
  obtain ⟨e, c, n, rfl, hc'⟩ := ha
  have hesc : EscapedByte cfg c := by
    rcases hc' with h | h
    · exact esc_iff.1 h
    · rw [hc] at h; cases h.1
  have h1 : PiecesSafe cfg ((e ++ [c]) ++ (List.replicate n 10 ++ s)) := by simpa using h
  have h2 := h1.next (.inr (.inr (by simpa using hesc)))
  refine h2.dropLeft (fun x hx => ?_)
  rw [List.mem_replicate] at hx
  exact .inr (.inl hx.2)

theorem _root_.Xmq.Spec.PiecesSafe.whole {cfg : OutCfg} {s : List Byte} (h : PiecesSafe cfg s) (he : ∀ b ∈ s, Esc cfg b = false) : PieceSafe s :=
  h [] s [] (by simp) (fun x hx hn => by have := he x hx; rw [esc_iff.2 hn] at this; cases this) (by simp) (by simp)

/-! ## One quote -/

theorem not_white {c : Byte} : ¬ White c ↔ isXmlWhitespace c = false := by
  rw [white_iff]; simp

theorem piece_noTrail {s : List Byte} (h : PieceSafe s) (h1 : LeadNl s) (h2 : LeadNl s.reverse) : NoTrail s := by
  have key : ∀ x : Byte, x = 32 ∨ x = 9 → ¬ [x, 10] <:+: s := by
    rintro x hx ⟨a, b, hab⟩
    have hs : s = a ++ x :: 10 :: b := by rw [← hab]; simp
    have hxw : isXmlWhitespace x = true := by rcases hx with rfl | rfl <;> decide
    have hx10 : x ≠ 10 := by rcases hx with rfl | rfl <;> decide
    rcases h.trail a b x hs hx with hw | hw
    · have := h1 (a ++ [x, 10]) b (by rw [hs]; simp) (fun y hy => by
        simp only [List.mem_append, List.mem_cons, List.not_mem_nil, or_false] at hy
        rcases hy with hy | rfl | rfl
        · exact white_iff.1 (hw y hy)
        · exact hxw
        · decide) (by simp) x (by simp)
      exact hx10 this
    · have := h2 (b.reverse ++ [10, x]) a.reverse (by rw [hs]; simp) (fun y hy => by
        simp only [List.mem_append, List.mem_cons, List.not_mem_nil, or_false, List.mem_reverse] at hy
        rcases hy with hy | rfl | rfl
        · exact white_iff.1 (hw y hy)
        · decide
        · exact hxw) (by simp) x (by simp)
      exact hx10 this
  exact ⟨key 32 (.inl rfl), key 9 (.inr rfl)⟩

theorem emits_leaf_pretty {cfg : OutCfg} (hc : cfg.compact = false) (hsp : cfg.indentationSpace = [32]) {ps : PS} {level : Level}
    {s : List Byte} (hne : s ≠ []) (hS : (10 : Byte) ∈ s → S) (h13 : (13 : Byte) ∉ s) (h : PieceSafe s)
    (ha : addCompound s false = false) (hst : NoStray s) :
    Emits S cfg ps ((ps.beforeQuote cfg level).safeLeafQuote cfg s) [.text s] ∧ ((ps.beforeQuote cfg level).safeLeafQuote cfg s).last = 39 := by
  obtain ⟨l1, l2⟩ := addCompound_leadNl ha
  have htr := piece_noTrail h l1 l2
  by_cases hq : (s.head? = some 39 ∨ s.getLast? = some 39) ∨ ¬ NoRun 39 3 s
  · rcases h.edge with ⟨hrun, he⟩ | he
    · exfalso
      rcases hq with (hq | hq) | hq
      · obtain ⟨t, rfl⟩ := head_cons hq
        obtain ⟨⟨x, hx, -⟩, -⟩ := he [] t rfl
        cases hx
      · rcases List.eq_nil_or_concat s with rfl | ⟨u, x, rfl⟩
        · cases hq
        · rw [List.concat_eq_append] at hq he
          simp at hq; subst hq
          obtain ⟨-, ⟨x, hx, -⟩⟩ := he u [] rfl
          cases hx
      · exact hq hrun
    · exact emits_leaf_nls hsp hne h13 htr hq (fun c hc => not_white.1 (he.1 c hc)) (fun c hc => not_white.1 (he.2 c hc)) hst
  · rw [not_or, Classical.not_not] at hq
    obtain ⟨hq, hrun⟩ := hq
    rw [not_or] at hq
    by_cases h10 : (10 : Byte) ∈ s
    · exact emits_leaf_multi hc hsp (hS h10) h10 h13 l1 l2 htr hq.1 hq.2 hrun hst
    · refine ⟨emits_leaf (.inl hsp) hne hq.1 hq.2 h10 h13 hrun hst, ?_⟩
      obtain ⟨d, -, -, h, -⟩ := safeLeafQuote_nonl cfg (ps.beforeQuote cfg level) s hq.1 hq.2 h10 hrun hst
      exact h

/-! ## Texts -/

/-- Texts that pretty printing keeps. -/
structure PrettyText (S : Prop) (cfg : OutCfg) (s : List Byte) : Prop where
  noStray : NoStray s
  noNul : (0 : Byte) ∉ s
  sync : (10 : Byte) ∈ s → S
  pieces : PiecesSafe cfg s

theorem esc_prefix_utf8 {cfg : OutCfg} (hnon : cfg.escapeNon7bit = true) : ∀ (a : List Byte), (∀ b ∈ a, Esc cfg b = false) → ValidUtf8 a := by
  intro a
  induction a with
  | nil => exact fun _ => .nil
  | cons x a ih =>
    intro hx
    have hx1 := hx x (by simp)
    simp only [Esc, hnon, Bool.true_and, Bool.or_eq_false_iff, decide_eq_false_iff_not] at hx1
    have := hx1.1.1.2
    rw [gt_iff_lt, UInt8.lt_iff_toNat_lt] at this
    have := ValidUtf8.cons x.toNat (by simp at this; omega) a (ih (fun y hy => hx y (by simp [hy])))
    rw [rfc3629, if_pos (by simp at *; omega)] at this
    simpa using this

theorem emits_internalText_pretty {cfg : OutCfg} (hc : cfg.compact = false) (hsp : cfg.indentationSpace = [32]) {level : Level}
    (hlv : QuotedLevel level) (k : Nat) (ps : PS) (s : List Byte) (hk : s.length < k) (hG : PrettyText S cfg s)
    (hne : s ≠ []) (hq : hasAllQuotes s = false) (hu : cfg.escapeNon7bit = true → ValidUtf8 s) :
    EmitsText S cfg ps (PS.internalText cfg level k ps s) s := by
  induction k generalizing ps s with
  | zero => omega
  | succ k ih =>
    rw [PS.internalText]
    rw [if_neg (by simpa using hne), if_neg (by simp [hq])]
    dsimp only
    by_cases hsp' : (hasAllWhitespace s).2.1 = true
    · rw [if_pos hsp']
      have := emits_spaces (S := S) (cfg := cfg) (ps := ps) (level := level) (.inl hsp) (List.length_pos_iff.2 hne)
      rw [← allWhitespace_space hsp'] at this
      exact this
    rw [if_neg hsp']
    by_cases hw : ((hasAllWhitespace s).1 && !((hasAllWhitespace s).2.2 && !cfg.compact && decide (s.length > 1))) = true
    · rw [if_pos hw]
      simp only [Bool.and_eq_true] at hw
      exact emits_allWhitespace _ ps s (Nat.le_refl _) (allWhitespace_fst hw.1) ⟨.inl hsp, .inl (.inl hsp)⟩
    rw [if_neg hw, if_neg (by simp [hlv.1, hlv.2])]
    refine emits_textParts (fun m => PrettyText S cfg m ∧ m.length ≤ k ∧ (m.length = k → addCompound m false = false))
      (fun m hm => hm.1.noNul) ?_ ?_ ps s (.inl hsp) (.inl hsp) ?_ hu
    · intro a b ⟨hab, hl, _⟩ hane hb
      have hi : b <:+: a ++ b := (List.suffix_append _ _).isInfix
      rw [List.length_append] at hl
      have := List.length_pos_iff.2 hane
      refine ⟨⟨hab.noStray.infix hi, fun h => hab.noNul (hi.subset h), fun h => hab.sync (hi.subset h), ?_⟩, by omega, fun h => by omega⟩
      rcases hb with h | h | h
      · exact hab.pieces.next (.inl h)
      · refine hab.pieces.next (.inr (.inl fun c hc' => ?_))
        rcases findEscape_at cfg b c (by rw [h]; exact hc') with h | h
        · exact esc_iff.1 h
        · rw [hc] at h; cases h.1
      · exact hab.pieces.afterEsc hc h
    · intro ps m _ ⟨hm, hl, hcomp⟩ hn hu
      have hb := findEscape_before cfg m
      have hat := findEscape_at cfg m
      have hle := findEscape_le cfg m
      have hpiece : PieceSafe (m.take (findEscape cfg m)) :=
        hm.pieces [] _ (m.drop (findEscape cfg m)) (by simp) (fun x hx he => by
          have := hb x hx; rw [esc_iff.2 he] at this; cases this) (by simp) (fun c hc' => by
            rcases hat c hc' with h | h
            · exact esc_iff.1 h
            · rw [hc] at h; cases h.1)
      have hfull : (m.take (findEscape cfg m)).length = k → m.take (findEscape cfg m) = m ∧ m.length = k := by
        intro h
        rw [List.length_take] at h
        exact ⟨List.take_of_length_le (by omega), by omega⟩
      have hlen : (m.take (findEscape cfg m)).length ≤ k := by rw [List.length_take]; omega
      have hinf : m.take (findEscape cfg m) <:+: m := (List.take_prefix _ _).isInfix
      have hne' : m.take (findEscape cfg m) ≠ [] := by
        intro h
        rw [List.take_eq_nil_iff] at h
        rcases h with h | h
        · exact hn h
        · subst h; simp [findEscape, escapeScan] at hn
      generalize m.take (findEscape cfg m) = ch at *
      have h13 : (13 : Byte) ∉ ch := by
        intro h; have := hb _ h; simp [Esc] at this
      unfold PS.chunk
      cases ha : addCompound ch false
      · rw [if_pos (by simp [hc])]
        have := emits_leaf_pretty hc hsp (ps := ps) (level := level) hne' (fun h => hm.sync (hinf.subset h)) h13 hpiece ha (hm.noStray.infix hinf)
        exact this.1.text (.inl this.2)
      · rw [if_neg (by simp)]
        have h10 : (10 : Byte) ∈ ch := by
          apply Classical.byContradiction
          intro h
          rw [addCompound_nonl h] at ha; cases ha
        refine ih ps ch ?_ ⟨hm.noStray.infix hinf, fun h => hm.noNul (hinf.subset h), fun h => hm.sync (hinf.subset h), ?_⟩ hne' ?_ ?_
        · rcases Nat.lt_or_ge ch.length k with h | h
          · exact h
          · obtain ⟨e1, e2⟩ := hfull (by omega)
            rw [e1, hcomp e2] at ha; cases ha
        · intro a p b hs hp ha' hb'
          have hnoesc : ∀ c ∈ ch, ¬ EscapedByte cfg c := fun c hc' he => by
            have := hb c hc'; rw [esc_iff.2 he] at this; cases this
          have ea : a = [] := by
            rcases List.eq_nil_or_concat a with h | ⟨u, x, rfl⟩
            · exact h
            · rw [List.concat_eq_append] at hs ha'
              exact absurd (ha' x (by simp)) (hnoesc x (by rw [hs]; simp))
          have eb : b = [] := by
            cases b with
            | nil => rfl
            | cons x b => exact absurd (hb' x rfl) (hnoesc x (by rw [hs]; simp))
          subst ea; subst eb
          simp at hs; subst hs; exact hpiece
        · rw [Bool.eq_false_iff]
          intro h
          simp only [hasAllQuotes, List.all_eq_true, beq_iff_eq] at h
          have := h 10 h10
          revert this; decide
        · exact fun hnon => esc_prefix_utf8 hnon ch hb
    · intro a m b he ha hb hab
      have hi : m <:+: s := ⟨a, b, by rw [he]; simp⟩
      have hl := congrArg List.length he
      simp only [List.length_append] at hl
      refine ⟨⟨hG.noStray.infix hi, fun h => hG.noNul (hi.subset h), fun h => hG.sync (hi.subset h), ?_⟩, by omega, fun h => ?_⟩
      · have := hG.pieces
        rw [he] at this
        exact (this.dropLeft (fun x hx => white_iff.2 (ha x hx))).dropRight (fun x hx => white_iff.2 (hb x hx))
      · have ea : a = [] := List.length_eq_zero_iff.1 (by omega)
        have eb : b = [] := List.length_eq_zero_iff.1 (by omega)
        have := hab ea eb
        rw [he, ea, eb] at this
        simpa using this

end Xmq
