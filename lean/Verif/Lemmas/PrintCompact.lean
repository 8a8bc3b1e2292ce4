import Verif.Lemmas.PrintText
import Verif.Spec.Document
/-!
# Texts printed in compact form
-/
namespace Xmq
open Spec

variable {S : Prop}

theorem noRun_infix {q : Byte} {d : Nat} {a s : List Byte} (h : NoRun q d s) (hi : a <:+: s) : NoRun q d a :=
  fun hr => h (hr.trans hi)

/-! ## Nothing is left out -/

theorem isCont_range (c : Byte) : isCont c = true ↔ 0x80 ≤ c ∧ c < 0xC0 :=
  forall_byte (P := fun c => isCont c = true ↔ 0x80 ≤ c ∧ c < 0xC0) (by decide +kernel) c

theorem _root_.Xmq.Spec.NoStray.infix {a s : List Byte} (h : NoStray s) (hi : a <:+: s) : NoStray a := by
  obtain ⟨u, v, rfl⟩ := hi
  intro x p c b e
  exact h (u ++ x) p c (b ++ v) (by rw [e]; simp)

theorem keepChars_eq {s : List Byte} (h : NoStray s) : ∀ b : Bool, (b = true → ∀ c, s.head? = some c → isCont c = false) →
    keepChars b s = s := by
  induction s with
  | nil => intro b _; rfl
  | cons c t ih =>
    intro b hb
    rw [keepChars, if_neg, ih (h.infix (List.suffix_cons _ _).isInfix)]
    · intro hc d hd
      obtain ⟨u, rfl⟩ := head_cons hd
      rw [Bool.eq_false_iff]
      intro hd
      refine h [] c d u rfl ?_ ((isCont_range d).1 hd)
      simpa using hc
    · cases b
      · simp
      · simp [hb rfl c rfl]

theorem _root_.Xmq.Spec.NoStray.keep {s : List Byte} (h : NoStray s) : keepChars false s = s := keepChars_eq h false (fun h => nomatch h)

theorem keepChars_sublist (s : List Byte) (b : Bool) : (keepChars b s).Sublist s := by
  induction s generalizing b with
  | nil => exact List.Sublist.refl _
  | cons c t ih =>
    rw [keepChars]
    split
    · exact (ih _).cons _
    · exact (ih _).cons_cons _

theorem keepChars_fix {s : List Byte} : ∀ b : Bool, keepChars b s = s → NoStray s ∧ (b = true → ∀ c, s.head? = some c → isCont c = false) := by
  induction s with
  | nil => intro b _; exact ⟨fun a p c b h => by (cases a <;> cases h), by simp⟩
  | cons c t ih =>
    intro b h
    rw [keepChars] at h
    split at h
    · have := (keepChars_sublist t true).length_le
      rw [h] at this; simp at this; omega
    · rename_i hb
      injection h with _ h
      obtain ⟨h1, h2⟩ := ih _ h
      refine ⟨?_, fun hbt d hd => ?_⟩
      · intro a p e u he hp hr
        cases a with
        | nil =>
          injection he with he1 he2
          subst he1; subst he2
          have := h2 (by simpa using hp) e rfl
          rw [(isCont_range e).2 hr] at this; cases this
        | cons x a =>
          injection he with _ he
          exact h1 a p e u he hp hr
      · simp at hd; subst hd
        subst hbt; simpa using hb

/-- The texts that are written as they are. -/
theorem noStray_iff {s : List Byte} : NoStray s ↔ keepChars false s = s := ⟨fun h => h.keep, fun h => (keepChars_fix false h).1⟩

instance (s : List Byte) : Decidable (NoStray s) := decidable_of_iff _ noStray_iff.symm

theorem noStray_of {s : List Byte} (h32 : (32 : Byte) ∉ s) (h9 : (9 : Byte) ∉ s) : NoStray s := by
  rintro a p c b rfl (rfl | rfl)
  · exact absurd (by simp) h32
  · exact absurd (by simp) h9

theorem byte_ofNat_toNat {n : Nat} (h : n < 256) : (UInt8.ofNat n).toNat = n := by
  rw [UInt8.toNat_ofNat']; omega

theorem isCont_ofNat {n : Nat} (h : n < 256) : isCont (UInt8.ofNat n) = true ↔ 0x80 ≤ n ∧ n < 0xC0 := by
  rw [isCont_range, UInt8.le_iff_toNat_le, UInt8.lt_iff_toNat_lt, byte_ofNat_toNat h]; rfl

/-- Proper UTF-8 is written as it is. -/
theorem _root_.Xmq.Spec.ValidUtf8.noStray {s : List Byte} (h : ValidUtf8 s) : NoStray s := by
  suffices hk : ∀ b, keepChars b s = s from noStray_iff.2 (hk _)
  induction h with
  | nil => intro b; rfl
  | cons cp hcp rest _ ih =>
    have first : ∀ (b : Bool) (n : Nat) (t : List Byte), n < 256 → ¬ (0x80 ≤ n ∧ n < 0xC0) →
        keepChars b (UInt8.ofNat n :: t) = UInt8.ofNat n :: keepChars (UInt8.ofNat n == 32 || UInt8.ofNat n == 9) t := by
      intro b n t hn hr
      rw [keepChars, if_neg]
      simp only [Bool.and_eq_true, isCont_ofNat hn]
      exact fun h => hr h.2
    have next : ∀ (n : Nat) (t : List Byte), 0x80 ≤ n → n < 256 →
        (UInt8.ofNat n == 32 || UInt8.ofNat n == (9 : Byte)) = false := by
      intro n t h1 h2
      simp only [Bool.or_eq_false_iff, beq_eq_false_iff_ne, ne_eq, ← UInt8.toNat_inj, byte_ofNat_toNat h2]
      constructor <;> (intro h; simp at h; omega)
    have step : ∀ (n : Nat) (t : List Byte), 0x80 ≤ n → n < 256 →
        keepChars false (UInt8.ofNat n :: t) = UInt8.ofNat n :: keepChars false t := by
      intro n t h1 h2
      rw [keepChars, if_neg (by simp)]
      have := next n t h1 h2
      rw [show (UInt8.ofNat n == b#' ' || UInt8.ofNat n == b#'\t') = false from this]
    intro b
    unfold rfc3629
    split
    · simp only [List.map_cons, List.map_nil, List.cons_append, List.nil_append]
      rw [first _ _ _ (by omega) (by omega), ih]
    · split
      · simp only [List.map_cons, List.map_nil, List.cons_append, List.nil_append]
        rw [first _ _ _ (by omega) (by omega), next _ [] (by omega) (by omega), step _ _ (by omega) (by omega), ih]
      · split
        · simp only [List.map_cons, List.map_nil, List.cons_append, List.nil_append]
          rw [first _ _ _ (by omega) (by omega), next _ [] (by omega) (by omega), step _ _ (by omega) (by omega), step _ _ (by omega) (by omega), ih]
        · simp only [List.map_cons, List.map_nil, List.cons_append, List.nil_append]
          rw [first _ _ _ (by omega) (by omega), next _ [] (by omega) (by omega), step _ _ (by omega) (by omega), step _ _ (by omega) (by omega),
            step _ _ (by omega) (by omega), ih]

theorem notValue_of_delimiter {s : List Byte} (h : HasDelimiter s) : isXmqTextValue s = false := by
  obtain ⟨c, hc, hm⟩ := h
  unfold isXmqTextValue
  split
  · rfl
  · rename_i hu; clear hu
    induction s with
    | nil => cases hc
    | cons x t ih =>
      rw [allSafeValueChars]
      rcases List.mem_cons.1 hc with rfl | hc
      · simp at hm
        have : isSafeValueChar (c :: t) = false := by
          unfold isSafeValueChar countWhitespace
          simp only [peek]
          rcases hm with rfl | rfl | rfl | rfl | rfl | rfl | rfl | rfl | rfl | rfl <;> simp
        simp [this]
      · simp [ih hc]

theorem bare_noStray {s : List Byte} (h : isXmqTextValue s = true) : NoStray s := by
  refine noStray_of (fun hm => ?_) (fun hm => ?_)
  · rw [notValue_of_delimiter ⟨32, hm, by decide⟩] at h; cases h
  · rw [notValue_of_delimiter ⟨9, hm, by decide⟩] at h; cases h

theorem printSpan_keep (ps : PS) {s : List Byte} (h : NoStray s) : (ps.printSpan s).out = ps.out ++ s := by
  unfold PS.printSpan
  rw [h.keep]
  cases hl : s.getLast? with
  | none => simp at hl; simp [hl]
  | some c => rfl

/-! ## Quotes on one line -/

theorem quoteLoop_nonl (cfg : OutCfg) (b : Bool) (ps : PS) (s : List Byte) (h : (10 : Byte) ∉ s) :
    (PS.quoteLoop cfg b ps s).out = ps.out ++ s ∧ (PS.quoteLoop cfg b ps s).line = ps.line := by
  induction s generalizing b ps with
  | nil => simp [PS.quoteLoop]
  | cons c t ih =>
    simp at h
    rw [PS.quoteLoop]
    split
    · obtain ⟨h1, h2⟩ := ih true (ps.write [c]) h.2
      rw [h1, h2]; simp [PS.write]
    · rw [if_neg (by simpa using fun e => h.1 e.symm)]
      obtain ⟨h1, h2⟩ := ih true { ps with out := ps.out ++ [c], cur := ps.cur + 1, last := c } h.2
      rw [h1, h2]; simp

theorem quoteLines_keep (cfg : OutCfg) (ps : PS) (s : List Byte) (h : (10 : Byte) ∉ s) :
    (ps.quoteLines cfg s).out = ps.out ++ keepChars false s ∧ (ps.quoteLines cfg s).line = ps.line := by
  unfold PS.quoteLines
  have hp : (peek s == (10 : Byte)) = false := by
    rw [Bool.eq_false_iff]
    intro hp
    cases s with
    | nil => revert hp; decide
    | cons c t => simp at hp h; exact h.1 hp.symm
  have hl : (s.getLast? == some (10 : Byte)) = false := by
    rw [Bool.eq_false_iff]
    intro hl
    simp only [beq_iff_eq] at hl
    exact h (List.mem_of_getLast? hl)
  simp only [hp, hl, Bool.false_eq_true, if_false]
  exact quoteLoop_nonl cfg false ps _ (fun hm => h ((keepChars_sublist _ _).subset hm))

theorem quoteLines_nonl (cfg : OutCfg) (ps : PS) (s : List Byte) (h : (10 : Byte) ∉ s) (hst : NoStray s) :
    (ps.quoteLines cfg s).out = ps.out ++ s ∧ (ps.quoteLines cfg s).line = ps.line := by
  have := quoteLines_keep cfg ps s h
  rwa [hst.keep] at this

theorem addNls_false {s : List Byte} (hh : s.head? ≠ some 39) (hl : s.getLast? ≠ some 39) : addNls s false = false := by
  simp only [addNls, Bool.and_eq_false_iff, Bool.or_eq_false_iff, beq_eq_false_iff_ne]
  exact .inl ⟨hh, hl⟩

/-- The number of quotes of a text without three quotes in a row. -/
theorem numQuotes (s : List Byte) (hrun : NoRun 39 3 s) :
    ∃ d, (if countNecessaryQuotes s = 0 then 1 else countNecessaryQuotes s) = d ∧ 0 < d ∧ d ≠ 2 ∧ NoRun 39 d s ∧
      ¬ countNecessaryQuotes s ≥ 4 := by
  obtain ⟨h0, h2, hr, hm⟩ := countNecessaryQuotes_spec s
  refine ⟨_, rfl, ?_⟩
  refine ⟨by split <;> omega, by split <;> omega, ?_, fun h4 => ?_⟩
  · split
    · rename_i hz
      rw [NoRun, replicate_one_infix]
      exact (h0.1 hz).2
    · rename_i hz
      exact hr (by omega)
  · rcases hm 3 (by omega) (by omega) with h | h
    · omega
    · exact hrun h

theorem safeLeafQuote_nonl (cfg : OutCfg) (ps : PS) (s : List Byte) (hh : s.head? ≠ some 39) (hl : s.getLast? ≠ some 39)
    (h10 : (10 : Byte) ∉ s) (hrun : NoRun 39 3 s) (hst : NoStray s) :
    ∃ d, (ps.safeLeafQuote cfg s).out = ps.out ++ (List.replicate d 39 ++ (s ++ List.replicate d 39)) ∧
      (ps.safeLeafQuote cfg s).line = ps.line ∧ (ps.safeLeafQuote cfg s).last = 39 ∧ 0 < d ∧ d ≠ 2 ∧ NoRun 39 d s := by
  obtain ⟨d, hd, hd0, hd2, hdr, h4⟩ := numQuotes s hrun
  refine ⟨d, ?_⟩
  unfold PS.safeLeafQuote
  simp only [addNls_false hh hl, h4, decide_false, Bool.or_self, Bool.false_eq_true, if_false, hd]
  obtain ⟨h1, h2⟩ := quoteLines_nonl cfg { ps.quotes d with line := (ps.quotes d).cur } s h10 hst
  refine ⟨?_, rfl, rfl, hd0, hd2, hdr⟩
  simp only [PS.quotes] at h1 ⊢
  rw [h1]; simp

theorem emits_leaf {cfg : OutCfg} {ps : PS} {level : Level} {s : List Byte} (hs : SepQ cfg ps) (hne : s ≠ [])
    (hh : s.head? ≠ some 39) (hl : s.getLast? ≠ some 39) (h10 : (10 : Byte) ∉ s) (h13 : (13 : Byte) ∉ s) (hrun : NoRun 39 3 s)
    (hst : NoStray s) :
    Emits S cfg ps ((ps.beforeQuote cfg level).safeLeafQuote cfg s) [.text s] := by
  obtain ⟨d, ho, hli, hla, hd0, hd2, hdr⟩ := safeLeafQuote_nonl cfg (ps.beforeQuote cfg level) s hh hl h10 hrun hst
  refine emits_quote hs ho hli hla ?_ (fun col k _ hk => part_single col d s k hd0 hd2 hne hh hl hdr h10 h13 hk)
  obtain ⟨m, rfl⟩ : ∃ m, d = m + 1 := ⟨d - 1, by omega⟩
  simp [List.replicate_succ]

/-! ## Chunks -/

theorem takeWhile_nonl {s : List Byte} (h : (10 : Byte) ∉ s) : s.takeWhile (· == (10 : Byte)) = [] := by
  cases s with
  | nil => rfl
  | cons c t =>
    simp at h
    rw [List.takeWhile_cons, if_neg]
    simpa using fun e => h.1 e.symm

theorem hasLeadingSpaceNl_nonl {s : List Byte} (h : (10 : Byte) ∉ s) : hasLeadingSpaceNl s = none := by
  unfold hasLeadingSpaceNl
  simp only [takeWhile_nonl h]
  rw [if_pos]
  simp only [List.length_nil, gt_iff_lt, Nat.lt_irrefl, decide_false, Bool.false_or, Bool.not_eq_true', List.any_eq_false,
    beq_iff_eq]
  rintro x hx rfl
  exact h ((List.dropWhile_sublist _).subset ((List.takeWhile_sublist _).subset hx))

theorem hasEndingNlSpace_nonl {s : List Byte} (h : (10 : Byte) ∉ s) : hasEndingNlSpace s = none := by
  have h' : (10 : Byte) ∉ s.reverse := by simpa using h
  unfold hasEndingNlSpace
  simp only [takeWhile_nonl h']
  rw [if_pos]
  simp only [List.length_nil, gt_iff_lt, Nat.lt_irrefl, decide_false, Bool.false_or, Bool.not_eq_true', List.any_eq_false,
    beq_iff_eq]
  rintro x hx rfl
  exact h' ((List.dropWhile_sublist _).subset ((List.takeWhile_sublist _).subset hx))

theorem addCompound_nonl {s : List Byte} (h : (10 : Byte) ∉ s) : addCompound s false = false := by
  simp [addCompound, hasLeadingSpaceNl_nonl h, hasEndingNlSpace_nonl h]

theorem escapeScan_tail (cfg : OutCfg) (hc : cfg.compact = true) (a : List Byte) (m : Nat) (hm : 0 < m) :
    escapeScan cfg m (a ++ List.replicate m 39) ≤ a.length := by
  induction a with
  | nil =>
    obtain ⟨j, rfl⟩ : ∃ j, m = j + 1 := ⟨m - 1, by omega⟩
    rw [List.nil_append, List.replicate_succ, escapeScan_esc, if_pos (by simp [hc])]
    exact Nat.le_refl 0
  | cons c t ih =>
    rw [List.cons_append, escapeScan_esc]
    split
    · simp
    · simp; exact ih

/-- The text up to the next escape never is a text that ends in a quote. -/
theorem findEscape_lt (cfg : OutCfg) (hc : cfg.compact = true) (s : List Byte) (hl : s.getLast? = some 39) :
    findEscape cfg s < s.length := by
  have hpos : 0 < s.length := by
    cases s with
    | nil => simp at hl
    | cons c t => simp
  unfold findEscape
  rw [if_pos hc]
  by_cases hp : (peek s == 39 && cfg.compact) = true
  · rw [if_pos hp]; exact hpos
  · rw [if_neg hp]
    have htw := List.takeWhile_append_dropWhile (p := (· == (39 : Byte))) (l := s.reverse)
    have hrep : s.reverse.takeWhile (· == (39 : Byte)) = List.replicate (s.reverse.takeWhile (· == (39 : Byte))).length 39 := by
      rw [List.eq_replicate_iff]
      exact ⟨rfl, fun b hb => by simpa using mem_takeWhile_pos hb⟩
    have hm : 0 < (s.reverse.takeWhile (· == (39 : Byte))).length := by
      rw [← List.head?_reverse] at hl
      obtain ⟨t, ht⟩ := head_cons hl
      rw [ht]; simp
    generalize (s.reverse.takeWhile (· == (39 : Byte))).length = m at hrep hm
    have hs : s = (s.reverse.dropWhile (· == (39 : Byte))).reverse ++ List.replicate m 39 := by
      have := congrArg List.reverse htw
      rw [List.reverse_append, List.reverse_reverse, hrep, List.reverse_replicate] at this
      exact this.symm
    have := escapeScan_tail cfg hc (s.reverse.dropWhile (· == (39 : Byte))).reverse m hm
    rw [← hs] at this
    have hlen := congrArg List.length hs
    simp at hlen this
    omega

/-- Texts that compact printing keeps. -/
structure CompactText (s : List Byte) : Prop where
  noStray : NoStray s
  noNul : (0 : Byte) ∉ s
  noRun : NoRun 39 3 s

theorem CompactText.infix {a s : List Byte} (h : CompactText s) (hi : a <:+: s) : CompactText a :=
  ⟨h.noStray.infix hi, fun hm => h.noNul (hi.subset hm), noRun_infix h.noRun hi⟩

theorem findEscape_head (cfg : OutCfg) (hc : cfg.compact = true) (s : List Byte) (h : findEscape cfg s ≠ 0) : s.head? ≠ some 39 := by
  intro hs
  obtain ⟨t, rfl⟩ := head_cons hs
  exact h (by simp [findEscape, hc])

theorem head?_take_pos {s : List Byte} {n : Nat} (h : n ≠ 0) : (s.take n).head? = s.head? := by
  obtain ⟨m, rfl⟩ : ∃ m, n = m + 1 := ⟨n - 1, by omega⟩
  cases s <;> simp

theorem emits_chunk {cfg : OutCfg} (hc : cfg.compact = true) (hen : cfg.escapeNewlines = true) {level : Level}
    {rec : PS → List Byte → PS} (m : Nat)
    (hrec : ∀ ps s, s.length < m → SepQ cfg ps → CompactText s → (10 : Byte) ∉ s → s.head? ≠ some 39 → s ≠ [] →
      (cfg.escapeNon7bit = true → ValidUtf8 s) → (∀ b ∈ s, Esc cfg b = false) → EmitsText S cfg ps (rec ps s) s)
    (ps : PS) (s : List Byte) (hm : s.length ≤ m) (hs : SepQ cfg ps) (hG : CompactText s) (hn : findEscape cfg s ≠ 0)
    (hu : cfg.escapeNon7bit = true → ValidUtf8 s) :
    EmitsText S cfg ps (PS.chunk cfg level rec ps (s.take (findEscape cfg s))) (s.take (findEscape cfg s)) := by
  have hb := findEscape_before cfg s
  have hh : (s.take (findEscape cfg s)).head? ≠ some 39 := by rw [head?_take_pos hn]; exact findEscape_head cfg hc s hn
  have hle := findEscape_le cfg s
  have hlt := findEscape_lt cfg hc s
  have hat := findEscape_at cfg s
  have hv : cfg.escapeNon7bit = true → ValidUtf8 (s.take (findEscape cfg s)) := by
    intro hnon
    have h := hu hnon
    clear hlt hle hh hrec hn
    have ha : ∀ (a : List Byte), (∀ b ∈ a, Esc cfg b = false) → ValidUtf8 a := by
      intro a
      induction a with
      | nil => exact fun _ => .nil
      | cons x a ih =>
        intro hx
        have hx1 := hx x (by simp)
        simp only [Esc, hnon, Bool.true_and, Bool.or_eq_false_iff, decide_eq_false_iff_not] at hx1
        have := hx1.1.1.2
        rw [gt_iff_lt, UInt8.lt_iff_toNat_lt] at this
        have := ValidUtf8.cons x.toNat (by simp at this; omega) a (ih (fun y hy => hx y (by simp [hy])))
        rw [rfc3629, if_pos (by simp at *; omega)] at this
        simpa using this
    exact ha _ hb
  generalize hch : s.take (findEscape cfg s) = ch at hb hh hv
  have hinf : ch <:+: s := by rw [← hch]; exact (List.take_prefix _ _).isInfix
  have hne : ch ≠ [] := by
    rintro rfl
    rw [List.take_eq_nil_iff] at hch
    rcases hch with h | h
    · exact hn h
    · subst h; simp [findEscape, escapeScan] at hn
  have h10 : (10 : Byte) ∉ ch := by
    intro h; have := hb _ h; simp [Esc, hen] at this
  have h13 : (13 : Byte) ∉ ch := by
    intro h; have := hb _ h; simp [Esc] at this
  unfold PS.chunk
  by_cases hl : ch.getLast? = some 39
  · rw [if_neg]
    · refine hrec ps ch ?_ hs (hG.infix hinf) h10 hh hne hv hb
      have h1 : ch.length = findEscape cfg s := by rw [← hch, List.length_take]; omega
      rcases Nat.lt_or_ge (findEscape cfg s) s.length with h | h
      · omega
      · have he : ch = s := by rw [← hch, List.take_of_length_le h]
        have := hlt (he ▸ hl)
        omega
    · have h39 : addNls ch false = true := by simp [addNls, hl]
      simp [h39, hc]
  · rw [if_pos (by rw [addCompound_nonl h10, addNls_false hh hl]; rfl)]
    exact Emits.text (emits_leaf hs hne hh hl h10 h13 (hG.infix hinf).noRun (hG.infix hinf).noStray) (.inl (by
      obtain ⟨d, -, -, h, -⟩ := safeLeafQuote_nonl cfg (ps.beforeQuote cfg level) ch hh hl h10 (hG.infix hinf).noRun (hG.infix hinf).noStray
      exact h))

/-! ## Whole texts -/

/-- The text can only be printed in quotes (or as entities) at this level. -/
def QuotedLevel (lv : Level) : Prop := lv ≠ .elementValue ∧ lv ≠ .attrValue

theorem allWhitespace_fst {s : List Byte} (h : (hasAllWhitespace s).1 = true) : ∀ b ∈ s, isXmlWhitespace b = true := by
  unfold hasAllWhitespace at h
  split at h
  · rename_i h'
    rw [List.all_eq_true] at h'
    exact h'
  · cases h

theorem allWhitespace_space {s : List Byte} (h : (hasAllWhitespace s).2.1 = true) : s = List.replicate s.length 32 := by
  unfold hasAllWhitespace at h
  split at h
  · simp only [List.all_eq_true, beq_iff_eq] at h
    rw [List.eq_replicate_iff]
    exact ⟨rfl, h⟩
  · cases h

theorem emits_internalText {cfg : OutCfg} (hc : cfg.compact = true) (hen : cfg.escapeNewlines = true) {level : Level}
    (hlv : QuotedLevel level) (k : Nat) (ps : PS) (s : List Byte) (hk : s.length < k) (hs : SepQ cfg ps) (hG : CompactText s)
    (hne : s ≠ []) (hq : hasAllQuotes s = false) (hu : cfg.escapeNon7bit = true → ValidUtf8 s)
    (hlead : cfg.indentationSpace = [32] ∨ ((hasAllWhitespace s).1 = false → LeadOk s)) :
    EmitsText S cfg ps (PS.internalText cfg level k ps s) s := by
  induction k generalizing ps s with
  | zero => omega
  | succ k ih =>
    rw [PS.internalText]
    rw [if_neg (by simpa using hne), if_neg (by simp [hq])]
    dsimp only
    split
    · rename_i hsp
      have := emits_spaces (S := S) (cfg := cfg) (level := level) hs (List.length_pos_iff.2 hne)
      rw [← allWhitespace_space hsp] at this
      exact this
    · split
      · rename_i hw
        simp only [Bool.and_eq_true] at hw
        exact emits_allWhitespace _ ps s (Nat.le_refl _) (allWhitespace_fst hw.1) ⟨hs.toE, .inl hs⟩
      · rename_i hw
        have hlead : cfg.indentationSpace = [32] ∨ LeadOk s := by
          rcases hlead with h | h
          · exact .inl h
          · refine .inr (h ?_)
            simpa [hc] using hw
        rw [if_neg (by simp [hlv.1, hlv.2])]
        refine emits_textParts (fun m => CompactText m ∧ m.length ≤ k) (fun m hm => hm.1.noNul) ?_ ?_ ps s hs hlead ?_ hu
        · intro a b hab _ _
          refine ⟨hab.1.infix (List.suffix_append _ _).isInfix, ?_⟩
          have := hab.2
          rw [List.length_append] at this; omega
        · intro ps s hs hG hn hu
          refine emits_chunk hc hen k (fun ps s hlen hs hG h10 hh hne hu _ => ?_) ps s hG.2 hs hG.1 hn hu
          refine ih ps s hlen hs hG hne ?_ hu (.inr fun _ => ?_)
          · cases s with
            | nil => exact absurd rfl hne
            | cons c t =>
              simp only [List.head?_cons, ne_eq, Option.some.injEq] at hh
              simp [hasAllQuotes, hh]
          · intro l hl
            rw [hasLeadingSpaceNl_nonl h10] at hl; cases hl
        · intro a m b he _ _ _
          refine ⟨hG.infix ⟨a, b, by rw [he]; simp⟩, ?_⟩
          have := congrArg List.length he
          simp at this; omega

theorem escapeScan_none (cfg : OutCfg) (s : List Byte) (h : ∀ b ∈ s, Esc cfg b = false) : escapeScan cfg 0 s = s.length := by
  induction s with
  | nil => rfl
  | cons c t ih =>
    rw [escapeScan_esc, if_neg, ih (fun b hb => h b (by simp [hb]))]
    · rfl
    · simp [h c (by simp)]

theorem findEscape_none (cfg : OutCfg) (s : List Byte) (h : ∀ b ∈ s, Esc cfg b = false)
    (hq : cfg.compact = true → s.head? ≠ some 39 ∧ s.getLast? ≠ some 39) : findEscape cfg s = s.length := by
  unfold findEscape
  rw [if_neg]
  · have : (if cfg.compact = true then (s.reverse.takeWhile (· == (39 : Byte))).length else 0) = 0 := by
      split
      · rename_i hc
        have hl := (hq hc).2
        rw [← List.head?_reverse] at hl
        cases hr : s.reverse with
        | nil => rfl
        | cons c t =>
          rw [hr] at hl
          simp only [List.head?_cons, ne_eq, Option.some.injEq] at hl
          rw [List.takeWhile_cons, if_neg (by simpa using hl)]; rfl
      · rfl
    rw [this]
    exact escapeScan_none cfg s h
  · intro hp
    simp only [Bool.and_eq_true, beq_iff_eq] at hp
    have := (hq hp.2).1
    rw [peek_eq_head? _ _ (by decide)] at hp
    exact this hp.1

/-- A text that is printed as one quote. -/
theorem emits_one_chunk {cfg : OutCfg} {level : Level} {rec : PS → List Byte → PS} {ps : PS} {s : List Byte} (hs : SepQ cfg ps)
    (hne : s ≠ []) (hesc : ∀ b ∈ s, Esc cfg b = false) (hh : s.head? ≠ some 39) (hl : s.getLast? ≠ some 39)
    (h10 : (10 : Byte) ∉ s) (hrun : NoRun 39 3 s) (hst : NoStray s) :
    Emits S cfg ps (PS.textParts cfg level rec ps s) [.text s] ∧ (PS.textParts cfg level rec ps s).last = 39 := by
  have h13 : (13 : Byte) ∉ s := by
    intro h; have := hesc _ h; simp [Esc] at this
  unfold PS.textParts
  rw [hasLeadingSpaceNl_nonl h10]
  dsimp only
  rw [hasEndingNlSpace_nonl h10]
  dsimp only
  cases s with
  | nil => exact absurd rfl hne
  | cons c t =>
    rw [List.length_cons, PS.textLoop]
    simp only [findEscape_none cfg (c :: t) hesc (fun _ => ⟨hh, hl⟩)]
    rw [if_neg (by simp), if_pos (by rw [List.take_length, addCompound_nonl h10, addNls_false hh hl]; rfl)]
    rw [List.take_length, List.drop_length]
    have : ∀ (k : Nat) (p : PS), PS.textLoop cfg level rec k p [] = p := by intro k p; cases k <;> rfl
    rw [this]
    refine ⟨emits_leaf hs hne hh hl h10 h13 hrun hst, ?_⟩
    obtain ⟨d, -, -, h, -⟩ := safeLeafQuote_nonl cfg (ps.beforeQuote cfg level) (c :: t) hh hl h10 hrun hst
    exact h

theorem quoteNeedsCompounded_esc {cfg : OutCfg} {s : List Byte}
    (h : (s.any fun c => (cfg.escapeNewlines && c == 10) || (cfg.escapeNon7bit && c > 126) ||
      (c < 32 && c != 9 && c != 10) || (c == 9 && cfg.escapeTabs)) = false) : ∀ b ∈ s, Esc cfg b = false := by
  intro b hb
  rw [List.any_eq_false] at h
  have := h b hb
  rw [Bool.not_eq_true] at this
  exact this

/-- Texts that are kept as the only child of an attribute or element. -/
structure CompactSingle (cfg : OutCfg) (s : List Byte) : Prop extends CompactText s where
  noTabs : ¬ ((∀ b ∈ s, b = 32 ∨ b = 9) ∧ (9 : Byte) ∈ s ∧ 2 ≤ s.length ∧ cfg.escapeTabs = false)
  notQuotes : s ≠ [] → hasAllQuotes s = false
  utf8 : cfg.escapeNon7bit = true → ValidUtf8 s

/-- What is printed when no compound is needed: one part or a bare text. -/
theorem internalText_single {cfg : OutCfg} (hc : cfg.compact = true) {level : Level} (k : Nat) {ps : PS} {s : List Byte} (hs : SepQ cfg ps)
    (h : CompactSingle cfg s) (hn : quoteNeedsCompounded cfg s = false) :
    (s ≠ [] ∧ isXmqTextValue s = true ∧ PS.internalText cfg level (k + 1) ps s = ps.printSpan s ∧ (∀ b ∈ s, Esc cfg b = false) ∧
      (10 : Byte) ∉ s) ∨
    (Emits S cfg ps (PS.internalText cfg level (k + 1) ps s) [.text s] ∧ ((PS.internalText cfg level (k + 1) ps s).last = 39 ∨
      (PS.internalText cfg level (k + 1) ps s).last = 59)) := by
  rw [PS.internalText]
  by_cases hne : s = []
  · subst hne
    right
    exact ⟨emits_empty hs, .inl rfl⟩
  rw [if_neg (by simpa using hne), if_neg (by simp [h.notQuotes hne])]
  dsimp only
  by_cases hone : ∃ c, s = [c] ∧ (c = 10 ∨ c = 13 ∨ c = 9)
  · obtain ⟨c, rfl, hcc⟩ := hone
    right
    have hw : (hasAllWhitespace [c]).1 = true ∧ (hasAllWhitespace [c]).2.1 = false := by
      rcases hcc with rfl | rfl | rfl <;> decide
    rw [if_neg (by simp [hw.2]), if_pos (by simp [hw.1])]
    have hca := charAt_ascii c [] (by rcases hcc with rfl | rfl | rfl <;> decide) (by rcases hcc with rfl | rfl | rfl <;> decide)
    have := emits_char1 (S := S) hs.toE hca
    have e : PS.allWhitespace cfg [c].length ps [c] level = ((ps.beforeEntity cfg).charEntity [c]).1 := by
      rw [List.length_singleton, PS.allWhitespace, if_neg (by rcases hcc with rfl | rfl | rfl <;> decide)]
      rfl
    rw [e]; exact ⟨this, .inr (charEntity_last (ps.beforeEntity cfg) hca).1⟩
  · unfold quoteNeedsCompounded at hn
    rw [if_neg] at hn
    · simp only [Bool.or_eq_false_iff, hc, Bool.true_and] at hn
      obtain ⟨⟨-, hnl, hq⟩, hesc⟩ := hn
      have hesc := quoteNeedsCompounded_esc (by simp only [Bool.or_assoc]; simp only [Bool.or_assoc] at hesc; exact hesc)
      have h10 : (10 : Byte) ∉ s := by
        intro hm
        simp only [hasNewlines, List.any_eq_false, beq_iff_eq] at hnl
        exact hnl _ hm rfl
      have h13 : (13 : Byte) ∉ s := by
        intro hm; have := hesc _ hm; simp [Esc] at this
      simp only [hasLeadingEndingQuote, Bool.and_eq_false_iff, Bool.or_eq_false_iff, beq_eq_false_iff_ne] at hq
      have hq : s.head? ≠ some 39 ∧ s.getLast? ≠ some 39 := by
        rcases hq with hq | hq
        · simp [hne] at hq
        · exact hq
      split
      · rename_i hsp
        right
        have := emits_spaces1 (S := S) (cfg := cfg) (level := level) hs (List.length_pos_iff.2 hne)
        rw [← allWhitespace_space hsp] at this
        exact ⟨this, .inl rfl⟩
      · rename_i hsp
        split
        · rename_i hw
          exfalso
          simp only [Bool.and_eq_true] at hw
          have hws := allWhitespace_fst hw.1
          have hbl : ∀ b ∈ s, b = 32 ∨ b = 9 := by
            intro b hb
            have := hws b hb
            simp [isXmlWhitespace] at this
            rcases this with ((h | h) | h) | h
            · exact .inl h
            · subst h; exact absurd hb h10
            · exact .inr h
            · subst h; exact absurd hb h13
          have h9 : (9 : Byte) ∈ s := by
            apply Classical.byContradiction
            intro h9
            apply hsp
            unfold hasAllWhitespace
            rw [if_pos (by rw [List.all_eq_true]; exact hws)]
            simp only [List.all_eq_true, beq_iff_eq]
            intro b hb
            rcases hbl b hb with h | h
            · exact h
            · subst h; exact absurd hb h9
          refine h.noTabs ⟨hbl, h9, ?_, ?_⟩
          · apply Classical.byContradiction
            intro hlt
            match s, hne, hlt with
            | [c], _, _ => simp at h9; exact hone ⟨c, rfl, .inr (.inr h9.symm)⟩
            | _ :: _ :: t, _, hlt => simp at hlt
          · have := hesc _ h9
            simp [Esc] at this; exact this
        · split
          · rename_i hv
            simp only [Bool.and_eq_true] at hv
            exact .inl ⟨hne, hv.1, rfl, hesc, h10⟩
          · right
            have := emits_one_chunk (S := S) (level := level) (rec := PS.internalText cfg level k) hs hne hesc hq.1 hq.2 h10 h.noRun h.noStray
            exact ⟨this.1, .inl this.2⟩
    · intro hm
      simp only [Bool.or_eq_true, beq_iff_eq] at hm
      rcases hm with ((hm | hm) | hm) | hm
      · have := h.notQuotes hne; subst hm; revert this; decide
      · exact hone ⟨10, hm, .inl rfl⟩
      · exact hone ⟨13, hm, .inr (.inl rfl)⟩
      · exact hone ⟨9, hm, .inr (.inr rfl)⟩

end Xmq
