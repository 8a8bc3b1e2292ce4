import Verif.Lemmas.PrintParts
/-!
# Texts printed in several parts
-/
namespace Xmq
open Spec

variable {S : Prop}

/-! ## Valid UTF-8 -/

theorem rfc_encode (cp : Nat) (h : cp < 0x110000) : encodeUtf8 cp = some ((rfc3629 cp).map UInt8.ofNat) := by
  obtain ⟨bs, hb, he⟩ := Props.C01_encode_is_rfc3629 cp (by omega)
  rw [hb, ← he]
  simp [Function.comp_def]

theorem rfc_ne (cp : Nat) : rfc3629 cp ≠ [] := by
  unfold rfc3629
  repeat' split
  all_goals simp

theorem rfc_tail_cont (cp : Nat) (a c : List Byte) (ha : a ≠ []) (hc : (rfc3629 cp).map UInt8.ofNat = a ++ c) :
    ∀ b, c.head? = some b → isCont b = true := by
  have hall : ∀ b ∈ ((rfc3629 cp).map UInt8.ofNat).drop 1, isCont b = true := by
    intro b hb
    have key : ∀ m : Nat, 128 ≤ m → m < 192 → isCont (UInt8.ofNat m) = true := by
      intro m h1 h2; rw [isCont_iff]; simp; omega
    unfold rfc3629 at hb
    repeat' split at hb
    all_goals simp only [List.map_cons, List.map_nil, List.drop_succ_cons, List.drop_zero, List.mem_cons, List.not_mem_nil, or_false] at hb
    · rw [hb]; exact key _ (by omega) (by omega)
    · rcases hb with rfl | rfl <;> exact key _ (by omega) (by omega)
    · rcases hb with rfl | rfl | rfl <;> exact key _ (by omega) (by omega)
  intro b hb
  apply hall
  rw [hc]
  cases a with
  | nil => exact absurd rfl ha
  | cons x a =>
    obtain ⟨t, rfl⟩ := head_cons hb
    simp

theorem _root_.Xmq.Spec.ValidUtf8.split {a b : List Byte} (h : ValidUtf8 (a ++ b)) (hb : ∀ c, b.head? = some c → isCont c = false) :
    ValidUtf8 a ∧ ValidUtf8 b := by
  generalize hs : a ++ b = s at h
  induction h generalizing a with
  | nil =>
    rw [List.append_eq_nil_iff] at hs
    rw [hs.1, hs.2]; exact ⟨.nil, .nil⟩
  | cons cp hcp rest hr ih =>
    by_cases ha : a = []
    · subst ha
      rw [List.nil_append] at hs
      rw [hs]
      exact ⟨.nil, .cons cp hcp rest hr⟩
    · rw [List.append_eq_append_iff] at hs
      rcases hs with ⟨c, hc1, hc2⟩ | ⟨c, hc1, hc2⟩
      · by_cases hcn : c = []
        · subst hcn
          simp only [List.nil_append, List.append_nil] at hc1 hc2
          rw [hc2, ← hc1]
          exact ⟨by have := ValidUtf8.cons cp hcp [] .nil; simpa using this, hr⟩
        · obtain ⟨x, t, rfl⟩ := List.exists_cons_of_ne_nil hcn
          have h1 := rfc_tail_cont cp a (x :: t) ha hc1 x rfl
          have h2 := hb x (by rw [hc2]; rfl)
          rw [h1] at h2; cases h2
      · obtain ⟨h1, h2⟩ := ih hc2.symm
        rw [hc1]
        exact ⟨.cons cp hcp _ h1, h2⟩

theorem _root_.Xmq.Spec.ValidUtf8.charAt {c : Byte} {t : List Byte} (h : ValidUtf8 (c :: t)) (h0 : (0 : Byte) ∉ c :: t) :
    ∃ n len, CharAt (c :: t) n len ∧ ValidUtf8 ((c :: t).drop len) ∧ (c :: t).take len = (rfc3629 n).map UInt8.ofNat := by
  generalize hs : c :: t = s at h
  cases h with
  | nil => cases hs
  | cons cp hcp rest hr =>
    refine ⟨cp, ((rfc3629 cp).map UInt8.ofNat).length, ⟨?_, ?_, ?_, ?_⟩, ?_, ?_⟩
    · exact Props.C01_decode_encode cp (by omega) rest _ (rfc_encode cp hcp)
    · rw [List.take_left' rfl]; exact rfc_encode cp hcp
    · rintro rfl
      apply h0
      rw [hs]
      exact List.mem_append_left _ (by decide)
    · simp [rfc_ne, List.length_pos_iff]
    · rw [List.drop_left' rfl]; exact hr
    · rw [List.take_left' rfl]

theorem _root_.Xmq.Spec.ValidUtf8.drop_ascii {a b : List Byte} (ha : ∀ x ∈ a, x.toNat < 128) (h : ValidUtf8 (a ++ b)) : ValidUtf8 b := by
  induction a with
  | nil => exact h
  | cons x a ih =>
    refine ih (fun y hy => ha y (by simp [hy])) ?_
    have hb : ValidUtf8 ([x] ++ (a ++ b)) := h
    generalize hz : [x] ++ (a ++ b) = z at hb
    cases hb with
    | nil => cases hz
    | cons cp hcp rest hr =>
      have hd := Props.C01_decode_encode cp (by omega) rest _ (rfc_encode cp hcp)
      rw [← hz] at hd
      have hd' := decode_one x (a ++ b) (ha x (by simp))
      rw [List.singleton_append, hd'] at hd
      simp at hd
      have := congrArg (List.drop 1) hz
      simp only [List.singleton_append, List.drop_succ_cons, List.drop_zero] at this
      rw [this, List.drop_left' (by simp; exact hd.2.symm)]; exact hr

theorem length_dropWhile_le (p : Byte → Bool) (t : List Byte) : (t.dropWhile p).length ≤ t.length :=
  (List.dropWhile_sublist p).length_le

theorem mem_takeWhile_pos {p : Byte → Bool} {t : List Byte} {x : Byte} (h : x ∈ t.takeWhile p) : p x = true := by
  have := List.all_takeWhile (p := p) (l := t)
  rw [List.all_eq_true] at this
  exact this x h

/-! ## Where the next escape is -/

/-- The character cannot be printed inside a quote. -/
def Esc (cfg : OutCfg) (c : Byte) : Bool :=
  (cfg.escapeNewlines && c == 10) || (cfg.escapeNon7bit && c > 126) || (c < 32 && c != 9 && c != 10) || (c == 9 && cfg.escapeTabs)

theorem escapeScan_esc (cfg : OutCfg) (tail : Nat) (c : Byte) (t : List Byte) :
    escapeScan cfg tail (c :: t) =
      if (cfg.compact && c == 39 && t.length + 1 == tail) || Esc cfg c then 0 else escapeScan cfg tail t + 1 := by
  rw [escapeScan]
  have key : ∀ b1 b2 b3 b4 b5 : Bool, ∀ n : Nat, (if b1 then 0 else if b2 then 0 else if b3 then 0 else if b4 then 0
      else if b5 then 0 else n) = if b1 || (b2 || b3 || b4 || b5) then 0 else n := by
    intro b1 b2 b3 b4 b5 n
    cases b1 <;> cases b2 <;> cases b3 <;> cases b4 <;> cases b5 <;> rfl
  exact key _ _ _ _ _ _

theorem escapeScan_le (cfg : OutCfg) (tail : Nat) (s : List Byte) : escapeScan cfg tail s ≤ s.length := by
  induction s with
  | nil => simp [escapeScan]
  | cons c t ih => rw [escapeScan_esc]; split <;> simp <;> omega

theorem escapeScan_before (cfg : OutCfg) (tail : Nat) (s : List Byte) :
    ∀ b ∈ s.take (escapeScan cfg tail s), Esc cfg b = false := by
  induction s with
  | nil => simp
  | cons c t ih =>
    rw [escapeScan_esc]
    split
    · simp
    · rename_i h
      simp only [Bool.or_eq_true, not_or, Bool.not_eq_true] at h
      intro b hb
      rw [List.take_succ_cons, List.mem_cons] at hb
      rcases hb with rfl | hb
      · exact h.2
      · exact ih b hb

theorem escapeScan_at (cfg : OutCfg) (tail : Nat) (s : List Byte) :
    ∀ c, (s.drop (escapeScan cfg tail s)).head? = some c → Esc cfg c = true ∨ (cfg.compact = true ∧ c = 39) := by
  induction s with
  | nil => simp
  | cons c t ih =>
    rw [escapeScan_esc]
    split
    · rename_i h
      intro x hx
      simp at hx
      subst hx
      simp only [Bool.or_eq_true, Bool.and_eq_true, beq_iff_eq] at h
      rcases h with h | h
      · exact .inr ⟨h.1.1, h.1.2⟩
      · exact .inl h
    · simpa using ih

theorem findEscape_le (cfg : OutCfg) (s : List Byte) : findEscape cfg s ≤ s.length := by
  unfold findEscape
  split
  · omega
  · exact escapeScan_le _ _ _

theorem findEscape_before (cfg : OutCfg) (s : List Byte) : ∀ b ∈ s.take (findEscape cfg s), Esc cfg b = false := by
  unfold findEscape
  split
  · simp
  · exact escapeScan_before _ _ _

theorem findEscape_at (cfg : OutCfg) (s : List Byte) :
    ∀ c, (s.drop (findEscape cfg s)).head? = some c → Esc cfg c = true ∨ (cfg.compact = true ∧ c = 39) := by
  unfold findEscape
  split
  · rename_i h
    intro c hc
    cases s with
    | nil => simp at hc
    | cons x t => simp at hc h; subst hc; exact .inr ⟨h.2, h.1⟩
  · exact escapeScan_at _ _ _

theorem findEscape_zero {cfg : OutCfg} {c : Byte} {t : List Byte} (h : Esc cfg c = true ∨ (cfg.compact = true ∧ c = 39)) :
    findEscape cfg (c :: t) = 0 := by
  unfold findEscape
  split
  · rfl
  · rename_i hn
    rw [escapeScan_esc, if_pos]
    rcases h with h | ⟨h1, h2⟩
    · simp [h]
    · simp [h1, h2] at hn

/-- The end of a text that is printed as an entity, and of the newlines that follow. -/
def AfterEsc (cfg : OutCfg) (a : List Byte) : Prop :=
  ∃ e c n, a = e ++ c :: List.replicate n 10 ∧ (Esc cfg c = true ∨ (cfg.compact = true ∧ c = 39))

theorem esc_high {cfg : OutCfg} (hn : cfg.escapeNon7bit = true) {x : Byte} (h : 128 ≤ x.toNat) : Esc cfg x = true := by
  have : x > 126 := by rw [gt_iff_lt, UInt8.lt_iff_toNat_lt]; simp; omega
  simp [Esc, hn, this]

theorem rfc_last {cp : Nat} {c : Byte} {t a : List Byte} {len : Nat} (hc : 128 ≤ c.toNat) (h : (c :: t).take len = (rfc3629 cp).map UInt8.ofNat)
    {x : Byte} (hx : (c :: t).take len = a ++ [x]) : 128 ≤ x.toNat := by
  cases a with
  | nil =>
    cases len with
    | zero => simp at hx
    | succ n => simp at hx; rw [← hx.1]; exact hc
  | cons y a =>
    have := rfc_tail_cont cp (y :: a) [x] (by simp) (by rw [← h, hx]) x rfl
    rw [isCont_iff] at this; omega

/-- A character that is escaped can be written as an entity. -/
theorem charAt_esc {cfg : OutCfg} {c : Byte} {t : List Byte} (h : Esc cfg c = true ∨ (cfg.compact = true ∧ c = 39))
    (h0 : (0 : Byte) ∉ c :: t) (hu : cfg.escapeNon7bit = true → ValidUtf8 (c :: t)) :
    ∃ n len, CharAt (c :: t) n len ∧ (cfg.escapeNon7bit = true → ValidUtf8 ((c :: t).drop len)) ∧ AfterEsc cfg ((c :: t).take len) := by
  by_cases hc : c.toNat < 128
  · refine ⟨c.toNat, 1, charAt_ascii c t (by rintro rfl; simp at h0) hc, fun hn => ?_, ⟨[], c, 0, by simp, h⟩⟩
    obtain ⟨n, len, hca, hv, -⟩ := (hu hn).charAt h0
    have := hca.dec
    rw [decode_one c t hc] at this
    simp at this
    rw [← this.2] at hv; exact hv
  · have hn : cfg.escapeNon7bit = true := by
      rcases h with h | h
      · simp only [Esc, Bool.or_eq_true, Bool.and_eq_true, decide_eq_true_eq, beq_iff_eq, bne_iff_ne] at h
        rcases h with ((h | h) | h) | h
        · rw [h.2] at hc; simp at hc
        · exact h.1
        · have := h.1.1; rw [UInt8.lt_iff_toNat_lt] at this; simp at this; omega
        · rw [h.1] at hc; simp at hc
      · rw [h.2] at hc; simp at hc
    obtain ⟨n, len, hca, hv, he⟩ := (hu hn).charAt h0
    refine ⟨n, len, hca, fun _ => hv, ?_⟩
    rcases List.eq_nil_or_concat ((c :: t).take len) with h' | ⟨a, x, h'⟩
    · have := hca.pos
      cases len with
      | zero => omega
      | succ n => simp at h'
    · rw [List.concat_eq_append] at h'
      exact ⟨a, x, 0, by rw [h']; simp, .inl (esc_high hn (rfc_last (by omega) he h'))⟩

/-! ## The loop over the pieces of a text -/

theorem emits_escapeNls {cfg : OutCfg} (ps : PS) (s : List Byte) (hs : SepQ cfg ps) :
    EmitsText S cfg ps (PS.escapeNls cfg ps s).1 (s.takeWhile (· == 10)) ∧ (PS.escapeNls cfg ps s).2 = s.dropWhile (· == 10) ∧
      SepQ cfg (PS.escapeNls cfg ps s).1 := by
  induction s generalizing ps with
  | nil => exact ⟨EmitsText.refl _ _, rfl, hs⟩
  | cons c t ih =>
    rw [PS.escapeNls]
    split
    · rename_i hc
      simp only [beq_iff_eq] at hc
      subst hc
      have hca := charAt_ascii 10 t (by decide) (by decide)
      have e1 := emits_char (S := S) hs.toE hca
      have hq := hs.toE.ofSemi (charEntity_last (ps.beforeEntity cfg) hca).1
      obtain ⟨e2, h2, h3⟩ := ih _ hq
      refine ⟨?_, by simp [h2], h3⟩
      have := e1.trans e2
      simpa using this
    · rename_i hc
      simp only [beq_iff_eq] at hc
      exact ⟨by simp [hc]; exact EmitsText.refl _ _, by simp [hc], hs⟩

/-- How `print_value_internal_text` prints the text up to the next escape. -/
def PS.chunk (cfg : OutCfg) (level : Level) (rec : PS → List Byte → PS) (ps : PS) (chunk : List Byte) : PS :=
  if !addCompound chunk false && (!addNls chunk false || !cfg.compact) then
    (ps.beforeQuote cfg level).safeLeafQuote cfg chunk
  else rec ps chunk

theorem emits_textLoop {cfg : OutCfg} {level : Level} {rec : PS → List Byte → PS} (G : List Byte → Prop)
    (h0 : ∀ s, G s → (0 : Byte) ∉ s)
    (hnext : ∀ a b, G (a ++ b) → a ≠ [] → (b = [] ∨ findEscape cfg b = 0 ∨ AfterEsc cfg a) → G b)
    (hchunk : ∀ ps s, SepQ cfg ps → G s → findEscape cfg s ≠ 0 → (cfg.escapeNon7bit = true → ValidUtf8 s) →
      EmitsText S cfg ps (PS.chunk cfg level rec ps (s.take (findEscape cfg s))) (s.take (findEscape cfg s)))
    (k : Nat) (ps : PS) (s : List Byte) (hk : s.length ≤ k) (hG : G s)
    (hu : cfg.escapeNon7bit = true → ValidUtf8 s) (hs : SepE cfg ps)
    (hq : SepQ cfg ps ∨ s = [] ∨ findEscape cfg s = 0) :
    EmitsText S cfg ps (PS.textLoop cfg level rec k ps s) s := by
  induction k generalizing ps s with
  | zero =>
    have : s = [] := List.length_eq_zero_iff.1 (by omega)
    subst this
    exact EmitsText.refl _ _
  | succ k ih =>
    cases s with
    | nil => exact EmitsText.refl _ _
    | cons c t =>
      rw [PS.textLoop]
      dsimp only
      by_cases hn : findEscape cfg (c :: t) = 0
      · rw [if_pos hn]
        have hesc := findEscape_at cfg (c :: t) c (by rw [hn]; rfl)
        obtain ⟨n, len, hca, hv, hae⟩ := charAt_esc hesc (h0 _ hG) hu
        obtain ⟨l1, l2, -, -⟩ := charEntity_last (ps.beforeEntity cfg) hca
        have e1 := emits_char (S := S) hs hca
        have hq1 := hs.ofSemi l1
        rw [l2]
        have hpos := hca.pos
        split
        · rename_i hlen
          have hlen : len = 1 := by omega
          subst hlen
          obtain ⟨e2, h2, h3⟩ := emits_escapeNls (S := S) _ t hq1
          rw [h2]
          have hsplit : c :: t = (c :: t.takeWhile (· == 10)) ++ t.dropWhile (· == 10) := by
            rw [List.cons_append, List.takeWhile_append_dropWhile]
          have e3 := ih (PS.escapeNls cfg ((ps.beforeEntity cfg).charEntity (c :: t)).1 t).1 (t.dropWhile (· == 10))
            (by
              have := length_dropWhile_le (· == (10 : Byte)) t
              simp at hk; omega)
            (hnext (c :: t.takeWhile (· == 10)) _ (hsplit ▸ hG) (by simp) (.inr (.inr ⟨[], c, (t.takeWhile (· == (10 : Byte))).length, by
              have : t.takeWhile (· == (10 : Byte)) = List.replicate (t.takeWhile (· == (10 : Byte))).length 10 := by
                rw [List.eq_replicate_iff]
                exact ⟨rfl, fun b hb => by simpa using mem_takeWhile_pos hb⟩
              rw [← this]; rfl, hesc⟩)))
            (fun hnon => by
              have h1 := hv hnon
              simp only [List.drop_succ_cons, List.drop_zero] at h1
              rw [← List.takeWhile_append_dropWhile (p := (· == (10 : Byte))) (l := t)] at h1
              exact h1.drop_ascii (fun x hx => by
                have := mem_takeWhile_pos hx
                simp at this; subst this; decide))
            h3.toE (.inl h3)
          have e := (e1.trans e2).trans e3
          simp only [List.take_succ_cons, List.take_zero, List.append_assoc, List.takeWhile_append_dropWhile] at e
          exact e
        · have hlen2 : len ≤ (c :: t).length := by
            have := (Props.C02_decode_consumes_within (c :: t) (by simp)).2.1
            rw [hca.dec] at this; exact this
          have hsplit : c :: t = (c :: t).take len ++ (c :: t).drop len := (List.take_append_drop _ _).symm
          have e3 := ih ((ps.beforeEntity cfg).charEntity (c :: t)).1 ((c :: t).drop len)
            (by rw [List.length_drop]; simp only [List.length_cons] at hk ⊢; omega)
            (hnext ((c :: t).take len) _ (by rw [← hsplit]; exact hG)
              (by
                obtain ⟨j, rfl⟩ : ∃ j, len = j + 1 := ⟨len - 1, by omega⟩
                simp) (.inr (.inr hae))) hv hq1.toE (.inl hq1)
          have e := e1.trans e3
          rw [List.take_append_drop] at e
          exact e
      · rw [if_neg hn]
        have hq0 : SepQ cfg ps := by
          rcases hq with h | h | h
          · exact h
          · cases h
          · exact absurd h hn
        have e1 := hchunk ps (c :: t) hq0 hG hn hu
        have hesc : (c :: t).drop (findEscape cfg (c :: t)) = [] ∨ findEscape cfg ((c :: t).drop (findEscape cfg (c :: t))) = 0 := by
          cases hd : (c :: t).drop (findEscape cfg (c :: t)) with
          | nil => exact .inl rfl
          | cons x u =>
            exact .inr (findEscape_zero (findEscape_at cfg (c :: t) x (by rw [hd]; rfl)))
        have e2 := ih (PS.chunk cfg level rec ps ((c :: t).take (findEscape cfg (c :: t))))
          ((c :: t).drop (findEscape cfg (c :: t)))
          (by rw [List.length_drop]; simp only [List.length_cons] at hk ⊢; omega)
          (hnext ((c :: t).take (findEscape cfg (c :: t))) _ (by rw [List.take_append_drop]; exact hG)
            (by
              obtain ⟨j, hj⟩ : ∃ j, findEscape cfg (c :: t) = j + 1 := ⟨findEscape cfg (c :: t) - 1, by omega⟩
              rw [hj]; simp) (by rcases hesc with h | h <;> simp [h]))
          (fun hnon => by
            have hv := hu hnon
            rw [← List.take_append_drop (findEscape cfg (c :: t)) (c :: t)] at hv
            have hb := findEscape_before cfg (c :: t)
            refine hv.drop_ascii (fun x hx => ?_)
            have := hb x hx
            simp only [Esc, hnon, Bool.true_and, Bool.or_eq_false_iff, decide_eq_false_iff_not] at this
            have := this.1.1.2
            rw [gt_iff_lt, UInt8.lt_iff_toNat_lt] at this
            simp at this; omega)
          (e1.sepE hs) (.inr hesc)
        have e := e1.trans e2
        rw [List.take_append_drop] at e
        exact e

/-! ## White space around a text -/

theorem hasLeadingSpaceNl_split {s : List Byte} {l : NlSpace} (h : hasLeadingSpaceNl s = some l) :
    l.ws ++ l.text = s ∧ ∀ b ∈ l.ws, isXmlWhitespace b = true := by
  unfold hasLeadingSpaceNl at h
  simp only at h
  split at h
  · cases h
  · cases h
    refine ⟨?_, fun b hb => ?_⟩
    · simp only [List.append_assoc, List.takeWhile_append_dropWhile]
    · simp only [List.mem_append] at hb
      rcases hb with hb | hb
      · have := mem_takeWhile_pos hb
        simp at this; subst this; decide
      · exact mem_takeWhile_pos hb

theorem hasEndingNlSpace_split {s : List Byte} {e : NlSpace} (h : hasEndingNlSpace s = some e) :
    e.text ++ e.ws = s ∧ ∀ b ∈ e.ws, isXmlWhitespace b = true := by
  unfold hasEndingNlSpace at h
  simp only at h
  split at h
  · cases h
  · cases h
    refine ⟨?_, fun b hb => ?_⟩
    · rw [← List.reverse_append, List.append_assoc, List.takeWhile_append_dropWhile, List.takeWhile_append_dropWhile,
        List.reverse_reverse]
    · simp only [List.mem_reverse, List.mem_append] at hb
      rcases hb with hb | hb
      · have := mem_takeWhile_pos hb
        simp at this; subst this; decide
      · exact mem_takeWhile_pos hb

theorem hasLeadingSpaceNl_nl {s : List Byte} {l : NlSpace} (h : hasLeadingSpaceNl s = some l) : (10 : Byte) ∈ l.ws := by
  unfold hasLeadingSpaceNl at h
  simp only at h
  split at h
  · cases h
  · rename_i hf
    cases h
    simp only [Bool.not_eq_true, Bool.not_eq_false', Bool.or_eq_true, decide_eq_true_eq, List.any_eq_true, beq_iff_eq] at hf
    rw [List.mem_append]
    rcases hf with hf | ⟨x, hx, rfl⟩
    · left
      obtain ⟨y, t, hy⟩ := List.exists_cons_of_length_pos hf
      have := mem_takeWhile_pos (p := (· == (10 : Byte))) (t := s) (x := y) (by rw [hy]; simp)
      simp only [beq_iff_eq] at this
      rw [hy, this]; simp
    · exact .inr hx

theorem hasEndingNlSpace_nl {s : List Byte} {l : NlSpace} (h : hasEndingNlSpace s = some l) : (10 : Byte) ∈ l.ws := by
  unfold hasEndingNlSpace at h
  simp only at h
  split at h
  · cases h
  · rename_i hf
    cases h
    simp only [Bool.not_eq_true, Bool.not_eq_false', Bool.or_eq_true, decide_eq_true_eq, List.any_eq_true, beq_iff_eq] at hf
    rw [List.mem_reverse, List.mem_append]
    rcases hf with hf | ⟨x, hx, rfl⟩
    · left
      obtain ⟨y, t, hy⟩ := List.exists_cons_of_length_pos hf
      have := mem_takeWhile_pos (p := (· == (10 : Byte))) (t := s.reverse) (x := y) (by rw [hy]; simp)
      simp only [beq_iff_eq] at this
      rw [hy, this]; simp
    · exact .inr hx

theorem allWhitespace_last {cfg : OutCfg} {level : Level} (k : Nat) (ps : PS) (s : List Byte) (hk : s.length ≤ k)
    (hw : ∀ b ∈ s, isXmlWhitespace b = true) (hne : s ≠ []) (hl : s.getLast? ≠ some 32) :
    (PS.allWhitespace cfg k ps s level).last = 59 := by
  induction k generalizing ps s with
  | zero => exact absurd (List.length_eq_zero_iff.1 (by omega)) hne
  | succ k ih =>
    cases s with
    | nil => exact absurd rfl hne
    | cons c t =>
      rw [PS.allWhitespace]
      split
      · rename_i hc
        simp only [beq_iff_eq] at hc
        subst hc
        have hsplit := List.takeWhile_append_dropWhile (p := (· == (32 : Byte))) (l := 32 :: t)
        have hdrop : (32 :: t).drop ((32 :: t).takeWhile (· == (32 : Byte))).length = (32 :: t).dropWhile (· == (32 : Byte)) := by
          conv => lhs; rw [← hsplit]
          rw [List.drop_left' (by rw [List.takeWhile_append_dropWhile])]
        have hpos : 0 < ((32 :: t).takeWhile (· == (32 : Byte))).length := by simp
        have hne' : (32 :: t).dropWhile (· == (32 : Byte)) ≠ [] := by
          intro h
          rw [h, List.append_nil] at hsplit
          apply hl
          have hm : ∀ x, (32 :: t).getLast? = some x → x = 32 := by
            intro x hx
            have := List.mem_of_getLast? hx
            rw [← hsplit] at this
            simpa using mem_takeWhile_pos this
          cases hg : (32 :: t).getLast? with
          | none => simp at hg
          | some x => rw [hm x hg]
        have hll : ((32 :: t).dropWhile (· == (32 : Byte))).getLast? ≠ some 32 := by
          intro h
          apply hl
          rw [← hsplit, List.getLast?_append, h]; rfl
        show (PS.allWhitespace cfg k _ ((32 :: t).drop _) level).last = 59
        rw [hdrop]
        refine ih _ _ ?_ (fun b hb => hw b ((List.dropWhile_sublist _).subset hb)) hne' hll
        rw [← hdrop, List.length_drop]
        simp only [List.length_cons] at hk hpos ⊢; omega
      · rename_i hc
        have hcw := hw c (by simp)
        have hca : CharAt (c :: t) c.toNat 1 := by
          apply charAt_ascii
          · rintro rfl; revert hcw; decide
          · simp [isXmlWhitespace] at hcw
            rcases hcw with ((h | h) | h) | h <;> subst h <;> decide
        by_cases ht : t = []
        · subst ht
          have : PS.allWhitespace cfg k ((ps.beforeEntity cfg).charEntity [c]).1 [] level = ((ps.beforeEntity cfg).charEntity [c]).1 := by
            cases k <;> rfl
          rw [this]
          exact (charEntity_last _ hca).1
        · refine ih _ t (by simp at hk; omega) (fun b hb => hw b (by simp [hb])) ht ?_
          rw [List.getLast?_cons] at hl
          intro h
          rw [h] at hl; exact hl rfl

/-- No mix of white space and newlines that ends in a space in front of the text. -/
def LeadOk (s : List Byte) : Prop := ∀ l, hasLeadingSpaceNl s = some l → l.onlyNewlines = 0 → l.ws.getLast? ≠ some 32

theorem ws_ascii {b : Byte} (h : isXmlWhitespace b = true) : b.toNat < 128 := by
  simp [isXmlWhitespace] at h
  rcases h with ((h | h) | h) | h <;> subst h <;> decide

theorem ascii_notCont {b : Byte} (h : b.toNat < 128) : isCont b = false := by
  rw [Bool.eq_false_iff]
  intro hc
  rw [isCont_iff] at hc; omega

theorem emits_textParts {cfg : OutCfg} {level : Level} {rec : PS → List Byte → PS} (G : List Byte → Prop)
    (h0 : ∀ s, G s → (0 : Byte) ∉ s)
    (hnext : ∀ a b, G (a ++ b) → a ≠ [] → (b = [] ∨ findEscape cfg b = 0 ∨ AfterEsc cfg a) → G b)
    (hchunk : ∀ ps s, SepQ cfg ps → G s → findEscape cfg s ≠ 0 → (cfg.escapeNon7bit = true → ValidUtf8 s) →
      EmitsText S cfg ps (PS.chunk cfg level rec ps (s.take (findEscape cfg s))) (s.take (findEscape cfg s)))
    (ps : PS) (s : List Byte) (hs : SepQ cfg ps) (hlead : cfg.indentationSpace = [32] ∨ LeadOk s)
    (hmid : ∀ a m b, s = a ++ (m ++ b) → (∀ x ∈ a, isXmlWhitespace x = true) → (∀ x ∈ b, isXmlWhitespace x = true) →
      (a = [] → b = [] → addCompound s false = false) → G m)
    (hu : cfg.escapeNon7bit = true → ValidUtf8 s) :
    EmitsText S cfg ps (PS.textParts cfg level rec ps s) s := by
  -- the part behind the leading white space
  have rest : ∀ (ps1 : PS) (a t : List Byte), s = a ++ t → (∀ x ∈ a, isXmlWhitespace x = true) →
      (a = [] → (match hasLeadingSpaceNl s with | some r => r.onlyNewlines == 0 | none => false) = false) → SepQ cfg ps1 →
      EmitsText S cfg ps1 (match hasEndingNlSpace t with
        | some e =>
          if e.onlyNewlines = 0 then
            PS.allWhitespace cfg (e.ws.drop (e.ws.takeWhile (· == (32 : Byte))).length).length
              (PS.textLoop cfg level rec (e.text ++ e.ws.takeWhile (· == (32 : Byte))).length ps1 (e.text ++ e.ws.takeWhile (· == (32 : Byte))))
              (e.ws.drop (e.ws.takeWhile (· == (32 : Byte))).length) level
          else PS.textLoop cfg level rec t.length ps1 t
        | none => PS.textLoop cfg level rec t.length ps1 t) t := by
    intro ps1 a t hst ha hla hq
    have hut : cfg.escapeNon7bit = true → ValidUtf8 t := fun hn => by
      have := hu hn; rw [hst] at this
      exact this.drop_ascii (fun x hx => ws_ascii (ha x hx))
    have whole : (match hasEndingNlSpace t with | some r => r.onlyNewlines == 0 | none => false) = false →
        EmitsText S cfg ps1 (PS.textLoop cfg level rec t.length ps1 t) t := fun he =>
      emits_textLoop G h0 hnext hchunk _ ps1 t (Nat.le_refl _) (hmid a t [] (by simpa using hst) ha (by simp) (fun h1 _ => by
        have h2 := hla h1
        subst h1
        rw [List.nil_append] at hst
        subst hst
        simp only [addCompound, Bool.and_false, Bool.false_or, Bool.or_eq_false_iff]
        exact ⟨h2, he⟩)) hut hq.toE (.inl hq)
    cases he : hasEndingNlSpace t with
    | none => exact whole (by rw [he])
    | some e =>
      dsimp only
      split
      · obtain ⟨hsp, hws⟩ := hasEndingNlSpace_split he
        have htd := List.takeWhile_append_dropWhile (p := (· == (32 : Byte))) (l := e.ws)
        have hdrop : e.ws.drop (e.ws.takeWhile (· == (32 : Byte))).length = e.ws.dropWhile (· == (32 : Byte)) := by
          conv => lhs; arg 2; rw [← htd]
          rw [List.drop_left' rfl]
        rw [hdrop]
        have hws2 : ∀ b ∈ e.ws.dropWhile (· == (32 : Byte)), isXmlWhitespace b = true :=
          fun b hb => hws b ((List.dropWhile_sublist _).subset hb)
        have ht : t = (e.text ++ e.ws.takeWhile (· == (32 : Byte))) ++ e.ws.dropWhile (· == (32 : Byte)) := by
          rw [List.append_assoc, htd, hsp]
        have e1 := emits_textLoop (level := level) G h0 hnext hchunk _ ps1 (e.text ++ e.ws.takeWhile (· == (32 : Byte))) (Nat.le_refl _)
          (hmid a _ _ (by rw [hst]; conv => lhs; rw [ht]) ha hws2 (fun _ hb => by
            have h10 := hasEndingNlSpace_nl he
            rw [← htd, hb, List.append_nil] at h10
            have := mem_takeWhile_pos h10
            simp at this))
          (fun hn => by
            have := hut hn
            rw [ht] at this
            refine (this.split (fun c hc => ?_)).1
            obtain ⟨u, hu⟩ := head_cons hc
            exact ascii_notCont (ws_ascii (hws2 c (by rw [hu]; simp)))) hq.toE (.inl hq)
        have e2 := emits_allWhitespace (S := S) (level := level) _ _ (e.ws.dropWhile (· == (32 : Byte))) (Nat.le_refl _) hws2
          ⟨e1.sepE hq.toE, .inr (by
            intro h
            have := List.head?_dropWhile_not (p := (· == (32 : Byte))) (l := e.ws)
            rw [h] at this; simp at this)⟩
        have e := e1.trans e2
        rw [← ht] at e
        exact e
      · rename_i hz
        exact whole (by rw [he]; simpa using hz)
  unfold PS.textParts
  dsimp only
  cases hl : hasLeadingSpaceNl s with
  | none => exact rest ps [] s rfl (by simp) (fun _ => by rw [hl]) hs
  | some l =>
    dsimp only
    by_cases ho : l.onlyNewlines = 0
    · rw [if_pos ho]
      obtain ⟨hsp, hws⟩ := hasLeadingSpaceNl_split hl
      have e1 := emits_allWhitespace (S := S) (level := level) l.ws.length ps l.ws (Nat.le_refl _) hws ⟨hs.toE, .inl hs⟩
      have hq : SepQ cfg (PS.allWhitespace cfg l.ws.length ps l.ws level) := by
        rcases hlead with h | h
        · exact .inl h
        · by_cases hne : l.ws = []
          · rw [hne]; exact hs
          · exact hs.toE.ofSemi (allWhitespace_last _ ps l.ws (Nat.le_refl _) hws hne (h l hl ho))
      have e := e1.trans (rest _ l.ws l.text hsp.symm hws (fun hn => by
        have := hasLeadingSpaceNl_nl hl
        rw [hn] at this; cases this) hq)
      rw [hsp] at e
      exact e
    · rw [if_neg ho]
      exact rest ps [] s rfl (by simp) (fun _ => by rw [hl]; simpa using ho) hs

end Xmq
