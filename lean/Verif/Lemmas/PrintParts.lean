import Verif.Lemmas.Emits
import Verif.Props.Utf8
import Verif.Props.Trim
/-!
# Character entities, quoted spaces and single-line quotes
-/
namespace Xmq
open Spec

variable {S : Prop}

theorem takeWhile_all {p : Byte → Bool} {l : List Byte} (h : ∀ b ∈ l, p b = true) : l.takeWhile p = l := by
  have := List.takeWhile_append_of_pos (l₂ := []) h
  simpa using this

/-! ## Decimal numbers -/

theorem decDigit_class (d : Nat) (h : d < 10) :
    isXmqTextName (UInt8.ofNat (48 + d)) = true ∧ UInt8.ofNat (48 + d) ≠ 45 ∧ UInt8.ofNat (48 + d) ≠ 120 ∧
      UInt8.ofNat (48 + d) ≥ 48 ∧ UInt8.ofNat (48 + d) ≤ 57 ∧ (UInt8.ofNat (48 + d)).toNat - 48 = d := by
  revert d; decide

theorem decDigits_all (k n : Nat) : ∀ b ∈ decDigits k n, ∃ d, d < 10 ∧ b = UInt8.ofNat (48 + d) := by
  induction k generalizing n with
  | zero => simp [decDigits]
  | succ k ih =>
    rw [decDigits]
    split
    · intro b hb; rw [List.mem_singleton] at hb; exact ⟨n, by assumption, hb⟩
    · intro b hb
      rw [List.mem_append, List.mem_singleton] at hb
      rcases hb with hb | hb
      · exact ih _ b hb
      · exact ⟨n % 10, by omega, hb⟩

theorem readDigits_digit (d : Nat) (h : d < 10) (t : List Byte) (acc : Nat) :
    readDigits 10 (UInt8.ofNat (48 + d) :: t) acc = readDigits 10 t (acc * 10 + d) := by
  obtain ⟨-, -, -, h1, h2, h3⟩ := decDigit_class d h
  rw [readDigits]
  simp only [h1, h2, decide_true, Bool.and_self, if_true, h3, h]

/-- Printing a number and reading it. -/
theorem readDigits_decDigits (k n : Nat) (h : n < 10 ^ k) (hk : 0 < k) (t : List Byte) :
    readDigits 10 (decDigits k n ++ t) 0 = readDigits 10 t n := by
  induction k generalizing n t with
  | zero => omega
  | succ k ih =>
    rw [decDigits]
    split
    · rename_i h10
      rw [List.singleton_append, readDigits_digit _ h10]; simp
    · rename_i h10
      have hk' : 0 < k := by
        rcases k with _ | k
        · simp at h; omega
        · omega
      rw [List.append_assoc, ih (n / 10) (by rw [Nat.pow_succ] at h; omega) hk', List.singleton_append,
        readDigits_digit _ (by omega)]
      congr 1; omega

/-- A character entity stands for the UTF-8 encoding of its code point. -/
theorem entityVal_charEntity (n : Nat) (h0 : n ≠ 0) (bs : List Byte) (hb : encodeUtf8 n = some bs) :
    entityVal (charEntity n) = some (.text bs) := by
  have hlt : n < 10 ^ (n + 1) := Nat.lt_trans (Nat.lt_succ_self n) (Nat.lt_pow_self (by omega))
  have hmax : n < 0x110000 := by
    rw [encodeUtf8_eq] at hb
    repeat' split at hb
    all_goals first | omega | cases hb
  have hd : (charEntity n).drop 2 = decDigits (n + 1) n ++ b#";" := rfl
  have h1 : peek ((charEntity n).drop 1) = 35 := rfl
  unfold entityVal
  rw [h1, if_pos (by decide), hd]
  unfold charEntityText
  have hx : ∀ l : List Byte, (∀ b ∈ l, ∃ d, d < 10 ∧ b = UInt8.ofNat (48 + d)) → peek (l ++ b#";") ≠ 120 := by
    intro l hl
    cases l with
    | nil => decide
    | cons c t =>
      obtain ⟨d, hd, rfl⟩ := hl c (by simp)
      exact (decDigit_class d hd).2.2.1
  have hx := hx _ (decDigits_all (n + 1) n)
  have hm : (decDigits (n + 1) n ++ b#";").contains b#'-' = false := by
    rw [Bool.eq_false_iff]
    intro hm
    rw [List.contains_iff_mem] at hm
    rw [List.mem_append] at hm
    rcases hm with hm | hm
    · obtain ⟨d, hd, he⟩ := decDigits_all _ _ _ hm
      exact (decDigit_class d hd).2.1 he.symm
    · revert hm; decide
  have hv : readDigits 10 (decDigits (n + 1) n ++ b#";") 0 = n := by
    rw [readDigits_decDigits _ _ hlt (by omega)]
    rfl
  have hx' : (peek (decDigits (n + 1) n ++ b#";") == b#'x') = false := by simpa using hx
  simp only [hx', hm, hv, Bool.false_eq_true, if_false, Bool.false_and, Bool.or_false, Bool.false_or]
  rw [if_neg (by simp; omega), hb]
  simp only [Option.map_some, Option.some.injEq, Val.text.injEq]
  apply takeWhile_all
  intro b hb'
  have key : ∀ m : Nat, m < 256 → m ≠ 0 → UInt8.ofNat m ≠ 0 := by
    intro m hm h0 he
    have := congrArg UInt8.toNat he
    simp at this; omega
  rw [encodeUtf8_eq] at hb
  repeat' split at hb
  all_goals first | (cases hb; done) | skip
  all_goals
    cases hb
    simp only [List.mem_cons, List.not_mem_nil, or_false] at hb'
    simp only [bne_iff_ne, ne_eq]
    rcases hb' with rfl | rfl | rfl | rfl
  all_goals exact key _ (by omega) (by omega)

/-! ## What single printing steps emit -/

theorem emits_entity {cfg : OutCfg} {ps ps' : PS} {name : List Byte} {v : Val} (hs : SepE cfg ps)
    (ho : ps'.out = (ps.beforeEntity cfg).out ++ 38 :: (name ++ [59])) (hl : ps'.line = (ps.beforeEntity cfg).line)
    (hc : ps'.last = 59) (hn : ∀ b ∈ name, isXmqTextName b = true) (hv : entityVal (38 :: (name ++ [59])) = some v) :
    Emits S cfg ps ps' [v] := by
  obtain ⟨ws, hw, o, l, hk⟩ := beforeEntity_spec cfg ps hs
  refine ⟨ws ++ 38 :: (name ++ [59]), by rw [ho, o, List.append_assoc], by rw [hl, l], fun col hsync => ⟨?_, fun k _ => ⟨?_, ?_⟩⟩⟩
  · simp [Sync, hc]
  · have := Parts.cons col ws (38 :: (name ++ [59])) [] k v [] hw (.entity name _ v hn hv) (.nil _ _)
    simpa using this
  · rw [List.append_assoc]
    exact hk col hsync _ (by simp)

theorem emits_quote {cfg : OutCfg} {ps ps' : PS} {level : Level} {p : List Byte} {v : Val} (hs : SepQ cfg ps)
    (ho : ps'.out = (ps.beforeQuote cfg level).out ++ p) (hl : ps'.line = (ps.beforeQuote cfg level).line)
    (hc : ps'.last = 39) (hp : p.head? = some 39)
    (hq : ∀ col k, (cfg.compact = false → S → (ps.beforeQuote cfg level).cur + 1 = col) → k.head? ≠ some 39 → Part col p k v) :
    Emits S cfg ps ps' [v] := by
  obtain ⟨ws, hw, o, l, hk⟩ := beforeQuote_spec cfg ps level hs
  refine ⟨ws ++ p, by rw [ho, o, List.append_assoc], by rw [hl, l], fun col hsync => ⟨?_, fun k hkk => ⟨?_, ?_⟩⟩⟩
  · simp [Sync, hc]
  · have := Parts.cons col ws p [] k v [] hw (hq _ _ (hk col hsync).1 (by simpa using hkk.quote hc)) (.nil _ _)
    simpa using this
  · rw [List.append_assoc]
    exact (hk col hsync).2 _ (by
      obtain ⟨t, rfl⟩ := head_cons hp
      simp)

/-- From `ps` to `ps'` the text `s` has been printed, in one or several parts. -/
def EmitsText (S : Prop) (cfg : OutCfg) (ps ps' : PS) (s : List Byte) : Prop :=
  (∃ ls : List (List Byte), Emits S cfg ps ps' (ls.map Val.text) ∧ ls.flatten = s) ∧
    (ps'.last = 39 ∨ ps'.last = 59 ∨ (s = [] ∧ ps' = ps))

theorem EmitsText.refl (cfg : OutCfg) (ps : PS) : EmitsText S cfg ps ps [] :=
  ⟨⟨[], Emits.refl _ _, rfl⟩, .inr (.inr ⟨rfl, rfl⟩)⟩

theorem EmitsText.trans {cfg : OutCfg} {a b c : PS} {s t : List Byte} (h1 : EmitsText S cfg a b s) (h2 : EmitsText S cfg b c t) :
    EmitsText S cfg a c (s ++ t) := by
  obtain ⟨⟨l1, e1, f1⟩, c1⟩ := h1
  obtain ⟨⟨l2, e2, f2⟩, c2⟩ := h2
  refine ⟨⟨l1 ++ l2, by rw [List.map_append]; exact e1.trans e2, by rw [List.flatten_append, f1, f2]⟩, ?_⟩
  rcases c2 with c2 | c2 | ⟨rfl, rfl⟩
  · exact .inl c2
  · exact .inr (.inl c2)
  · rcases c1 with c1 | c1 | ⟨rfl, rfl⟩
    · exact .inl c1
    · exact .inr (.inl c1)
    · exact .inr (.inr ⟨rfl, rfl⟩)

theorem Emits.text {cfg : OutCfg} {ps ps' : PS} {s : List Byte} (h : Emits S cfg ps ps' [.text s])
    (hl : ps'.last = 39 ∨ ps'.last = 59) : EmitsText S cfg ps ps' s :=
  ⟨⟨[s], h, by simp⟩, by rcases hl with h | h <;> simp [h]⟩

theorem EmitsText.sepE {cfg : OutCfg} {ps ps' : PS} {s : List Byte} (h : EmitsText S cfg ps ps' s) (hs : SepE cfg ps) :
    SepE cfg ps' := by
  rcases h.2 with h | h | ⟨-, rfl⟩
  · rcases hs with hs | ⟨h1, h2, -⟩
    · exact .inl hs
    · exact .inr ⟨h1, h2, by simp [h]⟩
  · rcases hs with hs | ⟨h1, h2, -⟩
    · exact .inl hs
    · exact .inr ⟨h1, h2, by simp [h]⟩
  · exact hs

theorem SepE.ofSemi {cfg : OutCfg} {ps ps' : PS} (hs : SepE cfg ps) (h : ps'.last = 59) : SepQ cfg ps' := by
  rcases hs with hs | ⟨h1, h2, -⟩
  · exact .inl hs
  · exact .inr ⟨h1, h2, by simp [h]⟩

/-- The character at the start of `s` can be written as an entity. -/
structure CharAt (s : List Byte) (n len : Nat) : Prop where
  dec : decodeUtf8 s = ⟨true, n, len⟩
  enc : encodeUtf8 n = some (s.take len)
  ne : n ≠ 0
  pos : 0 < len

theorem charAt_ascii (c : Byte) (t : List Byte) (h0 : c ≠ 0) (h : c.toNat < 128) : CharAt (c :: t) c.toNat 1 where
  dec := decode_one _ _ h
  enc := by rw [encodeUtf8_eq, if_pos (by omega)]; simp
  ne := by
    intro he
    exact h0 (by rw [← UInt8.toNat_inj, he]; rfl)
  pos := by omega

theorem charEntity_eq (n : Nat) : charEntity n = 38 :: ((35 :: decDigits (n + 1) n) ++ [59]) := by
  simp [charEntity]

theorem charEntity_last (ps : PS) {s : List Byte} {n len : Nat} (h : CharAt s n len) :
    (ps.charEntity s).1.last = 59 ∧ (ps.charEntity s).2 = len ∧ (ps.charEntity s).1.line = ps.line ∧
      (ps.charEntity s).1.out = ps.out ++ charEntity n := by
  unfold PS.charEntity
  simp only [h.dec, if_true]
  refine ⟨trivial, trivial, ?_, ?_⟩ <;> unfold PS.print <;> rw [charEntity_eq, ← List.cons_append, List.getLast?_concat]

theorem emits_char1 {cfg : OutCfg} {ps : PS} {s : List Byte} {n len : Nat} (hs : SepE cfg ps) (h : CharAt s n len) :
    Emits S cfg ps ((ps.beforeEntity cfg).charEntity s).1 [.text (s.take len)] := by
  obtain ⟨h1, h2, h3, h4⟩ := charEntity_last (ps.beforeEntity cfg) h
  refine emits_entity hs (name := 35 :: decDigits (n + 1) n) ?_ h3 h1 ?_ ?_
  · rw [h4, charEntity_eq]
  · intro b hb
    rw [List.mem_cons] at hb
    rcases hb with rfl | hb
    · decide
    · obtain ⟨d, hd, rfl⟩ := decDigits_all _ _ _ hb
      exact (decDigit_class d hd).1
  · rw [← charEntity_eq]
    exact entityVal_charEntity n h.ne _ h.enc

theorem emits_char {cfg : OutCfg} {ps : PS} {s : List Byte} {n len : Nat} (hs : SepE cfg ps) (h : CharAt s n len) :
    EmitsText S cfg ps ((ps.beforeEntity cfg).charEntity s).1 (s.take len) :=
  (emits_char1 hs h).text (.inr (charEntity_last (ps.beforeEntity cfg) h).1)

/-- A quote with a body of one line. -/
theorem quoteVal_single (col d : Nat) (body : List Byte) (hb : body ≠ []) (hh : body.head? ≠ some 39)
    (h10 : (10 : Byte) ∉ body) (h13 : (13 : Byte) ∉ body) :
    quoteVal col (List.replicate d 39 ++ (body ++ List.replicate d 39)) = some (.text body) := by
  unfold quoteVal unQuote
  simp only [stripDelims_full 39 d body hb hh, if_true]
  rw [Props.C13_single_line_unchanged _ _ _ _ h10 h13]
  rfl

theorem part_single (col d : Nat) (body k : List Byte) (hd : 0 < d) (hd2 : d ≠ 2) (hb : body ≠ [])
    (hh : body.head? ≠ some 39) (hl : body.getLast? ≠ some 39) (hn : NoRun 39 d body) (h10 : (10 : Byte) ∉ body)
    (h13 : (13 : Byte) ∉ body) (hk : k.head? ≠ some 39) :
    Part col (List.replicate d 39 ++ (body ++ List.replicate d 39)) k (.text body) :=
  .quote d body k _ hd hd2 hb hh hl hn hk (quoteVal_single col d body hb hh h10 h13)

theorem emits_spaces1 {cfg : OutCfg} {ps : PS} {level : Level} {n : Nat} (hs : SepQ cfg ps) (hn : 0 < n) :
    Emits S cfg ps ((ps.beforeQuote cfg level).quotedSpaces n) [.text (List.replicate n 32)] := by
  refine emits_quote hs (level := level) (p := List.replicate 1 39 ++ (List.replicate n 32 ++ List.replicate 1 39)) ?_ rfl rfl ?_ ?_
  · simp [PS.quotedSpaces]
  · simp
  · intro col k _ hk
    refine part_single col 1 _ k (by omega) (by omega) (by simp; omega) ?_ ?_ ?_ ?_ ?_ hk
    · obtain ⟨m, rfl⟩ : ∃ m, n = m + 1 := ⟨n - 1, by omega⟩
      simp [List.replicate_succ]
    · obtain ⟨m, rfl⟩ : ∃ m, n = m + 1 := ⟨n - 1, by omega⟩
      simp [List.replicate_succ']
    · rw [NoRun, replicate_one_infix]; simp
    · simp
    · simp

theorem emits_spaces {cfg : OutCfg} {ps : PS} {level : Level} {n : Nat} (hs : SepQ cfg ps) (hn : 0 < n) :
    EmitsText S cfg ps ((ps.beforeQuote cfg level).quotedSpaces n) (List.replicate n 32) :=
  (emits_spaces1 hs hn).text (.inl rfl)

theorem emits_empty {cfg : OutCfg} {ps : PS} {level : Level} (hs : SepQ cfg ps) :
    Emits S cfg ps ((ps.beforeQuote cfg level).print b#"''") [.text []] :=
  emits_quote hs (level := level) (p := [39, 39]) rfl rfl rfl rfl (fun _ k _ hk => .empty k hk)

/-- The first piece of white space is an entity, or a quote may follow. -/
def SepW (cfg : OutCfg) (ps : PS) (s : List Byte) : Prop := SepE cfg ps ∧ (SepQ cfg ps ∨ s.head? ≠ some 32)

theorem emits_allWhitespace {cfg : OutCfg} {level : Level} (k : Nat) (ps : PS) (s : List Byte) (hk : s.length ≤ k)
    (hw : ∀ b ∈ s, isXmlWhitespace b = true) (hs : SepW cfg ps s) : EmitsText S cfg ps (PS.allWhitespace cfg k ps s level) s := by
  induction k generalizing ps s with
  | zero =>
    have : s = [] := List.length_eq_zero_iff.1 (by omega)
    subst this
    exact EmitsText.refl _ _
  | succ k ih =>
    cases s with
    | nil => exact EmitsText.refl _ _
    | cons c t =>
      rw [PS.allWhitespace]
      split
      · rename_i hc
        simp only [beq_iff_eq] at hc
        subst hc
        have hpos : 0 < ((32 :: t).takeWhile (· == (32 : Byte))).length := by simp
        have htw : (32 :: t).takeWhile (· == (32 : Byte)) = List.replicate ((32 :: t).takeWhile (· == (32 : Byte))).length 32 := by
          rw [List.eq_replicate_iff]
          refine ⟨rfl, fun b hb => ?_⟩
          have := List.all_takeWhile (p := (· == (32 : Byte))) (l := 32 :: t)
          rw [List.all_eq_true] at this
          simpa using this b hb
        have hq : SepQ cfg ps := by
          rcases hs.2 with h | h
          · exact h
          · exact absurd rfl h
        have hdrop : (32 :: t).drop ((32 :: t).takeWhile (· == (32 : Byte))).length = (32 :: t).dropWhile (· == (32 : Byte)) := by
          conv => lhs; rw [← List.takeWhile_append_dropWhile (p := (· == (32 : Byte))) (l := 32 :: t)]
          rw [List.drop_left' (by rw [List.takeWhile_append_dropWhile])]
        have e1 := emits_spaces (S := S) (level := level) hq hpos
        have e2 := ih ((ps.beforeQuote cfg level).quotedSpaces ((32 :: t).takeWhile (· == (32 : Byte))).length)
          ((32 :: t).drop ((32 :: t).takeWhile (· == (32 : Byte))).length)
          (by rw [List.length_drop]; simp only [List.length_cons] at hk hpos ⊢; omega)
          (fun b hb => hw b (List.mem_of_mem_drop hb))
          ⟨e1.sepE hs.1, .inr (by
            rw [hdrop]
            intro h
            have := List.head?_dropWhile_not (p := (· == (32 : Byte))) (l := 32 :: t)
            rw [h] at this; simp at this)⟩
        have e := e1.trans e2
        rw [← htw, hdrop, List.takeWhile_append_dropWhile] at e
        show EmitsText S cfg ps (PS.allWhitespace cfg k _ ((32 :: t).drop _) level) _
        rw [hdrop]
        exact e
      · rename_i hc
        simp only [beq_iff_eq] at hc
        have hcw := hw c (by simp)
        have hca : CharAt (c :: t) c.toNat 1 := by
          apply charAt_ascii
          · rintro rfl; revert hcw; decide
          · simp [isXmlWhitespace] at hcw
            rcases hcw with ((h | h) | h) | h <;> subst h <;> decide
        have e1 := emits_char (S := S) hs.1 hca
        have e2 := ih ((ps.beforeEntity cfg).charEntity (c :: t)).1 t (by simp at hk; omega)
          (fun b hb => hw b (by simp [hb])) ⟨e1.sepE hs.1, .inl (hs.1.ofSemi (charEntity_last _ hca).1)⟩
        exact e1.trans e2

end Xmq
