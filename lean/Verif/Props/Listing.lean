import Verif.Model.Listing
import Verif.Spec.Listing
import Verif.Props.Clines
import Verif.Props.Parser
import Verif.Props.TokenEnds
import Verif.Lemmas.ColourRead
/-!
# C74: the listing of the tokens of a source text
-/
namespace Xmq.Props
open Xmq Xmq.Spec

/-- The text up to the first quotation mark without a backslash, and what follows the mark. -/
def toQuote : List Byte → Option (List Byte × List Byte)
  | [] => none
  | 34 :: t => some ([], t)
  | 92 :: c :: t => (toQuote t).map fun r => (92 :: c :: r.1, r.2)
  | c :: t => (toQuote t).map fun r => (c :: r.1, r.2)

theorem toQuote_plain {c : Byte} (h1 : c ≠ 34) (h2 : c ≠ 92) (t : List Byte) :
    toQuote (c :: t) = (toQuote t).map fun r => (c :: r.1, r.2) := by
  rw [toQuote]
  · exact h1
  · intro _ _ e; exact absurd e h2

theorem toQuote_escape (c : Byte) (t : List Byte) : toQuote (92 :: c :: t) = (toQuote t).map fun r => (92 :: c :: r.1, r.2) := by
  rw [toQuote]

theorem toQuote_digits (ds t : List Byte) (h : ∀ d ∈ ds, (hexDigit d).isSome) :
    toQuote (ds ++ t) = (toQuote t).map fun r => (ds ++ r.1, r.2) := by
  induction ds with
  | nil => cases h : toQuote t <;> simp [h]
  | cons d ds ih =>
    have hd := h d (by simp)
    have h1 : d ≠ 34 := fun e => by subst e; revert hd; decide
    have h2 : d ≠ 92 := fun e => by subst e; revert hd; decide
    rw [List.cons_append, toQuote_plain h1 h2, ih fun x hx => h x (List.mem_cons_of_mem _ hx), Option.map_map]
    rfl

theorem toQuote_chars {q s : List Byte} (h : CChars q s) (r : List Byte) : toQuote (q ++ 34 :: r) = some (q, r) := by
  induction h with
  | nil => rw [List.nil_append, toQuote]
  | plain c q s h1 h2 h3 _ ih => rw [List.cons_append, toQuote_plain h1 h2, ih]; rfl
  | simple e c q s _ _ ih => rw [List.cons_append, List.cons_append, toQuote_escape, ih]; rfl
  | hex ds q s _ h2 _ _ _ ih =>
    rw [List.cons_append, List.cons_append, toQuote_escape, List.append_assoc, toQuote_digits ds _ h2, ih]
    rfl

theorem split_at {x : Byte} {a b c d : List Byte} (ha : x ∉ a) (hc : x ∉ c) (h : a ++ x :: b = c ++ x :: d) : a = c ∧ b = d := by
  induction a generalizing c with
  | nil =>
    cases c with
    | nil => exact ⟨rfl, (List.cons.inj h).2⟩
    | cons y c => exact absurd ((List.cons.inj h).1 ▸ List.mem_cons_self) hc
  | cons y a ih =>
    cases c with
    | nil => exact absurd ((List.cons.inj h).1 ▸ List.mem_cons_self) ha
    | cons z c =>
      obtain ⟨h1, h2⟩ := List.cons.inj h
      obtain ⟨h3, h4⟩ := ih (fun m => ha (List.mem_cons_of_mem _ m)) (fun m => hc (List.mem_cons_of_mem _ m)) h2
      exact ⟨by rw [h1, h3], h4⟩

theorem kindName_eq (k : Kind) : (tokenName k).toUTF8.data.toList = kindName k := by cases k <;> rfl

theorem kindName_plain (k : Kind) : (32 : Byte) ∉ kindName k := by cases k <;> decide

theorem kindName_inj {k k' : Kind} (h : kindName k = kindName k') : k = k' := by
  revert h
  cases k <;> cases k' <;> decide

theorem IsDecimal.not_mem {ds : List Byte} {n : Nat} (h : IsDecimal ds n) {x : Byte} (hx : ¬(48 ≤ x ∧ x ≤ 57)) : x ∉ ds :=
  fun m => hx (h.2.1 x m)

theorem entry_unique {t t' : Tok} {a a' r r' : List Byte} (h : EntryFor t a) (h' : EntryFor t' a') (e : a ++ r = a' ++ r') :
    t = t' ∧ r = r' := by
  obtain ⟨q, l, c, hq, hl, hc, rfl⟩ := h
  obtain ⟨q', l', c', hq', hl', hc', rfl⟩ := h'
  rw [kindName_eq, kindName_eq] at e
  simp only [List.cons_append, List.append_assoc, List.nil_append] at e
  obtain ⟨e1, e2⟩ := split_at (kindName_plain _) (kindName_plain _) (List.cons.inj e).2
  have e3 := (List.cons.inj e2).2
  have e4 := toQuote_chars hq (32 :: (l ++ 58 :: (c ++ 93 :: r)))
  rw [e3, toQuote_chars hq'] at e4
  obtain ⟨e5, e6⟩ := Prod.mk.inj (Option.some.inj e4)
  obtain ⟨e7, e8⟩ := split_at (IsDecimal.not_mem hl' (by decide)) (IsDecimal.not_mem hl (by decide)) (List.cons.inj e6).2
  obtain ⟨e9, e10⟩ := split_at (IsDecimal.not_mem hc' (by decide)) (IsDecimal.not_mem hc (by decide)) e8
  refine ⟨?_, e10.symm⟩
  obtain ⟨k, li, co, tx⟩ := t
  obtain ⟨k', li', co', tx'⟩ := t'
  have f1 := kindName_inj e1
  subst e5
  have f2 := hq.unique hq'
  have f3 := hl.2.2
  have f4 := hl'.2.2
  have f5 := hc.2.2
  have f6 := hc'.2.2
  rw [e7] at f4
  rw [e9] at f6
  simp only at f1 f2 f3 f4 f5 f6
  simp_all

theorem _root_.Xmq.Spec.ListingFor.unique {ts ts' : List Tok} {out : List Byte} (h : ListingFor ts out) (h' : ListingFor ts' out) : ts = ts' := by
  induction h generalizing ts' with
  | nil =>
    generalize ho : ([10] : List Byte) = o at h'
    cases h' with
    | nil => rfl
    | cons t entry ts out he _ =>
      obtain ⟨q, l, c, _, _, _, rfl⟩ := he
      cases ho
  | cons t entry ts out he _ ih =>
    generalize ho : entry ++ out = o at h'
    cases h' with
    | nil =>
      obtain ⟨q, l, c, _, _, _, rfl⟩ := he
      cases ho
    | cons t' entry' ts' out' he' hl' =>
      obtain ⟨e1, e2⟩ := entry_unique he he' ho
      subst e2
      rw [e1, ih hl']

/-! ## What is written -/

theorem decDigits_number (k n : Nat) (h : n < 10 ^ k) (hk : 0 < k) : decNumber (decDigits k n) = n := by
  induction k generalizing n with
  | zero => omega
  | succ k ih =>
    rw [decDigits]
    by_cases h10 : n < 10
    · rw [if_pos h10]
      simp only [decNumber, List.foldl_cons, List.foldl_nil]
      rw [UInt8.toNat_ofNat']
      omega
    · rw [if_neg h10]
      have hk' : 0 < k := by
        cases k with
        | zero => simp at h; omega
        | succ k => omega
      have := ih (n / 10) (by rw [Nat.pow_succ] at h; omega) hk'
      unfold decNumber at this ⊢
      rw [List.foldl_append, this]
      simp only [List.foldl_cons, List.foldl_nil]
      rw [UInt8.toNat_ofNat']
      omega

theorem decDigits_short (k n m : Nat) (h : n < 10 ^ m) (hm : 0 < m) : (decDigits k n).length ≤ m := by
  induction k generalizing n m with
  | zero => simp [decDigits]
  | succ k ih =>
    rw [decDigits]
    by_cases h10 : n < 10
    · rw [if_pos h10]; exact hm
    · rw [if_neg h10]
      obtain ⟨m, rfl⟩ : ∃ m', m = m' + 1 := ⟨m - 1, by omega⟩
      have hm' : 0 < m := by
        cases m with
        | zero => simp at h; omega
        | succ m => omega
      have := ih (n / 10) m (by rw [Nat.pow_succ] at h; omega) hm'
      simp; omega

theorem lt_pow_self (n : Nat) : n < 10 ^ (n + 1) := by
  induction n with
  | zero => decide
  | succ n ih => rw [Nat.pow_succ]; omega

theorem isDecimal_digits (n : Nat) : IsDecimal (decDigits (n + 1) n) n := by
  refine ⟨?_, fun d hd => ?_, decDigits_number _ _ (lt_pow_self n) (by omega)⟩
  · rw [decDigits]; split <;> simp
  · have := decDigits_digit _ _ d hd
    exact ⟨UInt8.le_iff_toNat_le.2 this.1, UInt8.le_iff_toNat_le.2 (by have := this.2; show _ ≤ 57; omega)⟩

theorem cchars_noNul {q s : List Byte} (h : CChars q s) : (0 : Byte) ∉ s → (0 : Byte) ∉ q := by
  induction h with
  | nil => simp
  | plain c q s _ _ _ _ ih =>
    intro h
    simp only [List.mem_cons, not_or] at h ⊢
    exact ⟨h.1, ih h.2⟩
  | simple e c q s h _ ih =>
    intro h0
    simp only [List.mem_cons, not_or] at h0 ⊢
    refine ⟨by decide, ?_, ih h0.2⟩
    rintro rfl
    simp [simpleEscapes] at h
  | hex ds q s h1 h2 h3 h4 h5 ih =>
    intro h0
    simp only [List.mem_cons, List.mem_append, not_or] at h0 ⊢
    refine ⟨by decide, by decide, fun h => ?_, ih h0.2⟩
    have := h2 _ h
    cases this

theorem takeWhile_noNul {q : List Byte} (h : (0 : Byte) ∉ q) : q.takeWhile (· != 0) = q := by
  induction q with
  | nil => rfl
  | cons c q ih =>
    rw [List.takeWhile_cons_of_pos (by simpa using fun e : c = 0 => h (e ▸ List.mem_cons_self)), ih fun m => h (List.mem_cons_of_mem _ m)]

theorem debugToken_entry (t : Tok) (h : CTextSafe t.text) (hl : t.line < 10 ^ 14) (hc : t.col < 10 ^ 14) :
    ∃ a, debugToken t = some a ∧ EntryFor t a := by
  obtain ⟨q, h1, _, h2⟩ := quoteAsC_cchars _ h
  have e0 : q.takeWhile (· != 0) = q := takeWhile_noNul (cchars_noNul h2 h.noNul)
  have e1 : placeText t.line t.col = 32 :: (decDigits (t.line + 1) t.line ++ 58 :: (decDigits (t.col + 1) t.col ++ [93])) := by
    unfold placeText
    have l1 := decDigits_short (t.line + 1) t.line 14 hl (by decide)
    have l2 := decDigits_short (t.col + 1) t.col 14 hc (by decide)
    rw [List.take_of_length_le (by simp; omega)]
    simp
  refine ⟨_, by rw [debugToken, h1]; rfl, q, decDigits (t.line + 1) t.line, decDigits (t.col + 1) t.col, h2, isDecimal_digits _, isDecimal_digits _, ?_⟩
  simp only []
  rw [e0, e1, kindName_eq]
  simp

theorem debugTokens_listing (ts : List Tok) (h : ∀ t ∈ ts, CTextSafe t.text ∧ t.line < 10 ^ 14 ∧ t.col < 10 ^ 14) :
    ∃ out, debugTokens ts = some out ∧ ListingFor ts out := by
  induction ts with
  | nil => exact ⟨_, rfl, .nil⟩
  | cons t ts ih =>
    obtain ⟨a, h1, h2⟩ := debugToken_entry t (h t (by simp)).1 (h t (by simp)).2.1 (h t (by simp)).2.2
    obtain ⟨b, h3, h4⟩ := ih fun x hx => h x (by simp [hx])
    exact ⟨a ++ b, by rw [debugTokens, h1, h3]; rfl, .cons _ _ _ _ h2 h4⟩

theorem place_bound {input : List Byte} {toks : List Tok} (h : Tokenizes input toks) {t : Tok} (ht : t ∈ toks) :
    t.line ≤ input.length + 1 ∧ t.col ≤ input.length + 1 := by
  obtain ⟨pre, post, e⟩ := List.append_of_mem ht
  obtain ⟨b, a, e1, e2, e3⟩ := C10_token_positions_offset input toks h pre t post e
  have hb : b.length ≤ input.length := by rw [e1]; simp
  rw [e2, e3, lineAfter, colAfter]
  have c1 : b.count 10 ≤ b.length := List.count_le_length
  have c2 := List.countP_le_length (p := fun b : Byte => decide (b.toNat < 0x80 ∨ 0xC0 ≤ b.toNat)) (l := b.reverse.takeWhile (fun b => b ≠ 10))
  have c3 : (b.reverse.takeWhile (fun b => b ≠ 10)).length ≤ b.length := by
    have := (List.takeWhile_sublist (l := b.reverse) (fun b : Byte => decide (b ≠ 10))).length_le
    simpa using this
  omega

/-- **C74.**  The listing of an accepted source has one entry for each token, in order: its kind, its text as in C and its place. -/
theorem C74_listing_partial (input : List Byte) (toks : List Tok) (hd : detect input = some .xmq) (h : Tokenizes input toks)
    (hs : ∀ t ∈ toks, CTextSafe t.text) (hl : input.length < 10 ^ 13) : ∃ out, Lists input out ∧ ListingFor toks out := by
  obtain ⟨out, h1, h2⟩ := debugTokens_listing toks fun t ht => by
    have := place_bound h ht
    exact ⟨hs t ht, by omega, by omega⟩
  exact ⟨out, ⟨hd, toks, h, h1⟩, h2⟩

theorem listing_of_lists {input : List Byte} {out : List Byte} (h : Lists input out) (hl : input.length < 10 ^ 13)
    (hs : ∀ toks, Tokenizes input toks → ∀ t ∈ toks, CTextSafe t.text) : ∃ toks, Tokenizes input toks ∧ ListingFor toks out := by
  obtain ⟨hd, toks, ht, h1⟩ := h
  obtain ⟨out', ⟨_, toks', ht', h2⟩, h3⟩ := C74_listing_partial input toks hd ht (hs toks ht) hl
  have e : toks' = toks := by
    have e1 := (tokenizes_iff _ _).1 ht
    rw [(tokenizes_iff _ _).1 ht'] at e1
    exact Option.some.inj e1
  subst e
  rw [h1] at h2
  cases h2
  exact ⟨_, ht, h3⟩

/-- Different sources have different listings. -/
theorem C74_distinct_partial (a b out : List Byte) (ha : Lists a out) (hb : Lists b out) (hla : a.length < 10 ^ 13) (hlb : b.length < 10 ^ 13)
    (hsa : ∀ toks, Tokenizes a toks → ∀ t ∈ toks, CTextSafe t.text) (hsb : ∀ toks, Tokenizes b toks → ∀ t ∈ toks, CTextSafe t.text) : a = b := by
  obtain ⟨ta, h1, h2⟩ := listing_of_lists ha hla hsa
  obtain ⟨tb, h3, h4⟩ := listing_of_lists hb hlb hsb
  have := h2.unique h4
  subst this
  rw [← C09_tokens_cover_input _ _ h1, ← C09_tokens_cover_input _ _ h3]

theorem ctextSafe_tokens {input : List Byte} {toks : List Tok} (h : Tokenizes input toks) (hs : CTextSafe input) : ∀ t ∈ toks, CTextSafe t.text := by
  intro t ht
  obtain ⟨pre, post, e⟩ := List.append_of_mem ht
  have hi : input = textOf pre ++ (t.text ++ textOf post) := by
    rw [← C09_tokens_cover_input _ _ h, e]
    simp [textOf]
  refine ⟨C79_tokens_utf8 input toks h hs.utf8 t ht, fun h0 => hs.noNul ?_, fun a c d b ha hc => ?_⟩
  · rw [hi]; simp [h0]
  · refine hs.control (textOf pre ++ a) c d (b ++ textOf post) ?_ hc
    rw [hi, ha]; simp

/-- **C74** with a condition on the source alone: UTF-8 without NUL, and no hexadecimal digit behind a control character. -/
theorem C74_source_partial (input : List Byte) (toks : List Tok) (hd : detect input = some .xmq) (h : Tokenizes input toks)
    (hs : CTextSafe input) (hl : input.length < 10 ^ 13) : ∃ out, Lists input out ∧ ListingFor toks out :=
  C74_listing_partial input toks hd h (ctextSafe_tokens h hs) hl

/-- Two such sources with the same listing are the same. -/
theorem C74_source_distinct_partial (a b out : List Byte) (ha : Lists a out) (hb : Lists b out) (hla : a.length < 10 ^ 13) (hlb : b.length < 10 ^ 13)
    (hsa : CTextSafe a) (hsb : CTextSafe b) : a = b :=
  C74_distinct_partial a b out ha hb hla hlb (fun _ h => ctextSafe_tokens h hsa) (fun _ h => ctextSafe_tokens h hsb)

/-- Printable ASCII with tabs and line feeds is listed well, whatever the tokens are. -/
theorem C74_ascii (input : List Byte) (toks : List Tok) (hd : detect input = some .xmq) (h : Tokenizes input toks)
    (hs : ∀ c ∈ input, c < 127 ∧ (32 ≤ c ∨ c = 9 ∨ c = 10)) (hl : input.length < 10 ^ 13) : ∃ out, Lists input out ∧ ListingFor toks out := by
  refine C74_listing_partial input toks hd h (fun t ht => ctextSafe_of _ (List.all_eq_true.2 fun c hc => ?_)) hl
  have : c ∈ input := by
    rw [← C09_tokens_cover_input _ _ h]
    exact List.mem_flatten.2 ⟨_, List.mem_map.2 ⟨t, ht, rfl⟩, hc⟩
  simpa [or_assoc] using hs c this

/-! ## Cases -/

/-- What is listed for a source. -/
def listingOf (input : List Byte) : Option (List Byte) := (tokensOf input).bind debugTokens

theorem lists_of {input out : List Byte} (hd : detect input = some .xmq) (h : listingOf input = some out) : Lists input out := by
  unfold listingOf at h
  cases ht : tokensOf input with
  | none => rw [ht] at h; cases h
  | some toks => rw [ht] at h; exact ⟨hd, toks, (tokenizes_iff _ _).2 ht, h⟩

example : Lists b#"a='x\ny' b{c}" b#"[element_key \"a\" 1:1][equals \"=\" 1:2][element_value_quote \"'x\\ny'\" 1:3][whitespace \" \" 2:3][element_name \"b\" 2:4][brace_left \"{\" 2:5][element_name \"c\" 2:6][brace_right \"}\" 2:7]\n" :=
  lists_of (by decide +kernel) (by decide +kernel)

/-- **C74** without the conditions on the texts. -/
def ListingTells : Prop := ∀ input toks, detect input = some .xmq → Tokenizes input toks → ValidUtf8 input → ∃ out, Lists input out ∧ ListingFor toks out

theorem lists_det {input a b : List Byte} (ha : Lists input a) (hb : Lists input b) : a = b := by
  obtain ⟨_, ta, h1, h2⟩ := ha
  obtain ⟨_, tb, h3, h4⟩ := hb
  have e := (tokenizes_iff _ _).1 h1
  rw [(tokenizes_iff _ _).1 h3] at e
  cases e
  rw [h4] at h2
  exact (Option.some.inj h2).symm

theorem decimal_digit (d : Byte) (h : 48 ≤ d ∧ d ≤ 57) : IsDecimal [d] (d.toNat - 48) :=
  ⟨by simp, by simpa using h, by simp [decNumber]⟩

/-- **C74** fails for a control character in front of a digit, which reads as one escape. -/
theorem C74_false : ¬ ListingTells := by
  intro h
  have ht : tokensOf (b#"a='" ++ [1] ++ b#"2'") =
      some [⟨.element_key, 1, 1, b#"a"⟩, ⟨.equals, 1, 2, b#"="⟩, ⟨.element_value_quote, 1, 3, b#"'" ++ [1] ++ b#"2'"⟩] := by decide +kernel
  obtain ⟨out, h1, h2⟩ := h _ _ (by decide +kernel) ((tokenizes_iff _ _).2 ht) (validUtf8_ascii _ (by decide))
  have h3 : Lists (b#"a='" ++ [1] ++ b#"2'") b#"[element_key \"a\" 1:1][equals \"=\" 1:2][element_value_quote \"'\\x012'\" 1:3]\n" :=
    lists_of (by decide +kernel) (by decide +kernel)
  rw [lists_det h1 h3] at h2
  have h4 : ListingFor [⟨.element_key, 1, 1, b#"a"⟩, ⟨.equals, 1, 2, b#"="⟩, ⟨.element_value_quote, 1, 3, [39, 18, 39]⟩]
      b#"[element_key \"a\" 1:1][equals \"=\" 1:2][element_value_quote \"'\\x012'\" 1:3]\n" := by
    refine .cons _ b#"[element_key \"a\" 1:1]" _ b#"[equals \"=\" 1:2][element_value_quote \"'\\x012'\" 1:3]\n"
      ⟨b#"a", [49], [49], .plain _ _ _ (by decide) (by decide) (by decide) .nil, decimal_digit 49 (by decide), decimal_digit 49 (by decide), ?_⟩
      (.cons _ b#"[equals \"=\" 1:2]" _ b#"[element_value_quote \"'\\x012'\" 1:3]\n"
        ⟨b#"=", [49], [50], .plain _ _ _ (by decide) (by decide) (by decide) .nil, decimal_digit 49 (by decide), decimal_digit 50 (by decide), ?_⟩
        (.cons _ b#"[element_value_quote \"'\\x012'\" 1:3]" _ b#"\n"
          ⟨b#"'\\x012'", [49], [51], .plain _ _ _ (by decide) (by decide) (by decide)
            (.hex [48, 49, 50] [39] [39] (by decide) (by decide) (by decide) (by decide)
              (.plain _ _ _ (by decide) (by decide) (by decide) .nil)), decimal_digit 49 (by decide), decimal_digit 51 (by decide), ?_⟩ .nil))
    all_goals (rw [kindName_eq]; rfl)
  have := h2.unique h4
  revert this
  decide

example : ∀ c ∈ b#"a='x\ny' b{c}", c < 127 ∧ ((32 : Byte) ≤ c ∨ c = 9 ∨ c = 10) := by decide

end Xmq.Props
