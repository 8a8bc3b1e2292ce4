import Verif.Model.Trim
import Verif.Spec.Dedent
/-!
# `xmq_trim_quote` computes `dedent`
-/
namespace Xmq
open Spec

/-- A line: no line feed, no carriage return. -/
def LineOk (l : List Byte) : Prop := (10 : Byte) ∉ l ∧ (13 : Byte) ∉ l

/-- Drop from the end. -/
def rdrop (p : Byte → Bool) (l : List Byte) : List Byte := (l.reverse.dropWhile p).reverse

theorem rtrim_eq (l : List Byte) : rtrim l = rdrop isBlank l := rfl

theorem rdrop_nil (p : Byte → Bool) : rdrop p [] = [] := rfl

theorem rdrop_append_all {p : Byte → Bool} {a b : List Byte} (h : b.all p = true) : rdrop p (a ++ b) = rdrop p a := by
  have : ∀ c ∈ b.reverse, p c = true := by simpa using h
  simp [rdrop, List.dropWhile_append_of_pos this]

theorem dropWhile_nil_iff {p : Byte → Bool} {b : List Byte} : b.dropWhile p = [] ↔ b.all p = true := by
  induction b with
  | nil => simp
  | cons c t ih => by_cases h : p c = true <;> simp [h, ih]

theorem rdrop_eq_nil {p : Byte → Bool} {b : List Byte} : rdrop p b = [] ↔ b.all p = true := by
  rw [rdrop, List.reverse_eq_nil_iff, dropWhile_nil_iff, List.all_reverse]

theorem rdrop_append_ne {p : Byte → Bool} {a b : List Byte} (h : b.all p = false) :
    rdrop p (a ++ b) = a ++ rdrop p b := by
  have h1 : rdrop p b ≠ [] := fun e => by rw [rdrop_eq_nil] at e; rw [e] at h; cases h
  have h2 : b.reverse.dropWhile p ≠ [] := fun e => h1 (by simp [rdrop, e])
  simp only [rdrop, List.reverse_append]
  rw [List.dropWhile_append]
  simp [h2]

theorem rdrop_cons {p : Byte → Bool} {c : Byte} {t : List Byte} :
    rdrop p (c :: t) = if t.all p = true then (if p c = true then [] else [c]) else c :: rdrop p t := by
  cases h : t.all p with
  | true =>
    simp only [if_true]
    have := rdrop_append_all (a := [c]) h
    simp only [List.singleton_append] at this
    rw [this]
    by_cases hc : p c = true <;> simp [rdrop, hc]
  | false =>
    have := rdrop_append_ne (a := [c]) h
    simpa using this

theorem rdrop_split (p : Byte → Bool) (l : List Byte) : ∃ b, l = rdrop p l ++ b ∧ b.all p = true := by
  refine ⟨(l.reverse.takeWhile p).reverse, ?_, ?_⟩
  · have := congrArg List.reverse (List.takeWhile_append_dropWhile (p := p) (l := l.reverse))
    simp only [List.reverse_append, List.reverse_reverse] at this
    rw [rdrop, this]
  · simp only [List.all_reverse]; exact List.all_takeWhile

theorem rdrop_length_le (p : Byte → Bool) (l : List Byte) : (rdrop p l).length ≤ l.length := by
  obtain ⟨b, h, -⟩ := rdrop_split p l
  have := congrArg List.length h
  simp at this; omega

/-! ## find_line -/

theorem lineOk_cons {c : Byte} {t : List Byte} (h : LineOk (c :: t)) :
    (c == b#'\n' || c == b#'\r') = false ∧ LineOk t := by
  obtain ⟨h1, h2⟩ := h
  simp only [List.mem_cons, not_or] at h1 h2
  refine ⟨?_, h1.2, h2.2⟩
  have e1 : c ≠ 10 := fun e => h1.1 e.symm
  have e2 : c ≠ 13 := fun e => h2.1 e.symm
  simp [e1, e2]

theorem scanEol_line (next : Byte) (L : List Byte) (hL : LineOk L) (lnws i : Nat) :
    (∀ R, scanEol next (L ++ 10 :: R) lnws i =
      (true, (if L.all isBlank then lnws else i + (rdrop isBlank L).length), i + L.length + 1)) ∧
    scanEol next L lnws i = (false, (if L.all isBlank then lnws else i + (rdrop isBlank L).length), i + L.length) := by
  induction L generalizing lnws i with
  | nil => constructor <;> simp [scanEol]
  | cons c t ih =>
    obtain ⟨hc, ht⟩ := lineOk_cons hL
    have ih := ih ht
    have key : (if t.all isBlank = true then (if isBlank c = true then lnws else i + 1) else i + 1 + (rdrop isBlank t).length)
        = (if (c :: t).all isBlank = true then lnws else i + (rdrop isBlank (c :: t)).length) := by
      rw [rdrop_cons]
      by_cases h1 : t.all isBlank = true
      · by_cases h2 : isBlank c = true <;> simp [h1, h2]
      · have : ¬ (c :: t).all isBlank = true := by simp only [List.all_cons, Bool.and_eq_true, not_and]; intro _; exact h1
        rw [if_neg h1, if_neg this, if_neg h1]; simp; omega
    constructor
    · intro R
      rw [List.cons_append, scanEol, hc]
      simp only [Bool.false_eq_true, if_false]
      rw [(ih _ _).1, key]; simp; omega
    · rw [scanEol, hc]
      simp only [Bool.false_eq_true, if_false]
      rw [(ih _ _).2, key]; simp; omega

theorem blankWidth_width (L R : List Byte) (hR : R = [] ∨ ∃ c t, R = c :: t ∧ isBlank c = false) :
    blankWidth (L ++ R) = width L := by
  induction L with
  | nil =>
    rcases hR with rfl | ⟨c, t, rfl, h⟩
    · rfl
    · simp [blankWidth, h, width]
  | cons c t ih =>
    rw [List.cons_append, blankWidth, width, ih]
    by_cases h1 : c = 32
    · subst h1; rfl
    · by_cases h2 : c = 9
      · subst h2; rfl
      · simp [isBlank, h1, h2]

theorem dropWhile_append_ne {p : Byte → Bool} {L R : List Byte} (h : R = [] ∨ ∃ c t, R = c :: t ∧ p c = false) :
    (L ++ R).dropWhile p = L.dropWhile p ++ R ∧ (L ++ R).takeWhile p = L.takeWhile p := by
  induction L with
  | nil =>
    rcases h with rfl | ⟨c, t, rfl, h⟩
    · simp
    · simp [h]
  | cons c t ih =>
    by_cases hc : p c = true
    · simp [hc, ih.1, ih.2]
    · simp [hc]

theorem lineOk_dropWhile {L : List Byte} (h : LineOk L) (p : Byte → Bool) : LineOk (L.dropWhile p) := by
  have hs : ∀ x, x ∈ L.dropWhile p → x ∈ L := fun x hx => (List.dropWhile_sublist p).mem hx
  exact ⟨fun h' => h.1 (hs _ h'), fun h' => h.2 (hs _ h')⟩

theorem keep_eq (L : List Byte) :
    (if (L.dropWhile isBlank).all isBlank then 0 else (L.takeWhile isBlank).length + (rdrop isBlank (L.dropWhile isBlank)).length)
      = (rdrop isBlank L).length := by
  have hL : L = L.takeWhile isBlank ++ L.dropWhile isBlank := List.takeWhile_append_dropWhile.symm
  by_cases h : (L.dropWhile isBlank).all isBlank = true
  · rw [if_pos h]
    have : L.all isBlank = true := by
      rw [hL, List.all_append, h, List.all_takeWhile]; rfl
    rw [rdrop_eq_nil.2 this]; rfl
  · rw [if_neg h]
    conv => rhs; rw [hL, rdrop_append_ne (by simpa using h)]
    simp

theorem takeWhile_dropWhile_length (p : Byte → Bool) (L : List Byte) :
    (L.takeWhile p).length + (L.dropWhile p).length = L.length := by
  have := congrArg List.length (List.takeWhile_append_dropWhile (p := p) (l := L))
  rwa [List.length_append] at this

theorem findLine_nl (next : Byte) (L R : List Byte) (hL : LineOk L) :
    findLine next (L ++ 10 :: R) = ⟨true, width L, (rtrim L).length, L.length + 1⟩ := by
  have hR : (10 :: R : List Byte) = [] ∨ ∃ c t, (10 :: R : List Byte) = c :: t ∧ isBlank c = false := .inr ⟨10, R, rfl, rfl⟩
  obtain ⟨h1, h2⟩ := dropWhile_append_ne (L := L) hR
  have h3 := takeWhile_dropWhile_length isBlank L
  simp only [findLine, h1, h2, blankWidth_width L _ hR]
  rw [(scanEol_line next _ (lineOk_dropWhile hL _) 0 _).1 R]
  simp only [keep_eq, rtrim_eq]
  congr 1; omega

theorem findLine_last (next : Byte) (L : List Byte) (hL : LineOk L) :
    findLine next L = ⟨false, width L, (rtrim L).length, L.length⟩ := by
  have h3 := takeWhile_dropWhile_length isBlank L
  have h4 := blankWidth_width L [] (.inl rfl)
  rw [List.append_nil] at h4
  simp only [findLine, h4]
  rw [(scanEol_line next _ (lineOk_dropWhile hL _) 0 _).2]
  simp only [keep_eq, rtrim_eq]
  congr 1

/-! ## Lists of lines -/

theorem unlines_single (l : List Byte) : unlines [l] = l := by simp [unlines, List.intercalate]

theorem unlines_cons (l m : List Byte) (t : List (List Byte)) : unlines (l :: m :: t) = l ++ 10 :: unlines (m :: t) := by
  simp [unlines, List.intercalate]

theorem unlines_snoc (ls : List (List Byte)) (h : ls ≠ []) (l : List Byte) : unlines (ls ++ [l]) = unlines ls ++ 10 :: l := by
  induction ls with
  | nil => exact absurd rfl h
  | cons a t ih =>
    cases t with
    | nil => simp [unlines, List.intercalate]
    | cons b t =>
      rw [List.cons_append, List.cons_append, unlines_cons, unlines_cons]
      have := ih (by simp)
      rw [List.cons_append] at this
      rw [this]; simp

/-- Lines the text ends in a line that is not blank. -/
def EndsSolid (ls : List (List Byte)) : Prop := ∃ l, ls.getLast? = some l ∧ BlankLine l = false

theorem endsSolid_cons {a b : List Byte} {t : List (List Byte)} (h : EndsSolid (a :: b :: t)) : EndsSolid (b :: t) := by
  obtain ⟨l, h1, h2⟩ := h
  exact ⟨l, by simpa using h1, h2⟩

theorem endsSolid_single {a : List Byte} (h : EndsSolid [a]) : BlankLine a = false := by
  obtain ⟨l, h1, h2⟩ := h
  simp at h1; subst h1; exact h2

theorem blankLine_eq (l : List Byte) : BlankLine l = l.all isBlank := rfl

theorem rtrim_nil_iff (l : List Byte) : rtrim l = [] ↔ BlankLine l = true := by
  rw [rtrim_eq, rdrop_eq_nil]; rfl

theorem keep_ne {l : List Byte} : ((rtrim l).length != 0) = !BlankLine l := by
  cases h : BlankLine l with
  | true => rw [(rtrim_nil_iff l).2 h]; rfl
  | false =>
    have : rtrim l ≠ [] := fun e => by rw [rtrim_nil_iff] at e; rw [e] at h; cases h
    have : (rtrim l).length ≠ 0 := by simpa using this
    simpa using this

theorem endsSolid_unlines_ne {ls : List (List Byte)} (h : EndsSolid ls) : unlines ls ≠ [] := by
  match ls, h with
  | [], h => obtain ⟨l, h1, -⟩ := h; simp at h1
  | [a], h =>
    rw [unlines_single]; intro e; subst e
    have := endsSolid_single h; simp [BlankLine] at this
  | a :: b :: t, _ => rw [unlines_cons]; simp

/-! ## The incidental indentation -/

theorem findIncidental_step (next : Byte) (ignore : Bool) (fuel : Nat) (first : Bool) (inc : Option Nat) (s : List Byte)
    (hs : s ≠ []) : findIncidental next ignore (fuel + 1) first inc s =
      let l := findLine next s
      let less := match inc with | none => true | some n => l.indent < n
      let inc := if l.keep != 0 && less && (!first || ignore) then some l.indent else inc
      findIncidental next ignore fuel (if l.keep != 0 then false else first) inc (s.drop l.len) := by
  cases s with
  | nil => exact absurd rfl hs
  | cons c t => rfl

theorem copyLines_step (next : Byte) (tail : List Byte) (ignore : Bool) (inc fuel : Nat) (first : Bool) (s : List Byte)
    (hs : s ≠ []) : copyLines next tail ignore inc (fuel + 1) first s =
      let l := findLine next s
      let skip := if !first || ignore then skipIncidental inc (s ++ tail) else some 0
      skip.bind fun i =>
        let content := (s.take l.keep).drop i
        let i := if i < l.keep then l.keep else i
        let ending := if l.nl then [b#'\n'] else (s.take l.len).drop i
        (copyLines next tail ignore inc fuel false (s.drop l.len)).map fun rest => content ++ ending ++ rest := by
  cases s with
  | nil => exact absurd rfl hs
  | cons c t => rfl

theorem findIncidental_rest (next : Byte) (ignore : Bool) (ls : List (List Byte)) (hok : ∀ l ∈ ls, LineOk l)
    (hs : EndsSolid ls) (first : Bool) (hf : first = false ∨ ignore = true) (fuel : Nat) (hfuel : (unlines ls).length ≤ fuel)
    (n : Nat) : findIncidental next ignore fuel first (some n) (unlines ls) = some (minWidth n ls) := by
  have hcond : (!first || ignore) = true := by rcases hf with rfl | rfl <;> simp
  induction ls generalizing fuel n first with
  | nil => obtain ⟨l, h1, -⟩ := hs; simp at h1
  | cons a t ih =>
    have hne := endsSolid_unlines_ne hs
    obtain ⟨fuel, rfl⟩ : ∃ k, fuel = k + 1 := by
      cases fuel with
      | zero => exact absurd (List.eq_nil_of_length_eq_zero (by omega)) hne
      | succ k => exact ⟨k, rfl⟩
    have ha : LineOk a := hok a (by simp)
    have step : ∀ m : Nat, (if ((!BlankLine a) && decide (width a < m) && (!first || ignore)) = true then some (width a) else some m)
        = some (if BlankLine a then m else min m (width a)) := by
      intro m
      cases hb : BlankLine a with
      | true => simp
      | false =>
        by_cases hlt : width a < m
        · simp [hlt, hcond]; omega
        · simp [hlt]; omega
    have hf2 : ∀ f : Bool, (f = false ∨ ignore = true) → ((if (!BlankLine a) = true then false else f) = false ∨ ignore = true) := by
      intro f hf; rcases hf with rfl | h
      · left; simp
      · right; exact h
    cases t with
    | nil =>
      rw [unlines_single] at hne hfuel ⊢
      rw [findIncidental_step _ _ _ _ _ _ hne]
      simp only [findLine_last next a ha, keep_ne]
      rw [List.drop_length, step]
      cases fuel <;> simp [findIncidental, minWidth]
    | cons b t =>
      rw [unlines_cons] at hne hfuel ⊢
      rw [findIncidental_step _ _ _ _ _ _ (by simp)]
      simp only [findLine_nl next a _ ha, keep_ne]
      rw [step]
      have hd : (a ++ 10 :: unlines (b :: t)).drop (a.length + 1) = unlines (b :: t) := by
        rw [List.drop_append]; simp
      rw [hd]
      have hf' := hf2 first hf
      rw [ih (fun l hl => hok l (by simp [hl])) (endsSolid_cons hs) _ hf' fuel
        (by simp at hfuel; omega)
        _ (by rcases hf' with h | h <;> rw [h] <;> simp)]
      simp [minWidth]

/-- The first line is not blank and its own indentation is not considered. -/
theorem findIncidental_first (next : Byte) (a : List Byte) (t : List (List Byte)) (hok : ∀ l ∈ a :: t, LineOk l)
    (hb : BlankLine a = false) (hs : EndsSolid (a :: t)) (n : Nat) :
    findIncidental next false (unlines (a :: t)).length true (some n) (unlines (a :: t)) = some (minWidth n t) := by
  have ha : LineOk a := hok a (by simp)
  have hane : a ≠ [] := by rintro rfl; simp [BlankLine] at hb
  cases t with
  | nil =>
    rw [unlines_single]
    obtain ⟨k, hk⟩ : ∃ k, a.length = k + 1 := ⟨a.length - 1, by have := List.length_pos_iff.2 hane; omega⟩
    rw [hk, findIncidental_step _ _ _ _ _ _ hane]
    simp only [findLine_last next a ha, keep_ne, List.drop_length]
    cases k <;> simp [findIncidental, minWidth]
  | cons b t =>
    rw [unlines_cons]
    have hlen : (a ++ 10 :: unlines (b :: t)).length = (a.length + (unlines (b :: t)).length) + 1 := by simp; omega
    rw [hlen, findIncidental_step _ _ _ _ _ _ (by simp)]
    simp only [findLine_nl next a _ ha, keep_ne, hb]
    have hd : (a ++ 10 :: unlines (b :: t)).drop (a.length + 1) = unlines (b :: t) := by
      rw [List.drop_append]; simp
    rw [hd]
    simp only [Bool.not_false, Bool.not_true, Bool.or_self, Bool.and_false, Bool.false_eq_true, if_false, if_true]
    exact findIncidental_rest next false (b :: t) (fun l hl => hok l (by simp [hl])) (endsSolid_cons hs) false (.inl rfl) _ (by omega) n

/-- The first line is not blank and nothing is known yet. -/
theorem findIncidental_none (next : Byte) (a : List Byte) (t : List (List Byte)) (hok : ∀ l ∈ a :: t, LineOk l)
    (hb : BlankLine a = false) (hs : EndsSolid (a :: t)) :
    findIncidental next true (unlines (a :: t)).length true none (unlines (a :: t)) = some (minWidth (width a) (a :: t)) := by
  have ha : LineOk a := hok a (by simp)
  have hane : a ≠ [] := by rintro rfl; simp [BlankLine] at hb
  have hm : minWidth (width a) (a :: t) = minWidth (width a) t := by simp [minWidth, hb]
  rw [hm]
  cases t with
  | nil =>
    rw [unlines_single]
    obtain ⟨k, hk⟩ : ∃ k, a.length = k + 1 := ⟨a.length - 1, by have := List.length_pos_iff.2 hane; omega⟩
    rw [hk, findIncidental_step _ _ _ _ _ _ hane]
    simp only [findLine_last next a ha, keep_ne, List.drop_length, hb]
    cases k <;> simp [findIncidental, minWidth]
  | cons b t =>
    rw [unlines_cons]
    have hlen : (a ++ 10 :: unlines (b :: t)).length = (a.length + (unlines (b :: t)).length) + 1 := by simp; omega
    rw [hlen, findIncidental_step _ _ _ _ _ _ (by simp)]
    simp only [findLine_nl next a _ ha, keep_ne, hb]
    have hd : (a ++ 10 :: unlines (b :: t)).drop (a.length + 1) = unlines (b :: t) := by
      rw [List.drop_append]; simp
    rw [hd]
    simp only [Bool.not_false, Bool.or_true, Bool.and_self, if_true]
    exact findIncidental_rest next true (b :: t) (fun l hl => hok l (by simp [hl])) (endsSolid_cons hs) false (.inl rfl) _ (by omega) _

/-! ## Copying -/

/-- Total width of all blanks. -/
def blankWeight (s : List Byte) : Nat := (s.map fun c => if c = 32 then 1 else if c = 9 then 8 else 0).sum

theorem skipIncidental_some (n : Nat) (s : List Byte) (h : n ≤ blankWeight s) : ∃ i, skipIncidental n s = some i := by
  induction s generalizing n with
  | nil => simp [blankWeight] at h; subst h; exact ⟨0, rfl⟩
  | cons c t ih =>
    cases n with
    | zero => exact ⟨0, rfl⟩
    | succ n =>
      rw [skipIncidental]
      by_cases h1 : c = 32
      · subst h1
        obtain ⟨i, hi⟩ := ih n (by simp [blankWeight] at h ⊢; omega)
        exact ⟨i + 1, by simp [hi]⟩
      · by_cases h2 : c = 9
        · subst h2
          by_cases h8 : n + 1 ≥ 8
          · obtain ⟨i, hi⟩ := ih (n + 1 - 8) (by simp [blankWeight] at h ⊢; omega)
            exact ⟨i + 1, by simp only [beq_iff_eq, h1, if_false, if_true, h8, hi]; rfl⟩
          · exact ⟨1, by simp only [beq_iff_eq, h1, if_false, if_true, h8]⟩
        · obtain ⟨i, hi⟩ := ih (n + 1) (by simp [blankWeight, h1, h2] at h ⊢; omega)
          exact ⟨i + 1, by simp only [beq_iff_eq, h1, h2, if_false, hi]; rfl⟩

/-- On a line with enough indentation exactly the `cut` is skipped. -/
theorem skipIncidental_cut (n : Nat) (L R : List Byte) (h : n ≤ width L) :
    ∃ i, skipIncidental n (L ++ R) = some i ∧ L.drop i = cut n L ∧ (L.take i).all isBlank = true ∧ i ≤ L.length := by
  induction L generalizing n with
  | nil => simp [width] at h; subst h; exact ⟨0, by simp [skipIncidental], by simp [cut], by simp, by simp⟩
  | cons c t ih =>
    cases n with
    | zero => exact ⟨0, by simp [skipIncidental], by simp [cut], by simp, by simp⟩
    | succ n =>
      rw [List.cons_append, skipIncidental, cut]
      rw [width] at h
      by_cases h1 : c = 32
      · subst h1
        simp only [if_true] at h
        obtain ⟨i, hi, h2, h3, h4⟩ := ih n (by omega)
        exact ⟨i + 1, by simp [hi], by simpa using h2, by simpa [isBlank] using h3, by simp; omega⟩
      · by_cases h2 : c = 9
        · subst h2
          have h32 : ¬ ((9 : Byte) = 32) := by decide
          rw [if_neg h32, if_pos rfl] at h
          by_cases h8 : n + 1 ≥ 8
          · obtain ⟨i, hi, h2, h3, h4⟩ := ih (n + 1 - 8) (by omega)
            refine ⟨i + 1, ?_, ?_, by simpa [isBlank] using h3, by simp; omega⟩
            · simp only [beq_iff_eq, h32, if_false, if_true, h8, hi]; rfl
            · have h8' : ¬ n + 1 < 8 := by omega
              simp only [h32, if_false, if_true, h8', List.drop_succ_cons, h2]
          · refine ⟨1, ?_, ?_, by simp [isBlank], by simp⟩
            · simp only [beq_iff_eq, h32, if_false, if_true, h8]
            · have h8' : n + 1 < 8 := by omega
              simp only [h32, if_false, if_true, h8', List.drop_succ_cons, List.drop_zero]
        · rw [if_neg h1, if_neg h2] at h; omega

theorem minWidth_le (n : Nat) (ls : List (List Byte)) :
    minWidth n ls ≤ n ∧ ∀ l ∈ ls, BlankLine l = false → minWidth n ls ≤ width l := by
  induction ls generalizing n with
  | nil => simp [minWidth]
  | cons a t ih =>
    have e : minWidth n (a :: t) = minWidth (if BlankLine a then n else min n (width a)) t := rfl
    rw [e]
    obtain ⟨h1, h2⟩ := ih (if BlankLine a then n else min n (width a))
    refine ⟨?_, ?_⟩
    · by_cases hb : BlankLine a = true
      · rw [if_pos hb] at h1 ⊢; exact h1
      · rw [if_neg hb] at h1 ⊢; omega
    · intro l hl hb
      rcases List.mem_cons.1 hl with rfl | hl
      · rw [hb] at h1; simp only [Bool.false_eq_true, if_false] at h1; rw [hb]; simp only [Bool.false_eq_true, if_false]; omega
      · exact h2 l hl hb

theorem blankWeight_append (a b : List Byte) : blankWeight (a ++ b) = blankWeight a + blankWeight b := by
  simp [blankWeight]

theorem width_le_weight (L : List Byte) : width L ≤ blankWeight L := by
  induction L with
  | nil => simp [width]
  | cons c t ih =>
    have e : blankWeight (c :: t) = (if c = 32 then 1 else if c = 9 then 8 else 0) + blankWeight t := by simp [blankWeight]
    rw [width, e]
    split
    · omega
    · split <;> omega

theorem solid_weight (ls : List (List Byte)) (hs : EndsSolid ls) (n : Nat) (h : ∀ l ∈ ls, BlankLine l = false → n ≤ width l) :
    n ≤ blankWeight (unlines ls) := by
  induction ls with
  | nil => obtain ⟨l, h1, -⟩ := hs; simp at h1
  | cons a t ih =>
    cases t with
    | nil =>
      rw [unlines_single]
      exact Nat.le_trans (h a (by simp) (endsSolid_single hs)) (width_le_weight a)
    | cons b t =>
      rw [unlines_cons, blankWeight_append]
      have := ih (endsSolid_cons hs) (fun l hl => h l (by simp [hl]))
      have e : blankWeight (10 :: unlines (b :: t)) = blankWeight (unlines (b :: t)) := by simp [blankWeight]
      omega

theorem drop_rtrim {L : List Byte} {i : Nat} (h : (L.take i).all isBlank = true) (hi : i ≤ L.length) :
    (rdrop isBlank L).drop i = rdrop isBlank (L.drop i) := by
  have hL : L = L.take i ++ L.drop i := (List.take_append_drop i L).symm
  have hlen : (L.take i).length = i := by simp; omega
  cases hb : (L.drop i).all isBlank with
  | true =>
    have : L.all isBlank = true := by rw [hL, List.all_append, h, hb]; rfl
    rw [rdrop_eq_nil.2 this, rdrop_eq_nil.2 hb]; simp
  | false =>
    conv => lhs; rw [hL, rdrop_append_ne hb]
    exact List.drop_left' hlen

theorem take_rtrim (L : List Byte) : L.take (rtrim L).length = rtrim L := by
  obtain ⟨b, h, -⟩ := rdrop_split isBlank L
  rw [rtrim_eq]
  generalize rdrop isBlank L = r at h ⊢
  subst h; simp

theorem drop_rest {L : List Byte} {i : Nat} (hi : i < (rtrim L).length) :
    (rtrim L).drop i ++ L.drop (rtrim L).length = L.drop i := by
  obtain ⟨b, h, -⟩ := rdrop_split isBlank L
  rw [rtrim_eq] at hi ⊢
  generalize rdrop isBlank L = r at h hi ⊢
  subst h
  rw [List.drop_left, List.drop_append_of_le_length (by omega)]

theorem cut_blank {L : List Byte} (h : BlankLine L = true) (n : Nat) : BlankLine (cut n L) = true := by
  induction L generalizing n with
  | nil => cases n <;> simp [cut, BlankLine]
  | cons c t ih =>
    have ht : BlankLine t = true := by simp [BlankLine] at h ⊢; exact h.2
    cases n with
    | zero => simpa [cut] using h
    | succ n =>
      rw [cut]
      split
      · exact ih ht n
      · split
        · split
          · exact ht
          · exact ih ht _
        · exact h

/-- Copying of a line that is followed by others: what comes out before the line feed. -/
theorem copy_content (inc : Nat) (L R : List Byte)
    (hw : BlankLine L = false → inc ≤ width L) (hweight : inc ≤ blankWeight (L ++ R)) :
    ∃ i, skipIncidental inc (L ++ R) = some i ∧ (L.take (rtrim L).length).drop i = rtrim (cut inc L) := by
  cases hb : BlankLine L with
  | true =>
    obtain ⟨i, hi⟩ := skipIncidental_some inc (L ++ R) hweight
    refine ⟨i, hi, ?_⟩
    rw [(rtrim_nil_iff L).2 hb, (rtrim_nil_iff _).2 (cut_blank hb inc)]; simp
  | false =>
    obtain ⟨i, hi, h2, h3, h4⟩ := skipIncidental_cut inc L R (hw hb)
    refine ⟨i, hi, ?_⟩
    rw [take_rtrim, rtrim_eq, drop_rtrim h3 h4, h2]; rfl

theorem take_append_le (L R : List Byte) (k : Nat) (h : k ≤ L.length) : (L ++ R).take k = L.take k :=
  List.take_append_of_le_length h

theorem rtrim_length_le (L : List Byte) : (rtrim L).length ≤ L.length := rdrop_length_le _ _

theorem copyLines_rest (next : Byte) (tail : List Byte) (ignore : Bool) (inc : Nat) (ls : List (List Byte))
    (hok : ∀ l ∈ ls, LineOk l) (hs : EndsSolid ls) (hinc : ∀ l ∈ ls, BlankLine l = false → inc ≤ width l)
    (first : Bool) (hf : first = false ∨ ignore = true) (fuel : Nat) (hfuel : (unlines ls).length ≤ fuel) :
    copyLines next tail ignore inc fuel first (unlines ls) = some (unlines (tidy (ls.map (cut inc)))) := by
  have hcond : (!first || ignore) = true := by rcases hf with rfl | rfl <;> simp
  induction ls generalizing fuel first with
  | nil => obtain ⟨l, h1, -⟩ := hs; simp at h1
  | cons a t ih =>
    have hne := endsSolid_unlines_ne hs
    obtain ⟨fuel, rfl⟩ : ∃ k, fuel = k + 1 := by
      cases fuel with
      | zero => exact absurd (List.eq_nil_of_length_eq_zero (by omega)) hne
      | succ k => exact ⟨k, rfl⟩
    have ha : LineOk a := hok a (by simp)
    cases t with
    | nil =>
      rw [unlines_single] at hne hfuel ⊢
      have hb := endsSolid_single hs
      obtain ⟨i, hi, h2, h3, h4⟩ := skipIncidental_cut inc a tail (hinc a (by simp) hb)
      rw [copyLines_step _ _ _ _ _ _ _ hne]
      simp only [findLine_last next a ha, hcond, if_true, hi, Option.bind_some, List.drop_length]
      have hz : copyLines next tail ignore inc fuel false [] = some [] := by cases fuel <;> rfl
      rw [hz]
      simp only [Option.map_some, Bool.false_eq_true, if_false, List.append_nil, List.take_length]
      simp only [List.map_cons, List.map_nil, tidy, unlines_single]
      rw [take_rtrim, ← h2]
      congr 1
      obtain ⟨b, hsp, -⟩ := rdrop_split isBlank a
      rw [← rtrim_eq] at hsp
      by_cases hlt : i < (rtrim a).length
      · rw [if_pos hlt]
        exact drop_rest hlt
      · rw [if_neg hlt, List.drop_eq_nil_of_le (by omega)]; simp
    | cons b t =>
      rw [unlines_cons] at hne hfuel ⊢
      have hw : inc ≤ blankWeight (a ++ (10 :: unlines (b :: t) ++ tail)) := by
        have := solid_weight (a :: b :: t) hs inc hinc
        rw [unlines_cons] at this
        rw [← List.append_assoc, blankWeight_append]; omega
      obtain ⟨i, hi, h2⟩ := copy_content inc a (10 :: unlines (b :: t) ++ tail) (hinc a (by simp)) hw
      rw [copyLines_step _ _ _ _ _ _ _ (by simp)]
      have hd : (a ++ 10 :: unlines (b :: t)).drop (a.length + 1) = unlines (b :: t) := by
        rw [List.drop_append]; simp
      have hi' : skipIncidental inc (a ++ 10 :: unlines (b :: t) ++ tail) = some i := by
        rw [List.append_assoc]; exact hi
      simp only [findLine_nl next a _ ha, hcond, if_true, hi', Option.bind_some, hd]
      rw [ih (fun l hl => hok l (by simp [hl])) (endsSolid_cons hs) (fun l hl => hinc l (by simp [hl])) false (.inl rfl)
        fuel (by simp at hfuel; omega) rfl]
      rw [take_append_le _ _ _ (rtrim_length_le a), h2]
      simp only [Option.map_some, List.map_cons, tidy]
      cases ht : t.map (cut inc) with
      | nil => simp [tidy, unlines_cons]
      | cons q qs => simp [tidy, unlines_cons]

theorem copyLines_first (next : Byte) (tail : List Byte) (inc : Nat) (a : List Byte) (t : List (List Byte))
    (hok : ∀ l ∈ a :: t, LineOk l) (hs : EndsSolid (a :: t)) (hb : BlankLine a = false)
    (hinc : ∀ l ∈ t, BlankLine l = false → inc ≤ width l) :
    copyLines next tail false inc (unlines (a :: t)).length true (unlines (a :: t)) = some (unlines (tidy (a :: t.map (cut inc)))) := by
  have ha : LineOk a := hok a (by simp)
  have hane : a ≠ [] := by rintro rfl; simp [BlankLine] at hb
  cases t with
  | nil =>
    rw [unlines_single]
    obtain ⟨k, hk⟩ : ∃ k, a.length = k + 1 := ⟨a.length - 1, by have := List.length_pos_iff.2 hane; omega⟩
    rw [hk, copyLines_step _ _ _ _ _ _ _ hane]
    simp only [findLine_last next a ha, Bool.not_true, Bool.or_self, Bool.false_eq_true, if_false, Option.bind_some, List.drop_length]
    have hz : copyLines next tail false inc k false [] = some [] := by cases k <;> rfl
    rw [hz]
    simp only [Option.map_some, List.append_nil, List.take_length, List.drop_zero, List.map_nil, tidy, unlines_single]
    rw [take_rtrim]
    congr 1
    have hpos : 0 < (rtrim a).length := by
      have := keep_ne (l := a); rw [hb] at this; simp only [Bool.not_false, bne_iff_ne] at this; omega
    rw [if_pos hpos]
    have := drop_rest hpos
    simpa using this
  | cons b t =>
    rw [unlines_cons]
    have hlen : (a ++ 10 :: unlines (b :: t)).length = (a.length + (unlines (b :: t)).length) + 1 := by simp; omega
    rw [hlen, copyLines_step _ _ _ _ _ _ _ (by simp)]
    have hd : (a ++ 10 :: unlines (b :: t)).drop (a.length + 1) = unlines (b :: t) := by
      rw [List.drop_append]; simp
    simp only [findLine_nl next a _ ha, Bool.not_true, Bool.or_self, Bool.false_eq_true, if_false, Option.bind_some, hd]
    rw [copyLines_rest next tail false inc (b :: t) (fun l hl => hok l (by simp [hl])) (endsSolid_cons hs) hinc false (.inl rfl) _ (by omega)]
    rw [take_append_le _ _ _ (rtrim_length_le a), take_rtrim]
    simp only [Option.map_some, List.map_cons, tidy, List.drop_zero, if_true]
    cases ht : t.map (cut inc) with
    | nil => simp [tidy, unlines_cons]
    | cons q qs => simp [tidy, unlines_cons]

/-! ## Sizes -/

theorem cut_length_le (n : Nat) (L : List Byte) : (cut n L).length ≤ L.length := by
  induction L generalizing n with
  | nil => cases n <;> simp [cut]
  | cons c t ih =>
    cases n with
    | zero => simp [cut]
    | succ n =>
      rw [cut]
      split
      · have := ih n; simp; omega
      · split
        · split
          · simp
          · exact Nat.le_trans (ih (n + 1 - 8)) (by simp)
        · simp

theorem tidy_length_le (f : List Byte → List Byte) (hf : ∀ l, (f l).length ≤ l.length) (ls : List (List Byte)) :
    (unlines (tidy (ls.map f))).length ≤ (unlines ls).length := by
  induction ls with
  | nil => simp [tidy]
  | cons a t ih =>
    have h1 := hf a
    cases t with
    | nil => simpa [tidy, unlines_single] using h1
    | cons b t =>
      simp only [List.map_cons, tidy] at ih ⊢
      have hr := rtrim_length_le (f a)
      rw [unlines_cons a]
      cases htd : tidy (f b :: t.map f) with
      | nil => cases ht : t.map f <;> simp [ht, tidy] at htd
      | cons q qs =>
        rw [htd] at ih
        rw [unlines_cons]
        simp only [List.length_append, List.length_cons]; omega

theorem tidy_first_length_le (f : List Byte → List Byte) (hf : ∀ l, (f l).length ≤ l.length) (a : List Byte)
    (t : List (List Byte)) : (unlines (tidy (a :: t.map f))).length ≤ (unlines (a :: t)).length := by
  cases t with
  | nil => simp [tidy]
  | cons b t =>
    have ih := tidy_length_le f hf (b :: t)
    simp only [List.map_cons, tidy] at ih ⊢
    have hr := rtrim_length_le a
    rw [unlines_cons a]
    cases htd : tidy (f b :: t.map f) with
    | nil => cases ht : t.map f <;> simp [ht, tidy] at htd
    | cons q qs =>
      rw [htd] at ih
      rw [unlines_cons]
      simp only [List.length_append, List.length_cons]; omega

theorem trimLines_first (indent : Nat) (space next : Byte) (tail : List Byte) (a : List Byte) (t : List (List Byte))
    (appendNls : Nat) (hok : ∀ l ∈ a :: t, LineOk l) (hb : BlankLine a = false) (hs : EndsSolid (a :: t)) :
    trimLines indent space next tail (unlines (a :: t)) false 0 appendNls =
      some ((List.replicate (indent - minWidth indent t) (if space = 0 then [] else [space])).flatten ++
        unlines (tidy (a :: t.map (cut (minWidth indent t)))) ++ List.replicate appendNls 10) := by
  obtain ⟨hmin, hle⟩ := minWidth_le indent t
  rw [trimLines]
  simp only [Bool.false_eq_true, if_false]
  rw [findIncidental_first next a t hok hb hs indent]
  simp only [Option.bind_some, Bool.not_false, Bool.true_and, ge_iff_le, hmin, decide_true, if_true]
  rw [copyLines_first next tail _ a t hok hs hb hle]
  simp only [Option.bind_some]
  have hlen := tidy_first_length_le (cut (minWidth indent t)) (cut_length_le _) a t
  have hsp : (if (space != 0) = true then List.replicate (indent - minWidth indent t) space else []) =
      (List.replicate (indent - minWidth indent t) (if space = 0 then [] else [space])).flatten := by
    by_cases h0 : space = 0
    · simp [h0]
    · simp [h0, List.flatten_replicate_singleton]
  rw [hsp]
  have hspl : (List.replicate (indent - minWidth indent t) (if space = 0 then ([] : List Byte) else [space])).flatten.length ≤ indent - minWidth indent t := by
    by_cases h0 : space = 0
    · simp [h0]
    · simp [h0, List.flatten_replicate_singleton]
  rw [if_pos (by simp only [List.length_append, List.length_replicate]; omega)]
  simp

theorem trimLines_ignore (indent : Nat) (space next : Byte) (tail : List Byte) (a : List Byte) (t : List (List Byte))
    (prependNls appendNls : Nat) (hok : ∀ l ∈ a :: t, LineOk l) (hb : BlankLine a = false) (hs : EndsSolid (a :: t)) :
    trimLines indent space next tail (unlines (a :: t)) true prependNls appendNls =
      some (List.replicate prependNls 10 ++
        unlines (tidy ((a :: t).map (cut (minWidth (width a) (a :: t))))) ++ List.replicate appendNls 10) := by
  obtain ⟨hmin, hle⟩ := minWidth_le (width a) (a :: t)
  rw [trimLines]
  simp only [if_true]
  rw [findIncidental_none next a t hok hb hs]
  simp only [Option.bind_some, Bool.not_true, Bool.false_and, Bool.false_eq_true, if_false]
  rw [copyLines_rest next tail true _ (a :: t) hok hs hle true (.inr rfl) _ (Nat.le_refl _)]
  simp only [Option.bind_some]
  have hlen := tidy_length_le (cut (minWidth (width a) (a :: t))) (cut_length_le _) (a :: t)
  rw [if_pos (by
    by_cases h0 : space = 0
    · simp [h0]; simp at hlen; omega
    · simp [h0]; simp at hlen; omega)]
  by_cases h0 : space = 0 <;> simp [h0]

/-! ## The beginning and the end -/

theorem leadingLines_spec (ls : List (List Byte)) (hok : ∀ l ∈ ls, LineOk l) (hs : EndsSolid ls) (i start nls : Nat)
    (hi : start ≤ i) :
    let r := leadingLines (unlines ls) i start nls
    r.2 = nls + (ls.takeWhile BlankLine).length ∧
    ((ls.takeWhile BlankLine = [] ∧ r.1 = start) ∨ (i ≤ r.1 ∧ (unlines ls).drop (r.1 - i) = unlines (ls.dropWhile BlankLine))) := by
  induction ls generalizing i start nls with
  | nil => obtain ⟨l, h1, -⟩ := hs; simp at h1
  | cons a t ih =>
    have ha : LineOk a := hok a (by simp)
    -- scanning the blanks at the start of a line
    have scan : ∀ (a : List Byte), LineOk a → ∀ R i,
        (a.all isBlank = true → leadingLines (a ++ 10 :: R) i start nls = leadingLines R (i + a.length + 1) (i + a.length + 1) (nls + 1)) ∧
        (a.all isBlank = false → leadingLines (a ++ R) i start nls = (start, nls)) := by
      intro a
      induction a with
      | nil => intro _ R i; simp [leadingLines]
      | cons c u ihu =>
        intro hcu R i
        obtain ⟨hc, hu⟩ := lineOk_cons hcu
        have hc10 : (c == b#'\n') = false := by
          cases h : (c == b#'\n') with
          | false => rfl
          | true => rw [h] at hc; cases hc
        have hc13 : (c == b#'\r') = false := by
          cases h : (c == b#'\r') with
          | false => rfl
          | true => rw [h] at hc; simp at hc
        obtain ⟨i1, i2⟩ := ihu hu R (i + 1)
        by_cases hbl : isBlank c = true
        · have hsp : (c != b#' ' && c != b#'\t' && c != b#'\r') = false := by
            simp only [isBlank, Bool.or_eq_true, beq_iff_eq] at hbl
            rcases hbl with rfl | rfl <;> rfl
          constructor
          · intro hall
            rw [List.cons_append, leadingLines, hc10, hsp]
            simp only [Bool.false_eq_true, if_false]
            rw [i1 (by simpa [hbl] using hall)]
            simp only [List.length_cons]
            rw [show i + 1 + u.length + 1 = i + (u.length + 1) + 1 by omega]
          · intro hall
            rw [List.cons_append, leadingLines, hc10, hsp]
            simp only [Bool.false_eq_true, if_false]
            exact i2 (by simpa [hbl] using hall)
        · constructor
          · intro hall; simp [hbl] at hall
          · intro _
            have hsp : (c != b#' ' && c != b#'\t' && c != b#'\r') = true := by
              simp only [isBlank, Bool.or_eq_true, not_or, beq_iff_eq] at hbl
              simp only [beq_eq_false_iff_ne] at hc13
              simp [hbl.1, hbl.2, hc13]
            rw [List.cons_append, leadingLines, hc10, hsp]; rfl
    cases hb : BlankLine a with
    | false =>
      have hnone : ∀ R, leadingLines (a ++ R) i start nls = (start, nls) := fun R => (scan a ha R i).2 hb
      have : leadingLines (unlines (a :: t)) i start nls = (start, nls) := by
        cases t with
        | nil => rw [unlines_single]; have := hnone []; rwa [List.append_nil] at this
        | cons b t => rw [unlines_cons]; exact hnone _
      rw [this]
      simp [hb]
    | true =>
      cases t with
      | nil => rw [endsSolid_single hs] at hb; cases hb
      | cons b t =>
        rw [unlines_cons]
        rw [(scan a ha _ i).1 hb]
        obtain ⟨h1, h2⟩ := ih (fun l hl => hok l (by simp [hl])) (endsSolid_cons hs) (i + a.length + 1) (i + a.length + 1) (nls + 1) (by omega)
        generalize leadingLines (unlines (b :: t)) (i + a.length + 1) (i + a.length + 1) (nls + 1) = r at h1 h2
        simp only [List.takeWhile_cons, hb, if_true, List.dropWhile_cons, List.length_cons]
        refine ⟨?_, .inr ?_⟩
        · rw [h1]; simp only [List.takeWhile_cons]; omega
        · rcases h2 with ⟨e, hr⟩ | ⟨hle, hd⟩
          · refine ⟨by omega, ?_⟩
            rw [hr, show i + a.length + 1 - i = a.length + 1 by omega]
            have hd2 : (a ++ 10 :: unlines (b :: t)).drop (a.length + 1) = unlines (b :: t) := by
              rw [List.drop_append]; simp
            rw [hd2]
            have : BlankLine b = false := by
              cases hbb : BlankLine b with
              | false => rfl
              | true => simp [hbb] at e
            rw [this]; rfl
          · refine ⟨by omega, ?_⟩
            have hd2 : (a ++ 10 :: unlines (b :: t)).drop (a.length + 1) = unlines (b :: t) := by
              rw [List.drop_append]; simp
            rw [show r.1 - i = (a.length + 1) + (r.1 - (i + a.length + 1)) by omega, ← List.drop_drop, hd2, hd]
            simp only [List.dropWhile_cons]

theorem ws_blank_or_nl {c : Byte} (h1 : c ≠ 10) (h2 : c ≠ 13) : isXmlWhitespace c = isBlank c := by
  simp only [isXmlWhitespace, isBlank]
  have e1 : (c == 10) = false := by simpa using h1
  have e2 : (c == 13) = false := by simpa using h2
  simp [e1, e2]

theorem rdrop_congr {p q : Byte → Bool} (l : List Byte) (h : ∀ c ∈ l, p c = q c) : rdrop p l = rdrop q l := by
  induction l with
  | nil => rfl
  | cons c t ih =>
    have ht : t.all p = t.all q := by
      rw [Bool.eq_iff_iff, List.all_eq_true, List.all_eq_true]
      constructor
      · intro h' x hx; rw [← h x (by simp [hx])]; exact h' x hx
      · intro h' x hx; rw [h x (by simp [hx])]; exact h' x hx
    rw [rdrop_cons, rdrop_cons, ht, h c (by simp), ih (fun x hx => h x (by simp [hx]))]

theorem line_ws {l : List Byte} (h : LineOk l) : ∀ c ∈ l, isXmlWhitespace c = isBlank c :=
  fun c hc => ws_blank_or_nl (fun e => h.1 (e ▸ hc)) (fun e => h.2 (e ▸ hc))

theorem all_congr {p q : Byte → Bool} {l : List Byte} (h : ∀ c ∈ l, p c = q c) : l.all p = l.all q := by
  rw [Bool.eq_iff_iff, List.all_eq_true, List.all_eq_true]
  constructor
  · intro h' x hx; rw [← h x hx]; exact h' x hx
  · intro h' x hx; rw [h x hx]; exact h' x hx

theorem dropBlankEnd_snoc (ls : List (List Byte)) (l : List Byte) :
    dropBlankEnd (ls ++ [l]) = if BlankLine l then dropBlankEnd ls else ls ++ [l] := by
  simp only [dropBlankEnd, List.reverse_append, List.reverse_cons, List.reverse_nil, List.nil_append, List.singleton_append,
    List.dropWhile_cons]
  split <;> simp

theorem rtrimLast_snoc (ls : List (List Byte)) (l : List Byte) : rtrimLast (ls ++ [l]) = ls ++ [rtrim l] := by
  simp [rtrimLast]

theorem unlines_all_ws (ls : List (List Byte)) (hok : ∀ l ∈ ls, LineOk l) (hb : ∀ l ∈ ls, BlankLine l = true) :
    (unlines ls).all isXmlWhitespace = true := by
  induction ls with
  | nil => rfl
  | cons a t ih =>
    have ha : a.all isXmlWhitespace = true := by
      rw [all_congr (line_ws (hok a (by simp)))]; exact hb a (by simp)
    cases t with
    | nil => rw [unlines_single]; exact ha
    | cons b t =>
      rw [unlines_cons, List.all_append, ha, List.all_cons, ih (fun l hl => hok l (by simp [hl])) (fun l hl => hb l (by simp [hl]))]
      rfl

theorem count_nl_line {l : List Byte} (h : LineOk l) : l.count 10 = 0 := List.count_eq_zero.2 h.1

/-- Trimming all whitespace at the end. -/
theorem trimEnd_spec (ls : List (List Byte)) (hok : ∀ l ∈ ls, LineOk l) :
    rdrop isXmlWhitespace (unlines ls) = unlines (rtrimLast (dropBlankEnd ls)) ∧
    ((unlines ls).drop (rdrop isXmlWhitespace (unlines ls)).length).count 10 =
      (if dropBlankEnd ls = [] then ls.length - 1 else ls.length - (dropBlankEnd ls).length) := by
  induction h : ls.length generalizing ls with
  | zero =>
    have := List.eq_nil_of_length_eq_zero h; subst this
    simp [dropBlankEnd, rtrimLast, unlines, rdrop]
  | succ n ih =>
    rcases List.eq_nil_or_concat ls with rfl | ⟨pre, l, rfl⟩
    · simp at h
    rw [List.concat_eq_append] at h hok ⊢
    have hl : LineOk l := hok l (by simp)
    have hpre : ∀ l ∈ pre, LineOk l := fun l hl => hok l (by simp [hl])
    have hws := line_ws hl
    have hlen : pre.length = n := by simp at h; exact h
    rw [dropBlankEnd_snoc]
    cases hb : BlankLine l with
    | true =>
      have hall : l.all isXmlWhitespace = true := by rw [all_congr hws]; exact hb
      simp only [if_true]
      by_cases hp : pre = []
      · subst hp
        simp only [List.nil_append, unlines_single]
        have : rdrop isXmlWhitespace l = [] := rdrop_eq_nil.2 hall
        rw [this]
        simp [dropBlankEnd, rtrimLast, unlines, count_nl_line hl]
        simp at hlen; omega
      · rw [unlines_snoc pre hp]
        have e : rdrop isXmlWhitespace (unlines pre ++ 10 :: l) = rdrop isXmlWhitespace (unlines pre) :=
          rdrop_append_all (by rw [List.all_cons, hall]; rfl)
        obtain ⟨i1, i2⟩ := ih pre hpre hlen
        rw [e]
        refine ⟨i1, ?_⟩
        have hle := rdrop_length_le isXmlWhitespace (unlines pre)
        rw [List.drop_append_of_le_length hle, List.count_append, i2, List.count_cons_self, count_nl_line hl]
        have hpos := List.length_pos_iff.2 hp
        have hdl : (dropBlankEnd pre).length ≤ pre.length := by
          simp only [dropBlankEnd, List.length_reverse]
          have := (List.dropWhile_sublist BlankLine (l := pre.reverse)).length_le
          simpa using this
        split <;> simp <;> omega
    | false =>
      have hall : l.all isXmlWhitespace = false := by rw [all_congr hws]; exact hb
      simp only [Bool.false_eq_true, if_false]
      rw [rtrimLast_snoc]
      have hrt : rdrop isXmlWhitespace l = rtrim l := rdrop_congr l hws
      have hcnt : (l.drop (rtrim l).length).count 10 = 0 :=
        List.count_eq_zero.2 (fun h' => hl.1 (List.mem_of_mem_drop h'))
      by_cases hp : pre = []
      · subst hp
        simp only [List.nil_append, unlines_single, hrt, hcnt]
        simp at hlen; simp [← hlen]
      · rw [unlines_snoc pre hp, unlines_snoc pre hp]
        have e : rdrop isXmlWhitespace (unlines pre ++ 10 :: l) = unlines pre ++ 10 :: rtrim l := by
          have := rdrop_append_ne (a := unlines pre ++ [10]) hall
          rw [hrt] at this
          simpa using this
        rw [e]
        refine ⟨rfl, ?_⟩
        have : (unlines pre ++ 10 :: l).drop (unlines pre ++ 10 :: rtrim l).length = l.drop (rtrim l).length := by
          rw [List.drop_append]; simp
        rw [this, hcnt]
        simp; omega

/-- The end of the text is trimmed exactly when the last of several lines is blank. -/
theorem ending_spec (ls : List (List Byte)) (h2 : 2 ≤ ls.length) (hok : ∀ l ∈ ls, LineOk l) :
    (hasEndingNlSpace (unlines ls)).isSome = (dropBlankEnd ls).length.blt ls.length := by
  rcases List.eq_nil_or_concat ls with rfl | ⟨pre, l, rfl⟩
  · simp at h2
  rw [List.concat_eq_append] at h2 hok ⊢
  have hl : LineOk l := hok l (by simp)
  have hp : pre ≠ [] := by rintro rfl; simp at h2
  have hws := line_ws hl
  rw [unlines_snoc pre hp, dropBlankEnd_snoc]
  have hrev : (unlines pre ++ 10 :: l).reverse = l.reverse ++ 10 :: (unlines pre).reverse := by simp
  rw [hasEndingNlSpace]
  simp only [hrev]
  have hdl : (dropBlankEnd pre).length ≤ pre.length := by
    simp only [dropBlankEnd, List.length_reverse]
    have := (List.dropWhile_sublist BlankLine (l := pre.reverse)).length_le
    simpa using this
  cases hb : BlankLine l with
  | true =>
    have hR : (if true = true then dropBlankEnd pre else pre ++ [l]).length.blt (pre ++ [l]).length = true := by
      simp only [if_true, Nat.blt_eq, List.length_append, List.length_singleton]; omega
    rw [hR]
    rcases List.eq_nil_or_concat l with rfl | ⟨l', c, rfl⟩
    · simp
    · rw [List.concat_eq_append] at hl hws hb ⊢
      have hc : (c == b#'\n') = false := by
        have : c ≠ 10 := fun e => hl.1 (by simp [e])
        simpa using this
      have hall : ∀ x ∈ (l' ++ [c]).reverse, isXmlWhitespace x = true := by
        intro x hx
        have hx : x ∈ l' ++ [c] := List.mem_reverse.1 hx
        rw [hws x hx]
        exact List.all_eq_true.1 hb x hx
      have ht : ((l' ++ [c]).reverse ++ 10 :: (unlines pre).reverse).takeWhile (· == b#'\n') = [] := by
        simp [hc]
      have hd : ((l' ++ [c]).reverse ++ 10 :: (unlines pre).reverse).dropWhile (· == b#'\n') = (l' ++ [c]).reverse ++ 10 :: (unlines pre).reverse := by
        simp [hc]
      rw [ht, hd, List.takeWhile_append_of_pos hall]
      have h10 : isXmlWhitespace 10 = true := by decide
      simp [h10]
  | false =>
    have hR : (if false = true then dropBlankEnd pre else pre ++ [l]).length.blt (pre ++ [l]).length = false := by
      simp only [Bool.false_eq_true, if_false]
      cases h : (pre ++ [l]).length.blt (pre ++ [l]).length with
      | false => rfl
      | true => rw [Nat.blt_eq] at h; omega
    rw [hR]
    -- the backward scan stops inside the last line
    have hex : ∃ x ∈ l.reverse, isXmlWhitespace x = false := by
      have : l.all isBlank = false := hb
      rw [List.all_eq_false] at this
      obtain ⟨x, hx, hxb⟩ := this
      exact ⟨x, List.mem_reverse.2 hx, by rw [hws x hx]; simpa using hxb⟩
    have hlr : (10 : Byte) ∉ l.reverse := fun h => hl.1 (List.mem_reverse.1 h)
    generalize l.reverse = r at hex hlr
    have ht : (r ++ 10 :: (unlines pre).reverse).takeWhile (· == b#'\n') = [] ∧
        (r ++ 10 :: (unlines pre).reverse).dropWhile (· == b#'\n') = r ++ 10 :: (unlines pre).reverse := by
      cases r with
      | nil => obtain ⟨x, hx, -⟩ := hex; simp at hx
      | cons c t =>
        have : (c == b#'\n') = false := by
          have : c ≠ 10 := fun e => hlr (by simp [e])
          simpa using this
        simp [this]
    have hw : ((r ++ 10 :: (unlines pre).reverse).takeWhile isXmlWhitespace).any (· == b#'\n') = false := by
      have hstop : ∀ (r R : List Byte), (∃ x ∈ r, isXmlWhitespace x = false) → (r ++ R).takeWhile isXmlWhitespace = r.takeWhile isXmlWhitespace := by
        intro r R
        induction r with
        | nil => rintro ⟨x, hx, -⟩; simp at hx
        | cons c t ih =>
          rintro ⟨x, hx, hxb⟩
          by_cases hc : isXmlWhitespace c = true
          · rcases List.mem_cons.1 hx with rfl | hx
            · rw [hc] at hxb; cases hxb
            · simp [hc, ih ⟨x, hx, hxb⟩]
          · simp [hc]
      rw [hstop r _ hex, List.any_eq_false]
      intro x hx
      have : x ∈ r := (List.takeWhile_sublist _).mem hx
      have : x ≠ 10 := fun e => hlr (e ▸ this)
      simpa using this
    simp only [ht.1, ht.2, hw]
    simp

theorem leading_spec (a : List Byte) (t : List (List Byte)) (hok : ∀ l ∈ a :: t, LineOk l) (hs : EndsSolid (a :: t)) :
    (hasLeadingSpaceNl (unlines (a :: t))).isSome = BlankLine a := by
  have ha : LineOk a := hok a (by simp)
  have hws := line_ws ha
  cases hb : BlankLine a with
  | true =>
    cases t with
    | nil => rw [endsSolid_single hs] at hb; cases hb
    | cons b t =>
      rw [unlines_cons, hasLeadingSpaceNl]
      cases a with
      | nil => simp
      | cons c u =>
        have hc : (c == b#'\n') = false := by
          have : c ≠ 10 := fun e => ha.1 (by simp [e])
          simpa using this
        have hall : ∀ x ∈ c :: u, isXmlWhitespace x = true := by
          intro x hx
          rw [hws x hx]; exact List.all_eq_true.1 hb x hx
        have h1 : (c :: u ++ 10 :: unlines (b :: t)).takeWhile (· == b#'\n') = [] := by simp [hc]
        have h2 : (c :: u ++ 10 :: unlines (b :: t)).dropWhile (· == b#'\n') = c :: u ++ 10 :: unlines (b :: t) := by simp [hc]
        simp only [h1, h2]
        rw [List.takeWhile_append_of_pos hall]
        have h10 : isXmlWhitespace 10 = true := by decide
        simp [h10]
  | false =>
    have hex : ∃ x ∈ a, isXmlWhitespace x = false := by
      have : a.all isBlank = false := hb
      rw [List.all_eq_false] at this
      obtain ⟨x, hx, hxb⟩ := this
      exact ⟨x, hx, by rw [hws x hx]; simpa using hxb⟩
    obtain ⟨R, hR⟩ : ∃ R, unlines (a :: t) = a ++ R := by
      cases t with
      | nil => exact ⟨[], by rw [unlines_single]; simp⟩
      | cons b t => exact ⟨_, unlines_cons a b t⟩
    rw [hR, hasLeadingSpaceNl]
    have ht : (a ++ R).takeWhile (· == b#'\n') = [] ∧ (a ++ R).dropWhile (· == b#'\n') = a ++ R := by
      cases a with
      | nil => obtain ⟨x, hx, -⟩ := hex; simp at hx
      | cons c t =>
        have : (c == b#'\n') = false := by
          have : c ≠ 10 := fun e => ha.1 (by simp [e])
          simpa using this
        simp [this]
    have hw : ((a ++ R).takeWhile isXmlWhitespace).any (· == b#'\n') = false := by
      have hstop : ∀ (r R : List Byte), (∃ x ∈ r, isXmlWhitespace x = false) → (r ++ R).takeWhile isXmlWhitespace = r.takeWhile isXmlWhitespace := by
        intro r R
        induction r with
        | nil => rintro ⟨x, hx, -⟩; simp at hx
        | cons c t ih =>
          rintro ⟨x, hx, hxb⟩
          by_cases hc : isXmlWhitespace c = true
          · rcases List.mem_cons.1 hx with rfl | hx
            · rw [hc] at hxb; cases hxb
            · simp [hc, ih ⟨x, hx, hxb⟩]
          · simp [hc]
      rw [hstop a _ hex, List.any_eq_false]
      intro x hx
      have : x ∈ a := (List.takeWhile_sublist _).mem hx
      have : x ≠ 10 := fun e => ha.1 (e ▸ this)
      simpa using this
    simp only [ht.1, ht.2, hw]
    simp

theorem lineOk_rtrim {l : List Byte} (h : LineOk l) : LineOk (rtrim l) := by
  obtain ⟨b, hsp, -⟩ := rdrop_split isBlank l
  rw [← rtrim_eq] at hsp
  exact ⟨fun h' => h.1 (by rw [hsp]; simp [h']), fun h' => h.2 (by rw [hsp]; simp [h'])⟩

theorem rtrim_blank {l : List Byte} (h : BlankLine l = false) : BlankLine (rtrim l) = false := by
  cases hb : BlankLine (rtrim l) with
  | false => rfl
  | true =>
    obtain ⟨b, hsp, hall⟩ := rdrop_split isBlank l
    rw [← rtrim_eq] at hsp
    have : BlankLine l = true := by
      rw [hsp, blankLine_eq, List.all_append, hall]
      rw [blankLine_eq] at hb
      rw [hb]; rfl
    rw [this] at h; cases h

/-- What remains after removing the blank lines at the end. -/
theorem core_cases (ls : List (List Byte)) (hok : ∀ l ∈ ls, LineOk l) :
    dropBlankEnd ls = [] ∨
    (∃ pre l, dropBlankEnd ls = pre ++ [l] ∧ BlankLine l = false ∧ (∀ x ∈ pre ++ [l], LineOk x)) := by
  rcases List.eq_nil_or_concat (dropBlankEnd ls) with h | ⟨pre, l, h⟩
  · exact .inl h
  · right
    rw [List.concat_eq_append] at h
    refine ⟨pre, l, h, ?_, ?_⟩
    · have h2 : ls.reverse.dropWhile BlankLine = l :: pre.reverse := by
        have := congrArg List.reverse h
        simpa [dropBlankEnd] using this
      have := List.head?_dropWhile_not (p := BlankLine) ls.reverse
      rw [h2] at this
      simpa using this
    · intro x hx
      rw [← h] at hx
      simp only [dropBlankEnd, List.mem_reverse] at hx
      exact hok x (List.mem_reverse.1 ((List.dropWhile_sublist _).mem hx))

/-- **Functional correctness** of `xmq_trim_quote` on texts without carriage returns that have a line break. -/
theorem trimQuoteAt_eq_dedent (indent : Nat) (space next : Byte) (ls : List (List Byte)) (h2 : 2 ≤ ls.length)
    (hok : ∀ l ∈ ls, LineOk l) :
    trimQuoteAt indent space next (unlines ls) = some (dedent (if space = 0 then [] else [space]) indent ls) := by
  match ls, h2 with
  | a0 :: b0 :: t0, _ =>
  generalize hls : a0 :: b0 :: t0 = ls at hok ⊢
  have h2 : 2 ≤ ls.length := by rw [← hls]; simp
  have ha0 : LineOk a0 := hok a0 (by rw [← hls]; simp)
  have hfl : findLine next (unlines ls) = ⟨true, width a0, (rtrim a0).length, a0.length + 1⟩ := by
    rw [← hls, unlines_cons]; exact findLine_nl next a0 _ ha0
  rw [trimQuoteAt]
  simp only [hfl, Bool.not_true, Bool.false_eq_true, if_false]
  rw [ending_spec ls h2 hok]
  obtain ⟨t1, t2⟩ := trimEnd_spec ls hok
  have hrd : ((unlines ls).reverse.dropWhile isXmlWhitespace).reverse = rdrop isXmlWhitespace (unlines ls) := rfl
  rw [hrd]
  rw [dedent]
  have hdl : (dropBlankEnd ls).length ≤ ls.length := by
    simp only [dropBlankEnd, List.length_reverse]
    have := (List.dropWhile_sublist BlankLine (l := ls.reverse)).length_le
    simpa using this
  -- the trimmed body and its lines
  rcases core_cases ls hok with hnil | ⟨pre, l, hcore, hlb, hpre⟩
  · -- everything is blank
    have hlt : (dropBlankEnd ls).length.blt ls.length = true := by
      rw [hnil, Nat.blt_eq]; simp; omega
    rw [hnil] at t1 t2
    simp only [rtrimLast, List.getLast?_nil] at t1
    have t1' : rdrop isXmlWhitespace (unlines ls) = [] := by rw [t1]; rfl
    rw [if_pos hlt, t1']
    rw [t1'] at t2
    simp only [if_true, List.length_nil, List.drop_zero] at t2
    simp only [List.isEmpty_nil, if_true, hlt, List.length_nil, List.drop_zero, t2, hnil]
    simp only [rtrimLast, List.getLast?_nil]
    have hne : ¬ (ls.length - 0 = 0) := by omega
    rw [if_neg hne]
    have hb0 : Nat.blt 0 ls.length = true := by rw [Nat.blt_eq]; omega
    rw [if_pos hb0, show ls.length - 1 - 1 = ls.length - 2 by omega]
  · -- the remaining lines
    have hcne : dropBlankEnd ls ≠ [] := by rw [hcore]; simp
    -- what is left when something was trimmed, or nothing
    have hbody : ∃ core', (if (dropBlankEnd ls).length.blt ls.length = true then rdrop isXmlWhitespace (unlines ls) else unlines ls) = unlines core' ∧
        (if ls.length - (dropBlankEnd ls).length = 0 then dropBlankEnd ls else rtrimLast (dropBlankEnd ls)) = core' ∧
        (∀ x ∈ core', LineOk x) ∧ EndsSolid core' ∧
        (2 ≤ core'.length → ∃ r, core' = a0 :: r) := by
      have hhead : ∀ q r, dropBlankEnd ls = q :: r → q = a0 := by
        intro q r hq
        have hpfx : dropBlankEnd ls <+: ls := by
          have := (List.dropWhile_suffix BlankLine (l := ls.reverse)).reverse
          simpa [dropBlankEnd] using this
        rw [hq, ← hls] at hpfx
        obtain ⟨s, hs⟩ := hpfx
        simp at hs
        exact hs.1
      cases hlt : (dropBlankEnd ls).length.blt ls.length with
      | true =>
        rw [Nat.blt_eq] at hlt
        refine ⟨pre ++ [rtrim l], ?_, ?_, ?_, ⟨rtrim l, by simp, rtrim_blank hlb⟩, ?_⟩
        · rw [if_pos rfl, t1, hcore, rtrimLast_snoc]
        · rw [if_neg (by omega), hcore, rtrimLast_snoc]
        · intro x hx
          rcases List.mem_append.1 hx with hx | hx
          · exact hpre x (by simp [hx])
          · simp at hx; subst hx; exact lineOk_rtrim (hpre l (by simp))
        · intro hge
          cases pre with
          | nil => simp at hge
          | cons q r => exact ⟨r ++ [rtrim l], by rw [List.cons_append]; congr 1; exact hhead q _ hcore⟩
      | false =>
        have hge : ¬ (dropBlankEnd ls).length < ls.length := by
          rw [← Nat.blt_eq, hlt]; simp
        have heq : dropBlankEnd ls = ls := by
          have hpfx : dropBlankEnd ls <+: ls := by
            have := (List.dropWhile_suffix BlankLine (l := ls.reverse)).reverse
            simpa [dropBlankEnd] using this
          exact hpfx.eq_of_length (by omega)
        refine ⟨ls, by simp, by rw [heq]; simp, hok, ?_, ?_⟩
        · rw [← heq, hcore]; exact ⟨l, by simp, hlb⟩
        · intro _; exact ⟨b0 :: t0, hls.symm⟩
    obtain ⟨core', hb1, hb2, hb3, hb4, hb5⟩ := hbody
    rw [hb1, hb2]
    have hbne : (unlines core').isEmpty = false := by
      have := endsSolid_unlines_ne hb4
      cases h : unlines core' with
      | nil => exact absurd h this
      | cons _ _ => rfl
    rw [hbne]
    simp only [Bool.false_eq_true, if_false]
    -- the number of line feeds to append
    have hnls : (if (dropBlankEnd ls).length.blt ls.length = true then ((unlines ls).drop (unlines core').length).count b#'\n' else 0)
        = ls.length - (dropBlankEnd ls).length := by
      by_cases hlt : (dropBlankEnd ls).length.blt ls.length = true
      · rw [if_pos hlt]
        rw [if_pos hlt] at hb1
        rw [← hb1, t2, if_neg hcne]
      · rw [if_neg hlt]
        rw [Nat.blt_eq] at hlt; omega
    rw [hnls]
    cases core' with
    | nil => obtain ⟨l, h1, -⟩ := hb4; simp at h1
    | cons first rest =>
      have hlead := leading_spec first rest hb3 hb4
      cases hfb : BlankLine first with
      | false =>
        rw [hfb] at hlead
        cases hl : hasLeadingSpaceNl (unlines (first :: rest)) with
        | some _ => rw [hl] at hlead; cases hlead
        | none =>
          simp only
          rw [trimLines_first indent space next _ first rest _ hb3 hfb hb4]
          simp [hfb]
      | true =>
        rw [hfb] at hlead
        cases hl : hasLeadingSpaceNl (unlines (first :: rest)) with
        | none => rw [hl] at hlead; cases hlead
        | some _ =>
          simp only
          cases rest with
          | nil => rw [endsSolid_single hb4] at hfb; cases hfb
          | cons b r =>
            obtain ⟨r', hr'⟩ := hb5 (by simp)
            have hfa : first = a0 := by simp at hr'; exact hr'.1
            subst hfa
            have hd : (unlines (first :: b :: r)).drop (first.length + 1) = unlines (b :: r) := by
              rw [unlines_cons, List.drop_append]; simp
            have hs' := endsSolid_cons hb4
            have hok' : ∀ l ∈ b :: r, LineOk l := fun l hl => hb3 l (by simp [hl])
            obtain ⟨l1, l2⟩ := leadingLines_spec (b :: r) hok' hs' 0 0 0 (Nat.le_refl _)
            rw [← List.drop_drop, hd]
            have hdrop : (unlines (b :: r)).drop (leadingLines (unlines (b :: r)) 0 0 0).1 = unlines ((b :: r).dropWhile BlankLine) := by
              rcases l2 with ⟨e, hz⟩ | ⟨-, hz⟩
              · rw [hz]
                have hbb : BlankLine b = false := by
                  cases hbb : BlankLine b with
                  | false => rfl
                  | true => simp [hbb] at e
                simp [hbb]
              · simpa using hz
            rw [hdrop, l1]
            -- the first line that is not blank
            have hsolid : ∃ x xs, (b :: r).dropWhile BlankLine = x :: xs ∧ BlankLine x = false := by
              cases hdw : (b :: r).dropWhile BlankLine with
              | nil =>
                have hall : ∀ (ls : List (List Byte)), ls.dropWhile BlankLine = [] → ∀ x ∈ ls, BlankLine x = true := by
                  intro ls
                  induction ls with
                  | nil => simp
                  | cons y ys ih =>
                    intro h x hx
                    by_cases hy : BlankLine y = true
                    · simp only [List.dropWhile_cons, hy, if_true] at h
                      rcases List.mem_cons.1 hx with rfl | hx
                      · exact hy
                      · exact ih h x hx
                    · simp [hy] at h
                obtain ⟨z, hz1, hz2⟩ := hs'
                rw [hall _ hdw z (List.mem_of_getLast? hz1)] at hz2; cases hz2
              | cons x xs =>
                refine ⟨x, xs, rfl, ?_⟩
                have := List.head?_dropWhile_not (p := BlankLine) (b :: r)
                rw [hdw] at this
                simpa using this
            obtain ⟨x, xs, hx1, hx2⟩ := hsolid
            have hsuf : x :: xs <:+ b :: r := by rw [← hx1]; exact List.dropWhile_suffix _
            have hok2 : ∀ l ∈ x :: xs, LineOk l := fun l hl => hok' l (hsuf.mem hl)
            have hs2 : EndsSolid (x :: xs) := by
              obtain ⟨z, hz1, hz2⟩ := hs'
              refine ⟨z, ?_, hz2⟩
              obtain ⟨p, hp⟩ := hsuf
              rw [← hp, List.getLast?_append] at hz1
              cases hg : (x :: xs).getLast? with
              | none => simp at hg
              | some w => rw [hg] at hz1; simpa using hz1
            rw [hx1, trimLines_ignore indent space next _ x xs _ _ hok2 hx2 hs2]
            have hlen : ((b :: r).takeWhile BlankLine).length + (x :: xs).length = (b :: r).length := by
              have := congrArg List.length (List.takeWhile_append_dropWhile (p := BlankLine) (l := b :: r))
              rw [List.length_append, hx1] at this; exact this
            have hcnt : 0 + ((b :: r).takeWhile BlankLine).length = (b :: r).length - (x :: xs).length := by omega
            rw [hcnt]
            simp [hfb, hx1]

theorem splitLines_ne_nil (s : List Byte) : splitLines s ≠ [] := by
  cases s with
  | nil => simp [splitLines]
  | cons c t =>
    rw [splitLines]
    split
    · simp
    · split <;> simp

theorem unlines_splitLines (s : List Byte) : unlines (splitLines s) = s := by
  induction s with
  | nil => rfl
  | cons c t ih =>
    rw [splitLines]
    split
    · rename_i h
      subst h
      cases h2 : splitLines t with
      | nil => exact absurd h2 (splitLines_ne_nil t)
      | cons l ls => rw [unlines_cons, ← h2, ih]; rfl
    · cases h2 : splitLines t with
      | nil => exact absurd h2 (splitLines_ne_nil t)
      | cons l ls =>
        rw [h2] at ih
        simp only
        cases ls with
        | nil => rw [unlines_single] at ih ⊢; rw [ih]
        | cons m ms => rw [unlines_cons] at ih ⊢; rw [← ih]; rfl

theorem splitLines_nl {s : List Byte} : ∀ l ∈ splitLines s, (10 : Byte) ∉ l := by
  induction s with
  | nil => simp [splitLines]
  | cons c t ih =>
    rw [splitLines]
    split
    · intro l hl
      rcases List.mem_cons.1 hl with rfl | hl
      · simp
      · exact ih l hl
    · rename_i hc
      cases h2 : splitLines t with
      | nil => exact absurd h2 (splitLines_ne_nil t)
      | cons m ms =>
        intro l hl
        rcases List.mem_cons.1 hl with rfl | hl
        · have := ih m (by rw [h2]; simp)
          intro h
          rcases List.mem_cons.1 h with h | h
          · exact hc h.symm
          · exact this h
        · exact ih l (by rw [h2]; simp [hl])

theorem splitLines_mem {s : List Byte} : ∀ l ∈ splitLines s, ∀ c ∈ l, c ∈ s := by
  induction s with
  | nil => simp [splitLines]
  | cons c t ih =>
    rw [splitLines]
    split
    · intro l hl x hx
      rcases List.mem_cons.1 hl with rfl | hl
      · simp at hx
      · simp [ih l hl x hx]
    · cases h2 : splitLines t with
      | nil => exact absurd h2 (splitLines_ne_nil t)
      | cons m ms =>
        intro l hl x hx
        rcases List.mem_cons.1 hl with rfl | hl
        · rcases List.mem_cons.1 hx with rfl | hx
          · simp
          · simp [ih m (by rw [h2]; simp) x hx]
        · simp [ih l (by rw [h2]; simp [hl]) x hx]

theorem splitLines_ok {s : List Byte} (h : (13 : Byte) ∉ s) : ∀ l ∈ splitLines s, LineOk l :=
  fun l hl => ⟨splitLines_nl l hl, fun h13 => h (splitLines_mem l hl _ h13)⟩

theorem splitLines_line {l : List Byte} (h : (10 : Byte) ∉ l) : splitLines l = [l] := by
  induction l with
  | nil => rfl
  | cons c t ih =>
    have hc : c ≠ 10 := fun e => h (by simp [e])
    rw [splitLines, if_neg hc, ih (fun h' => h (by simp [h']))]

theorem splitLines_unlines (ls : List (List Byte)) (hne : ls ≠ []) (h : ∀ l ∈ ls, (10 : Byte) ∉ l) :
    splitLines (unlines ls) = ls := by
  induction ls with
  | nil => exact absurd rfl hne
  | cons a t ih =>
    cases t with
    | nil => rw [unlines_single]; exact splitLines_line (h a (by simp))
    | cons b t =>
      rw [unlines_cons]
      have ha := h a (by simp)
      have ih := ih (by simp) (fun l hl => h l (by simp [hl]))
      clear h hne
      induction a with
      | nil => rw [List.nil_append, splitLines, if_pos rfl, ih]
      | cons c a iha =>
        have hc : c ≠ 10 := fun e => ha (by simp [e])
        rw [List.cons_append, splitLines, if_neg hc, iha (fun h' => ha (by simp [h']))]

theorem splitLines_length (s : List Byte) : (10 : Byte) ∈ s → 2 ≤ (splitLines s).length := by
  intro h
  cases h2 : splitLines s with
  | nil => exact absurd h2 (splitLines_ne_nil s)
  | cons a t =>
    cases t with
    | cons b t => simp
    | nil =>
      have := unlines_splitLines s
      rw [h2, unlines_single] at this
      have h3 := splitLines_nl (s := s) a (by rw [h2]; simp)
      rw [this] at h3
      exact absurd h h3

theorem findLine_single (next : Byte) (s : List Byte) (h10 : (10 : Byte) ∉ s) (h13 : (13 : Byte) ∉ s) :
    findLine next s = ⟨false, blankWidth s, (findLine next s).keep, s.length⟩ := by
  have hs : ∀ (t : List Byte) lnws i, (10 : Byte) ∉ t → (13 : Byte) ∉ t →
      (scanEol next t lnws i).1 = false ∧ (scanEol next t lnws i).2.2 = i + t.length := by
    intro t
    induction t with
    | nil => intro l i _ _; simp [scanEol]
    | cons c t ih =>
      intro l i h1 h2
      have e1 : (c == b#'\n') = false := by
        have : c ≠ 10 := fun e => h1 (by simp [e])
        simpa using this
      have e2 : (c == b#'\r') = false := by
        have : c ≠ 13 := fun e => h2 (by simp [e])
        simpa using this
      rw [scanEol]
      simp only [e1, e2, Bool.or_false, Bool.false_eq_true, if_false]
      obtain ⟨a, b⟩ := ih (if isBlank c then l else i + 1) (i + 1) (fun h => h1 (by simp [h])) (fun h => h2 (by simp [h]))
      refine ⟨a, by rw [b]; simp; omega⟩
  have hsub := (List.dropWhile_sublist isBlank (l := s))
  obtain ⟨a, b⟩ := hs (s.dropWhile isBlank) 0 (s.takeWhile isBlank).length (fun h => h10 (hsub.mem h)) (fun h => h13 (hsub.mem h))
  have hlen := congrArg List.length (List.takeWhile_append_dropWhile (p := isBlank) (l := s))
  rw [List.length_append] at hlen
  rw [findLine]
  simp only [a, b, hlen]

end Xmq
