import Verif.Lemmas.Trim
/-!
# Windows line endings in quotes
-/
namespace Xmq
open Spec

/-- `t` is `s` with line feeds in place of carriage return, line feed; `s` has no other carriage returns. -/
inductive Crlf : List Byte → List Byte → Prop
  | nil : Crlf [] []
  | crlf {s t : List Byte} : Crlf s t → Crlf (13 :: 10 :: s) (10 :: t)
  | char {c : Byte} {s t : List Byte} : c ≠ 13 → Crlf s t → Crlf (c :: s) (c :: t)

theorem noLoneCr_cons {c : Byte} {t : List Byte} (h : NoLoneCr (c :: t)) : NoLoneCr t :=
  fun p u e => h (c :: p) u (by rw [e]; rfl)

theorem crlf_of : ∀ {s : List Byte}, NoLoneCr s → Crlf s (lfOnly s)
  | [], _ => .nil
  | [c], h => by
    have : c ≠ 13 := fun e => by subst e; have := h [] [] rfl; cases this
    rw [lfOnly, if_neg (fun e => this e.1)]
    exact .char this .nil
  | c :: d :: t, h => by
    by_cases hc : c = 13
    · subst hc
      have hd : d = 10 := by have := h [] (d :: t) rfl; simpa using this
      subst hd
      have ih := crlf_of (s := t) (noLoneCr_cons (noLoneCr_cons h))
      rw [lfOnly, if_pos ⟨rfl, rfl⟩, lfOnly, if_neg (fun e => by cases e.1)]
      exact .crlf ih
    · rw [lfOnly, if_neg (fun e => hc e.1)]
      exact .char hc (crlf_of (noLoneCr_cons h))

theorem Crlf.noCr {s t : List Byte} (h : Crlf s t) : (13 : Byte) ∉ t := by
  induction h with
  | nil => simp
  | crlf _ ih => simpa using ih
  | char hc _ ih => simp only [List.mem_cons, not_or]; exact ⟨fun e => hc e.symm, ih⟩

theorem Crlf.filter {s t : List Byte} (h : Crlf s t) : t = s.filter (· != 13) := by
  induction h with
  | nil => rfl
  | crlf _ ih => simp [ih]
  | char hc _ ih => rw [List.filter_cons_of_pos (by simpa using hc), ← ih]

theorem Crlf.length_le {s t : List Byte} (h : Crlf s t) : t.length ≤ s.length := by
  rw [h.filter]; exact List.length_filter_le _ _

theorem Crlf.nil_iff {s t : List Byte} (h : Crlf s t) : s = [] ↔ t = [] := by
  cases h <;> simp

theorem Crlf.blanks {s t : List Byte} (h : Crlf s t) : s.filter isBlank = t.filter isBlank := by
  rw [h.filter, List.filter_filter]
  congr 1; funext c
  by_cases hc : c = 13
  · subst hc; rfl
  · simp [hc]

theorem Crlf.all_ws {s t : List Byte} (h : Crlf s t) : s.all isXmlWhitespace = t.all isXmlWhitespace := by
  induction h with
  | nil => rfl
  | crlf _ ih => simp only [List.all_cons, ih]; rfl
  | char hc _ ih => rw [List.all_cons, List.all_cons, ih]

theorem Crlf.rdrop_ws {s t : List Byte} (h : Crlf s t) : Crlf (rdrop isXmlWhitespace s) (rdrop isXmlWhitespace t) := by
  induction h with
  | nil => exact .nil
  | @crlf s t h ih =>
    rw [rdrop_cons, rdrop_cons, rdrop_cons, List.all_cons, h.all_ws]
    cases hb : t.all isXmlWhitespace with
    | true => exact .nil
    | false => exact .crlf ih
  | @char c s t hc h ih =>
    rw [rdrop_cons, rdrop_cons, h.all_ws]
    split
    · split
      · exact .nil
      · exact .char hc .nil
    · exact .char hc ih

theorem scanEol_crlf (next : Byte) (L R : List Byte) (hL : LineOk L) (lnws i : Nat) :
    scanEol next (L ++ 13 :: 10 :: R) lnws i =
      (true, (if L.all isBlank then lnws else i + (rdrop isBlank L).length), i + L.length + 2) := by
  induction L generalizing lnws i with
  | nil => simp [scanEol]
  | cons c t ih =>
    obtain ⟨hc, ht⟩ := lineOk_cons hL
    have ih := ih ht
    have key : (if t.all isBlank = true then (if isBlank c = true then lnws else i + 1) else i + 1 + (rdrop isBlank t).length)
        = (if (c :: t).all isBlank = true then lnws else i + (rdrop isBlank (c :: t)).length) := by
      rw [rdrop_cons]
      by_cases h1 : t.all isBlank = true
      · by_cases h2 : isBlank c = true <;> simp [h1, h2]
      · have : ¬ (c :: t).all isBlank = true := by simp only [List.all_cons, Bool.and_eq_true, not_and]; intro _; exact h1
        rw [if_neg h1, if_neg this, if_neg h1]; simp; omega
    rw [List.cons_append, scanEol, hc]
    simp only [Bool.false_eq_true, if_false]
    rw [ih, key]; simp; omega

theorem findLine_crlf (next : Byte) (L R : List Byte) (hL : LineOk L) :
    findLine next (L ++ 13 :: 10 :: R) = ⟨true, width L, (rtrim L).length, L.length + 2⟩ := by
  have hR : (13 :: 10 :: R : List Byte) = [] ∨ ∃ c t, (13 :: 10 :: R : List Byte) = c :: t ∧ isBlank c = false :=
    .inr ⟨13, 10 :: R, rfl, rfl⟩
  obtain ⟨h1, h2⟩ := dropWhile_append_ne (L := L) hR
  have h3 := takeWhile_dropWhile_length isBlank L
  simp only [findLine, h1, h2, blankWidth_width L _ hR]
  rw [scanEol_crlf next _ R (lineOk_dropWhile hL _) 0 _]
  simp only [keep_eq, rtrim_eq]
  congr 1; omega

/-- The two texts begin with the same line. -/
theorem Crlf.line {s t : List Byte} (h : Crlf s t) :
    (s = t ∧ LineOk s) ∨
    ∃ L R R' n, LineOk L ∧ Crlf R R' ∧ t = L ++ 10 :: R' ∧ ((s = L ++ 10 :: R ∧ n = L.length + 1) ∨ (s = L ++ 13 :: 10 :: R ∧ n = L.length + 2)) := by
  induction h with
  | nil => exact .inl ⟨rfl, by simp [LineOk]⟩
  | @crlf s t h ih => exact .inr ⟨[], s, t, 2, by simp [LineOk], h, rfl, .inr ⟨rfl, rfl⟩⟩
  | @char c s t hc h ih =>
    by_cases h10 : c = 10
    · subst h10
      exact .inr ⟨[], s, t, 1, by simp [LineOk], h, rfl, .inl ⟨rfl, rfl⟩⟩
    · have hok : ∀ {L : List Byte}, LineOk L → LineOk (c :: L) := fun {L} hL =>
        ⟨by simp only [List.mem_cons, not_or]; exact ⟨fun e => h10 e.symm, hL.1⟩,
         by simp only [List.mem_cons, not_or]; exact ⟨fun e => hc e.symm, hL.2⟩⟩
      rcases ih with ⟨rfl, hl⟩ | ⟨L, R, R', n, hL, hR, e, h2⟩
      · exact .inl ⟨rfl, hok hl⟩
      · refine .inr ⟨c :: L, R, R', n + 1, hok hL, hR, by rw [e]; rfl, ?_⟩
        rcases h2 with ⟨e, rfl⟩ | ⟨e, rfl⟩
        · exact .inl ⟨by rw [e]; rfl, rfl⟩
        · exact .inr ⟨by rw [e]; rfl, rfl⟩

/-- The same with what `find_line` answers. -/
theorem Crlf.cases {s t : List Byte} (h : Crlf s t) :
    (s = t ∧ LineOk s) ∨
    ∃ L A B R R' n, LineOk L ∧ Crlf R R' ∧ Crlf A B ∧ s = L ++ A ∧ t = L ++ B ∧ s.drop n = R ∧ t.drop (L.length + 1) = R' ∧
      n ≤ s.length ∧ 0 < n ∧ L.length < n ∧ L.length + 1 ≤ t.length ∧
      (∀ next X, findLine next (s ++ X) = ⟨true, width L, (rtrim L).length, n⟩) ∧
      (∀ next X, findLine next (t ++ X) = ⟨true, width L, (rtrim L).length, L.length + 1⟩) := by
  rcases h.line with h | ⟨L, R, R', n, hL, hR, e, h2⟩
  · exact .inl h
  · subst e
    rcases h2 with ⟨rfl, rfl⟩ | ⟨rfl, rfl⟩
    · refine .inr ⟨L, _, _, R, R', L.length + 1, hL, hR, .char (by decide) hR, rfl, rfl, ?_, ?_, by simp, by omega, by omega, by simp, ?_, ?_⟩
      · rw [List.drop_append]; simp
      · rw [List.drop_append]; simp
      · intro next X; rw [List.append_assoc]; exact findLine_nl next L _ hL
      · intro next X; rw [List.append_assoc]; exact findLine_nl next L _ hL
    · refine .inr ⟨L, _, _, R, R', L.length + 2, hL, hR, .crlf hR, rfl, rfl, ?_, ?_, by simp, by omega, by omega, by simp, ?_, ?_⟩
      · rw [List.drop_append]; simp
      · rw [List.drop_append]; simp
      · intro next X; rw [List.append_assoc]; exact findLine_crlf next L _ hL
      · intro next X; rw [List.append_assoc]; exact findLine_nl next L _ hL

theorem findIncidental_nil (next : Byte) (ig : Bool) (f : Nat) (first : Bool) (inc : Option Nat) :
    findIncidental next ig f first inc [] = inc := by cases f <;> rfl

theorem copyLines_nil (next : Byte) (tail : List Byte) (ig : Bool) (inc f : Nat) (first : Bool) :
    copyLines next tail ig inc f first [] = some [] := by cases f <;> rfl

theorem findIncidental_crlf (next : Byte) (ig : Bool) : ∀ (f f' : Nat) {s t : List Byte} (first : Bool) (inc : Option Nat), Crlf s t →
    s.length ≤ f → t.length ≤ f' → findIncidental next ig f first inc s = findIncidental next ig f' first inc t
  | f, f', s, t, first, inc, h, hf, hf' => by
    match s, f, hf with
    | [], f, _ => rw [h.nil_iff.1 rfl, findIncidental_nil, findIncidental_nil]
    | c :: s, f + 1, hf =>
      match t, f', hf' with
      | [], _, _ => exact absurd (h.nil_iff.2 rfl) (by simp)
      | d :: t, f' + 1, hf' =>
        unfold findIncidental
        dsimp only
        rcases h.cases with ⟨e, hl⟩ | ⟨L, A, B, R, R', n, hL, hR, hAB, e1, e2, d1, d2, n1, n2, n3, n4, g1, g2⟩
        · rw [← e]
          simp only [findLine_last next _ hl, List.drop_length, findIncidental_nil]
        · have g1 := g1 next []
          have g2 := g2 next []
          rw [List.append_nil] at g1 g2
          simp only [g1, g2, d1, d2]
          have l1 := congrArg List.length d1
          have l2 := congrArg List.length d2
          simp only [List.length_drop, List.length_cons] at l1 l2 n1 n4 hf hf'
          exact findIncidental_crlf next ig f f' _ _ hR (by omega) (by omega)
termination_by f => f

theorem skipIncidental_blanks (n : Nat) (s : List Byte) :
    (skipIncidental n s).isSome = (skipIncidental n (s.filter isBlank)).isSome := by
  induction s generalizing n with
  | nil => rfl
  | cons c t ih =>
    cases n with
    | zero => simp [skipIncidental]
    | succ n =>
      by_cases h1 : c = 32
      · subst h1
        rw [List.filter_cons_of_pos (by rfl), skipIncidental, skipIncidental]
        simp [ih]
      · by_cases h2 : c = 9
        · subst h2
          rw [List.filter_cons_of_pos (by rfl), skipIncidental, skipIncidental]
          simp only [show ((9 : Byte) == 32) = false from rfl, show ((9 : Byte) == 9) = true from rfl, Bool.false_eq_true, if_false, if_true]
          split
          · simp [ih]
          · rfl
        · rw [List.filter_cons_of_neg (by simp [isBlank, h1, h2]), skipIncidental]
          simp [h1, h2, ih]

/-- Skipping indentation in two texts with a common beginning. -/
theorem skipIncidental_common (n : Nat) (L A B : List Byte) (h : ∀ m, (skipIncidental m A).isSome = (skipIncidental m B).isSome) :
    (∃ i, skipIncidental n (L ++ A) = some i ∧ skipIncidental n (L ++ B) = some i) ∨
    (∃ i j, skipIncidental n (L ++ A) = some i ∧ skipIncidental n (L ++ B) = some j ∧ L.length ≤ i ∧ L.length ≤ j) ∨
    (skipIncidental n (L ++ A) = none ∧ skipIncidental n (L ++ B) = none) := by
  induction L generalizing n with
  | nil =>
    have := h n
    simp only [List.nil_append]
    cases h1 : skipIncidental n A <;> cases h2 : skipIncidental n B <;> simp [h1, h2] at this ⊢
  | cons c t ih =>
    have lift : ∀ m, (skipIncidental n (c :: t ++ A) = (skipIncidental m (t ++ A)).map (· + 1)) →
        (skipIncidental n (c :: t ++ B) = (skipIncidental m (t ++ B)).map (· + 1)) →
        (∃ i, skipIncidental n (c :: t ++ A) = some i ∧ skipIncidental n (c :: t ++ B) = some i) ∨
        (∃ i j, skipIncidental n (c :: t ++ A) = some i ∧ skipIncidental n (c :: t ++ B) = some j ∧ (c :: t).length ≤ i ∧ (c :: t).length ≤ j) ∨
        (skipIncidental n (c :: t ++ A) = none ∧ skipIncidental n (c :: t ++ B) = none) := by
      intro m e1 e2
      rw [e1, e2]
      rcases ih m with ⟨i, a, b⟩ | ⟨i, j, a, b, hi, hj⟩ | ⟨a, b⟩
      · exact .inl ⟨i + 1, by rw [a]; rfl, by rw [b]; rfl⟩
      · exact .inr (.inl ⟨i + 1, j + 1, by rw [a]; rfl, by rw [b]; rfl, by simp [hi], by simp [hj]⟩)
      · exact .inr (.inr ⟨by rw [a]; rfl, by rw [b]; rfl⟩)
    cases n with
    | zero => exact .inl ⟨0, by simp [skipIncidental], by simp [skipIncidental]⟩
    | succ n =>
      by_cases h1 : c = 32
      · subst h1
        exact lift n (by rw [List.cons_append, skipIncidental]; simp) (by rw [List.cons_append, skipIncidental]; simp)
      · by_cases h2 : c = 9
        · subst h2
          by_cases h8 : n + 1 ≥ 8
          · exact lift (n + 1 - 8) (by rw [List.cons_append, skipIncidental]; simp [h8]) (by rw [List.cons_append, skipIncidental]; simp [h8])
          · exact .inl ⟨1, by rw [List.cons_append, skipIncidental]; simp [h8], by rw [List.cons_append, skipIncidental]; simp [h8]⟩
        · exact lift (n + 1) (by rw [List.cons_append, skipIncidental]; simp [h1, h2]) (by rw [List.cons_append, skipIncidental]; simp [h1, h2])

theorem copyLines_crlf (next : Byte) (T T' : List Byte) (hT : T.filter isBlank = T'.filter isBlank) (ig : Bool) (inc : Nat) :
    ∀ (f f' : Nat) {s t : List Byte} (first : Bool), Crlf s t → s.length ≤ f → t.length ≤ f' →
      copyLines next T ig inc f first s = copyLines next T' ig inc f' first t
  | f, f', s, t, first, h, hf, hf' => by
    match s, f, hf with
    | [], f, _ => rw [h.nil_iff.1 rfl, copyLines_nil, copyLines_nil]
    | c :: s, f + 1, hf =>
      match t, f', hf' with
      | [], _, _ => exact absurd (h.nil_iff.2 rfl) (by simp)
      | d :: t, f' + 1, hf' =>
        have hskip : ∀ {A B : List Byte}, Crlf A B → ∀ m, (skipIncidental m (A ++ T)).isSome = (skipIncidental m (B ++ T')).isSome := by
          intro A B hAB m
          rw [skipIncidental_blanks, skipIncidental_blanks m (B ++ T'), List.filter_append, List.filter_append, hAB.blanks, hT]
        rw [copyLines, copyLines]
        rcases h.cases with ⟨e, hl⟩ | ⟨L, A, B, R, R', n, hL, hR, hAB, e1, e2, d1, d2, n1, n2, n3, n4, g1, g2⟩
        · rw [← e]
          simp only [findLine_last next _ hl, List.drop_length, copyLines_nil, List.take_length, Bool.false_eq_true, if_false,
            Option.map_some, List.append_nil]
          have hk := rtrim_length_le (c :: s)
          cases hc : (!first || ig) with
          | false => simp
          | true =>
            simp only [if_true]
            rcases skipIncidental_common inc (c :: s) T T' (by simpa using hskip .nil) with ⟨i, a, b⟩ | ⟨i, j, a, b, hi, hj⟩ | ⟨a, b⟩
            · rw [a, b]
            · rw [a, b]
              simp only [Option.bind_some]
              have q1 : ∀ k, (c :: s).length ≤ k → ((c :: s).take (rtrim (c :: s)).length).drop k = [] := by
                intro k hk'
                apply List.drop_eq_nil_of_le
                rw [List.length_take]; omega
              rw [if_neg (by omega), if_neg (by omega), q1 i hi, q1 j hj, List.drop_eq_nil_of_le hi, List.drop_eq_nil_of_le hj]
            · rw [a, b]
        · have g1 := g1 next []
          have g2 := g2 next []
          rw [List.append_nil] at g1 g2
          simp only [g1, g2, d1, d2, if_true]
          have l1 := congrArg List.length d1
          have l2 := congrArg List.length d2
          simp only [List.length_drop, List.length_cons] at l1 l2 n1 n4 hf hf'
          rw [copyLines_crlf next T T' hT ig inc f f' false hR (by omega) (by omega)]
          have hk := rtrim_length_le L
          have ht : (c :: s).take (rtrim L).length = (d :: t).take (rtrim L).length := by
            rw [e1, e2, List.take_append_of_le_length hk, List.take_append_of_le_length hk]
          rw [ht]
          cases hc : (!first || ig) with
          | false => simp
          | true =>
            simp only [if_true]
            rw [e1, e2, List.append_assoc, List.append_assoc]
            rcases skipIncidental_common inc L (A ++ T) (B ++ T') (hskip hAB) with ⟨i, a, b⟩ | ⟨i, j, a, b, hi, hj⟩ | ⟨a, b⟩
            · rw [a, b]
            · rw [a, b]
              simp only [Option.bind_some]
              have q1 : ∀ k, L.length ≤ k → ((L ++ B).take (rtrim L).length).drop k = [] := by
                intro k hk'
                apply List.drop_eq_nil_of_le
                rw [List.length_take]; omega
              rw [q1 i hi, q1 j hj]
            · rw [a, b]
termination_by f => f

theorem trimLines_crlf {indent : Nat} {space next : Byte} {T T' s t : List Byte} {ig : Bool} {p a : Nat} {out : List Byte}
    (h : Crlf s t) (hT : T.filter isBlank = T'.filter isBlank)
    (ho : trimLines indent space next T' t ig p a = some out) : trimLines indent space next T s ig p a = some out := by
  rw [trimLines] at ho ⊢
  rw [findIncidental_crlf next ig _ _ _ _ h (Nat.le_refl _) (Nat.le_refl _)]
  cases hi : findIncidental next ig t.length true (if ig then none else some indent) t with
  | none => rw [hi] at ho; simp at ho
  | some inc =>
    rw [hi] at ho
    simp only [Option.bind_some] at ho ⊢
    rw [copyLines_crlf next T T' hT ig inc _ _ true h (Nat.le_refl _) (Nat.le_refl _)]
    cases hb : copyLines next T' ig inc t.length true t with
    | none => rw [hb] at ho; simp at ho
    | some body =>
      rw [hb] at ho
      simp only [Option.bind_some] at ho ⊢
      have := h.length_le
      generalize (if (space != 0) = true then
            List.replicate (if (!ig && decide (indent ≥ inc)) = true then indent - inc else 0) space
          else []) ++ List.replicate p b#'\n' ++ body ++ List.replicate a b#'\n' = o at ho ⊢
      by_cases hle : o.length + 1 ≤ (t.length + if (!ig && decide (indent ≥ inc)) = true then indent - inc else 0) + p + a + 1
      · rw [if_pos hle] at ho
        rw [if_pos (by omega)]
        exact ho
      · rw [if_neg hle] at ho; cases ho

theorem takeWhile_split_ws (r : List Byte) :
    r.takeWhile isXmlWhitespace = r.takeWhile (· == b#'\n') ++ (r.dropWhile (· == b#'\n')).takeWhile isXmlWhitespace := by
  induction r with
  | nil => rfl
  | cons c t ih =>
    by_cases h : c = 10
    · subst h
      simp only [List.takeWhile_cons, List.dropWhile_cons]
      simp only [show isXmlWhitespace 10 = true from rfl, show ((10 : Byte) == b#'\n') = true from rfl, if_true]
      rw [ih]; rfl
    · have : (c == b#'\n') = false := by simpa using h
      simp [this]

theorem takeWhile_nl_any (r : List Byte) : (r.takeWhile isXmlWhitespace).any (· == b#'\n') =
    (decide ((r.takeWhile (· == b#'\n')).length > 0) || ((r.dropWhile (· == b#'\n')).takeWhile isXmlWhitespace).any (· == b#'\n')) := by
  rw [takeWhile_split_ws, List.any_append]
  congr 1
  cases r with
  | nil => rfl
  | cons c t =>
    by_cases h : c = 10
    · subst h; simp [show ((10 : Byte) == b#'\n') = true from rfl]
    · have : (c == b#'\n') = false := by simpa using h
      simp [this]

theorem hasEnding_isSome (s : List Byte) : (hasEndingNlSpace s).isSome = (s.reverse.takeWhile isXmlWhitespace).any (· == b#'\n') := by
  rw [takeWhile_nl_any, hasEndingNlSpace]
  generalize decide ((s.reverse.takeWhile (· == b#'\n')).length > 0) = f
  generalize ((s.reverse.dropWhile (· == b#'\n')).takeWhile isXmlWhitespace).any (· == b#'\n') = g
  cases f <;> cases g <;> rfl

theorem hasLeading_isSome (s : List Byte) : (hasLeadingSpaceNl s).isSome = (s.takeWhile isXmlWhitespace).any (· == b#'\n') := by
  rw [takeWhile_nl_any, hasLeadingSpaceNl]
  generalize decide ((s.takeWhile (· == b#'\n')).length > 0) = f
  generalize ((s.dropWhile (· == b#'\n')).takeWhile isXmlWhitespace).any (· == b#'\n') = g
  cases f <;> cases g <;> rfl

theorem takeWhile_filter_cr (r : List Byte) :
    ((r.filter (· != 13)).takeWhile isXmlWhitespace).any (· == b#'\n') = (r.takeWhile isXmlWhitespace).any (· == b#'\n') := by
  induction r with
  | nil => rfl
  | cons c t ih =>
    by_cases h : c = 13
    · subst h
      rw [List.filter_cons_of_neg (by simp), ih, List.takeWhile_cons_of_pos (by rfl), List.any_cons]
      simp
    · rw [List.filter_cons_of_pos (by simpa using h), List.takeWhile_cons, List.takeWhile_cons]
      split
      · rw [List.any_cons, List.any_cons, ih]
      · rfl

theorem Crlf.ending {s t : List Byte} (h : Crlf s t) : (hasEndingNlSpace s).isSome = (hasEndingNlSpace t).isSome := by
  rw [hasEnding_isSome, hasEnding_isSome, h.filter, ← List.filter_reverse, takeWhile_filter_cr]

theorem Crlf.leading {s t : List Byte} (h : Crlf s t) : (hasLeadingSpaceNl s).isSome = (hasLeadingSpaceNl t).isSome := by
  rw [hasLeading_isSome, hasLeading_isSome, h.filter, takeWhile_filter_cr]

theorem leadingLines_crlf {s t : List Byte} (h : Crlf s t) : ∀ (i st i' st' n : Nat),
    (leadingLines s i st n).2 = (leadingLines t i' st' n).2 ∧
    (((leadingLines s i st n).1 = st ∧ (leadingLines t i' st' n).1 = st') ∨
     ∃ k k', (leadingLines s i st n).1 = i + k ∧ (leadingLines t i' st' n).1 = i' + k' ∧ Crlf (s.drop k) (t.drop k')) := by
  induction h with
  | nil => intro i st i' st' n; exact ⟨rfl, .inl ⟨rfl, rfl⟩⟩
  | @crlf s t h ih =>
    intro i st i' st' n
    have e1 : leadingLines (13 :: 10 :: s) i st n = leadingLines s (i + 2) (i + 2) (n + 1) := by
      rw [leadingLines, if_neg (by decide), if_neg (by decide), leadingLines, if_pos (by decide)]
    have e2 : leadingLines (10 :: t) i' st' n = leadingLines t (i' + 1) (i' + 1) (n + 1) := by
      rw [leadingLines, if_pos (by decide)]
    rw [e1, e2]
    obtain ⟨a, b⟩ := ih (i + 2) (i + 2) (i' + 1) (i' + 1) (n + 1)
    refine ⟨a, .inr ?_⟩
    rcases b with ⟨b1, b2⟩ | ⟨k, k', b1, b2, b3⟩
    · exact ⟨2, 1, b1, b2, h⟩
    · exact ⟨k + 2, k' + 1, by omega, by omega, b3⟩
  | @char c s t hc h ih =>
    intro i st i' st' n
    by_cases h10 : c = 10
    · subst h10
      rw [leadingLines, if_pos (by decide), leadingLines, if_pos (by decide)]
      obtain ⟨a, b⟩ := ih (i + 1) (i + 1) (i' + 1) (i' + 1) (n + 1)
      refine ⟨a, .inr ?_⟩
      rcases b with ⟨b1, b2⟩ | ⟨k, k', b1, b2, b3⟩
      · exact ⟨1, 1, b1, b2, h⟩
      · exact ⟨k + 1, k' + 1, by omega, by omega, b3⟩
    · have hne : (c == b#'\n') = false := by simpa using h10
      rw [leadingLines, leadingLines]
      simp only [hne, Bool.false_eq_true, if_false]
      split
      · exact ⟨rfl, .inl ⟨rfl, rfl⟩⟩
      · obtain ⟨a, b⟩ := ih (i + 1) st (i' + 1) st' n
        refine ⟨a, ?_⟩
        rcases b with ⟨b1, b2⟩ | ⟨k, k', b1, b2, b3⟩
        · exact .inl ⟨b1, b2⟩
        · exact .inr ⟨k + 1, k' + 1, by omega, by omega, b3⟩

theorem trimQuoteAt_crlf {indent : Nat} {space next : Byte} {s t out : List Byte} (h : Crlf s t)
    (ho : trimQuoteAt indent space next t = some out) : trimQuoteAt indent space next s = some out := by
  rcases h.cases with ⟨e, hl⟩ | ⟨L, A, B, R, R', n, hL, hR, hAB, e1, e2, d1, d2, n1, n2, n3, n4, g1, g2⟩
  · rw [e]; exact ho
  · rw [trimQuoteAt] at ho ⊢
    have f1 := g1 next []
    have f2 := g2 next []
    rw [List.append_nil] at f1 f2
    simp only [f1, f2, Bool.not_true, Bool.false_eq_true, if_false, h.ending] at ho ⊢
    -- what is left after removing the end
    obtain ⟨b, b', hb, eb, eb', hpre, hpre'⟩ : ∃ b b', Crlf b b' ∧
        (if (hasEndingNlSpace t).isSome = true then (s.reverse.dropWhile isXmlWhitespace).reverse else s) = b ∧
        (if (hasEndingNlSpace t).isSome = true then (t.reverse.dropWhile isXmlWhitespace).reverse else t) = b' ∧
        (∃ w, s = b ++ w) ∧ (∃ w, t = b' ++ w) := by
      split
      · refine ⟨_, _, h.rdrop_ws, rfl, rfl, ?_, ?_⟩
        · obtain ⟨w, hw, -⟩ := rdrop_split isXmlWhitespace s; exact ⟨w, hw⟩
        · obtain ⟨w, hw, -⟩ := rdrop_split isXmlWhitespace t; exact ⟨w, hw⟩
      · exact ⟨s, t, h, rfl, rfl, ⟨[], by simp⟩, ⟨[], by simp⟩⟩
    obtain ⟨w, hw⟩ := hpre
    obtain ⟨w', hw'⟩ := hpre'
    rw [eb]
    rw [eb'] at ho
    have ed : s.drop b.length = w := by rw [hw]; simp
    have ed' : t.drop b'.length = w' := by rw [hw']; simp
    rw [ed]
    rw [ed'] at ho
    have hww : w' = w.filter (· != 13) := by
      have := h.filter
      rw [hw, hw', List.filter_append, ← hb.filter] at this
      exact List.append_cancel_left this
    have hcount : w.count b#'\n' = w'.count b#'\n' := by
      rw [hww, List.count_filter (by decide)]
    rw [hcount]
    have hemp : b.isEmpty = b'.isEmpty := by
      have := hb.nil_iff
      cases b <;> cases b' <;> simp_all
    rw [hemp]
    by_cases hbe : b'.isEmpty = true
    · rw [if_pos hbe] at ho ⊢
      exact ho
    · rw [if_neg hbe] at ho ⊢
      have hblank : (w ++ [next]).filter isBlank = (w' ++ [next]).filter isBlank := by
        rw [List.filter_append, List.filter_append, hww, List.filter_filter]
        congr 2; funext c
        by_cases hc : c = 13
        · subst hc; rfl
        · simp [hc]
      have hlead := hb.leading
      cases hl' : hasLeadingSpaceNl b' with
      | none =>
        rw [hl'] at hlead ho
        have : hasLeadingSpaceNl b = none := by simpa using hlead
        rw [this]
        exact trimLines_crlf hb hblank ho
      | some v =>
        rw [hl'] at hlead ho
        obtain ⟨v', hv⟩ := Option.isSome_iff_exists.1 hlead
        rw [hv]
        dsimp only at ho ⊢
        -- the first line of what is left is the first line of the text
        have hdrop : Crlf (b.drop n) (b'.drop (L.length + 1)) := by
          rcases hb.cases with ⟨e, hl⟩ | ⟨L2, A2, B2, R2, R2', m, hL2, hR2, -, -, -, x1, x2, -, -, -, -, y1, y2⟩
          · exfalso
            have := hasLeading_isSome b
            rw [hv] at this
            simp only [Option.isSome_some] at this
            have := this.symm
            rw [List.any_eq_true] at this
            obtain ⟨x, hx, hx2⟩ := this
            have hx3 : x = 10 := by simpa using hx2
            subst hx3
            exact hl.1 ((List.takeWhile_sublist _).mem hx)
          · have y1 := y1 next w
            have y2 := y2 next w'
            rw [← hw, f1] at y1
            rw [← hw', f2] at y2
            have z1 : n = m := by simpa using congrArg LineInfo.len y1
            have z2 : L.length + 1 = L2.length + 1 := by simpa using congrArg LineInfo.len y2
            rw [z1, z2, x1, x2]; exact hR2
        obtain ⟨c1, c2⟩ := leadingLines_crlf hdrop 0 0 0 0 0
        rw [c1]
        rw [← List.drop_drop] at ho ⊢
        rcases c2 with ⟨c2, c3⟩ | ⟨k, k', c2, c3, c4⟩
        · rw [c3] at ho
          rw [c2]
          exact trimLines_crlf hdrop hblank ho
        · rw [c3, Nat.zero_add] at ho
          rw [c2, Nat.zero_add]
          exact trimLines_crlf c4 hblank ho

theorem trimQuote_crlf {indent : Nat} {space next : Byte} {s t out : List Byte} (h : Crlf s t)
    (ho : trimQuote indent space next t = some out) : trimQuote indent space next s = some out := by
  rw [trimQuote] at ho ⊢
  split at ho
  · rename_i hz
    rw [if_pos hz]
    rcases h.cases with ⟨e, hl⟩ | ⟨L, A, B, R, R', n, hL, hR, hAB, e1, e2, d1, d2, n1, n2, n3, n4, g1, g2⟩
    · subst e; exact ho
    · have f1 := g1 next []
      have f2 := g2 next []
      rw [List.append_nil] at f1 f2
      simp only [f1, f2, Bool.true_and] at ho ⊢
      have hd : (n != s.length) = (L.length + 1 != t.length) := by
        have h1 := congrArg List.length d1
        have h2 := congrArg List.length d2
        simp only [List.length_drop] at h1 h2
        have := hR.nil_iff
        rw [← List.length_eq_zero_iff, ← List.length_eq_zero_iff] at this
        by_cases hn : n = s.length
        · have : L.length + 1 = t.length := by omega
          rw [hn, this, bne_self_eq_false, bne_self_eq_false]
        · have : L.length + 1 ≠ t.length := by omega
          rw [bne_iff_ne.2 hn, bne_iff_ne.2 this]
      rw [hd]
      by_cases hne : (L.length + 1 != t.length) = true
      · rw [if_pos hne] at ho
        rw [if_pos hne, if_pos n1]
        rw [if_pos n4] at ho
        rw [d1]
        rw [d2] at ho
        have hi : (findLine next R).indent = (findLine next R').indent := by
          rcases hR.cases with ⟨e, hl⟩ | ⟨L2, A2, B2, R2, R2', m, hL2, hR2, -, -, -, x1, x2, -, -, -, -, y1, y2⟩
          · rw [e]
          · have y1 := y1 next []
            have y2 := y2 next []
            rw [List.append_nil] at y1 y2
            rw [y1, y2]
        rw [hi]
        exact trimQuoteAt_crlf h ho
      · rw [if_neg hne] at ho ⊢
        exact trimQuoteAt_crlf h ho
  · rename_i hz
    rw [if_neg hz]
    exact trimQuoteAt_crlf h ho

end Xmq
