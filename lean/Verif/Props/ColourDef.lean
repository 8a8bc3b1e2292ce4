import Verif.Spec.ColourDef
import Verif.Spec.Listing
import Verif.Props.Listing
/-!
# C80: a colour is read as it is written and shown as it was read
-/
namespace Xmq.Props
open Xmq Xmq.Spec

/-! ## Reading -/

theorem hexPart_eq (c : Byte) : hexPart c = hexDigit c := forall_byte (P := fun c => hexPart c = hexDigit c) (by decide +kernel) c

theorem hexToNumber_iff (c cc : Byte) (n : Nat) : hexToNumber c cc = some n ↔ HexPair c cc n := by
  unfold hexToNumber HexPair
  rw [hexPart_eq, hexPart_eq]
  cases h1 : hexDigit c with
  | none => simp
  | some hi =>
    cases h2 : hexDigit cc with
    | none => simp
    | some lo =>
      simp only [Option.some.injEq]
      constructor
      · rintro rfl; exact ⟨hi, lo, rfl, rfl, by omega⟩
      · rintro ⟨a, b, rfl, rfl, rfl⟩; omega

theorem contains_one (x y : Byte) : [x].contains y = (x == y) := by
  rw [List.contains_cons, List.contains_nil, Bool.or_false, Bool.beq_comm]

theorem contains_two (x z y : Byte) : [x, z].contains y = ((x == y) || (z == y)) := by
  rw [List.contains_cons, contains_one, Bool.beq_comm]

/-- What the two tests for marks leave: a text of at most two marks, a lone underscore behind at most one mark, or something else. -/
theorem marks_iff (t : List Byte) (bold underline : Bool) :
    ((colourMark t false false).bind (fun r => colourMark r.1 r.2.1 r.2.2) = some ([], bold, underline)) ↔
      ∃ marks : List Byte, marks.length ≤ 2 ∧ t = marks.flatMap (fun x => [95, x]) ∧ bold = marks.contains 66 ∧ underline = marks.contains 85 := by
  constructor
  · intro h
    rcases t with _ | ⟨a, t⟩
    · simp [colourMark] at h
      exact ⟨[], by simp, rfl, by simp [h.1], by simp [h.2]⟩
    · by_cases ha : a = 95
      · subst ha
        rcases t with _ | ⟨x, t⟩
        · simp [colourMark] at h
        · rcases t with _ | ⟨b, t⟩
          · simp [colourMark] at h
            refine ⟨[x], by simp, rfl, ?_, ?_⟩
            · rw [← h.1, contains_one]
            · rw [← h.2, contains_one]
          · by_cases hb : b = 95
            · subst hb
              rcases t with _ | ⟨y, t⟩
              · simp [colourMark] at h
              · simp [colourMark] at h
                obtain ⟨rfl, rfl, rfl⟩ := h
                exact ⟨[x, y], by simp, rfl, by rw [contains_two], by rw [contains_two]⟩
            · simp [colourMark, hb] at h
      · simp [colourMark, ha] at h
  · rintro ⟨marks, hl, rfl, rfl, rfl⟩
    match marks, hl with
    | [], _ => rfl
    | [x], _ => rw [contains_one, contains_one]; simp [colourMark]
    | [x, y], _ => rw [contains_two, contains_two]; simp [colourMark]

theorem seven {s : List Byte} (h : 7 ≤ s.length) : ∃ c0 c1 c2 c3 c4 c5 c6 t, s = c0 :: c1 :: c2 :: c3 :: c4 :: c5 :: c6 :: t := by
  match s, h with
  | c0 :: c1 :: c2 :: c3 :: c4 :: c5 :: c6 :: t, _ => exact ⟨_, _, _, _, _, _, _, _, rfl⟩

theorem short_colour {s : List Byte} (h : ¬ 7 ≤ s.length) : stringToColourDef s = some none := by
  unfold stringToColourDef
  split
  · rename_i c0 c1 c2 c3 c4 c5 c6 t
    exact absurd (by simp : 7 ≤ (c0 :: c1 :: c2 :: c3 :: c4 :: c5 :: c6 :: t).length) h
  · rfl

/-- **C80.**  Exactly what is accepted as a colour, and as which. -/
theorem C80_exact (s : List Byte) (d : ColourDef) : stringToColourDef s = some (some d) ↔ LooseColour s d := by
  constructor
  · intro h
    by_cases hl : 7 ≤ s.length
    · obtain ⟨c0, c1, c2, c3, c4, c5, c6, t, rfl⟩ := seven hl
      simp only [stringToColourDef] at h
      split at h
      · cases h
      · rename_i h0
        have h0 : c0 = 35 := by simpa using h0
        subst h0
        split at h
        · rename_i r g b h1 h2 h3
          have key : (colourMark t false false).bind (fun r => colourMark r.1 r.2.1 r.2.2) = some ([], d.bold, d.underline) ∧ d = ⟨r, g, b, d.bold, d.underline⟩ := by
            cases e1 : colourMark t false false with
            | none => rw [e1] at h; cases h
            | some x =>
              obtain ⟨t1, b1, u1⟩ := x
              rw [e1] at h
              simp only [Option.bind_some] at h ⊢
              cases e2 : colourMark t1 b1 u1 with
              | none => rw [e2] at h; cases h
              | some y =>
                obtain ⟨t2, b2, u2⟩ := y
                rw [e2] at h
                simp only at h
                split at h
                · rename_i he
                  rw [List.isEmpty_iff.1 he]
                  cases h
                  exact ⟨rfl, rfl⟩
                · cases h
          obtain ⟨marks, hl, e, hb, hu⟩ := (marks_iff t _ _).1 key.1
          rw [key.2, e, hb, hu]
          exact .mk c1 c2 c3 c4 c5 c6 r g b marks ((hexToNumber_iff _ _ _).1 h1) ((hexToNumber_iff _ _ _).1 h2) ((hexToNumber_iff _ _ _).1 h3) hl
        · cases h
    · exfalso
      rw [short_colour hl] at h
      cases h
  · rintro ⟨c1, c2, c3, c4, c5, c6, r, g, b, marks, h1, h2, h3, hl⟩
    have key := (marks_iff (marks.flatMap fun x => [95, x]) (marks.contains 66) (marks.contains 85)).2 ⟨marks, hl, rfl, rfl, rfl⟩
    simp only [stringToColourDef, (hexToNumber_iff _ _ _).2 h1, (hexToNumber_iff _ _ _).2 h2, (hexToNumber_iff _ _ _).2 h3]
    cases e1 : colourMark (marks.flatMap fun x => [95, x]) false false with
    | none => rw [e1] at key; cases key
    | some x =>
      obtain ⟨t1, b1, u1⟩ := x
      rw [e1] at key
      simp only [Option.bind_some] at key
      simp [key]

/-- Every colour as in the comment is read. -/
theorem C80_reads (s : List Byte) (d : ColourDef) (h : ColourText s d) : stringToColourDef s = some (some d) := by
  rw [C80_exact]
  obtain ⟨c1, c2, c3, c4, c5, c6, r, g, b, bold, underline, h1, h2, h3⟩ := h
  cases bold <;> cases underline
  · exact .mk c1 c2 c3 c4 c5 c6 r g b [] h1 h2 h3 (by decide)
  · exact .mk c1 c2 c3 c4 c5 c6 r g b [85] h1 h2 h3 (by decide)
  · exact .mk c1 c2 c3 c4 c5 c6 r g b [66] h1 h2 h3 (by decide)
  · exact .mk c1 c2 c3 c4 c5 c6 r g b [66, 85] h1 h2 h3 (by decide)

/-- The text is read beyond its end exactly if an underscore ends it where a mark may begin. -/
theorem C80_beyond (s : List Byte) : stringToColourDef s = none ↔
    ∃ c1 c2 c3 c4 c5 c6 r g b, ∃ marks : List Byte, HexPair c1 c2 r ∧ HexPair c3 c4 g ∧ HexPair c5 c6 b ∧ marks.length ≤ 1 ∧
      s = 35 :: c1 :: c2 :: c3 :: c4 :: c5 :: c6 :: (marks.flatMap (fun x => [95, x]) ++ [95]) := by
  constructor
  · intro h
    by_cases hl : 7 ≤ s.length
    · obtain ⟨c0, c1, c2, c3, c4, c5, c6, t, rfl⟩ := seven hl
      simp only [stringToColourDef] at h
      split at h
      · cases h
      · rename_i h0
        have h0 : c0 = 35 := by simpa using h0
        subst h0
        split at h
        · rename_i r g b h1 h2 h3
          refine ⟨c1, c2, c3, c4, c5, c6, r, g, b, ?_⟩
          have key : ∃ marks : List Byte, marks.length ≤ 1 ∧ t = marks.flatMap (fun x => [95, x]) ++ [95] := by
            rcases t with _ | ⟨a, t⟩
            · simp [colourMark] at h
            · by_cases ha : a = 95
              · subst ha
                rcases t with _ | ⟨x, t⟩
                · exact ⟨[], by simp, rfl⟩
                · rcases t with _ | ⟨y, t⟩
                  · simp [colourMark] at h
                  · by_cases hy : y = 95
                    · subst hy
                      rcases t with _ | ⟨z, t⟩
                      · exact ⟨[x], by simp, rfl⟩
                      · simp only [colourMark, beq_self_eq_true, if_true] at h
                        split at h <;> cases h
                    · simp [colourMark, hy] at h
              · simp [colourMark, ha] at h
          obtain ⟨marks, h4, rfl⟩ := key
          exact ⟨marks, (hexToNumber_iff _ _ _).1 h1, (hexToNumber_iff _ _ _).1 h2, (hexToNumber_iff _ _ _).1 h3, h4, rfl⟩
        · cases h
    · exfalso
      rw [short_colour hl] at h
      cases h
  · rintro ⟨c1, c2, c3, c4, c5, c6, r, g, b, marks, h1, h2, h3, hl, rfl⟩
    simp only [stringToColourDef, (hexToNumber_iff _ _ _).2 h1, (hexToNumber_iff _ _ _).2 h2, (hexToNumber_iff _ _ _).2 h3]
    match marks, hl with
    | [], _ => rfl
    | [x], _ => simp [colourMark]

/-- **C80** for reading: a text is a colour or is refused. -/
def ReadsColours : Prop := ∀ s, ∃ o, stringToColourDef s = some o ∧ ∀ d, o = some d ↔ ColourText s d

/-- False: the text is read beyond its end. -/
theorem C80_false_beyond : stringToColourDef b#"#aabbcc_" = none := by decide +kernel

/-- False: any letter is taken for a mark. -/
theorem C80_false_letter : stringToColourDef b#"#aabbcc_X" = some (some ⟨170, 187, 204, false, false⟩) ∧ ¬ ColourText b#"#aabbcc_X" ⟨170, 187, 204, false, false⟩ := by
  refine ⟨by decide +kernel, fun h => ?_⟩
  generalize e : (b#"#aabbcc_X" : List Byte) = s at h
  generalize e' : (⟨170, 187, 204, false, false⟩ : ColourDef) = d at h
  cases h with
  | mk c1 c2 c3 c4 c5 c6 r g b bold underline => cases e'; cases e

theorem C80_false : ¬ ReadsColours := by
  intro h
  obtain ⟨o, h1, _⟩ := h b#"#aabbcc_"
  rw [C80_false_beyond] at h1
  cases h1

/-! ## The terminal -/

theorem sgrNumbers_digits (ds t : List Byte) (n : Nat) (h : ∀ d ∈ ds, 48 ≤ d ∧ d ≤ 57) :
    Spec.sgrNumbers n (ds ++ t) = Spec.sgrNumbers (ds.foldl (fun n d => 10 * n + (d.toNat - 48)) n) t := by
  induction ds generalizing n with
  | nil => rfl
  | cons c ds ih =>
    have hc := h c (by simp)
    have h1 : c ≠ 109 := by rintro rfl; exact absurd hc.2 (by decide)
    have h2 : c ≠ 59 := by rintro rfl; exact absurd hc.2 (by decide)
    rw [List.cons_append, sgrNumbers, if_neg h1, if_neg h2,
      if_pos ⟨UInt8.le_iff_toNat_le.1 hc.1, Nat.lt_succ_of_le (UInt8.le_iff_toNat_le.1 hc.2)⟩, ih _ fun d hd => h d (by simp [hd]), Nat.mul_comm]
    rfl

theorem sgrNumbers_decimal (n : Nat) (t : List Byte) : sgrNumbers 0 (decimal n ++ t) = sgrNumbers n t := by
  have h := isDecimal_digits n
  rw [decimal, sgrNumbers_digits _ _ _ h.2.1]
  have := h.2.2
  unfold decNumber at this
  rw [this]

theorem sgrNumbers_semi (n : Nat) (t : List Byte) : sgrNumbers n (59 :: t) = (sgrNumbers 0 t).map (n :: ·) := by
  rw [sgrNumbers, if_neg (by decide), if_pos rfl]

theorem sgrNumbers_m (n : Nat) : sgrNumbers n [109] = some [n] := by rw [sgrNumbers, if_pos rfl, if_pos rfl]

theorem printInt_nat (n : Nat) : printInt n = decimal n := by
  unfold printInt decimal
  rw [if_neg (by omega)]
  simp

/-- A terminal shows the colour, whatever it has shown before. -/
theorem C80_terminal (d : ColourDef) (p : Pen) : penAfter p (generateAnsiColour d) = some ⟨d.bold, d.underline, some (d.r, d.g, d.b)⟩ := by
  obtain ⟨r, g, b, bold, underline⟩ := d
  have key : sgrNumbers 0 (b#"38;2;" ++ decimal r ++ [b#';'] ++ decimal g ++ [b#';'] ++ decimal b ++ [b#'m']) = some [38, 2, r, g, b] := by
    simp only [List.append_assoc]
    have e : ∀ t : List Byte, sgrNumbers 0 (b#"38;2;" ++ t) = (sgrNumbers 0 t).map fun l => 38 :: 2 :: l := by
      intro t
      have e1 := sgrNumbers_digits b#"38" (59 :: 50 :: 59 :: t) 0 (by decide)
      have e2 := sgrNumbers_digits b#"2" (59 :: t) 0 (by decide)
      rw [sgrNumbers_semi] at e1 e2
      have e1' : sgrNumbers 0 (b#"38;2;" ++ t) = (sgrNumbers 0 (b#"2" ++ 59 :: t)).map (38 :: ·) := e1
      have e2' : sgrNumbers 0 (b#"2" ++ 59 :: t) = (sgrNumbers 0 t).map (2 :: ·) := e2
      rw [e1', e2', Option.map_map]
      rfl
    rw [e]
    simp only [List.cons_append, List.nil_append]
    rw [sgrNumbers_decimal, sgrNumbers_semi, sgrNumbers_decimal, sgrNumbers_semi, sgrNumbers_decimal, sgrNumbers_m]
    rfl
  have step : ∀ (x : Byte) (n : Nat) (t : List Byte), 48 ≤ x ∧ x ≤ 57 → n = x.toNat - 48 → sgrNumbers 0 (x :: 59 :: t) = (sgrNumbers 0 t).map (n :: ·) := by
    intro x n t hx hn
    have := sgrNumbers_digits [x] (59 :: t) 0 (by simpa using hx)
    rw [List.singleton_append] at this
    rw [this, sgrNumbers_semi, hn]
    simp
  cases bold <;> cases underline
  all_goals
    simp only [generateAnsiColour, ansiColor, printInt_nat, Bool.false_eq_true, if_false, if_true, List.append_nil, List.append_assoc, List.cons_append, List.nil_append, penAfter, sgr]
    simp only [List.append_assoc, List.cons_append, List.nil_append] at key
    rw [step 48 0 _ (by decide) (by decide)]
    try rw [step 49 1 _ (by decide) (by decide)]
    try rw [step 52 4 _ (by decide) (by decide)]
    rw [key]
    rfl

/-- The sequence fits into the 32 bytes that are asked for. -/
theorem C80_ansi_fits (d : ColourDef) (hr : d.r < 256) (hg : d.g < 256) (hb : d.b < 256) : (generateAnsiColour d).length + 1 ≤ 32 := by
  have h : ∀ n < 256, (decimal n).length ≤ 3 := fun n hn => decDigits_short _ _ 3 (by omega) (by decide)
  have h1 := h _ hr
  have h2 := h _ hg
  have h3 := h _ hb
  unfold generateAnsiColour ansiColor
  simp only [printInt_nat]
  have a : (if d.bold then b#"1;" else ([] : List Byte)).length ≤ 2 := by cases d.bold <;> decide
  have c : (if d.underline then b#"4;" else ([] : List Byte)).length ≤ 2 := by cases d.underline <;> decide
  have e : (b#"38;2;" : List Byte).length = 5 := rfl
  simp only [List.length_append, List.length_cons, List.length_nil, e]
  omega

/-- What has been read as a colour has parts below 256. -/
theorem C80_parts (s : List Byte) (d : ColourDef) (h : stringToColourDef s = some (some d)) : d.r < 256 ∧ d.g < 256 ∧ d.b < 256 := by
  have digit : ∀ c v, hexDigit c = some v → v < 16 := by
    intro c v hc
    have := forall_byte (P := fun c => ∀ v ∈ hexDigit c, v < 16) (by decide +kernel) c
    exact this v (by rw [hc]; rfl)
  have pair : ∀ c cc n, HexPair c cc n → n < 256 := by
    rintro c cc n ⟨hi, lo, h1, h2, rfl⟩
    have := digit _ _ h1
    have := digit _ _ h2
    omega
  obtain ⟨c1, c2, c3, c4, c5, c6, r, g, b, marks, h1, h2, h3, _⟩ := (C80_exact s d).1 h
  exact ⟨pair _ _ _ h1, pair _ _ _ h2, pair _ _ _ h3⟩

/-! ## The style sheet -/

theorem upTo_append {x : Byte} {a t : List Byte} (h : x ∉ a) : upTo x (a ++ x :: t) = some (a, t) := by
  induction a with
  | nil => rw [List.nil_append, upTo, if_pos rfl]
  | cons c a ih =>
    simp only [List.mem_cons, not_or] at h
    rw [List.cons_append, upTo, if_neg fun e => h.1 e.symm, ih h.2]
    rfl

theorem Declarations.unique {t : List Byte} {ds ds' : List (List Byte × List Byte)} {r r' : List Byte} (h : Declarations t ds r)
    (h' : Declarations t ds' r') : ds = ds' ∧ r = r' := by
  induction h generalizing ds' r' with
  | done r =>
    generalize e : (125 :: r : List Byte) = t at h'
    cases h' with
    | done r'' => exact ⟨rfl, (List.cons.inj e).2⟩
    | one t p v u w r ds hne => exact absurd (by rw [← e]; rfl) hne
  | one t p v u w r ds hne h1 h2 _ ih =>
    cases h' with
    | done r'' => exact absurd rfl hne
    | one _ p' v' u' w' _ ds' _ h1' h2' hd =>
      rw [h1] at h1'
      obtain ⟨rfl, rfl⟩ := Prod.mk.inj (Option.some.inj h1')
      rw [h2] at h2'
      obtain ⟨rfl, rfl⟩ := Prod.mk.inj (Option.some.inj h2')
      obtain ⟨rfl, rfl⟩ := ih hd
      exact ⟨rfl, rfl⟩

/-- A style sheet can be read in one way only. -/
theorem C80_sheet_unique {s : List Byte} {a b : List (List Byte × List (List Byte × List Byte))} (h : Sheet s a) (h' : Sheet s b) : a = b := by
  induction h generalizing b with
  | nil =>
    generalize e : ([] : List Byte) = s at h'
    cases h' with
    | nil => rfl
    | cons s sel t r ds rules h1 => rw [← e] at h1; cases h1
  | cons s sel t r ds rules h1 h2 _ ih =>
    cases h' with
    | nil => cases h1
    | cons _ sel' t' r' ds' rules' h1' h2' h3' =>
      rw [h1] at h1'
      obtain ⟨rfl, rfl⟩ := Prod.mk.inj (Option.some.inj h1')
      obtain ⟨rfl, rfl⟩ := Declarations.unique h2 h2'
      rw [ih h3']

theorem hexChar_digit : ∀ n < 16, hexDigit (hexChar n) = some n ∧ hexChar n ≠ 59 ∧ hexChar n ≠ 58 := by decide +kernel

theorem hexTwo_pair (n : Nat) (h : n < 256) : HexPair (hexChar (n / 16)) (hexChar (n % 16)) n :=
  ⟨n / 16, n % 16, (hexChar_digit _ (by omega)).1, (hexChar_digit _ (by omega)).1, by omega⟩

/-- The declarations written for a colour. -/
def cssOf (d : ColourDef) : List (List Byte × List Byte) :=
  (b#"color", b#"#" ++ hexTwo d.r ++ hexTwo d.g ++ hexTwo d.b) :: ((if d.bold then [(b#"font-weight", b#"600")] else []) ++
    (if d.underline then [(b#"text-decoration", b#"underline")] else []))

theorem css_shows (d : ColourDef) (hr : d.r < 256) (hg : d.g < 256) (hb : d.b < 256) : ShowsCss (cssOf d) d := by
  obtain ⟨r, g, b, bold, underline⟩ := d
  have h1 := hexTwo_pair r hr
  have h2 := hexTwo_pair g hg
  have h3 := hexTwo_pair b hb
  cases bold <;> cases underline <;> exact ⟨⟨_, _, _, _, _, _, rfl, h1, h2, h3⟩, rfl, rfl⟩

theorem css_written (d : ColourDef) (name rest : List Byte) (rules : List (List Byte × List (List Byte × List Byte))) (hn : 123 ∉ name)
    (hr : d.r < 256) (hg : d.g < 256) (hb : d.b < 256) (h : Sheet rest rules) : Sheet (generateHtmlColour d name ++ rest) ((name, cssOf d) :: rules) := by
  obtain ⟨r, g, b, bold, underline⟩ := d
  simp only at hr hg hb
  have nosemi : (59 : Byte) ∉ b#"#" ++ hexTwo r ++ hexTwo g ++ hexTwo b := by
    have k : ∀ n < 256, hexChar (n / 16) ≠ 59 ∧ hexChar (n % 16) ≠ 59 := fun n hn => ⟨(hexChar_digit _ (by omega)).2.1, (hexChar_digit _ (by omega)).2.1⟩
    have k1 := k r hr
    have k2 := k g hg
    have k3 := k b hb
    simp [hexTwo, k1.1.symm, k1.2.symm, k2.1.symm, k2.2.symm, k3.1.symm, k3.2.symm]
  have last : Declarations ((if underline = true then b#"text-decoration:underline;" else []) ++ 125 :: rest)
      (if underline = true then [(b#"text-decoration", b#"underline")] else []) rest := by
    cases underline
    · exact .done _
    · refine .one _ b#"text-decoration" b#"underline" (b#"underline" ++ 59 :: 125 :: rest) (125 :: rest) _ _ (by simp) ?_ ?_ (.done _)
      · exact upTo_append (a := b#"text-decoration") (by decide)
      · exact upTo_append (by decide)
  have middle : Declarations ((if bold = true then b#"font-weight:600;" else []) ++ ((if underline = true then b#"text-decoration:underline;" else []) ++ 125 :: rest))
      ((if bold = true then [(b#"font-weight", b#"600")] else []) ++ (if underline = true then [(b#"text-decoration", b#"underline")] else [])) rest := by
    cases bold
    · exact last
    · refine .one _ b#"font-weight" b#"600" (b#"600" ++ 59 :: ((if underline = true then b#"text-decoration:underline;" else []) ++ 125 :: rest)) _ _ _ (by simp) ?_ ?_ last
      · exact upTo_append (a := b#"font-weight") (by decide)
      · exact upTo_append (by decide)
  refine .cons _ name (b#"color:" ++ ((b#"#" ++ hexTwo r ++ hexTwo g ++ hexTwo b) ++ 59 :: ((if bold = true then b#"font-weight:600;" else []) ++
    ((if underline = true then b#"text-decoration:underline;" else []) ++ 125 :: rest)))) rest _ rules ?_ ?_ h
  · have := upTo_append (t := b#"color:" ++ ((b#"#" ++ hexTwo r ++ hexTwo g ++ hexTwo b) ++ 59 :: ((if bold = true then b#"font-weight:600;" else []) ++
      ((if underline = true then b#"text-decoration:underline;" else []) ++ 125 :: rest)))) hn
    rw [← this]
    simp [generateHtmlColour]
  · refine .one _ b#"color" _ _ _ _ _ (by simp) ?_ (upTo_append nosemi) middle
    exact upTo_append (a := b#"color") (by decide)

/-- The rules written for any colours and names are a style sheet in which each name has its colour. -/
theorem C80_sheet (ps : List (ColourDef × List Byte)) (h : ∀ p ∈ ps, p.1.r < 256 ∧ p.1.g < 256 ∧ p.1.b < 256 ∧ 123 ∉ p.2) :
    ∃ rules, Sheet ((ps.map fun p => generateHtmlColour p.1 p.2).flatten) rules ∧ rules.map (·.1) = ps.map (·.2) ∧
      ∀ x ∈ rules.zip ps, ShowsCss x.1.2 x.2.1 := by
  induction ps with
  | nil => exact ⟨[], .nil, rfl, by simp⟩
  | cons p ps ih =>
    obtain ⟨rules, h1, h2, h3⟩ := ih fun q hq => h q (by simp [hq])
    obtain ⟨hr, hg, hb, hn⟩ := h p (by simp)
    refine ⟨(p.2, cssOf p.1) :: rules, ?_, by simp [h2], ?_⟩
    · simpa using css_written p.1 p.2 _ rules hn hr hg hb h1
    · intro x hx
      simp only [List.zip_cons_cons, List.mem_cons] at hx
      rcases hx with rfl | hx
      · exact css_shows p.1 hr hg hb
      · exact h3 x hx

/-- A rule fits into the 128 bytes of `setup_html_coloring`, for names of up to 69 bytes. -/
theorem C80_html_fits (d : ColourDef) (name : List Byte) (hn : name.length ≤ 69) : (generateHtmlColour d name).length + 1 ≤ 128 := by
  unfold generateHtmlColour
  have a : (if d.bold then b#"font-weight:600;" else ([] : List Byte)).length ≤ 16 := by cases d.bold <;> decide
  have c : (if d.underline then b#"text-decoration:underline;" else ([] : List Byte)).length ≤ 26 := by cases d.underline <;> decide
  have e : (b#"{color:#" : List Byte).length = 8 := rfl
  simp only [List.length_append, List.length_cons, List.length_nil, hexTwo, e]
  omega

/-- What the test at the beginning of `generate_html_color` promises: 64 bytes are enough for the names in use. -/
def HtmlFits64 : Prop := ∀ d name, name ∈ colourNames → (generateHtmlColour d name).length + 1 ≤ 64

/-- False: `xmqEKV` in bold and underlined needs 65 bytes. -/
theorem C80_false_html_size : ¬ HtmlFits64 := by
  intro h
  have := h ⟨0, 0, 0, true, true⟩ b#"xmqEKV" (by decide)
  revert this
  decide +kernel

/-! ## TeX -/

/-- The command defines the colour. -/
theorem C80_tex (d : ColourDef) (name : List Byte) (hr : d.r < 256) (hg : d.g < 256) (hb : d.b < 256) (hn : name.length ≤ 93) :
    ∃ r g b, IsDecimal r d.r ∧ IsDecimal g d.g ∧ IsDecimal b d.b ∧
      generateTexColour 128 d name = b#"\\definecolor{" ++ name ++ b#"}{RGB}{" ++ r ++ b#"," ++ g ++ b#"," ++ b ++ b#"}" := by
  refine ⟨decimal d.r, decimal d.g, decimal d.b, isDecimal_digits _, isDecimal_digits _, isDecimal_digits _, ?_⟩
  have h : ∀ n < 256, (decimal n).length ≤ 3 := fun n hn => decDigits_short _ _ 3 (by omega) (by decide)
  have h1 := h _ hr
  have h2 := h _ hg
  have h3 := h _ hb
  unfold generateTexColour
  have e1 : (b#"\\definecolor{" : List Byte).length = 13 := rfl
  have e2 : (b#"}{RGB}{" : List Byte).length = 7 := rfl
  rw [List.take_of_length_le (by simp only [List.length_append, List.length_cons, List.length_nil, e1, e2]; omega)]

/-! ## The themes -/

/-- All colours of the two themes are colours, and there is one for each name. -/
theorem C80_themes : (∀ s ∈ darkColours ++ lightColours, ∃ d, stringToColourDef s = some (some d)) ∧ darkColours.length = colourNames.length ∧
    lightColours.length = colourNames.length ∧ ∀ n ∈ colourNames, 123 ∉ n ∧ n.length ≤ 6 := by
  refine ⟨fun s hs => ?_, rfl, rfl, by decide⟩
  have : ∀ s ∈ darkColours ++ lightColours, (match stringToColourDef s with | some (some _) => true | _ => false) = true := by decide +kernel
  have := this s hs
  split at this
  · rename_i d e; exact ⟨d, e⟩
  · cases this

example : ColourText b#"#26a269_B" ⟨0x26, 0xa2, 0x69, true, false⟩ :=
  .mk 50 54 97 50 54 57 0x26 0xa2 0x69 true false ⟨2, 6, by decide, by decide, by decide⟩ ⟨10, 2, by decide, by decide, by decide⟩ ⟨6, 9, by decide, by decide, by decide⟩

example : generateAnsiColour ⟨38, 162, 105, true, false⟩ = [27] ++ b#"[0;1;38;2;38;162;105m" := by decide +kernel
example : generateHtmlColour ⟨38, 162, 105, true, false⟩ b#"xmqQ" = b#"xmqQ{color:#26a269;font-weight:600;}" := by decide +kernel
example : generateTexColour 128 ⟨38, 162, 105, true, false⟩ b#"xmqQ" = b#"\\definecolor{xmqQ}{RGB}{38,162,105}" := by decide +kernel
example : stringToColourDef b#"#26a269_U_B" = some (some ⟨38, 162, 105, true, true⟩) := by decide +kernel

end Xmq.Props
