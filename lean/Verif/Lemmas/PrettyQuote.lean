import Verif.Lemmas.PrintCompact
/-!
# Quotes of several lines as the pretty printer writes them
-/
namespace Xmq
open Spec

variable {S : Prop}

/-! ## Lines with blank lines around them -/

theorem tidy_id : ∀ (ls : List (List Byte)), (∀ l ∈ ls.dropLast, rtrim l = l) → tidy ls = ls
  | [], _ => rfl
  | [_], _ => rfl
  | l :: m :: t, h => by
    rw [tidy, h l (by simp), tidy_id (m :: t) (fun x hx => h x (by simp at hx ⊢; exact .inr hx))]

theorem minWidth_zero (ls : List (List Byte)) : minWidth 0 ls = 0 := by
  have := (minWidth_le 0 ls).1
  omega

theorem dropBlankEnd_blank (ls qs : List (List Byte)) (h : ∀ l ∈ qs, BlankLine l = true) :
    dropBlankEnd (ls ++ qs) = dropBlankEnd ls := by
  unfold dropBlankEnd
  rw [List.reverse_append, List.dropWhile_append_of_pos (by simpa using h)]

theorem dropBlankEnd_id {ls : List (List Byte)} (h : EndsSolid ls) : dropBlankEnd ls = ls := by
  obtain ⟨l, hl, hb⟩ := h
  unfold dropBlankEnd
  rw [← List.head?_reverse] at hl
  cases hr : ls.reverse with
  | nil => rw [hr] at hl; cases hl
  | cons x t =>
    rw [hr] at hl; simp at hl; subst hl
    rw [List.dropWhile_cons, if_neg (by simp [hb]), ← hr, List.reverse_reverse]

theorem cut_zero (l : List Byte) : cut 0 l = l := by unfold cut; rfl

theorem endsSolid_append {ps ms : List (List Byte)} (h : EndsSolid ms) : EndsSolid (ps ++ ms) := by
  obtain ⟨l, hl, hb⟩ := h
  exact ⟨l, by rw [List.getLast?_append, hl]; rfl, hb⟩

theorem rtrimLast_id {ls : List (List Byte)} (hne : ls ≠ []) (h : ∀ l, ls.getLast? = some l → rtrim l = l) : rtrimLast ls = ls := by
  unfold rtrimLast
  cases hl : ls.getLast? with
  | none => simp at hl; exact absurd hl hne
  | some l =>
    dsimp only
    rw [h l hl]
    rcases List.eq_nil_or_concat ls with rfl | ⟨i, x, rfl⟩
    · exact absurd rfl hne
    · simp at hl ⊢; exact hl.symm

/-- What removing indentation does to lines that need no change, with blank lines before and behind them. -/
theorem dedent_solid (n0 : Nat) (P Q : List (List Byte)) (a : List Byte) (t : List (List Byte)) (hP : ∀ l ∈ P, BlankLine l = true)
    (hQ : ∀ l ∈ Q, BlankLine l = true) (ha : BlankLine a = false) (hs : EndsSolid (a :: t))
    (ht : ∀ l ∈ (a :: t).dropLast, rtrim l = l) (hlast : Q ≠ [] → ∀ l, (a :: t).getLast? = some l → rtrim l = l)
    (hn : P = [] → n0 = 0) (hw : P ≠ [] → width a = 0) :
    dedent [32] n0 (P ++ (a :: t) ++ Q) = List.replicate (P.length - 1) 10 ++ unlines (a :: t) ++ List.replicate (Q.length - 1) 10 := by
  have hcore : dropBlankEnd (P ++ (a :: t) ++ Q) = P ++ (a :: t) := by
    rw [dropBlankEnd_blank _ _ hQ, dropBlankEnd_id (endsSolid_append hs)]
  have hlen : (P ++ (a :: t) ++ Q).length - (P ++ (a :: t)).length = Q.length := by simp; omega
  rw [dedent, hcore, hlen]
  have hif : (if Q.length = 0 then P ++ (a :: t) else rtrimLast (P ++ (a :: t))) = P ++ (a :: t) := by
    split
    · rfl
    · rename_i hq
      refine rtrimLast_id (by simp) (fun l hl => hlast (by rintro rfl; exact hq rfl) l ?_)
      rw [List.getLast?_append] at hl
      cases hg : (a :: t).getLast? with
      | none => simp at hg
      | some x => rw [hg] at hl; exact hl
  simp only [hif]
  cases P with
  | nil =>
    have hz := hn rfl
    subst hz
    simp only [List.nil_append, ha, Bool.false_eq_true, if_false, minWidth_zero]
    have : t.map (cut 0) = t := by
      rw [List.map_congr_left (g := id) (fun x _ => cut_zero x), List.map_id]
    rw [this, tidy_id _ ht]
    simp
  | cons p P =>
    simp only [List.cons_append, hP p (by simp), if_true]
    have hdw : (P ++ a :: t).dropWhile BlankLine = a :: t := by
      rw [List.dropWhile_append_of_pos (fun l hl => hP l (by simp [hl])), List.dropWhile_cons, if_neg (by simp [ha])]
    have hw0 := hw (by simp)
    rw [hdw]
    simp only [List.headD_cons, hw0, minWidth_zero]
    have : (a :: t).map (cut 0) = a :: t := by
      rw [List.map_congr_left (g := id) (fun x _ => cut_zero x), List.map_id]
    rw [this, tidy_id _ ht]
    simp

/-- Only blank lines. -/
theorem dedent_blank (n0 : Nat) (ls : List (List Byte)) (h : ∀ l ∈ ls, BlankLine l = true) :
    dedent [32] n0 ls = List.replicate (ls.length - 2) 10 := by
  have : dropBlankEnd ls = [] := by
    have := dropBlankEnd_blank [] ls h
    simpa [dropBlankEnd] using this
  rw [dedent, this]
  simp [rtrimLast]

/-! ## What is printed -/

/-- A line as it is printed behind the first one: moved to the right unless it is empty. -/
def ind (n : Nat) (l : List Byte) : List Byte := if l = [] then [] else List.replicate n 32 ++ l

theorem unlines_prefix (x a : List Byte) (t : List (List Byte)) : unlines ((x ++ a) :: t) = x ++ unlines (a :: t) := by
  cases t with
  | nil => simp [unlines_single]
  | cons b t => simp [unlines_cons]

theorem splitLines_head {s a : List Byte} {t : List (List Byte)} (h : splitLines s = a :: t) : a = [] ↔ s = [] ∨ s.head? = some 10 := by
  cases s with
  | nil => simp [splitLines] at h; simp [h.1]
  | cons c s =>
    rw [splitLines] at h
    split at h
    · rename_i hc; subst hc; simp at h; simp [h.1]
    · rename_i hc
      constructor
      · rintro rfl
        split at h <;> simp at h
      · intro h'; simp at h'; exact absurd h' hc

theorem quoteLoop_lines (cfg : OutCfg) (hsp : cfg.indentationSpace = [32]) (b : Bool) (ps : PS) (s : List Byte) :
    ∃ a t, splitLines s = a :: t ∧ (PS.quoteLoop cfg b ps s).out = ps.out ++ unlines (a :: t.map (ind ps.line)) ∧
      (PS.quoteLoop cfg b ps s).line = ps.line := by
  induction s generalizing b ps with
  | nil => exact ⟨[], [], rfl, by simp [PS.quoteLoop, unlines_single], rfl⟩
  | cons c s ih =>
    rw [PS.quoteLoop]
    by_cases h10 : c = 10
    · subst h10
      rw [if_neg (by cases b <;> decide), if_pos (by decide)]
      obtain ⟨a, t, hs, ho, hl⟩ := ih false (if (!s.isEmpty && peek s != 10) = true then ps.nlIndent cfg else ps.nl)
      refine ⟨[], a :: t, by rw [splitLines, if_pos rfl, hs], ?_, ?_⟩
      · have hline : (if (!s.isEmpty && peek s != 10) = true then ps.nlIndent cfg else ps.nl).line = ps.line := by
          split <;> rfl
        rw [hline] at ho
        rw [ho, List.map_cons, unlines_cons, List.nil_append]
        split
        · rename_i hc
          simp only [Bool.and_eq_true, Bool.not_eq_true', List.isEmpty_eq_false_iff, bne_iff_ne, ne_eq] at hc
          have ha : a ≠ [] := by
            intro ha
            rcases (splitLines_head hs).1 ha with h | h
            · exact hc.1 h
            · obtain ⟨u, rfl⟩ := head_cons h
              exact hc.2 rfl
          rw [nlIndent_eq _ _ hsp, ind, if_neg ha, unlines_prefix]
          simp
        · rename_i hc
          have ha : a = [] := by
            rw [splitLines_head hs]
            cases s with
            | nil => exact .inl rfl
            | cons x s => simp at hc; right; simp [hc]
          subst ha
          simp [PS.nl, ind]
      · rw [hl]; split <;> rfl
    · have step : ∀ p : PS, p.out = ps.out ++ [c] → p.line = ps.line →
          ∃ a t, splitLines (c :: s) = a :: t ∧ (PS.quoteLoop cfg true p s).out = ps.out ++ unlines (a :: t.map (ind ps.line)) ∧
            (PS.quoteLoop cfg true p s).line = ps.line := by
        intro p hpo hpl
        obtain ⟨a, t, hs, ho, hl⟩ := ih true p
        refine ⟨c :: a, t, by rw [splitLines, if_neg h10, hs], ?_, by rw [hl, hpl]⟩
        rw [ho, hpo, hpl, show c :: a = [c] ++ a from rfl, unlines_prefix]
        simp
      split
      · exact step _ rfl rfl
      · rw [if_neg (by simpa using h10)]
        exact step _ rfl rfl

/-- The lines printed for a text inside of a quote, `n` being the indentation of the lines. -/
theorem quoteLines_lines (cfg : OutCfg) (hsp : cfg.indentationSpace = [32]) (ps : PS) (s : List Byte) (hst : NoStray s) :
    ∃ a t, splitLines s = a :: t ∧ (ps.quoteLines cfg s).line = ps.line ∧ (ps.quoteLines cfg s).out = ps.out ++ unlines
      ((if s.head? = some 10 then [[]] else []) ++
        (if s.getLast? = some 10 then (if s.all (· == 10) then (a :: t.map (ind ps.line)).dropLast else a :: t.map (ind ps.line)) ++
          [List.replicate (ps.line - 1) 32] else a :: t.map (ind ps.line))) := by
  obtain ⟨a, t, hs, ho, hl⟩ := quoteLoop_lines cfg hsp false (if peek s == 10 then ps.nl else ps) s
  have hline : (if (peek s == 10) = true then ps.nl else ps).line = ps.line := by split <;> rfl
  rw [hline] at ho hl
  have hpk : (peek s == 10) = true ↔ s.head? = some 10 := by
    cases s with
    | nil => simp [peek]
    | cons c s => simp
  refine ⟨a, t, hs, ?_, ?_⟩
  · unfold PS.quoteLines
    rw [hst.keep]
    dsimp only
    split
    · exact hl
    · exact hl
  · have hpre : ∀ r : List (List Byte), r ≠ [] → unlines ((if s.head? = some 10 then [[]] else []) ++ r) =
        (if s.head? = some 10 then [10] else []) ++ unlines r := by
      intro r hr
      split
      · cases r with
        | nil => exact absurd rfl hr
        | cons x r => simp [unlines_cons]
      · simp
    have hq : (PS.quoteLoop cfg false (if peek s == 10 then ps.nl else ps) s).out =
        ps.out ++ ((if s.head? = some 10 then [10] else []) ++ unlines (a :: t.map (ind ps.line))) := by
      rw [ho, ← List.append_assoc]
      congr 1
      by_cases h : s.head? = some 10
      · rw [if_pos (hpk.2 h), if_pos h]; rfl
      · rw [if_neg (fun h' => h (hpk.1 h')), if_neg h]; simp
    unfold PS.quoteLines
    rw [hst.keep]
    dsimp only
    by_cases hlast : s.getLast? = some 10
    · rw [if_pos (by simp [hlast]), if_pos hlast, hpre _ (by simp)]
      by_cases hall : s.all (· == 10) = true
      · rw [if_neg (by simp [hall]), if_pos hall]
        dsimp only [PS.whiteSpaces]
        rw [hq, hl, hsp]
        have hsl : ∀ (s : List Byte), s.all (· == 10) = true → splitLines s = List.replicate (s.length + 1) [] := by
          intro s
          induction s with
          | nil => intro _; rfl
          | cons c s ih =>
            intro h
            simp only [List.all_cons, Bool.and_eq_true, beq_iff_eq] at h
            rw [splitLines, if_pos h.1, ih h.2]; rfl
        have := hsl s hall
        rw [hs, List.replicate_succ] at this
        simp only [List.cons.injEq] at this
        obtain ⟨rfl, rfl⟩ := this
        have hm : (List.replicate s.length ([] : List Byte)).map (ind ps.line) = List.replicate s.length [] := by
          rw [List.map_replicate]; rfl
        rw [hm, ← List.replicate_succ, List.dropLast_replicate]
        have hpos : s.length ≠ 0 := by
          intro h
          have : s = [] := List.length_eq_zero_iff.1 h
          subst this; simp at hlast
        rw [unlines_snoc _ (by simp [hpos]), Nat.add_sub_cancel]
        have : unlines (List.replicate (s.length + 1) ([] : List Byte)) = unlines (List.replicate s.length []) ++ [10] := by
          rw [List.replicate_succ', unlines_snoc _ (by simp [hpos])]
        rw [this]
        have hfl : ∀ n : Nat, (List.replicate n [(32 : Byte)]).flatten = List.replicate n 32 := by
          intro n
          induction n with
          | zero => rfl
          | succ n ih => rw [List.replicate_succ, List.flatten_cons, ih]; rfl
        rw [hfl]
        simp
      · rw [if_pos (by simpa using hall), if_neg hall, nlIndent_eq _ _ hsp]
        dsimp only
        rw [hq, hl, unlines_snoc _ (by simp)]
        simp
    · rw [if_neg (by simpa using hlast), if_neg hlast, hpre _ (by simp), hq]


/-! ## The text of the quote again -/

theorem splitLines_append_nl (a b : List Byte) : splitLines (a ++ 10 :: b) = splitLines a ++ splitLines b := by
  induction a with
  | nil => simp [splitLines]
  | cons c a ih =>
    rw [List.cons_append, splitLines, splitLines, ih]
    split
    · rfl
    · cases h : splitLines a with
      | nil => exact absurd h (splitLines_ne_nil a)
      | cons l ls => rfl

theorem splitLines_replicate (n : Nat) : splitLines (List.replicate n 10) = List.replicate (n + 1) [] := by
  induction n with
  | zero => rfl
  | succ n ih => rw [List.replicate_succ, splitLines, if_pos rfl, ih]; rfl

theorem splitLines_lead (n : Nat) (m : List Byte) : splitLines (List.replicate n 10 ++ m) = List.replicate n [] ++ splitLines m := by
  induction n with
  | zero => rfl
  | succ n ih => rw [List.replicate_succ, List.cons_append, splitLines, if_pos rfl, ih]; rfl

theorem splitLines_trail (n : Nat) (m : List Byte) : splitLines (m ++ List.replicate n 10) = splitLines m ++ List.replicate n [] := by
  cases n with
  | zero => simp
  | succ n => rw [List.replicate_succ, splitLines_append_nl, splitLines_replicate]

/-- No line ends in a space or tab, the last one excepted. -/
def NoTrail (s : List Byte) : Prop := ¬ [32, 10] <:+: s ∧ ¬ [9, 10] <:+: s

theorem NoTrail.infix {a s : List Byte} (h : NoTrail s) (hi : a <:+: s) : NoTrail a :=
  ⟨fun h' => h.1 (h'.trans hi), fun h' => h.2 (h'.trans hi)⟩

theorem rtrim_id {l : List Byte} (h : ∀ c, l.getLast? = some c → Blank c = false) : rtrim l = l := by
  unfold rtrim
  cases hr : l.reverse with
  | nil => simp at hr; simp [hr]
  | cons c t =>
    have : l.getLast? = some c := by rw [← List.head?_reverse, hr]; rfl
    rw [List.dropWhile_cons, if_neg (by simp [h c this]), ← hr, List.reverse_reverse]

theorem NoTrail.lines : ∀ {s : List Byte}, NoTrail s → ∀ l ∈ (splitLines s).dropLast, rtrim l = l := by
  intro s
  induction s with
  | nil => simp [splitLines]
  | cons c s ih =>
    intro h
    have hs : NoTrail s := h.infix (List.suffix_cons _ _).isInfix
    rw [splitLines]
    split
    · rw [List.dropLast_cons_of_ne_nil (splitLines_ne_nil s)]
      intro l hl
      rw [List.mem_cons] at hl
      rcases hl with rfl | hl
      · rfl
      · exact ih hs l hl
    · rename_i hc
      cases hl : splitLines s with
      | nil => exact absurd hl (splitLines_ne_nil s)
      | cons x ls =>
        dsimp only
        cases ls with
        | nil => simp
        | cons y ls =>
          have hx := ih hs
          rw [hl] at hx
          intro l hm
          simp only [List.dropLast_cons_cons, List.mem_cons] at hm hx
          rcases hm with rfl | hm
          · have hsx : s = x ++ 10 :: unlines (y :: ls) := by
              have := unlines_splitLines s
              rw [hl, unlines_cons] at this; exact this.symm
            have hx0 := hx x (.inl rfl)
            refine rtrim_id (fun d hd => ?_)
            rw [List.getLast?_cons] at hd
            simp only [Option.some.injEq] at hd
            cases hg : x.getLast? with
            | none =>
              simp at hg; subst hg
              simp at hd
              subst hd
              rw [Bool.eq_false_iff]
              intro hb
              simp only [Blank, Bool.or_eq_true, beq_iff_eq] at hb
              rcases hb with rfl | rfl
              · exact h.1 ⟨[], unlines (y :: ls), by rw [hsx]; rfl⟩
              · exact h.2 ⟨[], unlines (y :: ls), by rw [hsx]; rfl⟩
            | some e =>
              rw [hg] at hd; simp at hd; subst hd
              rw [Bool.eq_false_iff]
              intro hb
              rw [rtrim] at hx0
              rw [← List.head?_reverse] at hg
              obtain ⟨u, hu⟩ := head_cons hg
              rw [hu, List.dropWhile_cons, if_pos hb] at hx0
              have h1 := congrArg List.length hx0
              have h2 := congrArg List.length hu
              have h3 := (List.dropWhile_sublist (l := u) Blank).length_le
              simp at h1 h2 h3
              omega
          · exact hx l (.inr hm)

/-- White space at the beginning that contains a newline contains nothing else. -/
def LeadNl (s : List Byte) : Prop :=
  ∀ w r, s = w ++ r → (∀ b ∈ w, isXmlWhitespace b = true) → (10 : Byte) ∈ w → ∀ b ∈ w, b = 10

theorem hasLeadingSpaceNl_leadNl {s : List Byte} (h : (match hasLeadingSpaceNl s with | some r => r.onlyNewlines == 0 | none => false) = false) :
    LeadNl s := by
  intro w r hs hw h10
  have hsplit := List.takeWhile_append_dropWhile (p := (· == (10 : Byte))) (l := s)
  by_cases hall : (s.dropWhile (· == (10 : Byte))).takeWhile isXmlWhitespace = []
  · -- only newlines, then no white space
    intro b hb
    rw [hs] at hsplit
    have hlen : w.length ≤ (List.takeWhile (· == (10 : Byte)) (w ++ r)).length := by
      apply Classical.byContradiction
      intro hlt
      have hlt : (List.takeWhile (· == (10 : Byte)) (w ++ r)).length < w.length := by omega
      have hd := List.drop_left' (l₁ := List.takeWhile (· == (10 : Byte)) (w ++ r)) (l₂ := List.dropWhile (· == (10 : Byte)) (w ++ r)) rfl
      rw [hsplit, List.drop_append_of_le_length (by omega)] at hd
      cases hdw : w.drop (List.takeWhile (· == (10 : Byte)) (w ++ r)).length with
      | nil => rw [List.drop_eq_nil_iff] at hdw; omega
      | cons x u =>
        rw [hdw] at hd
        rw [hs, ← hd] at hall
        have hx := hw x (List.mem_of_mem_drop (by rw [hdw]; simp))
        rw [List.cons_append, List.takeWhile_cons, if_pos hx] at hall
        cases hall
    have hp : w <+: List.takeWhile (· == (10 : Byte)) (w ++ r) := by
      refine List.prefix_of_prefix_length_le (l₃ := w ++ r) (List.prefix_append _ _) (List.takeWhile_prefix _) hlen
    have := mem_takeWhile_pos (hp.subset hb)
    simpa using this
  · exfalso
    unfold hasLeadingSpaceNl at h
    dsimp only at h
    have hne : (List.takeWhile isXmlWhitespace (List.dropWhile (fun x => x == (10 : Byte)) s)).length ≠ 0 := by
      simpa using hall
    have hnl : ((List.takeWhile (fun x => x == (10 : Byte)) s).length > 0 ||
        (List.takeWhile isXmlWhitespace (List.dropWhile (fun x => x == (10 : Byte)) s)).any fun x => x == 10) = true := by
      rw [Bool.or_eq_true]
      by_cases hz : (List.takeWhile (fun x => x == (10 : Byte)) s).length > 0
      · exact .inl (by simpa using hz)
      · right
        have hz : List.takeWhile (fun x => x == (10 : Byte)) s = [] := by
          rw [← List.length_eq_zero_iff]; omega
        rw [hz, List.nil_append] at hsplit
        rw [hsplit, List.any_eq_true]
        refine ⟨10, ?_, rfl⟩
        rw [hs, List.takeWhile_append_of_pos hw]
        exact List.mem_append_left _ h10
    rw [if_neg (by simp only [hnl]; decide)] at h
    dsimp only at h
    rw [if_neg (by simp only [Bool.and_eq_true, decide_eq_true_eq, beq_iff_eq]; exact fun h => hne h.2)] at h
    cases h

theorem hasEndingNlSpace_leadNl {s : List Byte} (h : (match hasEndingNlSpace s with | some r => r.onlyNewlines == 0 | none => false) = false) :
    LeadNl s.reverse := by
  refine hasLeadingSpaceNl_leadNl ?_
  unfold hasEndingNlSpace at h
  unfold hasLeadingSpaceNl
  dsimp only at h ⊢
  by_cases hf : (!(decide ((List.takeWhile (fun x => x == 10) s.reverse).length > 0) ||
      (List.takeWhile isXmlWhitespace (List.dropWhile (fun x => x == (10 : Byte)) s.reverse)).any fun x => x == 10)) = true
  · rw [if_pos hf]
  · rw [if_neg hf] at h ⊢
    dsimp only at h ⊢
    by_cases hw : ((List.takeWhile isXmlWhitespace (List.dropWhile (fun x => x == (10 : Byte)) s.reverse)).length == 0) = true
    · rw [if_pos hw] at h
      rw [if_pos]
      · exact h
      · simp only [Bool.and_eq_true, decide_eq_true_eq]
        refine ⟨?_, hw⟩
        simp only [beq_iff_eq] at hw
        have := List.length_eq_zero_iff.1 hw
        simp only [this, List.any_nil, Bool.or_false, Bool.not_eq_true', decide_eq_false_iff_not, Classical.not_not] at hf
        exact hf
    · rw [if_neg hw] at h; cases h

theorem addCompound_leadNl {s : List Byte} (h : addCompound s false = false) : LeadNl s ∧ LeadNl s.reverse := by
  simp only [addCompound, Bool.or_eq_false_iff] at h
  exact ⟨hasLeadingSpaceNl_leadNl h.1.2, hasEndingNlSpace_leadNl h.2⟩

theorem blank_ws {c : Byte} (h : Blank c = true) : isXmlWhitespace c = true := by
  simp only [Blank, Bool.or_eq_true, beq_iff_eq] at h
  rcases h with rfl | rfl <;> decide

/-- The shape of a text that is printed as one quote of several lines. -/
theorem leaf_shape {s : List Byte} (hlead : LeadNl s) (htrail : LeadNl s.reverse) (hall : ¬ ∀ b ∈ s, b = 10) :
    ∃ j i m, s = List.replicate j 10 ++ m ++ List.replicate i 10 ∧ m ≠ [] ∧ m.head? ≠ some 10 ∧ m.getLast? ≠ some 10 ∧
      (0 < j → ∀ c, m.head? = some c → isXmlWhitespace c = false) ∧ (0 < i → ∀ c, m.getLast? = some c → isXmlWhitespace c = false) := by
  have hs1 := List.takeWhile_append_dropWhile (p := (· == (10 : Byte))) (l := s)
  have hrep : ∀ (l : List Byte), l.takeWhile (· == (10 : Byte)) = List.replicate (l.takeWhile (· == (10 : Byte))).length 10 := by
    intro l
    rw [List.eq_replicate_iff]
    exact ⟨rfl, fun b hb => by simpa using mem_takeWhile_pos hb⟩
  have hs2 := List.takeWhile_append_dropWhile (p := (· == (10 : Byte))) (l := (s.dropWhile (· == (10 : Byte))).reverse)
  have hh1 := List.head?_dropWhile_not (p := (· == (10 : Byte))) (l := s)
  have hh2 := List.head?_dropWhile_not (p := (· == (10 : Byte))) (l := (s.dropWhile (· == (10 : Byte))).reverse)
  generalize hb : s.dropWhile (· == (10 : Byte)) = b at *
  generalize hj : (s.takeWhile (· == (10 : Byte))).length = j at *
  generalize hm : (b.reverse.dropWhile (· == (10 : Byte))) = mr at *
  generalize hi : (b.reverse.takeWhile (· == (10 : Byte))).length = i at *
  have e1 : s = List.replicate j 10 ++ b := by rw [← hs1, hrep s, hj]
  have e2 : b = mr.reverse ++ List.replicate i 10 := by
    have := congrArg List.reverse hs2
    rw [hrep b.reverse, hi] at this
    simpa using this.symm
  have hne : mr ≠ [] := by
    rintro rfl
    apply hall
    rw [e1, e2]
    simp
  refine ⟨j, i, mr.reverse, by rw [List.append_assoc, ← e2, ← e1], by simpa using hne, ?_, ?_, ?_, ?_⟩
  · intro h
    have hbh : b.head? = some 10 := by rw [e2, List.head?_append, h]; rfl
    rw [hbh] at hh1; simp at hh1
  · rw [List.getLast?_reverse]
    intro h; rw [h] at hh2; simp at hh2
  · intro hpos c hc
    rw [Bool.eq_false_iff]
    intro hw
    obtain ⟨u, hu⟩ := head_cons hc
    have := hlead (List.replicate j 10 ++ [c]) (u ++ List.replicate i 10) (by rw [e1, e2, hu]; simp)
      (by intro b hb; simp at hb; rcases hb with ⟨-, rfl⟩ | rfl; decide; exact hw) (by simp; omega) c (by simp)
    subst this
    have hbh : b.head? = some 10 := by rw [e2, hu]; rfl
    rw [hbh] at hh1; simp at hh1
  · intro hpos c hc
    rw [Bool.eq_false_iff]
    intro hw
    rw [List.getLast?_reverse] at hc
    obtain ⟨u, hu⟩ := head_cons hc
    have := htrail (List.replicate i 10 ++ [c]) (u ++ List.replicate j 10) (by rw [e1, e2, hu]; simp)
      (by intro b hb; simp at hb; rcases hb with ⟨-, rfl⟩ | rfl; decide; exact hw) (by simp; omega) c (by simp)
    subst this
    rw [hc] at hh2; simp at hh2

theorem ind_shifted (n : Nat) (l : List Byte) : Props.ShiftedLine n l (ind n l) := by
  unfold Props.ShiftedLine ind
  split
  · rename_i hb
    split
    · rfl
    · simp only [BlankLine, List.all_append] at hb ⊢
      rw [hb]
      simp [Blank]
  · rename_i hb
    rw [if_neg (by rintro rfl; exact hb rfl)]

theorem shifted_map_ind (n : Nat) : ∀ (ls : List (List Byte)), Props.Shifted n ls (ls.map (ind n))
  | [] => trivial
  | l :: ls => ⟨ind_shifted n l, shifted_map_ind n ls⟩

theorem shiftedLine_zero (l : List Byte) : Props.ShiftedLine 0 l l := by
  unfold Props.ShiftedLine
  split
  · assumption
  · simp

/-- The meaning of a quote of several lines. -/
theorem quoteVal_multi (col d : Nat) (body : List Byte) (hh : body.head? ≠ some 39)
    (h10 : (10 : Byte) ∈ body) (h13 : (13 : Byte) ∉ body) :
    quoteVal col (List.replicate d 39 ++ (body ++ List.replicate d 39)) = some (.text (dedent [32] (col - 1 + d) (splitLines body))) := by
  have hb : body ≠ [] := by rintro rfl; simp at h10
  unfold quoteVal unQuote
  simp only [stripDelims_full 39 d body hb hh, if_true]
  rw [Props.C43_multi_line_is_dedent _ _ _ _ h10 h13]
  rw [if_neg (by decide), Props.startColumn, if_neg (by simp)]
  rfl

theorem lines_solid {s : List Byte} {j i : Nat} {m a : List Byte} {t : List (List Byte)} (hlead : LeadNl s) (htrail : LeadNl s.reverse)
    (h10 : (10 : Byte) ∈ s) (hs : s = List.replicate j 10 ++ m ++ List.replicate i 10) (hm : m ≠ []) (hm1 : m.head? ≠ some 10)
    (hm2 : m.getLast? ≠ some 10) (hj : 0 < j → ∀ c, m.head? = some c → isXmlWhitespace c = false)
    (hi : 0 < i → ∀ c, m.getLast? = some c → isXmlWhitespace c = false) (ha : splitLines m = a :: t) :
    BlankLine a = false ∧ EndsSolid (a :: t) ∧ (0 < j → width a = 0) := by
  have hun := unlines_splitLines m
  rw [ha] at hun
  have hane : a ≠ [] := by
    intro h
    rcases (splitLines_head ha).1 h with h | h
    · exact hm h
    · exact hm1 h
  have hhead : m.head? = a.head? := by
    cases a with
    | nil => exact absurd rfl hane
    | cons c a =>
      rw [← hun]
      cases t with
      | nil => rw [unlines_single]
      | cons b t => rw [unlines_cons]; rfl
  have hanl : (10 : Byte) ∉ a := splitLines_nl (s := m) a (by rw [ha]; simp)
  have hsolid : BlankLine a = false := by
    rw [Bool.eq_false_iff]
    intro hb
    simp only [BlankLine, List.all_eq_true] at hb
    cases j with
    | succ j =>
      cases a with
      | nil => exact hane rfl
      | cons c a =>
        have h1 := hj (by omega) c (by rw [hhead]; rfl)
        rw [blank_ws (hb c (by simp))] at h1; cases h1
    | zero =>
      have key : ∀ r, s = a ++ 10 :: r → False := by
        intro r hr
        have := hlead (a ++ [10]) r (by rw [hr]; simp) (by
          intro b hbm
          simp at hbm
          rcases hbm with hbm | rfl
          · exact blank_ws (hb b hbm)
          · decide) (by simp)
        cases a with
        | nil => exact hane rfl
        | cons c a =>
          have := this c (by simp)
          subst this
          simp at hanl
      cases t with
      | cons b t =>
        rw [unlines_cons] at hun
        exact key (unlines (b :: t) ++ List.replicate i 10) (by rw [hs, ← hun]; simp)
      | nil =>
        rw [unlines_single] at hun
        cases i with
        | zero =>
          rw [hs, ← hun] at h10
          simp at h10; exact hanl h10
        | succ i => exact key (List.replicate i 10) (by rw [hs, ← hun, List.replicate_succ]; simp)
  refine ⟨hsolid, ?_, fun hpos => ?_⟩
  · cases hg : (a :: t).getLast? with
    | none => simp at hg
    | some l =>
      refine ⟨l, hg, ?_⟩
      cases t with
      | nil => simp at hg; subst hg; exact hsolid
      | cons b t =>
        rcases List.eq_nil_or_concat (b :: t) with h | ⟨u, x, hu⟩
        · cases h
        rw [List.concat_eq_append] at hu
        rw [hu, ← List.cons_append, List.getLast?_append] at hg
        simp at hg; subst hg
        rw [Bool.eq_false_iff]
        intro hb
        simp only [BlankLine, List.all_eq_true] at hb
        rw [hu, ← List.cons_append, unlines_snoc _ (by simp)] at hun
        have hxnl : (10 : Byte) ∉ x := splitLines_nl (s := m) x (by rw [ha, hu]; simp)
        have := htrail (List.replicate i 10 ++ x.reverse ++ [10]) ((List.replicate j 10 ++ unlines (a :: u)).reverse)
          (by rw [hs, ← hun]; simp) (by
            intro b hbm
            simp at hbm
            rcases hbm with ⟨-, rfl⟩ | hbm | rfl
            · decide
            · exact blank_ws (hb b hbm)
            · decide) (by simp)
        cases hx : x with
        | nil => subst hx; rw [← hun] at hm2; simp at hm2
        | cons c x' =>
          have := this c (by rw [hx]; simp)
          subst this
          rw [hx] at hxnl
          simp at hxnl
  · cases a with
    | nil => exact absurd rfl hane
    | cons c a =>
      have := hj hpos c (by rw [hhead]; rfl)
      rw [width, if_neg (by rintro rfl; revert this; decide), if_neg (by rintro rfl; revert this; decide)]

/-- The lines printed for `s` in a quote whose lines are indented by `n`. -/
def quotedLines (n : Nat) (s : List Byte) (a : List Byte) (t : List (List Byte)) : List (List Byte) :=
  (if s.head? = some 10 then [[]] else []) ++
    (if s.getLast? = some 10 then (if s.all (· == 10) then (a :: t.map (ind n)).dropLast else a :: t.map (ind n)) ++
      [List.replicate (n - 1) 32] else a :: t.map (ind n))

theorem blankLine_spaces (n : Nat) : BlankLine (List.replicate n 32) = true := by
  simp [BlankLine, Blank]

/-- The text of a quote of several lines is the printed text. -/
theorem leaf_dedent (n : Nat) {s a : List Byte} {t : List (List Byte)} (hs : splitLines s = a :: t) (hlead : LeadNl s)
    (htrail : LeadNl s.reverse) (h10 : (10 : Byte) ∈ s) (htr : NoTrail s) : dedent [32] n (quotedLines n s a t) = s := by
  by_cases hall : ∀ b ∈ s, b = 10
  · have hrep : s = List.replicate s.length 10 := by rw [List.eq_replicate_iff]; exact ⟨rfl, hall⟩
    have hpos : s.length ≠ 0 := by
      intro h; have := List.length_eq_zero_iff.1 h; subst this; simp at h10
    obtain ⟨k, hk⟩ : ∃ k, s.length = k + 1 := ⟨s.length - 1, by omega⟩
    rw [hk] at hrep
    subst hrep
    rw [splitLines_replicate, List.replicate_succ] at hs
    simp only [List.cons.injEq] at hs
    obtain ⟨rfl, rfl⟩ := hs
    have hL : quotedLines n (List.replicate (k + 1) 10) [] (List.replicate (k + 1) []) =
        List.replicate (k + 2) [] ++ [List.replicate (n - 1) 32] := by
      have hd : (([] : List Byte) :: (List.replicate (k + 1) ([] : List Byte)).map (ind n)).dropLast = List.replicate (k + 1) [] := by
        rw [List.map_replicate, show ind n [] = [] from rfl, ← List.replicate_succ, List.dropLast_replicate]; rfl
      unfold quotedLines
      rw [if_pos (by simp [List.replicate_succ]), if_pos (by simp [List.replicate_succ']), if_pos (by simp), hd]
      rfl
    rw [hL, dedent_blank]
    · simp
    · intro l hl
      simp only [List.mem_append, List.mem_replicate, List.mem_singleton] at hl
      rcases hl with ⟨-, rfl⟩ | rfl
      · rfl
      · exact blankLine_spaces _
  · obtain ⟨j, i, m, hsm, hm, hm1, hm2, hj, hi⟩ := leaf_shape hlead htrail hall
    obtain ⟨x, hxm⟩ : ∃ x, m.head? = some x := by cases m with | nil => exact absurd rfl hm | cons c _ => exact ⟨c, rfl⟩
    obtain ⟨y, hym⟩ : ∃ y, m.getLast? = some y := by
      cases hg : m.getLast? with
      | none => simp at hg; exact absurd hg hm
      | some c => exact ⟨c, rfl⟩
    have hhead : s.head? = some 10 ↔ 0 < j := by
      cases j with
      | zero =>
        rw [hsm]
        obtain ⟨u, rfl⟩ := head_cons hxm
        simpa using hm1
      | succ j => rw [hsm, List.replicate_succ]; simp
    have hlast : s.getLast? = some 10 ↔ 0 < i := by
      cases i with
      | zero => rw [hsm]; simpa [List.getLast?_append, hym] using hm2
      | succ i => rw [hsm, List.replicate_succ']; simp
    have hnall : s.all (· == (10 : Byte)) = false := by
      rw [Bool.eq_false_iff]
      intro h
      exact hall (by simpa using h)
    cases hM : splitLines m with
    | nil => exact absurd hM (splitLines_ne_nil m)
    | cons a' t' =>
    obtain ⟨hsol, hes, hw⟩ := lines_solid hlead htrail h10 hsm hm hm1 hm2 hj hi hM
    have hlines : a :: t = List.replicate j [] ++ (a' :: t') ++ List.replicate i [] := by
      rw [← hs, hsm, splitLines_trail, splitLines_lead, hM]
    have htrm : ∀ l ∈ (a' :: t').dropLast, rtrim l = l := by
      rw [← hM]; exact (htr.infix ⟨List.replicate j 10, List.replicate i 10, hsm.symm⟩).lines
    have hlastline : 0 < i → ∀ l, (a' :: t').getLast? = some l → rtrim l = l := by
      intro hpos l hl
      refine rtrim_id (fun c hc => ?_)
      have hun := unlines_splitLines m
      rw [hM] at hun
      have : m.getLast? = some c := by
        rcases List.eq_nil_or_concat (a' :: t') with h | ⟨u, z, hu⟩
        · cases h
        rw [List.concat_eq_append] at hu
        rw [hu] at hl hun
        simp at hl; subst hl
        cases u with
        | nil => rw [List.nil_append, unlines_single] at hun; rw [← hun]; exact hc
        | cons v u =>
          rw [unlines_snoc _ (by simp)] at hun
          rw [← hun, List.getLast?_append, List.getLast?_cons, hc]; rfl
      rw [Bool.eq_false_iff]
      intro hb
      have := hi hpos c this
      rw [blank_ws hb] at this; cases this
    -- the unshifted lines
    let P : List (List Byte) := if 0 < j then List.replicate (j + 1) [] else []
    let Q : List (List Byte) := if 0 < i then List.replicate (i + 1) [] else []
    have hres : dedent [32] 0 (P ++ (a' :: t') ++ Q) = s := by
      rw [dedent_solid 0 P Q a' t' ?_ ?_ hsol hes htrm ?_ (fun _ => rfl) ?_]
      · have hun := unlines_splitLines m
        rw [hM] at hun
        rw [hun]
        conv => rhs; rw [hsm]
        congr 1
        · congr 1
          show List.replicate ((if 0 < j then List.replicate (j + 1) [] else []).length - 1) 10 = _
          split
          · simp
          · have : j = 0 := by omega
            subst this; rfl
        · show List.replicate ((if 0 < i then List.replicate (i + 1) [] else []).length - 1) 10 = _
          split
          · simp
          · have : i = 0 := by omega
            subst this; rfl
      · intro l hl
        have hl : l ∈ (if 0 < j then List.replicate (j + 1) ([] : List Byte) else []) := hl
        split at hl
        · rw [(List.mem_replicate.1 hl).2]; rfl
        · cases hl
      · intro l hl
        have hl : l ∈ (if 0 < i then List.replicate (i + 1) ([] : List Byte) else []) := hl
        split at hl
        · rw [(List.mem_replicate.1 hl).2]; rfl
        · cases hl
      · intro hq
        refine hlastline ?_
        apply Classical.byContradiction
        intro hn
        exact hq (if_neg hn)
      · intro hp
        refine hw ?_
        apply Classical.byContradiction
        intro hn
        exact hp (if_neg hn)
    -- the lines behind the first one
    obtain ⟨first, X, hX, hfirst⟩ : ∃ first X, (if s.head? = some 10 then [[]] else []) ++ (a :: t) = first :: X ∧
        (if s.head? = some 10 then [[]] else []) ++ (a :: t.map (ind n)) = first :: X.map (ind n) := by
      by_cases hpos : 0 < j
      · rw [if_pos (hhead.2 hpos)]
        have ha : a = [] := by
          obtain ⟨k, rfl⟩ : ∃ k, j = k + 1 := ⟨j - 1, by omega⟩
          rw [List.replicate_succ] at hlines; simp at hlines; exact hlines.1
        subst ha
        exact ⟨[], [] :: t, rfl, by rw [List.map_cons]; rfl⟩
      · rw [if_neg (fun h => hpos (hhead.1 h))]
        exact ⟨a, t, rfl, rfl⟩
    have hL : quotedLines n s a t = first :: (X.map (ind n) ++ (if 0 < i then [List.replicate (n - 1) 32] else [])) := by
      unfold quotedLines
      rw [← List.cons_append, ← hfirst]
      by_cases hpos : 0 < i
      · rw [if_pos (hlast.2 hpos), if_pos hpos, if_neg (show ¬ s.all (· == 10) = true by rw [hnall]; exact Bool.false_ne_true), List.append_assoc]
      · rw [if_neg (fun h => hpos (hlast.1 h)), if_neg hpos]; simp
    have hL' : P ++ (a' :: t') ++ Q = first :: (X ++ (if 0 < i then [[]] else [])) := by
      rw [← List.cons_append, ← hX, hlines]
      show (if 0 < j then List.replicate (j + 1) [] else []) ++ _ ++ (if 0 < i then List.replicate (i + 1) [] else []) = _
      by_cases hposj : 0 < j
      · rw [if_pos hposj, if_pos (hhead.2 hposj)]
        by_cases hpos : 0 < i
        · rw [if_pos hpos, if_pos hpos, List.replicate_succ, List.replicate_succ']; simp
        · have : i = 0 := by omega
          subst this
          simp [List.replicate_succ]
      · rw [if_neg hposj, if_neg (fun h => hposj (hhead.1 h))]
        have : j = 0 := by omega
        subst this
        by_cases hpos : 0 < i
        · rw [if_pos hpos, if_pos hpos, List.replicate_succ']; simp
        · have : i = 0 := by omega
          subst this; simp
    rw [hL'] at hres
    rw [hL]
    have hXne : X ++ (if 0 < i then [([] : List Byte)] else []) ≠ [] := by
      intro h
      rw [List.append_eq_nil_iff] at h
      obtain ⟨rfl, h2⟩ := h
      have hi0 : ¬ 0 < i := by intro hp; rw [if_pos hp] at h2; cases h2
      have hlen := congrArg List.length hX
      have h2 := splitLines_length s h10
      rw [hs] at h2
      simp at hlen h2
      split at hlen <;> simp_all
    have := Props.dedent_shift n 0 [32] first first _ (X.map (ind n) ++ (if 0 < i then [List.replicate (n - 1) 32] else [])) hXne
      (shiftedLine_zero first) (Props.shifted_append (shifted_map_ind n X) (by
        split
        · refine ⟨?_, trivial⟩
          show (if BlankLine [] then _ else _)
          rw [if_pos (show BlankLine [] = true from rfl)]
          exact blankLine_spaces _
        · exact trivial))
    rw [Nat.zero_add] at this
    rw [this, hres]

/-! ## No line contains the end of the quote -/

theorem infix_split {p a b : List Byte} {x : Byte} (h : p <:+: a ++ x :: b) (hx : x ∉ p) : p <:+: a ∨ p <:+: b := by
  obtain ⟨u, v, h⟩ := h
  rw [List.append_assoc, List.append_eq_append_iff] at h
  rcases h with ⟨c, h1, h2⟩ | ⟨c, h1, h2⟩
  · -- `a = u ++ c`
    rw [List.append_eq_append_iff] at h2
    rcases h2 with ⟨d, h3, h4⟩ | ⟨d, h3, h4⟩
    · left; exact ⟨u, d, by rw [h1, h3]; simp⟩
    · cases d with
      | nil => left; exact ⟨u, [], by simp at h3; rw [h1, h3]; simp⟩
      | cons y d => simp at h4; exact absurd (h3 ▸ (by rw [h4.1]; simp : x ∈ c ++ y :: d)) hx
  · cases c with
    | nil =>
      simp at h2
      cases p with
      | nil => left; exact List.nil_infix
      | cons y p => simp at h2; exact absurd (by rw [h2.1]; simp) hx
    | cons y c =>
      simp at h2
      right; exact ⟨c, v, by rw [h2.2]; simp⟩

theorem noRun_unlines {d : Nat} (hd : 0 < d) : ∀ (ls : List (List Byte)), (∀ l ∈ ls, NoRun 39 d l) → NoRun 39 d (unlines ls)
  | [], _ => by
    intro h
    have := h.length_le
    simp [unlines, List.intercalate] at this; omega
  | [l], h => by rw [unlines_single]; exact h l (by simp)
  | l :: m :: t, h => by
    rw [unlines_cons]
    intro hr
    rcases infix_split hr (by simp) with hr | hr
    · exact h l (by simp) hr
    · exact noRun_unlines hd (m :: t) (fun x hx => h x (by simp at hx ⊢; exact .inr hx)) hr

theorem noRun_spaces {d : Nat} (hd : 0 < d) (n : Nat) {l : List Byte} (h : NoRun 39 d l) : NoRun 39 d (List.replicate n 32 ++ l) := by
  induction n with
  | zero => exact h
  | succ n ih =>
    rw [List.replicate_succ, List.cons_append]
    intro hr
    rcases infix_split (a := []) hr (by simp) with hr | hr
    · have := hr.length_le
      simp at this; omega
    · exact ih hr

theorem noRun_ind {d : Nat} (hd : 0 < d) (n : Nat) {l : List Byte} (h : NoRun 39 d l) : NoRun 39 d (ind n l) := by
  unfold ind
  split
  · rename_i h0; subst h0; exact h
  · exact noRun_spaces hd n h

theorem lines_infix {s l : List Byte} (h : l ∈ splitLines s) : l <:+: s := by
  have hun := unlines_splitLines s
  obtain ⟨p, q, hpq⟩ := List.append_of_mem h
  rw [hpq] at hun
  have key : ∀ (p q : List (List Byte)), l <:+: unlines (p ++ l :: q) := by
    intro p q
    induction p with
    | nil =>
      cases q with
      | nil => rw [List.nil_append, unlines_single]; exact List.infix_refl _
      | cons y q => rw [List.nil_append, unlines_cons]; exact (List.prefix_append _ _).isInfix
    | cons x p ih =>
      cases hp : p ++ l :: q with
      | nil => simp at hp
      | cons y r =>
        rw [List.cons_append, hp, unlines_cons, ← hp]
        exact ih.trans ((List.suffix_cons _ _).isInfix.trans (List.suffix_append _ _).isInfix)
  rw [← hun]; exact key p q

/-- Every printed line: an empty one, spaces, or a line of the text moved to the right. -/
theorem mem_quotedLines {n : Nat} {s a : List Byte} {t : List (List Byte)} (hs : splitLines s = a :: t) {l : List Byte}
    (h : l ∈ quotedLines n s a t) : l = [] ∨ l = List.replicate (n - 1) 32 ∨ ∃ k, ∃ l' ∈ splitLines s, l = List.replicate k 32 ++ l' := by
  have hmem : ∀ l, l ∈ a :: t.map (ind n) → l = [] ∨ l = List.replicate (n - 1) 32 ∨ ∃ k, ∃ l' ∈ splitLines s, l = List.replicate k 32 ++ l' := by
    intro l hl
    rw [List.mem_cons] at hl
    rcases hl with rfl | hl
    · exact .inr (.inr ⟨0, l, by rw [hs]; simp, by simp⟩)
    · obtain ⟨l', hl', rfl⟩ := List.mem_map.1 hl
      unfold ind
      split
      · exact .inl rfl
      · exact .inr (.inr ⟨n, l', by rw [hs]; simp [hl'], rfl⟩)
  unfold quotedLines at h
  rw [List.mem_append] at h
  rcases h with h | h
  · split at h
    · simp at h; exact .inl h
    · cases h
  · split at h
    · rw [List.mem_append, List.mem_singleton] at h
      rcases h with h | h
      · split at h
        · exact hmem l ((List.dropLast_sublist _).subset h)
        · exact hmem l h
      · exact .inr (.inl h)
    · exact hmem l h

theorem quotedLines_ne {n : Nat} {s a : List Byte} {t : List (List Byte)} : quotedLines n s a t ≠ [] := by
  unfold quotedLines
  repeat' split
  all_goals simp

theorem mem_unlines {x : Byte} : ∀ {ls : List (List Byte)}, x ∈ unlines ls → x = 10 ∨ ∃ l ∈ ls, x ∈ l
  | [], h => by simp [unlines, List.intercalate] at h
  | [l], h => by rw [unlines_single] at h; exact .inr ⟨l, by simp, h⟩
  | l :: m :: t, h => by
    rw [unlines_cons, List.mem_append, List.mem_cons] at h
    rcases h with h | h | h
    · exact .inr ⟨l, by simp, h⟩
    · exact .inl h
    · rcases mem_unlines h with h | ⟨l', h1, h2⟩
      · exact .inl h
      · exact .inr ⟨l', by simp at h1 ⊢; exact .inr h1, h2⟩

theorem unlines_getLast {ls : List (List Byte)} {l : List Byte} (h : ls.getLast? = some l) (hl : l ≠ []) :
    (unlines ls).getLast? = l.getLast? := by
  rcases List.eq_nil_or_concat ls with rfl | ⟨u, x, hu⟩
  · cases h
  rw [List.concat_eq_append] at hu
  subst hu
  simp at h; subst h
  cases u with
  | nil => rw [List.nil_append, unlines_single]
  | cons y u =>
    rw [unlines_snoc _ (by simp), List.getLast?_append, List.getLast?_cons]
    cases hg : x.getLast? with
    | none => simp at hg; exact absurd hg hl
    | some c => rfl

/-- What is printed between the quotes. -/
theorem quotedLines_body {n d : Nat} {s a : List Byte} {t : List (List Byte)} (hs : splitLines s = a :: t) (h10 : (10 : Byte) ∈ s)
    (h13 : (13 : Byte) ∉ s) (hd : 0 < d) (hrun : NoRun 39 d s) (hh : s.head? ≠ some 39) (hl : s.getLast? ≠ some 39) :
    (unlines (quotedLines n s a t)).head? ≠ some 39 ∧ (unlines (quotedLines n s a t)).getLast? ≠ some 39 ∧
      NoRun 39 d (unlines (quotedLines n s a t)) ∧ (10 : Byte) ∈ unlines (quotedLines n s a t) ∧
      (13 : Byte) ∉ unlines (quotedLines n s a t) ∧ splitLines (unlines (quotedLines n s a t)) = quotedLines n s a t := by
  have hne : s ≠ [] := by rintro rfl; simp at h10
  have hun := unlines_splitLines s
  rw [hs] at hun
  have hsl := splitLines_length s h10
  rw [hs] at hsl
  have htne : t ≠ [] := by rintro rfl; simp at hsl
  refine ⟨?_, ?_, ?_, ?_, ?_, ?_⟩
  · unfold quotedLines
    by_cases h : s.head? = some 10
    · rw [if_pos h]
      split
      · rw [List.cons_append, List.nil_append]
        cases hx : (if s.all (· == (10 : Byte)) then (a :: t.map (ind n)).dropLast else a :: t.map (ind n)) ++ [List.replicate (n - 1) 32] with
        | nil => simp at hx
        | cons y r => rw [unlines_cons]; simp
      · rw [List.cons_append, List.nil_append, unlines_cons]; simp
    · rw [if_neg h, List.nil_append]
      have ha : a ≠ [] := by
        intro ha
        rcases (splitLines_head hs).1 ha with h' | h'
        · exact hne h'
        · exact h h'
      have hha : s.head? = a.head? := by
        obtain ⟨b, t, rfl⟩ := List.exists_cons_of_ne_nil htne
        rw [← hun, unlines_cons]
        cases a with
        | nil => exact absurd rfl ha
        | cons c a => rfl
      have key : ∀ r, (unlines (a :: r)).head? ≠ some 39 := by
        intro r
        cases r with
        | nil => rw [unlines_single, ← hha]; exact hh
        | cons b r =>
          rw [unlines_cons]
          cases a with
          | nil => exact absurd rfl ha
          | cons c a => rw [hha] at hh; simpa using hh
      have hnall : ¬ s.all (· == (10 : Byte)) = true := by
        intro hall
        cases s with
        | nil => exact hne rfl
        | cons c s => simp at hall h; exact h hall.1
      split
      · rw [List.cons_append]; exact key _
      · exact key _
  · unfold quotedLines
    by_cases h : s.getLast? = some 10
    · rw [if_pos h, ← List.append_assoc]
      have : ∀ L : List (List Byte), L ≠ [] → (unlines (L ++ [List.replicate (n - 1) 32])).getLast? ≠ some 39 := by
        intro L hL hq
        rw [unlines_snoc _ hL] at hq
        rw [List.getLast?_append, List.getLast?_cons] at hq
        generalize n - 1 = k at hq
        cases k with
        | zero => simp at hq
        | succ k => simp [List.replicate_succ'] at hq
      apply this
      have hX : (if s.all (· == (10 : Byte)) then (a :: t.map (ind n)).dropLast else a :: t.map (ind n)) ≠ [] := by
        split
        · obtain ⟨b, t, rfl⟩ := List.exists_cons_of_ne_nil htne
          simp
        · simp
      exact fun h => hX (List.append_eq_nil_iff.1 h).2
    · rw [if_neg h]
      cases hg : (a :: t).getLast? with
      | none => simp at hg
      | some l =>
        rcases List.eq_nil_or_concat t with h' | ⟨u, x, hu⟩
        · exact absurd h' htne
        rw [List.concat_eq_append] at hu
        subst hu
        have hlx : l = x := by
          rw [← List.cons_append, List.getLast?_append] at hg; simpa using hg.symm
        subst hlx
        have hlne : l ≠ [] := by
          rintro rfl
          rw [← List.cons_append, unlines_snoc _ (by simp)] at hun
          apply h; rw [← hun]; simp
        have hlast : s.getLast? = l.getLast? := by rw [← hun]; exact unlines_getLast hg hlne
        have : ((if s.head? = some 10 then [[]] else []) ++ a :: List.map (ind n) (u ++ [l])).getLast? = some (ind n l) := by
          rw [List.map_append, List.getLast?_append, ← List.cons_append, List.getLast?_append]; rfl
        rw [unlines_getLast this (by unfold ind; rw [if_neg hlne]; simp [hlne])]
        unfold ind
        rw [if_neg hlne, List.getLast?_append]
        cases hgl : l.getLast? with
        | none => simp at hgl; exact absurd hgl hlne
        | some c =>
          rw [hlast, hgl] at hl
          exact hl
  · refine noRun_unlines hd _ (fun l hm => ?_)
    have h0 : NoRun 39 d [] := by
      intro h
      have := h.length_le
      simp at this; omega
    rcases mem_quotedLines hs hm with rfl | rfl | ⟨k, l', hl', rfl⟩
    · exact h0
    · have := noRun_spaces hd (n - 1) h0
      simpa using this
    · exact noRun_spaces hd k (noRun_infix hrun (lines_infix hl'))
  · have : 2 ≤ (quotedLines n s a t).length := by
      have hX : 1 ≤ (if s.all (· == (10 : Byte)) then (a :: t.map (ind n)).dropLast else a :: t.map (ind n)).length := by
        split <;> simp at hsl ⊢ <;> omega
      unfold quotedLines
      by_cases hg : s.getLast? = some 10
      · rw [if_pos hg, List.length_append, List.length_append, List.length_singleton]; omega
      · rw [if_neg hg]; simp at hsl ⊢; omega
    match hq : quotedLines n s a t, this with
    | x :: y :: r, _ => rw [unlines_cons]; simp
  · intro h
    rcases mem_unlines h with h | ⟨l, h1, h2⟩
    · cases h
    · rcases mem_quotedLines hs h1 with rfl | rfl | ⟨k, l', hl', rfl⟩
      · cases h2
      · simp at h2
      · simp at h2
        exact h13 ((lines_infix hl').subset h2)
  · refine splitLines_unlines _ quotedLines_ne (fun l h h2 => ?_)
    rcases mem_quotedLines hs h with rfl | rfl | ⟨k, l', hl', rfl⟩
    · cases h2
    · simp at h2
    · simp at h2
      exact splitLines_nl _ hl' h2

/-- The printer has written a quote which means `s` when it starts in one of the columns. -/
def LeafQuote (q p : PS) (s : List Byte) (cols : Nat → Prop) : Prop :=
  ∃ d body, 0 < d ∧ d ≠ 2 ∧ p.out = q.out ++ (List.replicate d 39 ++ (body ++ List.replicate d 39)) ∧ p.line = q.line ∧ p.last = 39 ∧
    body ≠ [] ∧ body.head? ≠ some 39 ∧ body.getLast? ≠ some 39 ∧ NoRun 39 d body ∧
    ∀ col, cols col → quoteVal col (List.replicate d 39 ++ (body ++ List.replicate d 39)) = some (.text s)

theorem LeafQuote.emits {cfg : OutCfg} {ps : PS} {level : Level} {s : List Byte} (hsp : cfg.indentationSpace = [32]) {cols : Nat → Prop}
    (h : LeafQuote (ps.beforeQuote cfg level) ((ps.beforeQuote cfg level).safeLeafQuote cfg s) s cols)
    (hcols : ∀ col, (cfg.compact = false → S → (ps.beforeQuote cfg level).cur + 1 = col) → cols col) :
    Emits S cfg ps ((ps.beforeQuote cfg level).safeLeafQuote cfg s) [.text s] ∧ ((ps.beforeQuote cfg level).safeLeafQuote cfg s).last = 39 := by
  obtain ⟨d, body, hd0, hd2, ho, hli, hla, hne, b1, b2, b3, hq⟩ := h
  refine ⟨emits_quote (level := level) (.inl hsp) (p := List.replicate d 39 ++ (body ++ List.replicate d 39)) ho hli hla ?_
    (fun col k hcol hk => ?_), hla⟩
  · obtain ⟨m, rfl⟩ : ∃ m, d = m + 1 := ⟨d - 1, by omega⟩
    simp [List.replicate_succ]
  · exact .quote d _ k _ hd0 hd2 hne b1 b2 b3 hk (hq col (hcols col hcol))

/-- A text printed as one quote of several lines. -/
theorem leaf_multi {cfg : OutCfg} (q : PS) {s : List Byte} (hsp : cfg.indentationSpace = [32])
    (h10 : (10 : Byte) ∈ s) (h13 : (13 : Byte) ∉ s) (hlead : LeadNl s) (htrail : LeadNl s.reverse) (htr : NoTrail s)
    (hh : s.head? ≠ some 39) (hl : s.getLast? ≠ some 39) (hrun : NoRun 39 3 s) (hst : NoStray s) :
    LeafQuote q (q.safeLeafQuote cfg s) s (· = q.cur + 1) := by
  obtain ⟨d, hd, hd0, hd2, hdr, h4⟩ := numQuotes s hrun
  obtain ⟨a, t, hs, -, ho⟩ := quoteLines_lines cfg hsp { q.quotes d with line := (q.quotes d).cur } s hst
  have e : q.safeLeafQuote cfg s = { ({ q.quotes d with line := (q.quotes d).cur } : PS).quoteLines cfg s with line := q.line }.quotes d := by
    unfold PS.safeLeafQuote
    simp only [addNls_false hh hl, h4, decide_false, Bool.or_self, Bool.false_eq_true, if_false, hd]
  obtain ⟨b1, b2, b3, b4, b5, b6⟩ := quotedLines_body (n := (q.quotes d).cur) hs h10 h13 hd0 hdr hh hl
  refine ⟨d, unlines (quotedLines (q.quotes d).cur s a t), hd0, hd2, ?_, by rw [e]; rfl, by rw [e]; rfl,
    (by intro h0; rw [h0] at b4; cases b4), b1, b2, b3, fun col hcol => ?_⟩
  · rw [e]
    show (PS.quoteLines cfg _ s).out ++ List.replicate d 39 = _
    rw [ho]
    show q.out ++ List.replicate d 39 ++ _ ++ _ = _
    simp only [List.append_assoc, quotedLines]
  · rw [quoteVal_multi col d _ b1 b4 b5, b6]
    have : col - 1 + d = (q.quotes d).cur := by
      show _ = q.cur + d
      omega
    rw [this, leaf_dedent _ hs hlead htrail h10 htr]

theorem emits_leaf_multi {cfg : OutCfg} {ps : PS} {level : Level} {s : List Byte} (hc : cfg.compact = false) (hsp : cfg.indentationSpace = [32])
    (hS : S) (h10 : (10 : Byte) ∈ s) (h13 : (13 : Byte) ∉ s) (hlead : LeadNl s) (htrail : LeadNl s.reverse) (htr : NoTrail s)
    (hh : s.head? ≠ some 39) (hl : s.getLast? ≠ some 39) (hrun : NoRun 39 3 s) (hst : NoStray s) :
    Emits S cfg ps ((ps.beforeQuote cfg level).safeLeafQuote cfg s) [.text s] ∧ ((ps.beforeQuote cfg level).safeLeafQuote cfg s).last = 39 :=
  (leaf_multi _ hsp h10 h13 hlead htrail htr hh hl hrun hst).emits hsp (fun _ h => (h hc hS).symm)

/-! ## Texts that start or end with a quote -/

/-- If the first line is blank then the start column does not matter. -/
theorem dedent_first_blank (i i' : Nat) (first : List Byte) (rest : List (List Byte)) (h : BlankLine first = true) :
    dedent [32] i (first :: rest) = dedent [32] i' (first :: rest) := by
  unfold dedent
  dsimp only
  have hcore := Props.dropBlankEnd_cons first rest
  by_cases hne : dropBlankEnd rest = []
  · have : dropBlankEnd (first :: rest) = [] := by
      rw [hcore, if_pos hne, if_pos h]
    rw [this]
    simp [rtrimLast]
  · rw [if_neg hne] at hcore
    rw [hcore, Props.rtrimLast_cons first hne]
    by_cases hz : (first :: rest).length - (first :: dropBlankEnd rest).length = 0
    · simp only [if_pos hz, h, if_true]
    · simp only [if_neg hz, h, if_true]

/-- The lines of a text that neither starts nor ends with white space. -/
theorem solid_lines {s a : List Byte} {t : List (List Byte)} (hs : splitLines s = a :: t) (hne : s ≠ [])
    (hh : ∀ c, s.head? = some c → isXmlWhitespace c = false) (hl : ∀ c, s.getLast? = some c → isXmlWhitespace c = false) :
    BlankLine a = false ∧ EndsSolid (a :: t) ∧ width a = 0 ∧ (∀ l, (a :: t).getLast? = some l → rtrim l = l) := by
  have hun := unlines_splitLines s
  rw [hs] at hun
  have h10 : s.head? ≠ some 10 := fun h => by have := hh _ h; revert this; decide
  have hane : a ≠ [] := by
    intro h
    rcases (splitLines_head hs).1 h with h | h
    · exact hne h
    · exact h10 h
  have hhead : s.head? = a.head? := by
    cases a with
    | nil => exact absurd rfl hane
    | cons c a =>
      rw [← hun]
      cases t with
      | nil => rw [unlines_single]
      | cons b t => rw [unlines_cons]; rfl
  obtain ⟨c, u, rfl⟩ := List.exists_cons_of_ne_nil hane
  have hc := hh c (by rw [hhead]; rfl)
  have hlast : ∀ l, ((c :: u) :: t).getLast? = some l → l ≠ [] ∧ ∀ x, l.getLast? = some x → Blank x = false := by
    intro l hl'
    have hlne : l ≠ [] := by
      rintro rfl
      rcases List.eq_nil_or_concat ((c :: u) :: t) with h | ⟨v, z, hv⟩
      · cases h
      rw [List.concat_eq_append] at hv
      rw [hv] at hl' hun
      simp at hl'; subst hl'
      cases v with
      | nil => simp at hv
      | cons y v =>
        rw [unlines_snoc _ (by simp)] at hun
        have := hl 10 (by rw [← hun]; simp)
        revert this; decide
    refine ⟨hlne, fun x hx => ?_⟩
    rw [Bool.eq_false_iff]
    intro hb
    have := hl x (by rw [← hun, unlines_getLast hl' hlne]; exact hx)
    rw [blank_ws hb] at this; cases this
  refine ⟨?_, ?_, ?_, fun l hl' => rtrim_id (hlast l hl').2⟩
  · rw [Bool.eq_false_iff]
    intro hb
    simp only [BlankLine, List.all_cons, Bool.and_eq_true] at hb
    rw [blank_ws hb.1] at hc; cases hc
  · cases hg : ((c :: u) :: t).getLast? with
    | none => simp at hg
    | some l =>
      refine ⟨l, hg, ?_⟩
      obtain ⟨hlne, hx⟩ := hlast l hg
      rw [Bool.eq_false_iff]
      intro hb
      simp only [BlankLine, List.all_eq_true] at hb
      cases hgl : l.getLast? with
      | none => simp at hgl; exact hlne hgl
      | some x =>
        have := hx x hgl
        rw [hb x (List.mem_of_getLast? hgl)] at this; cases this
  · rw [width, if_neg (by rintro rfl; revert hc; decide), if_neg (by rintro rfl; revert hc; decide)]

/-- The number of quotes, for any text. -/
theorem numQuotes_any (s : List Byte) : ∃ d, (if countNecessaryQuotes s = 0 then 1 else countNecessaryQuotes s) = d ∧ 0 < d ∧ d ≠ 2 ∧
    NoRun 39 d s ∧ (¬ NoRun 39 3 s → countNecessaryQuotes s ≥ 4) := by
  obtain ⟨h0, h2, hr, -⟩ := countNecessaryQuotes_spec s
  refine ⟨_, rfl, by split <;> omega, by split <;> omega, ?_, fun h3 => ?_⟩
  · split
    · rename_i hz
      rw [NoRun, replicate_one_infix]
      exact (h0.1 hz).2
    · rename_i hz
      exact hr (by omega)
  · apply Classical.byContradiction
    intro hlt
    apply h3
    intro hi
    by_cases hz : countNecessaryQuotes s = 0
    · exact (h0.1 hz).2 (hi.subset (by simp))
    · refine hr (by omega) (List.IsInfix.trans ?_ hi)
      refine ⟨[], List.replicate (3 - countNecessaryQuotes s) 39, ?_⟩
      rw [List.nil_append, List.replicate_append_replicate]
      congr 1; omega

/-- A text between quotes on lines of their own. -/
theorem leaf_nls {cfg : OutCfg} (q : PS) {s : List Byte} (hsp : cfg.indentationSpace = [32])
    (hne : s ≠ []) (h13 : (13 : Byte) ∉ s) (htr : NoTrail s)
    (hq : (s.head? = some 39 ∨ s.getLast? = some 39) ∨ ¬ NoRun 39 3 s)
    (hh : ∀ c, s.head? = some c → isXmlWhitespace c = false) (hl : ∀ c, s.getLast? = some c → isXmlWhitespace c = false)
    (hst : NoStray s) : LeafQuote q (q.safeLeafQuote cfg s) s (fun _ => True) := by
  obtain ⟨d, hd, hd0, hd2, hdr, h4⟩ := numQuotes_any s
  have h10h : s.head? ≠ some 10 := fun h => by have := hh _ h; revert this; decide
  have h10l : s.getLast? ≠ some 10 := fun h => by have := hl _ h; revert this; decide
  let q1 := ({ q with line := q.cur }.quotes d).nlIndent cfg
  obtain ⟨a, t, hs, hline, ho⟩ := quoteLines_lines cfg hsp q1 s hst
  rw [if_neg h10h, if_neg h10l, List.nil_append] at ho
  have hadd : (addNls s false || decide (countNecessaryQuotes s ≥ 4)) = true := by
    rcases hq with (h | h) | h
    · simp [addNls, h]
    · simp [addNls, h]
    · simp [h4 h]
  have e : q.safeLeafQuote cfg s = { (((q1.quoteLines cfg s).nlIndent cfg).quotes d) with line := q.line } := by
    unfold PS.safeLeafQuote
    simp only [hadd, if_true, hd]
    rfl
  have hq1 : q1.line = q.cur ∧ q1.out = q.out ++ (List.replicate d 39 ++ 10 :: List.replicate q.cur 32) := by
    show (PS.nlIndent cfg _).line = _ ∧ (PS.nlIndent cfg _).out = _
    rw [nlIndent_eq _ _ hsp]
    refine ⟨rfl, ?_⟩
    show q.out ++ List.replicate d 39 ++ _ = _
    rw [List.append_assoc]; rfl
  rw [hq1.1] at ho hline
  rw [hq1.2] at ho
  let n := q.cur
  have hane : a ≠ [] := by
    intro h
    rcases (splitLines_head hs).1 h with h | h
    · exact hne h
    · exact h10h h
  let L : List (List Byte) := [] :: ((a :: t).map (ind n) ++ [List.replicate n 32])
  have hL : unlines L = (10 :: List.replicate n 32) ++ unlines (a :: t.map (ind n)) ++ 10 :: List.replicate n 32 := by
    show unlines ([] :: ((a :: t).map (ind n) ++ [List.replicate n 32])) = _
    rw [List.map_cons, List.cons_append, unlines_cons, ← List.cons_append, unlines_snoc _ (by simp)]
    have : ind n a = List.replicate n 32 ++ a := by unfold ind; rw [if_neg hane]
    rw [this, unlines_prefix]
    simp
  have hmem : ∀ l ∈ L, l = [] ∨ l = List.replicate n 32 ∨ ∃ k, ∃ l' ∈ splitLines s, l = List.replicate k 32 ++ l' := by
    intro l hm
    have hm : l ∈ [] :: ((a :: t).map (ind n) ++ [List.replicate n 32]) := hm
    rw [List.mem_cons, List.mem_append, List.mem_singleton, List.mem_map] at hm
    rcases hm with h | ⟨l', hl', rfl⟩ | h
    · exact .inl h
    · unfold ind
      split
      · exact .inl rfl
      · exact .inr (.inr ⟨n, l', by rw [hs]; exact hl', rfl⟩)
    · exact .inr (.inl h)
  have b1 : (unlines L).head? ≠ some 39 := by rw [hL]; simp
  have b2 : (unlines L).getLast? ≠ some 39 := by
    rw [hL]
    intro h
    rw [List.getLast?_append, List.getLast?_cons] at h
    generalize n = n at h
    cases n with
    | zero => simp at h
    | succ k => simp [List.replicate_succ'] at h
  have b3 : NoRun 39 d (unlines L) := by
    refine noRun_unlines hd0 _ (fun l hm => ?_)
    have h0 : NoRun 39 d [] := by
      intro h
      have := h.length_le
      simp at this; omega
    rcases hmem l hm with rfl | rfl | ⟨k, l', hl', rfl⟩
    · exact h0
    · have := noRun_spaces hd0 n h0
      simpa using this
    · exact noRun_spaces hd0 k (noRun_infix hdr (lines_infix hl'))
  have b4 : (10 : Byte) ∈ unlines L := by rw [hL]; simp
  have b5 : (13 : Byte) ∉ unlines L := by
    intro h
    rcases mem_unlines h with h | ⟨l, h1, h2⟩
    · cases h
    · rcases hmem l h1 with rfl | rfl | ⟨k, l', hl', rfl⟩
      · cases h2
      · simp at h2
      · simp at h2
        exact h13 ((lines_infix hl').subset h2)
  have b6 : splitLines (unlines L) = L := by
    refine splitLines_unlines _ (by simp [L]) (fun l h h2 => ?_)
    rcases hmem l h with rfl | rfl | ⟨k, l', hl', rfl⟩
    · cases h2
    · simp at h2
    · simp at h2
      exact splitLines_nl _ hl' h2
  have b7 : ∀ i, dedent [32] i L = s := by
    intro i
    have hun := unlines_splitLines s
    rw [hs] at hun
    obtain ⟨c1, c2, c3, c4⟩ := solid_lines hs hne hh hl
    have h1 : dedent [32] i L = dedent [32] (0 + n) L := dedent_first_blank _ _ _ _ rfl
    have h2 := Props.dedent_shift n 0 [32] [] [] ((a :: t) ++ [[]]) ((a :: t).map (ind n) ++ [List.replicate n 32]) (by simp)
      (shiftedLine_zero []) (Props.shifted_append (shifted_map_ind n (a :: t)) (by
        refine ⟨?_, trivial⟩
        show (if BlankLine [] then _ else _)
        rw [if_pos (show BlankLine [] = true from rfl)]
        exact blankLine_spaces _))
    have h3 := dedent_solid 0 [[]] [[]] a t (by simp [BlankLine]) (by simp [BlankLine]) c1 c2 (by rw [← hs]; exact htr.lines)
      (fun _ => c4) (by simp) (fun _ => c3)
    rw [h1, show dedent [32] (0 + n) L = _ from h2]
    rw [hun] at h3
    simpa using h3
  refine ⟨d, unlines L, hd0, hd2, ?_, by rw [e], by rw [e]; rfl, (by intro h0; rw [h0] at b4; cases b4), b1, b2, b3, fun col _ => ?_⟩
  · rw [e, nlIndent_eq _ _ hsp]
    show (PS.quoteLines cfg q1 s).out ++ (10 :: List.replicate (PS.quoteLines cfg q1 s).line 32) ++ List.replicate d 39 = _
    rw [ho, hL, hline]
    simp [n]
  · rw [quoteVal_multi col d _ b1 b4 b5, b6, b7]

theorem emits_leaf_nls {cfg : OutCfg} {ps : PS} {level : Level} {s : List Byte} (hsp : cfg.indentationSpace = [32])
    (hne : s ≠ []) (h13 : (13 : Byte) ∉ s) (htr : NoTrail s)
    (hq : (s.head? = some 39 ∨ s.getLast? = some 39) ∨ ¬ NoRun 39 3 s)
    (hh : ∀ c, s.head? = some c → isXmlWhitespace c = false) (hl : ∀ c, s.getLast? = some c → isXmlWhitespace c = false)
    (hst : NoStray s) :
    Emits S cfg ps ((ps.beforeQuote cfg level).safeLeafQuote cfg s) [.text s] ∧ ((ps.beforeQuote cfg level).safeLeafQuote cfg s).last = 39 :=
  (leaf_nls _ hsp hne h13 htr hq hh hl hst).emits hsp (fun _ _ => trivial)

end Xmq
