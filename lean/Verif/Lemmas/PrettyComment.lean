import Verif.Lemmas.PrettyValue
import Verif.Lemmas.CompactDoc
/-!
# Comments in pretty output
-/
namespace Xmq
open Spec

set_option linter.unusedSectionVars false

variable [Mode]

/-- Comments that pretty output keeps. -/
structure PrettyComment (s : List Byte) : Prop where
  noStray : NoStray s
  cr : (13 : Byte) ∉ s
  trail : NoTrail s
  one : (10 : Byte) ∉ s → s.getLast? ≠ some 32 ∧ s.getLast? ≠ some 9
  many : (10 : Byte) ∈ s → ∀ l, (splitLines s).head? = some l ∨ (splitLines s).getLast? = some l → BlankLine l = false

theorem unlines_flat (l : List Byte) (ls : List (List Byte)) : l ++ (ls.map (10 :: ·)).flatten = unlines (l :: ls) := by
  induction ls generalizing l with
  | nil => simp [unlines_single]
  | cons m t ih => rw [unlines_cons, ← ih m]; simp

theorem commentRest_pretty {cfg : OutCfg} (hc : cfg.compact = false) (hsp : cfg.indentationSpace = [32]) (n : Nat) (ls : List (List Byte))
    (hl : ∀ l ∈ ls, (10 : Byte) ∉ l) (hst : ∀ l ∈ ls, NoStray l)
    (hlast : ∀ l, ls.getLast? = some l → l ≠ []) (k : Nat) (ps : PS) (hk : (unlines ls).length ≤ k) :
    (PS.commentRest cfg n k ps (unlines ls)).out = ps.out ++ ((ls.map (ind ps.line)).map (10 :: ·)).flatten := by
  induction ls generalizing k ps with
  | nil => cases k <;> simp [unlines, PS.commentRest]
  | cons l ls ih =>
    have h10 := hl l (by simp)
    have hne : unlines (l :: ls) ≠ [] := by
      cases ls with
      | nil => rw [unlines_single]; exact hlast l (by simp)
      | cons m t => rw [unlines_cons]; simp
    cases k with
    | zero => simp at hk; exact absurd hk hne
    | succ k =>
      cases hu : unlines (l :: ls) with
      | nil => exact absurd hu hne
      | cons y ys =>
        rw [PS.commentRest]
        rw [← hu, hc]
        simp only [Bool.false_eq_true, if_false]
        cases ls with
        | nil =>
          have hlne : l ≠ [] := hlast l (by simp)
          rw [unlines_single, takeWhile_line_end l h10, List.drop_length, List.drop_nil]
          have e : ∀ k p, PS.commentRest cfg n k p [] = p := by intro k p; cases k <;> rfl
          rw [e, if_neg (by simp), nlIndent_eq _ _ hsp, (printSpan_out _ (hst l (by simp))).1]
          simp [ind, hlne]
        | cons m t =>
          have hune : unlines (m :: t) ≠ [] := by
            cases t with
            | nil => rw [unlines_single]; exact hlast m (by simp)
            | cons m t => rw [unlines_cons]; simp
          rw [unlines_cons, takeWhile_line _ _ h10]
          have hd : (l ++ 10 :: unlines (m :: t)).drop l.length = 10 :: unlines (m :: t) := by
            rw [List.drop_left' rfl]
          rw [hd]
          have hlen : (unlines (m :: t)).length ≠ 0 := fun h => hune (List.length_eq_zero_iff.1 h)
          by_cases hl0 : l = []
          · subst hl0
            rw [if_pos (by simp; omega)]
            have hi := ih (fun l hm => hl l (by simp [hm])) (fun l hm => hst l (by simp [hm])) (fun l' h' => hlast l' (by simpa using h')) k
              (PS.printSpan ps.nl []) (by rw [unlines_cons] at hk; simp at hk; omega)
            simp only [List.drop_succ_cons, List.drop_zero]
            rw [hi, (printSpan_out _ (s := []) (hst _ (by simp))).1, (printSpan_out _ (s := []) (hst _ (by simp))).2]
            simp [PS.nl, ind]
          · rw [if_neg (by simp [hl0]), nlIndent_eq _ _ hsp]
            have hi := ih (fun l hm => hl l (by simp [hm])) (fun l hm => hst l (by simp [hm])) (fun l' h' => hlast l' (by simpa using h')) k
              (PS.printSpan { ps with out := ps.out ++ 10 :: List.replicate ps.line 32, cur := ps.line, last := 0 } l)
              (by rw [unlines_cons] at hk; simp at hk; omega)
            simp only [List.drop_succ_cons, List.drop_zero]
            rw [hi, (printSpan_out _ (hst l (by simp))).1, (printSpan_out _ (hst l (by simp))).2]
            simp [ind, hl0]

/-! ## The end of the comment does not occur in it -/

theorem noClose_spaces {p : List Byte} (hp : p ≠ []) (h32 : (32 : Byte) ∉ p) (n : Nat) {l : List Byte} (h : ¬ p <:+: l) :
    ¬ p <:+: List.replicate n 32 ++ l := by
  induction n with
  | zero => exact h
  | succ n ih =>
    rw [List.replicate_succ, List.cons_append]
    intro hr
    rcases infix_split (a := []) hr h32 with hr | hr
    · exact hp (List.infix_nil.1 hr)
    · exact ih hr

theorem noClose_ind {p : List Byte} (hp : p ≠ []) (h32 : (32 : Byte) ∉ p) (n : Nat) {l : List Byte} (h : ¬ p <:+: l) :
    ¬ p <:+: ind n l := by
  unfold ind
  split
  · rename_i h0; subst h0; exact h
  · exact noClose_spaces hp h32 n h

theorem noClose_unlines {p : List Byte} (hp : p ≠ []) (h10 : (10 : Byte) ∉ p) : ∀ (ls : List (List Byte)), (∀ l ∈ ls, ¬ p <:+: l) →
    ¬ p <:+: unlines ls
  | [], _ => by
    intro h
    exact hp (List.infix_nil.1 (by simpa [unlines, List.intercalate] using h))
  | [l], h => by rw [unlines_single]; exact h l (by simp)
  | l :: m :: t, h => by
    rw [unlines_cons]
    intro hr
    rcases infix_split hr h10 with hr | hr
    · exact h l (by simp) hr
    · exact noClose_unlines hp h10 (m :: t) (fun x hx => h x (by simp at hx ⊢; exact .inr hx)) hr

theorem mem_ind {n : Nat} {l : List Byte} {c : Byte} (hc : c ≠ 32) (h : c ∈ ind n l) : c ∈ l := by
  unfold ind at h
  split at h
  · simp at h
  · simp at h
    rcases h with h | h
    · exact absurd h.2 hc
    · exact h

/-! ## Comments of one line -/

theorem unComment_eol {s : List Byte} (h10 : (10 : Byte) ∉ s) (h : PrettyComment s) (indent : Nat) :
    unComment indent 32 0 (47 :: 47 :: 32 :: (s ++ [10])) = some s := by
  unfold unComment
  dsimp only
  have hdw : (47 :: 47 :: 32 :: (s ++ [10]) : List Byte).dropWhile (· == (47 : Byte)) = 32 :: (s ++ [10]) := by
    simp [List.dropWhile]
  rw [hdw, if_neg (by simp), if_neg (by simp), if_pos (by simp [peek])]
  simp only [show (peek (32 :: (s ++ [10]) : List Byte) == (32 : Byte)) = true from rfl, if_true]
  have hr : ((List.drop 1 (32 :: (s ++ [10]) : List Byte)).reverse.dropWhile (· == (32 : Byte))).reverse = s ++ [10] := by
    simp
  rw [hr]
  have hsl : splitLines (s ++ [10]) = [s, []] := by
    rw [splitLines_append_nl, splitLines_line h10]; rfl
  rw [Props.C43_multi_line_is_dedent _ _ _ _ (by simp) (by simp; exact h.cr), hsl]
  simp only [Props.startColumn, show ¬ (32 : Byte) = 0 by decide, and_false, if_false]
  congr 1
  obtain ⟨t1, t2⟩ := h.one h10
  have hrt : rtrim s = s := rtrim_id (fun c hc => by
    rw [hc] at t1 t2; simp at t1 t2
    simp [Blank, t1, t2])
  by_cases hb : BlankLine s = true
  · have hs0 : s = [] := by
      rcases List.eq_nil_or_concat s with rfl | ⟨pre, c, rfl⟩
      · rfl
      · exfalso
        rw [List.concat_eq_append] at t1 t2 hb
        simp at t1 t2
        simp [BlankLine, Blank, t1, t2] at hb
    subst hs0
    rw [dedent_blank _ _ (by simp [BlankLine])]
    rfl
  · simp only [Bool.not_eq_true] at hb
    have h1 := Props.dedent_shift indent 0 [32] s s [[]] [[]] (by simp) (shiftedLine_zero s) ⟨by simp [Props.ShiftedLine, BlankLine], trivial⟩
    rw [Nat.zero_add] at h1
    rw [h1]
    have h2 := dedent_solid 0 [] [[]] s [] (by simp) (by simp [BlankLine]) hb ⟨s, rfl, hb⟩ (by simp)
      (fun _ l hl => by simp at hl; subst hl; exact hrt) (fun _ => rfl) (by simp)
    simpa [unlines_single] using h2

/-! ## Comments of several lines -/

theorem unComment_lines {m : Nat} {s l : List Byte} {ls : List (List Byte)} (hls : splitLines s = l :: ls) (h10 : (10 : Byte) ∈ s)
    (h : PrettyComment s) (indent n : Nat) (hn : n = indent + m + 2) :
    unComment indent 32 0 (List.replicate m 47 ++ 42 :: ((32 :: (unlines (l :: ls.map (ind n)) ++ [32])) ++ 42 :: List.replicate m 47)) = some s := by
  have hbl := h.many h10
  rw [hls] at hbl
  have hb1 : BlankLine l = false := hbl l (.inl rfl)
  generalize hU : unlines (l :: ls.map (ind n)) = u
  have e : (List.replicate m (47 : Byte) ++ 42 :: ((32 :: (u ++ [32])) ++ 42 :: List.replicate m 47)) =
      List.replicate m 47 ++ ((42 :: 32 :: (u ++ [32, 42])) ++ List.replicate m 47) := by simp
  rw [e]
  unfold unComment
  dsimp only
  have hdw : (List.replicate m (47 : Byte) ++ ((42 :: 32 :: (u ++ [32, 42])) ++ List.replicate m 47)).dropWhile (· == (47 : Byte)) =
      (42 :: 32 :: (u ++ [32, 42])) ++ List.replicate m 47 := by
    rw [List.dropWhile_append_of_pos (by simp)]; simp
  rw [hdw, stripDelims_full 47 m (42 :: 32 :: (u ++ [32, 42])) (by simp) (by simp)]
  rw [if_neg (by simp), if_neg (by simp), if_neg (by simp)]
  dsimp only
  have hl : (42 :: 32 :: (u ++ [32, 42]) : List Byte).getLast? = some 42 := by
    rw [← List.cons_append, ← List.cons_append, List.getLast?_append]; rfl
  rw [if_neg (by simp [hl]), if_neg (by simp)]
  have hm : ((42 :: 32 :: (u ++ [32, 42]) : List Byte).drop 1).take ((42 :: 32 :: (u ++ [32, 42]) : List Byte).length - 2) =
      32 :: (u ++ [32]) := by
    have e2 : (42 :: 32 :: (u ++ [32, 42]) : List Byte) = 42 :: ((32 :: (u ++ [32])) ++ [42]) := by simp
    rw [e2]
    generalize (32 :: (u ++ [32]) : List Byte) = z
    simp
  rw [hm]
  have hp : (peek (32 :: (u ++ [32]) : List Byte) == (32 : Byte)) = true := rfl
  simp only [hp, if_true, List.drop_succ_cons, List.drop_zero]
  have hg : ((u ++ [32] : List Byte).getLast? == some (32 : Byte)) = true := by simp
  simp only [hg, if_true]
  have ht : (u ++ [32] : List Byte).take ((u ++ [32] : List Byte).length - 1) = u := by simp
  rw [ht, show indent + m + 1 + 1 = n by omega]
  have hno : ∀ x ∈ l :: ls.map (ind n), (10 : Byte) ∉ x := by
    intro x hx
    rcases List.mem_cons.1 hx with rfl | hx
    · exact splitLines_noNl (s := s) (by rw [hls]; simp)
    · obtain ⟨y, hy, rfl⟩ := List.mem_map.1 hx
      intro hm
      exact splitLines_noNl (s := s) (l := y) (by rw [hls]; simp [hy]) (mem_ind (by decide) hm)
  have hlsne : ls ≠ [] := by
    rintro rfl
    have := unlines_splitLines s
    rw [hls, unlines_single] at this
    subst this
    exact hno l (by simp) h10
  have hsu : splitLines u = l :: ls.map (ind n) := by
    rw [← hU]; exact splitLines_unlines _ (by simp) hno
  have hu10 : (10 : Byte) ∈ u := by
    rw [← hU]
    cases ls with
    | nil => exact absurd rfl hlsne
    | cons a t => rw [List.map_cons, unlines_cons]; simp
  have hu13 : (13 : Byte) ∉ u := by
    intro hm
    rw [← hU] at hm
    rcases mem_unlines hm with hm2 | ⟨x, hx, hm2⟩
    · revert hm2; decide
    · rcases List.mem_cons.1 hx with rfl | hx
      · exact h.cr ((splitLines_infix (s := s) (l := x) (by rw [hls]; simp)).subset hm2)
      · obtain ⟨y, hy, rfl⟩ := List.mem_map.1 hx
        exact h.cr ((splitLines_infix (s := s) (l := y) (by rw [hls]; simp [hy])).subset (mem_ind (by decide) hm2))
  rw [Props.C43_multi_line_is_dedent _ _ _ _ hu10 hu13, hsu]
  simp only [Props.startColumn, show ¬ (32 : Byte) = 0 by decide, and_false, if_false]
  congr 1
  have h1 := Props.dedent_shift n 0 [32] l l ls (ls.map (ind n)) hlsne (shiftedLine_zero l) (shifted_map_ind n ls)
  rw [Nat.zero_add] at h1
  rw [h1]
  have hes : EndsSolid (l :: ls) := by
    cases hg : (l :: ls).getLast? with
    | none => simp at hg
    | some x => exact ⟨x, hg, hbl x (.inr hg)⟩
  have h2 := dedent_solid 0 [] [] l ls (by simp) (by simp) hb1 hes (by rw [← hls]; exact h.trail.lines) (by simp) (fun _ => rfl) (by simp)
  have hun := unlines_splitLines s
  rw [hls] at hun
  simpa [hun] using h2

theorem commentLines_out {cfg : OutCfg} (hc : cfg.compact = false) (hsp : cfg.indentationSpace = [32]) {s : List Byte} (h10 : (10 : Byte) ∈ s)
    (h : PrettyComment s) (ps : PS) :
    ∃ m l ls, 0 < m ∧ splitLines s = l :: ls ∧ (∀ x ∈ l :: ls, ¬ (42 :: List.replicate m 47) <:+: x) ∧
      (ps.commentLines cfg s).out = ps.out ++
        (List.replicate m 47 ++ 42 :: ((32 :: (unlines (l :: ls.map (ind (ps.cur + m + 2))) ++ [32])) ++ 42 :: List.replicate m 47)) ∧
      (ps.commentLines cfg s).line = ps.line := by
  obtain ⟨l, ls, hls⟩ : ∃ l ls, splitLines s = l :: ls := by
    cases hh : splitLines s with
    | nil => exact absurd hh (splitLines_ne s)
    | cons l ls => exact ⟨l, ls, rfl⟩
  have hbl := h.many h10
  rw [hls] at hbl
  have hs : s = unlines (l :: ls) := by rw [← hls, unlines_splitLines]
  obtain ⟨n0, n1, -⟩ := countNecessarySlashes_spec s
  refine ⟨countNecessarySlashes s, l, ls, n0, hls, fun x hx hi => n1 (hi.trans (splitLines_infix (hls ▸ hx))), ?_⟩
  have hl10 : (10 : Byte) ∉ l := splitLines_noNl (s := s) (by rw [hls]; simp)
  have hstl : NoStray l := h.noStray.infix (splitLines_infix (by rw [hls]; simp))
  have hlne : l ≠ [] := by
    rintro rfl
    have := hbl [] (.inl rfl)
    simp [BlankLine] at this
  cases hls' : ls with
  | nil =>
    subst hls'
    rw [unlines_single] at hs
    subst hs; exact absurd h10 hl10
  | cons a t =>
    subst hls'
    unfold PS.commentLines
    have hpk : (peek s != (10 : Byte)) = true := by
      rw [hs, unlines_cons]
      cases l with
      | nil => exact absurd rfl hlne
      | cons x t =>
        simp at hl10
        simp [peek]; exact fun h => hl10.1 h.symm
    have htw : s.takeWhile (· != (10 : Byte)) = l := by
      rw [hs, unlines_cons, takeWhile_line _ _ hl10]
    have hd : s.drop (l.length + 1) = unlines (a :: t) := by
      rw [hs, unlines_cons, ← List.drop_drop, List.drop_left' rfl]; rfl
    simp only [hc, hpk, Bool.not_false, Bool.true_and, if_true, htw, hd]
    refine ⟨?_, rfl⟩
    generalize hp : PS.printSpan _ l = p
    have hpl : p.line = ps.cur + countNecessarySlashes s + 2 := by
      rw [← hp, (printSpan_out _ hstl).2]
      simp [PS.write]; omega
    have h1 := commentRest_pretty hc hsp (countNecessarySlashes s) (a :: t)
      (fun x hx => splitLines_noNl (s := s) (by rw [hls]; simp at hx ⊢; exact .inr hx))
      (fun x hx => h.noStray.infix (splitLines_infix (by rw [hls]; simp at hx ⊢; exact .inr hx)))
      (fun x hx he => by
        subst he
        have := hbl [] (.inr (by rw [List.getLast?_cons_cons]; exact hx))
        simp [BlankLine] at this) s.length p (by
          rw [hs, unlines_cons]; simp; omega)
    show (PS.commentRest cfg _ _ p _).out ++ _ ++ _ = _
    rw [h1, hpl, ← unlines_flat, ← hp, (printSpan_out _ hstl).1]
    simp [PS.write, PS.whiteSpaces, hsp]

theorem emits_comment_pretty {cfg : OutCfg} (hsp : cfg.indentationSpace = [32]) (hc : cfg.compact = false) {s : List Byte} (h : PrettyComment s)
    (ps : PS) : NEmits cfg ps (ps.commentNode cfg s) [.comment s] := by
  unfold PS.commentNode
  dsimp only
  cases hn : hasNewlines s
  · have h10 : (10 : Byte) ∉ s := by
      intro hm
      simp only [hasNewlines, List.any_eq_false, beq_iff_eq] at hn
      exact hn _ hm rfl
    simp only [Bool.not_false, if_true, hc, Bool.false_eq_true, if_false]
    obtain ⟨h1, h2⟩ := printSpan_out (PS.print (ps.beforeComment cfg) b#"// ") h.noStray
    refine N_step (x := 47) (t := 47 :: 32 :: s) (beforeComment_sep hsp ps) starts_slash ?_ ?_ (fun col hcol => ?_)
    · show (PS.printSpan _ s).out = _
      rw [h1]
      show (ps.beforeComment cfg).out ++ [47, 47, 32] ++ s = _
      simp
    · show (PS.printSpan _ s).line = _
      rw [h2]; rfl
    · refine ⟨by simp [Sync, hc], fun k hk o stk => ?_⟩
      have hk1 := hk.eol rfl
      obtain ⟨k', rfl⟩ : ∃ k', k = 10 :: k' := by
        cases k with
        | nil => simp at hk1
        | cons a k' => simp at hk1; subst hk1; exact ⟨k', rfl⟩
      have hX := X_comment_eol (k := k') (col := col) h10 (unComment_eol h10 h _) o stk
      simp only [aft, colAft, if_true]
      rw [show o.addAll [Node.comment s] = o.add (.comment s) from rfl]
      simpa using hX
  · have h10 : (10 : Byte) ∈ s := by
      simp only [hasNewlines, List.any_eq_true, beq_iff_eq] at hn
      obtain ⟨x, hx, rfl⟩ := hn; exact hx
    simp only [Bool.not_true, Bool.false_eq_true, if_false]
    obtain ⟨n, l, ls, hn0, hls, hb, ho, hl⟩ := commentLines_out hc hsp h10 h (ps.beforeComment cfg)
    obtain ⟨m, rfl⟩ : ∃ j, n = j + 1 := ⟨n - 1, by omega⟩
    generalize hU : (32 :: (unlines (l :: ls.map (ind ((ps.beforeComment cfg).cur + (m + 1) + 2))) ++ [32])) = u at ho
    have e : (List.replicate (m + 1) 47 ++ 42 :: (u ++ 42 :: List.replicate (m + 1) 47)) =
        47 :: (List.replicate m 47 ++ 42 :: (u ++ 42 :: List.replicate (m + 1) 47)) := by
      simp [List.replicate_succ]
    refine N_step (beforeComment_sep hsp ps) starts_slash (by show (PS.commentLines _ _ _).out = _; rw [ho, e]) hl (fun col hcol => ?_)
    refine ⟨by simp [Sync, hc], fun k hk o stk => ?_⟩
    have hcol := hcol hc
    have hub : ¬ (42 :: List.replicate (m + 1) 47) <:+: u := by
      rw [← hU]
      intro hi
      have hi' : (42 :: List.replicate (m + 1) (47 : Byte)) <:+: (List.replicate 1 32 ++ unlines (l :: ls.map (ind ((ps.beforeComment cfg).cur + (m + 1) + 2)))) ++ 32 :: [] := by
        simpa using hi
      rcases infix_split hi' (by simp) with hi | hi
      · refine noClose_spaces (by simp) (by simp) 1 (noClose_unlines (by simp) (by simp) _ ?_) hi
        intro x hx
        rcases List.mem_cons.1 hx with rfl | hx
        · exact hb x (by simp)
        · obtain ⟨y, hy, rfl⟩ := List.mem_map.1 hx
          exact noClose_ind (by simp) (by simp) _ (hb y (by simp [hy]))
      · simp at hi
    have hX := X_comment_block hn0 (ts := []) (cs := []) (col := col) (c := s) (t := u) (by intro x hx; simp at hx; subst hx; exact hub)
      (hk.slash rfl).1 (hk.slash rfl).2 rfl
      (by rw [← hU]; exact unComment_lines hls h10 h _ _ (by omega))
      (by simp) o stk
    simp only [aft, colAft]
    rw [if_neg (by decide), if_neg (by decide), ← e]
    have e2 : o.addAll [Node.comment s] = o.add (.comment s) := rfl
    rw [e2]
    simpa [contText] using hX

end Xmq
