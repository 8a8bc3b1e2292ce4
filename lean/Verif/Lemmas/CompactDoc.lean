import Verif.Lemmas.CompactValue
import Verif.Lemmas.PrintElem
import Verif.Props.Trim
/-!
# Compact output of documents
-/
namespace Xmq
open Spec

set_option linter.unusedSectionVars false

variable [Mode]

/-! ## Comments -/

/-- A line that is kept in compact output. -/
structure CommentLine (l : List Byte) : Prop where
  cr : (13 : Byte) ∉ l
  lead : l.head? ≠ some 32
  trail : l.getLast? ≠ some 32

theorem unComment_line {n : Nat} {t : List Byte} (h10 : (10 : Byte) ∉ t) (h : CommentLine t) (indent : Nat) :
    unComment indent 32 0 (List.replicate n 47 ++ 42 :: (t ++ 42 :: List.replicate n 47)) = some t := by
  have e : (List.replicate n (47 : Byte) ++ 42 :: (t ++ 42 :: List.replicate n 47)) =
      List.replicate n 47 ++ ((42 :: (t ++ [42])) ++ List.replicate n 47) := by simp
  rw [e]
  unfold unComment
  dsimp only
  have hdw : (List.replicate n (47 : Byte) ++ ((42 :: (t ++ [42])) ++ List.replicate n 47)).dropWhile (· == (47 : Byte)) =
      (42 :: (t ++ [42])) ++ List.replicate n 47 := by
    rw [List.dropWhile_append_of_pos (by simp)]; simp
  rw [hdw, stripDelims_full 47 n (42 :: (t ++ [42])) (by simp) (by simp)]
  rw [if_neg (by simp), if_neg (by simp), if_neg (by simp)]
  dsimp only
  have hl : (42 :: (t ++ [42]) : List Byte).getLast? = some 42 := by
    rw [← List.cons_append, List.getLast?_append]; rfl
  rw [if_neg (by simp [hl]), if_neg (by simp)]
  have hm : ((42 :: (t ++ [42]) : List Byte).drop 1).take ((42 :: (t ++ [42]) : List Byte).length - 2) = t := by
    simp
  rw [hm]
  have hp : (peek t == (32 : Byte)) = false := by
    rw [Bool.eq_false_iff]; intro hp
    simp only [beq_iff_eq] at hp
    rw [peek_eq_head? _ _ (by decide)] at hp
    exact h.lead hp
  have hg : (t.getLast? == some (32 : Byte)) = false := by
    rw [Bool.eq_false_iff]; intro hp; exact h.trail (by simpa using hp)
  simp only [hp, Bool.false_eq_true, if_false, hg]
  exact Props.C13_single_line_unchanged _ _ _ t h10 h.cr

theorem printSpan_out (ps : PS) {s : List Byte} (hst : NoStray s) :
    (ps.printSpan s).out = ps.out ++ s ∧ (ps.printSpan s).line = ps.line := by
  unfold PS.printSpan
  rw [hst.keep]
  cases h : s.getLast? with
  | none => simp at h; simp [h]
  | some c => simp

theorem takeWhile_line (l t : List Byte) (h : (10 : Byte) ∉ l) : (l ++ 10 :: t).takeWhile (· != (10 : Byte)) = l := by
  rw [List.takeWhile_append_of_pos]
  · simp
  · intro x hx; simp; rintro rfl; exact h hx

theorem takeWhile_line_end (l : List Byte) (h : (10 : Byte) ∉ l) : l.takeWhile (· != (10 : Byte)) = l := by
  apply takeWhile_all
  intro x hx; simp; rintro rfl; exact h hx

theorem commentRest_out {cfg : OutCfg} (hc : cfg.compact = true) (n : Nat) (ls : List (List Byte)) (hl : ∀ l ∈ ls, (10 : Byte) ∉ l)
    (hst : ∀ l ∈ ls, NoStray l) (hlast : ∀ l, ls.getLast? = some l → l ≠ []) (k : Nat) (ps : PS) (hk : (unlines ls).length ≤ k) :
    (PS.commentRest cfg n k ps (unlines ls)).out = ps.out ++ (ls.map fun l => 42 :: (List.replicate n 47 ++ 42 :: l)).flatten ∧
    (PS.commentRest cfg n k ps (unlines ls)).line = ps.line := by
  induction ls generalizing k ps with
  | nil => cases k <;> simp [unlines, PS.commentRest]
  | cons l ls ih =>
    have h10 := hl l (by simp)
    have hne : unlines (l :: ls) ≠ [] := by
      cases ls with
      | nil => rw [unlines_single]; exact hlast l (by simp)
      | cons m t => rw [unlines_cons]; simp
    cases k with
    | zero => simp at hk; exact absurd hk hne
    | succ k =>
      cases hu : unlines (l :: ls) with
      | nil => exact absurd hu hne
      | cons y ys =>
        rw [PS.commentRest]
        rw [← hu, hc, if_pos rfl]
        cases ls with
        | nil =>
          rw [unlines_single, takeWhile_line_end l h10, List.drop_length, List.drop_nil]
          have e : ∀ k p, PS.commentRest cfg n k p [] = p := by intro k p; cases k <;> rfl
          rw [e]
          have := printSpan_out (ps.write (42 :: (List.replicate n 47 ++ [42]))) (hst l (by simp))
          rw [this.1, this.2]
          simp [PS.write]
        | cons m t =>
          rw [unlines_cons, takeWhile_line _ _ h10]
          have hd : ((l ++ 10 :: unlines (m :: t)).drop l.length).drop 1 = unlines (m :: t) := by
            rw [List.drop_left' rfl]; rfl
          rw [hd]
          have hi := ih (fun l hm => hl l (by simp [hm])) (fun l hm => hst l (by simp [hm])) (fun l' h' => hlast l' (by simpa using h')) k
            (PS.printSpan (ps.write (42 :: (List.replicate n 47 ++ [42]))) l) (by
              rw [unlines_cons] at hk; simp at hk; omega)
          rw [hi.1, hi.2]
          have := printSpan_out (ps.write (42 :: (List.replicate n 47 ++ [42]))) (hst l (by simp))
          rw [this.1, this.2]
          simp [PS.write]

theorem contText_shift (n : Nat) (l : List Byte) (ls : List (List Byte)) :
    l ++ ((ls.map fun l => 42 :: (List.replicate n 47 ++ 42 :: l)).flatten ++ 42 :: List.replicate n 47) =
      l ++ 42 :: (List.replicate n 47 ++ contText n ls) := by
  induction ls generalizing l with
  | nil => simp [contText]
  | cons m ls ih =>
    have := ih (l ++ 42 :: (List.replicate n 47 ++ 42 :: m))
    simp [contText] at this ⊢
    exact this

theorem foldl_lines (c : List Byte) (ls : List (List Byte)) : ls.foldl (fun c s => c ++ 10 :: s) c = unlines (c :: ls) := by
  induction ls generalizing c with
  | nil => rw [unlines_single]; rfl
  | cons m ls ih =>
    rw [List.foldl_cons, ih]
    cases ls with
    | nil => rw [unlines_single, unlines_cons, unlines_single]
    | cons a t => rw [unlines_cons, unlines_cons, unlines_cons]; simp

/-- Comments that compact output keeps. -/
structure CompactComment (s : List Byte) : Prop where
  noStray : NoStray s
  lines : ∀ l ∈ splitLines s, CommentLine l
  final : s.getLast? ≠ some 10
  close : (10 : Byte) ∉ s → ¬ [42, 47] <:+: s

theorem splitLines_noNl {s l : List Byte} (h : l ∈ splitLines s) : (10 : Byte) ∉ l := by
  induction s generalizing l with
  | nil => simp [splitLines] at h; simp [h]
  | cons c t ih =>
    rw [splitLines] at h
    split at h
    · simp at h
      rcases h with rfl | h
      · simp
      · exact ih h
    · rename_i hc
      revert h
      split
      · intro h; simp at h; subst h; simp; exact fun h => hc h.symm
      · rename_i m ms hm
        intro h
        simp at h
        rcases h with rfl | h
        · simp; exact ⟨fun h => hc h.symm, ih (by rw [hm]; simp)⟩
        · exact ih (by rw [hm]; simp [h])

theorem infix_unlines {l : List Byte} {ls : List (List Byte)} (h : l ∈ ls) : l <:+: unlines ls := by
  induction ls with
  | nil => simp at h
  | cons a t ih =>
    cases t with
    | nil => simp at h; subst h; rw [unlines_single]; exact List.infix_refl _
    | cons b t =>
      rw [unlines_cons]
      rcases List.mem_cons.1 h with rfl | h
      · exact (List.prefix_append _ _).isInfix
      · exact (ih h).trans ⟨a ++ [10], [], by simp⟩

theorem splitLines_infix {s l : List Byte} (h : l ∈ splitLines s) : l <:+: s := by
  have := infix_unlines h
  rwa [unlines_splitLines] at this

theorem unlines_last_empty {ls : List (List Byte)} (h2 : 2 ≤ ls.length) (h : ls.getLast? = some []) : (unlines ls).getLast? = some 10 := by
  rcases List.eq_nil_or_concat ls with rfl | ⟨pre, l, rfl⟩
  · simp at h2
  · simp at h; subst h
    rw [List.concat_eq_append, unlines_snoc _ (by rintro rfl; simp at h2)]
    simp

theorem splitLines_ne (s : List Byte) : splitLines s ≠ [] := by
  cases s with
  | nil => simp [splitLines]
  | cons c t =>
    rw [splitLines]
    split
    · simp
    · split <;> simp

theorem splitLines_one {s : List Byte} (h : (10 : Byte) ∉ s) : splitLines s = [s] := by
  induction s with
  | nil => rfl
  | cons c t ih =>
    simp at h
    rw [splitLines, if_neg (fun e => h.1 e.symm), ih h.2]

/-- The output for a comment. -/
theorem commentNode_out {cfg : OutCfg} (hc : cfg.compact = true) {s : List Byte} (h : CompactComment s) (ps : PS) :
    ∃ n l ls, 0 < n ∧ splitLines s = l :: ls ∧ (∀ x ∈ l :: ls, ¬ (42 :: List.replicate n 47) <:+: x) ∧
      (ps.commentNode cfg s).out = (ps.beforeComment cfg).out ++
        ((List.replicate n 47 ++ 42 :: (l ++ 42 :: List.replicate n 47)) ++ contText n ls) ∧
      (ps.commentNode cfg s).line = (ps.beforeComment cfg).line ∧ (ps.commentNode cfg s).last = 47 := by
  unfold PS.commentNode
  dsimp only
  cases hn : hasNewlines s
  · have h10 : (10 : Byte) ∉ s := by
      intro hm
      simp only [hasNewlines, List.any_eq_false, beq_iff_eq] at hn
      exact hn _ hm rfl
    refine ⟨1, s, [], by omega, splitLines_one h10, ?_, ?_⟩
    · intro x hx; simp at hx; subst hx; exact h.close h10
    · simp only [Bool.not_false, if_true, hc]
      obtain ⟨h1, h2⟩ := printSpan_out (PS.print (ps.beforeComment cfg) b#"/*") h.noStray
      refine ⟨?_, ?_⟩
      · show (PS.printSpan _ s).out ++ [42, 47] = _
        rw [h1]
        show (ps.beforeComment cfg).out ++ [47, 42] ++ s ++ [42, 47] = _
        simp [contText]
      · refine ⟨?_, trivial⟩
        show (PS.printSpan _ s).line = _
        rw [h2]; rfl
  · simp only [Bool.not_true, Bool.false_eq_true, if_false]
    obtain ⟨l, ls, hls⟩ : ∃ l ls, splitLines s = l :: ls := by
      cases hh : splitLines s with
      | nil => exact absurd hh (splitLines_ne s)
      | cons l ls => exact ⟨l, ls, rfl⟩
    have hs : s = unlines (l :: ls) := by rw [← hls, unlines_splitLines]
    have hmem : (10 : Byte) ∈ s := by
      simp only [hasNewlines, List.any_eq_true, beq_iff_eq] at hn
      obtain ⟨x, hx, rfl⟩ := hn; exact hx
    obtain ⟨n0, n1, -⟩ := countNecessarySlashes_spec s
    refine ⟨countNecessarySlashes s, l, ls, n0, hls, fun x hx hi => n1 (hi.trans (splitLines_infix (hls ▸ hx))), ?_⟩
    have hl10 : (10 : Byte) ∉ l := splitLines_noNl (s := s) (by rw [hls]; simp)
    cases hls' : ls with
    | nil =>
      subst hls'
      rw [unlines_single] at hs
      subst hs; exact absurd hmem hl10
    | cons m t =>
      subst hls'
      unfold PS.commentLines
      simp only [hc, Bool.not_true, Bool.false_and, Bool.false_eq_true, if_false]
      have htw : s.takeWhile (· != (10 : Byte)) = l := by
        rw [hs, unlines_cons, takeWhile_line _ _ hl10]
      have hd : s.drop (l.length + 1) = unlines (m :: t) := by
        rw [hs, unlines_cons, ← List.drop_drop, List.drop_left' rfl]; rfl
      rw [htw, hd]
      generalize hp : PS.printSpan _ l = p
      have h1 := commentRest_out hc (countNecessarySlashes s) (m :: t) (fun x hx => splitLines_noNl (s := s) (by rw [hls]; simp at hx ⊢; exact .inr hx))
        (fun x hx => h.noStray.infix (splitLines_infix (by rw [hls]; simp at hx ⊢; exact .inr hx)))
        (fun x hx he => by
          subst he
          apply h.final
          rw [hs]
          refine unlines_last_empty (by simp) ?_
          rw [List.getLast?_cons_cons]; exact hx) s.length p (by
            rw [hs, unlines_cons]; simp; omega)
      refine ⟨?_, rfl, trivial⟩
      show (PS.commentRest cfg _ _ p _).out ++ _ = _
      rw [h1.1, ← hp]
      rw [(printSpan_out _ (h.noStray.infix (splitLines_infix (by rw [hls]; simp)))).1]
      show (ps.beforeComment cfg).out ++ (List.replicate (countNecessarySlashes s) 47 ++ [42]) ++ l ++ _ ++ _ = _
      have := contText_shift (countNecessarySlashes s) l (m :: t)
      simp only [List.append_assoc, List.cons_append, List.nil_append] at this ⊢
      rw [this]

theorem mem_zip_self {α} {ls : List α} {a b : α} (hp : (a, b) ∈ ls.zip ls) : a = b ∧ a ∈ ls := by
  induction ls with
  | nil => simp at hp
  | cons x xs ih =>
    simp at hp
    rcases hp with ⟨rfl, rfl⟩ | hp
    · simp
    · have := ih hp; exact ⟨this.1, List.mem_cons_of_mem _ this.2⟩

theorem emits_comment {cfg : OutCfg} (hsp : cfg.indentationSpace = [32]) (hc : cfg.compact = true) {s : List Byte} (h : CompactComment s)
    (ps : PS) : NEmits cfg ps (ps.commentNode cfg s) [.comment s] ∧ (ps.commentNode cfg s).last ≠ 1 := by
  obtain ⟨n, l, ls, hn, hls, hb, ho, hl, hlast⟩ := commentNode_out hc h ps
  refine ⟨?_, by rw [hlast]; decide⟩
  obtain ⟨m, rfl⟩ : ∃ j, n = j + 1 := ⟨n - 1, by omega⟩
  have e : (List.replicate (m + 1) 47 ++ 42 :: (l ++ 42 :: List.replicate (m + 1) 47)) ++ contText (m + 1) ls =
      47 :: ((List.replicate m 47 ++ 42 :: (l ++ 42 :: List.replicate (m + 1) 47)) ++ contText (m + 1) ls) := by
    simp [List.replicate_succ]
  refine N_step (beforeComment_sep hsp ps) starts_slash (by rw [ho, e]) hl (fun col hcol => ?_)
  rw [hlast]
  refine ⟨by simp [Sync, hlast], fun k hk o stk => ?_⟩
  have hlines : ∀ x ∈ l :: ls, CommentLine x ∧ (10 : Byte) ∉ x := fun x hx => by
    rw [← hls] at hx; exact ⟨h.lines x hx, splitLines_noNl hx⟩
  have hX := X_comment_block hn (ts := ls) (cs := ls) (col := col) (c := l) hb (hk.slash rfl).1 (hk.slash rfl).2 rfl
    (unComment_line (hlines l (by simp)).2 (hlines l (by simp)).1 _)
    (fun col p hp => by
      obtain ⟨a, b⟩ := p
      obtain ⟨rfl, hm⟩ := mem_zip_self hp
      exact unComment_line (hlines a (by simp [hm])).2 (hlines a (by simp [hm])).1 _) o stk
  rw [foldl_lines, ← hls, unlines_splitLines] at hX
  simp only [aft, colAft]
  rw [if_neg (by decide), if_neg (by decide), ← e]
  have e2 : o.addAll [Node.comment s] = o.add (.comment s) := rfl
  rw [e2]
  simpa using hX

end Xmq
