import Verif.Model.TrimNode
import Verif.Props.Trim
/-!
# C38: trimming of text nodes
-/
namespace Xmq.Props
open Xmq.Spec

theorem dropWhile_head {p : Byte → Bool} (l : List Byte) : ∀ c, (l.dropWhile p).head? = some c → p c = false := by
  induction l with
  | nil => simp
  | cons x t ih =>
    intro c h
    rw [List.dropWhile_cons] at h
    split at h
    · exact ih c h
    · rename_i hx; simp at h; subst h; simpa using hx

theorem dropWhile_of_head {p : Byte → Bool} {l : List Byte} (h : ∀ c, l.head? = some c → p c = false) : l.dropWhile p = l := by
  cases l with
  | nil => rfl
  | cons x t => rw [List.dropWhile_cons, h x rfl]; rfl

theorem stripSpaces_id {l : List Byte} (h1 : l.head? ≠ some 32) (h2 : l.getLast? ≠ some 32) : stripSpaces l = l := by
  unfold stripSpaces
  rw [dropWhile_of_head (l := l) (by intro c hc; simp; rintro rfl; exact h1 hc)]
  rw [dropWhile_of_head (l := l.reverse) (by intro c hc; simp; rintro rfl; rw [List.head?_reverse] at hc; exact h2 hc)]
  simp

theorem stripSpaces_ends (l : List Byte) : (stripSpaces l).head? ≠ some 32 ∧ (stripSpaces l).getLast? ≠ some 32 := by
  unfold stripSpaces
  constructor
  · intro h
    generalize hm : l.dropWhile (· == 32) = m at h
    have hmh := dropWhile_head (p := (· == 32)) l
    rw [hm] at hmh
    -- the reversed list keeps a prefix of m
    have hpre : ∃ b, m = (m.reverse.dropWhile (· == 32)).reverse ++ b := by
      refine ⟨(m.reverse.takeWhile (· == 32)).reverse, ?_⟩
      rw [← List.reverse_append, List.takeWhile_append_dropWhile, List.reverse_reverse]
    obtain ⟨b, hb⟩ := hpre
    have : m.head? = some 32 := by
      rw [hb, List.head?_append, h]; rfl
    have := hmh 32 this
    simp at this
  · intro h
    rw [List.getLast?_reverse] at h
    have := dropWhile_head (p := (· == 32)) _ 32 h
    simp at this

theorem cut_suffix (n : Nat) (l : List Byte) : ∃ b, l = b ++ cut n l ∧ BlankLine b = true := by
  induction l generalizing n with
  | nil => exact ⟨[], by cases n <;> rfl, rfl⟩
  | cons c t ih =>
    cases n with
    | zero => exact ⟨[], rfl, rfl⟩
    | succ n =>
      rw [cut]
      split
      · rename_i hc
        obtain ⟨b, e, hb⟩ := ih n
        exact ⟨c :: b, by rw [List.cons_append, ← e], by simpa [BlankLine, Blank, hc] using hb⟩
      · split
        · rename_i hc
          split
          · exact ⟨[c], rfl, by simp [BlankLine, Blank, hc]⟩
          · obtain ⟨b, e, hb⟩ := ih (n + 1 - 8)
            exact ⟨c :: b, by rw [List.cons_append, ← e], by simpa [BlankLine, Blank, hc] using hb⟩
        · exact ⟨[], rfl, rfl⟩

theorem cut_solid {l : List Byte} (h : BlankLine l = false) (n : Nat) : BlankLine (cut n l) = false := by
  obtain ⟨b, e, hb⟩ := cut_suffix n l
  cases hc : BlankLine (cut n l) with
  | false => rfl
  | true =>
    rw [e] at h
    unfold BlankLine at *
    rw [List.all_append, hb, hc] at h
    cases h

theorem width_cut (l : List Byte) : width (cut (width l) l) = 0 := by
  induction l with
  | nil => rfl
  | cons c t ih =>
    rw [width]
    by_cases h1 : c = 32
    · rw [if_pos h1]
      have : 1 + width t = width t + 1 := by omega
      rw [this, cut, if_pos h1]; exact ih
    · rw [if_neg h1]
      by_cases h2 : c = 9
      · rw [if_pos h2]
        have : 8 + width t = (width t + 7) + 1 := by omega
        rw [this, cut, if_neg h1, if_pos h2, if_neg (by omega)]
        have : width t + 7 + 1 - 8 = width t := by omega
        rw [this]; exact ih
      · rw [if_neg h2, cut, width, if_neg h1, if_neg h2]

theorem width_append_le (a b : List Byte) : width a ≤ width (a ++ b) := by
  induction a with
  | nil => simp [width]
  | cons c t ih =>
    rw [List.cons_append, width, width]
    split
    · omega
    · split <;> omega

theorem width_rtrim_le (l : List Byte) : width (rtrim l) ≤ width l := by
  obtain ⟨b, e, _⟩ := rdrop_split isBlank l
  rw [← rtrim_eq] at e
  have := width_append_le (rtrim l) b
  rw [← e] at this
  exact this

theorem minWidth_attained (n : Nat) (ls : List (List Byte)) :
    minWidth n ls = n ∨ ∃ l ∈ ls, BlankLine l = false ∧ width l = minWidth n ls := by
  induction ls generalizing n with
  | nil => left; rfl
  | cons a t ih =>
    have e : minWidth n (a :: t) = minWidth (if BlankLine a then n else min n (width a)) t := rfl
    rw [e]
    rcases ih (if BlankLine a then n else min n (width a)) with h | ⟨l, h1, h2, h3⟩
    · by_cases hb : BlankLine a = true
      · rw [if_pos hb] at h ⊢; left; exact h
      · rw [if_neg hb] at h ⊢
        rcases Nat.le_total n (width a) with hle | hle
        · left; rw [h]; exact Nat.min_eq_left hle
        · right; exact ⟨a, by simp, by simpa using hb, by rw [h]; exact (Nat.min_eq_right hle).symm⟩
    · right; exact ⟨l, by simp [h1], h2, h3⟩

theorem tidy_mem {ls : List (List Byte)} {x : List Byte} (h : x ∈ ls) : ∃ y ∈ tidy ls, y = x ∨ y = rtrim x := by
  induction ls with
  | nil => simp at h
  | cons a t ih =>
    cases t with
    | nil => simp at h; subst h; exact ⟨x, by simp [tidy], .inl rfl⟩
    | cons b u =>
      rw [tidy]
      rcases List.mem_cons.1 h with rfl | h
      · exact ⟨rtrim x, by simp, .inr rfl⟩
      · obtain ⟨y, hy, e⟩ := ih h
        exact ⟨y, by simp [hy], e⟩

theorem mem_tidy {ls : List (List Byte)} {y : List Byte} (h : y ∈ tidy ls) : ∃ x ∈ ls, y = x ∨ y = rtrim x := by
  induction ls with
  | nil => simp [tidy] at h
  | cons a t ih =>
    cases t with
    | nil => simp [tidy] at h; subst h; exact ⟨y, by simp, .inl rfl⟩
    | cons b u =>
      rw [tidy] at h
      rcases List.mem_cons.1 h with rfl | h
      · exact ⟨a, by simp, .inr rfl⟩
      · obtain ⟨x, hx, e⟩ := ih h
        exact ⟨x, by simp [hx], e⟩

theorem rtrim_idem (l : List Byte) : rtrim (rtrim l) = rtrim l := by
  unfold rtrim
  rw [List.reverse_reverse]
  congr 1
  exact dropWhile_of_head (dropWhile_head _)

theorem tidy_ne_nil {ls : List (List Byte)} (h : ls ≠ []) : tidy ls ≠ [] := by
  cases ls with
  | nil => exact absurd rfl h
  | cons a t => cases t <;> simp [tidy]

theorem tidy_idem (ls : List (List Byte)) : tidy (tidy ls) = tidy ls := by
  induction ls with
  | nil => rfl
  | cons a t ih =>
    cases t with
    | nil => rfl
    | cons b u =>
      rw [tidy]
      cases hq : tidy (b :: u) with
      | nil => exact absurd hq (tidy_ne_nil (by simp))
      | cons c v =>
        rw [tidy, ← hq, ih, rtrim_idem]

theorem tidy_getLast? (ls : List (List Byte)) : (tidy ls).getLast? = ls.getLast? := by
  induction ls with
  | nil => rfl
  | cons a t ih =>
    cases t with
    | nil => rfl
    | cons b u =>
      rw [tidy]
      cases hq : tidy (b :: u) with
      | nil => exact absurd hq (tidy_ne_nil (by simp))
      | cons c v =>
        rw [List.getLast?_cons_cons, ← hq, ih, List.getLast?_cons_cons]

theorem dropBlankEnd_of_solid {ls : List (List Byte)} (h : EndsSolid ls) : dropBlankEnd ls = ls := by
  obtain ⟨l, h1, h2⟩ := h
  unfold dropBlankEnd
  cases hr : ls.reverse with
  | nil => simp at hr; subst hr; simp at h1
  | cons x t =>
    have hx : x = l := by
      have : ls.reverse.head? = some l := by rw [List.head?_reverse]; exact h1
      rw [hr] at this; simpa using this
    subst hx
    rw [List.dropWhile_cons, h2]
    simp only [Bool.false_eq_true, if_false]
    rw [← hr, List.reverse_reverse]

/-- The meaning of a text whose first and last lines are not blank, without padding. -/
theorem dedent_solid (k : Nat) (a : List Byte) (rest : List (List Byte)) (ha : BlankLine a = false) (hs : EndsSolid (a :: rest)) :
    dedent [] k (a :: rest) = unlines (tidy (a :: rest.map (cut (minWidth k rest)))) := by
  unfold dedent
  rw [dropBlankEnd_of_solid hs]
  simp only [Nat.sub_self, if_true, ha, Bool.false_eq_true, if_false]
  have : (List.replicate (k - minWidth k rest) ([] : List Byte)).flatten = [] := by simp
  rw [this]
  simp

theorem unlines_getLast? (ls : List (List Byte)) (l : List Byte) (h : ls.getLast? = some l) (hl : l ≠ []) : (unlines ls).getLast? = l.getLast? := by
  rcases List.eq_nil_or_concat ls with rfl | ⟨pre, m, rfl⟩
  · simp at h
  · simp only [List.concat_eq_append] at h ⊢
    simp at h
    subst h
    by_cases hp : pre = []
    · subst hp; rw [List.nil_append, unlines_single]
    · rw [unlines_snoc pre hp, List.getLast?_append, List.getLast?_cons]
      cases hm : m.getLast? with
      | none => rw [List.getLast?_eq_none_iff] at hm; exact absurd hm hl
      | some c => simp

theorem solid_ne {l : List Byte} (h : BlankLine l = false) : l ≠ [] := by rintro rfl; cases h

/-- Lines whose first and last are solid become lines with the same property and without common indentation. -/
theorem dedent_stable (a : List Byte) (b : List Byte) (r : List (List Byte)) (hok : ∀ l ∈ a :: b :: r, LineOk l)
    (ha : BlankLine a = false) (hs : EndsSolid (a :: b :: r)) :
    ∃ ls', dedent [] (width b) (a :: b :: r) = unlines ls' ∧ 2 ≤ ls'.length ∧ (∀ l ∈ ls', LineOk l) ∧
      dedent [] (width (ls'.tail.headD [])) ls' = unlines ls' ∧
      ls'.head? = some (rtrim a) ∧ (∃ l m, (a :: b :: r).getLast? = some l ∧ ls'.getLast? = some m ∧ BlankLine m = false ∧ ∃ x, l = x ++ m) := by
  generalize hinc : minWidth (width b) (b :: r) = inc
  have e1 := dedent_solid (width b) a (b :: r) ha hs
  rw [hinc] at e1
  rw [e1]
  obtain ⟨l, hl1, hl2⟩ := hs
  have hl1' : (b :: r).getLast? = some l := by rw [← hl1, List.getLast?_cons_cons]
  have hlast : (tidy (a :: (b :: r).map (cut inc))).getLast? = some (cut inc l) := by
    rw [tidy_getLast?, List.map_cons, List.getLast?_cons_cons, ← List.map_cons, List.getLast?_map, hl1']; rfl
  have htail : tidy (a :: (b :: r).map (cut inc)) = rtrim a :: tidy ((b :: r).map (cut inc)) := by
    rw [List.map_cons, tidy]
  have hcutok : ∀ l : List Byte, LineOk l → LineOk (cut inc l) := by
    intro l h
    obtain ⟨x, e, _⟩ := cut_suffix inc l
    exact ⟨fun h' => h.1 (by rw [e]; simp [h']), fun h' => h.2 (by rw [e]; simp [h'])⟩
  obtain ⟨x, ex, _⟩ := cut_suffix inc l
  have hlm : BlankLine (cut inc l) = false := cut_solid hl2 inc
  refine ⟨_, rfl, ?_, ?_, ?_, ?_, ⟨l, cut inc l, hl1, hlast, hlm, x, ex⟩⟩
  · rw [htail]
    have := List.length_pos_iff.2 (tidy_ne_nil (ls := (b :: r).map (cut inc)) (by simp))
    rw [List.length_cons]; omega
  · intro y hy
    obtain ⟨z, hz, e⟩ := mem_tidy hy
    have hz' : LineOk z := by
      rcases List.mem_cons.1 hz with rfl | hz
      · exact hok z (by simp)
      · obtain ⟨w, hw, rfl⟩ := List.mem_map.1 hz
        exact hcutok w (hok w (List.mem_cons_of_mem _ hw))
    rcases e with rfl | rfl
    · exact hz'
    · exact lineOk_rtrim hz'
  · rw [htail]
    have hsol : EndsSolid (rtrim a :: tidy ((b :: r).map (cut inc))) := by
      rw [← htail]; exact ⟨_, hlast, hlm⟩
    rw [dedent_solid _ _ _ (rtrim_blank ha) hsol]
    -- no common indentation is left
    have h0 : minWidth (width ((tidy ((b :: r).map (cut inc))).headD [])) (tidy ((b :: r).map (cut inc))) = 0 := by
      have hle := minWidth_le (width ((tidy ((b :: r).map (cut inc))).headD [])) (tidy ((b :: r).map (cut inc)))
      have hat := minWidth_attained (width b) (b :: r)
      rw [hinc] at hat
      rcases hat with hat | ⟨w, hw1, hw2, hw3⟩
      · have : width ((tidy ((b :: r).map (cut inc))).headD []) = 0 := by
          have hc : width (cut inc b) = 0 := by rw [hat]; exact width_cut b
          cases r with
          | nil => simpa [tidy] using hc
          | cons c t =>
            simp only [List.map_cons, tidy, List.headD_cons]
            have := width_rtrim_le (cut inc b)
            omega
        omega
      · obtain ⟨y, hy, e⟩ := tidy_mem (ls := (b :: r).map (cut inc)) (x := cut inc w) (List.mem_map.2 ⟨w, hw1, rfl⟩)
        have hc : width (cut inc w) = 0 := by rw [← hw3]; exact width_cut w
        have hb : BlankLine y = false ∧ width y = 0 := by
          rcases e with rfl | rfl
          · exact ⟨cut_solid hw2 inc, hc⟩
          · refine ⟨rtrim_blank (cut_solid hw2 inc), ?_⟩
            have := width_rtrim_le (cut inc w)
            omega
        have := hle.2 y hy hb.1
        omega
    have hid : cut 0 = id := by funext l; cases l <;> rfl
    simp only [List.tail_cons]
    rw [h0, hid, List.map_id, ← htail, tidy_idem]
  · rw [htail]; rfl

theorem not_all_ws_of_solid {l : List Byte} (hok : LineOk l) (h : BlankLine l = false) : ∃ c ∈ l, isXmlWhitespace c = false := by
  have := h
  rw [blankLine_eq, ← all_congr (line_ws hok), List.all_eq_false] at this
  obtain ⟨c, hc, hn⟩ := this
  exact ⟨c, hc, by simpa using hn⟩

theorem mem_unlines {ls : List (List Byte)} {l : List Byte} (hl : l ∈ ls) {c : Byte} (hc : c ∈ l) : c ∈ unlines ls := by
  induction ls with
  | nil => simp at hl
  | cons a t ih =>
    cases t with
    | nil => simp at hl; subst hl; rw [unlines_single]; exact hc
    | cons b u =>
      rw [unlines_cons]
      rcases List.mem_cons.1 hl with rfl | hl
      · simp [hc]
      · simp [ih hl]

/-- The full claim: trimming what trimming produced changes nothing. -/
def TrimStable : Prop := ∀ s t, trimTextNode s = .content t → trimTextNode t = .content t

/-- False: each time one empty line at the beginning is removed. -/
theorem C38_false : ¬ TrimStable := by
  intro h
  have := h b#"\n\na" b#"\na" (by decide +kernel)
  revert this
  decide +kernel

/-- False: the indentation of the first line is kept the first time and removed the second time. -/
theorem C38_false_indentation : ¬ TrimStable := by
  intro h
  have := h b#"\n  a\n b" b#" a\nb" (by decide +kernel)
  revert this
  decide +kernel

/-- Stable if the text, without the spaces around it, neither begins nor ends with a blank line.
    Missing: carriage returns. -/
theorem C38_stable_partial (s t : List Byte) (h13 : (13 : Byte) ∉ s)
    (hfirst : BlankLine ((splitLines (stripSpaces s)).headD []) = false)
    (hlast : BlankLine ((splitLines (stripSpaces s)).getLast?.getD []) = false)
    (h : trimTextNode s = .content t) : trimTextNode t = .content t := by
  obtain ⟨hb, he⟩ := stripSpaces_ends s
  have h13' : (13 : Byte) ∉ stripSpaces s := by
    intro hm
    unfold stripSpaces at hm
    rw [List.mem_reverse] at hm
    have := (List.dropWhile_sublist _).subset hm
    rw [List.mem_reverse] at this
    exact h13 ((List.dropWhile_sublist _).subset this)
  unfold trimTextNode at h
  generalize stripSpaces s = u at *
  split at h
  · cases h
  · simp only [unQuote, Bool.false_eq_true, if_false] at h
    by_cases h10 : (10 : Byte) ∈ u
    · rw [C43_multi_line_is_dedent 0 0 _ u h10 h13'] at h
      have hlen := splitLines_length u h10
      have hok := splitLines_ok h13'
      have hun := unlines_splitLines u
      match hls : splitLines u, hlen with
      | a :: b :: r, _ =>
      rw [hls] at h hok hun hfirst hlast
      simp only [List.headD_cons] at hfirst
      have hs : EndsSolid (a :: b :: r) := by
        cases hg : (a :: b :: r).getLast? with
        | none => simp at hg
        | some l => rw [hg] at hlast; exact ⟨l, hg, hlast⟩
      obtain ⟨ls', e1, e2, e3, e4, e5, l, m, e6, e7, e8, x, e9⟩ := dedent_stable a b r hok hfirst hs
      have esc : startColumn 0 0 (a :: b :: r) = width b := by simp [startColumn]
      simp only [if_true] at h
      rw [esc, e1] at h
      have ht : t = unlines ls' := by
        split at h
        · cases h
        · cases h
        · rename_i hq; cases h; cases hq; rfl
      subst ht
      clear h
      have hne : ls' ≠ [] := by rintro rfl; simp at e2
      have hmem : ∀ l ∈ ls', (10 : Byte) ∉ l := fun l hl => (e3 l hl).1
      have hsp : splitLines (unlines ls') = ls' := splitLines_unlines ls' hne hmem
      have hm10 : (10 : Byte) ∈ unlines ls' := by
        match ls', e2 with
        | p :: q :: w, _ => rw [unlines_cons]; simp
      have hm13 : (13 : Byte) ∉ unlines ls' := by
        intro hm
        have : ∀ ls : List (List Byte), (∀ l ∈ ls, LineOk l) → (13 : Byte) ∉ unlines ls := by
          intro ls
          induction ls with
          | nil => intro _; simp [unlines]
          | cons p w ih =>
            intro hl
            cases w with
            | nil => rw [unlines_single]; exact (hl p (by simp)).2
            | cons q v =>
              rw [unlines_cons]
              simp only [List.mem_append, List.mem_cons, not_or]
              exact ⟨(hl p (by simp)).2, by decide, ih (fun l h => hl l (List.mem_cons_of_mem _ h))⟩
        exact this ls' e3 hm
      have hrt : rtrim a ≠ [] := solid_ne (rtrim_blank hfirst)
      have hhead : (unlines ls').head? ≠ some 32 := by
        match ls', e2 with
        | p :: q :: w, _ =>
          simp at e5
          subst e5
          rw [unlines_cons, List.head?_append]
          obtain ⟨y, ey, _⟩ := rdrop_split isBlank a
          rw [← rtrim_eq] at ey
          cases hr : rtrim a with
          | nil => exact absurd hr hrt
          | cons c v =>
            rw [hr] at ey
            rw [← hun, unlines_cons, ey] at hb
            simpa using hb
      have hend : (unlines ls').getLast? ≠ some 32 := by
        rw [unlines_getLast? ls' m e7 (solid_ne e8)]
        have hl : l ≠ [] := by rw [e9]; simp [solid_ne e8]
        rw [← hun, unlines_getLast? _ l e6 hl, e9, List.getLast?_append] at he
        cases hg : m.getLast? with
        | none => simp
        | some c => rw [hg] at he; simpa using he
      unfold trimTextNode
      have hws : ¬ (unlines ls').all isXmlWhitespace = true := by
        obtain ⟨c, hc1, hc2⟩ := not_all_ws_of_solid (e3 m (List.mem_of_getLast? e7)) e8
        intro hall
        have := List.all_eq_true.1 hall c (mem_unlines (List.mem_of_getLast? e7) hc1)
        rw [hc2] at this; cases this
      rw [if_neg hws]
      simp only [unQuote, Bool.false_eq_true, if_false]
      rw [stripSpaces_id hhead hend, C43_multi_line_is_dedent 0 0 _ _ hm10 hm13, hsp]
      have esc : startColumn 0 0 ls' = width (ls'.tail.headD []) := by simp [startColumn]
      simp only [if_true]
      rw [esc, e4]
      cases hq : unlines ls' with
      | nil => rw [hq] at hm10; simp at hm10
      | cons c v => rfl
    · rw [C13_single_line_unchanged 0 0 _ u h10 h13'] at h
      have ht : t = u := by
        split at h
        · cases h
        · cases h
        · rename_i hq; cases h; cases hq; rfl
      subst ht
      rw [splitLines_line h10] at hfirst
      simp only [List.headD_cons] at hfirst
      unfold trimTextNode
      have hws : ¬ t.all isXmlWhitespace = true := by
        obtain ⟨c, hc1, hc2⟩ := not_all_ws_of_solid ⟨h10, h13'⟩ hfirst
        intro hall
        have := List.all_eq_true.1 hall c hc1
        rw [hc2] at this; cases this
      rw [if_neg hws, stripSpaces_id hb he]
      simp only [unQuote, Bool.false_eq_true, if_false]
      rw [C13_single_line_unchanged 0 0 _ t h10 h13']
      cases t with
      | nil => exact absurd rfl hws
      | cons c v => rfl

example : trimTextNode b#"  a
    b  
   c " = .content b#"a
 b
c" ∧ trimTextNode b#"a
 b
c" = .content b#"a
 b
c" := by decide +kernel

/-- Without carriage returns trimming never leaves the memory of the text. -/
theorem C38_memory_safe_partial (s : List Byte) (h13 : (13 : Byte) ∉ s) : trimTextNode s ≠ .outside := by
  have h13' : (13 : Byte) ∉ stripSpaces s := by
    intro hm
    unfold stripSpaces at hm
    rw [List.mem_reverse] at hm
    have := (List.dropWhile_sublist _).subset hm
    rw [List.mem_reverse] at this
    exact h13 ((List.dropWhile_sublist _).subset this)
  unfold trimTextNode
  split
  · simp
  · simp only [unQuote, Bool.false_eq_true, if_false]
    obtain ⟨out, ho⟩ := C15_memory_safe_partial 0 0 (if s.getLast? = some 32 then 32 else 0) (stripSpaces s) (noLoneCr_of_noCr h13')
    rw [ho]
    cases out <;> simp

end Xmq.Props
