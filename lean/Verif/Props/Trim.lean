import Verif.Lemmas.Crlf
/-!
# C13, C15, C16, C43: removal of incidental indentation
-/
namespace Xmq.Props
open Xmq Xmq.Spec

/-- **C13.**  A text without line breaks is returned unchanged, whatever the indentation, the padding character and the
    byte after the text are. -/
theorem C13_single_line_unchanged (indent : Nat) (space next : Byte) (s : List Byte) (h10 : (10 : Byte) ∉ s) (h13 : (13 : Byte) ∉ s) :
    trimQuote indent space next s = some s := by
  have h := findLine_single next s h10 h13
  have hat : ∀ k, trimQuoteAt k space next s = some s := by
    intro k
    rw [trimQuoteAt]
    simp only
    rw [h]
    simp
  rw [trimQuote]
  split
  · simp only
    rw [h]
    simp [hat]
  · exact hat _

example : trimQuote 7 32 39 b#"  a  b\t " = some b#"  a  b\t " := C13_single_line_unchanged 7 32 39 _ (by decide) (by decide)

/-- The column at which the first line is thought to start: the given one, or, when asked to guess (no column and no
    padding character), the indentation of the second line. -/
def startColumn (indent : Nat) (space : Byte) (ls : List (List Byte)) : Nat :=
  if indent = 0 ∧ space = 0 then width (ls.tail.headD []) else indent

/-- **C43.**  A text of several lines means its lines with the common indentation removed. -/
theorem C43_multi_line_is_dedent (indent : Nat) (space next : Byte) (s : List Byte) (h10 : (10 : Byte) ∈ s) (h13 : (13 : Byte) ∉ s) :
    trimQuote indent space next s =
      some (dedent (if space = 0 then [] else [space]) (startColumn indent space (splitLines s)) (splitLines s)) := by
  have hok := splitLines_ok h13
  have hlen := splitLines_length s h10
  have hmain := fun k => trimQuoteAt_eq_dedent k space next (splitLines s) hlen hok
  rw [unlines_splitLines] at hmain
  rw [trimQuote, startColumn]
  split
  · match hls : splitLines s, hlen with
    | a :: b :: t, _ =>
    have hs : s = a ++ 10 :: unlines (b :: t) := by
      have := unlines_splitLines s
      rw [hls, unlines_cons] at this
      exact this.symm
    have ha : LineOk a := hok a (by rw [hls]; simp)
    have hb : LineOk b := hok b (by rw [hls]; simp)
    have hfl : findLine next s = ⟨true, width a, (rtrim a).length, a.length + 1⟩ := by
      rw [hs]; exact findLine_nl next a _ ha
    simp only [hfl, Bool.true_and]
    have hd : s.drop (a.length + 1) = unlines (b :: t) := by
      rw [hs, List.drop_append]; simp
    have hw : (findLine next (unlines (b :: t))).indent = width b := by
      cases t with
      | nil => rw [unlines_single, findLine_last next b hb]
      | cons c t => rw [unlines_cons, findLine_nl next b _ hb]
    rw [hls] at hmain
    by_cases he : a.length + 1 = s.length
    · have hnil : unlines (b :: t) = [] := by rw [← hd, he]; simp
      have hbt : b = [] ∧ t = [] := by
        cases t with
        | nil => rw [unlines_single] at hnil; exact ⟨hnil, rfl⟩
        | cons c t => rw [unlines_cons] at hnil; simp at hnil
      obtain ⟨rfl, rfl⟩ := hbt
      simp [he, hmain, width]
    · have hle : a.length + 1 ≤ s.length := by rw [hs]; simp
      rw [if_pos (by simpa using he), if_pos hle, hd, hw, hmain]
      simp
  · exact hmain _

example : trimQuote 4 32 39 b#"a\n     b  \n\n    c\n\n  " = some b#"a\n b\n\nc\n" := by decide +kernel
example : dedent [32] 4 (splitLines b#"a\n     b  \n\n    c\n\n  ") = b#"a\n b\n\nc\n" := by decide +kernel
example : startColumn 4 32 (splitLines b#"a\n     b") = 4 := by decide

/-- The claim of C15: for every text, the function neither reads outside the quote nor writes outside its allocation. -/
def C15_full : Prop := ∀ indent space next s, trimQuote indent space next s ≠ none

/-- **C15** is false: a text whose lines end with lone carriage returns is read beyond its end. -/
theorem C15_false : ¬ C15_full := by
  intro h
  exact h 5 32 39 b#"a\r\r" (by decide +kernel)

/-- Line endings do not matter: a text means what it means with line feeds in place of Windows line endings.  (A part of
    **C50**, for texts inside quotes.) -/
theorem C50_quote_line_endings (indent : Nat) (space next : Byte) (s : List Byte) (h : NoLoneCr s) :
    trimQuote indent space next s = trimQuote indent space next (lfOnly s) := by
  have hc := crlf_of h
  have : ∃ out, trimQuote indent space next (lfOnly s) = some out := by
    by_cases h10 : (10 : Byte) ∈ lfOnly s
    · exact ⟨_, C43_multi_line_is_dedent indent space next _ h10 hc.noCr⟩
    · exact ⟨_, C13_single_line_unchanged indent space next _ h10 hc.noCr⟩
  obtain ⟨out, ho⟩ := this
  rw [ho]
  exact trimQuote_crlf hc ho

example : NoLoneCr b#"a\r\n  b" ∧ lfOnly b#"a\r\n  b" = b#"a\n  b" :=
  ⟨by
    intro p t e
    have : ∀ n ≤ 6, (b#"a\r\n  b").drop n = 13 :: t → t.head? = some 10 := by
      intro n hn
      have : n = 0 ∨ n = 1 ∨ n = 2 ∨ n = 3 ∨ n = 4 ∨ n = 5 ∨ n = 6 := by omega
      rcases this with rfl | rfl | rfl | rfl | rfl | rfl | rfl <;> intro e <;> simp at e
      subst e; rfl
    have hl := congrArg List.length e
    simp at hl
    exact this p.length (by omega) (by rw [e]; simp), by decide⟩

/-- **C43** for every line ending: the lines of a text of several lines are found with Unix and with Windows line endings,
    and it means these lines with the common indentation removed. -/
theorem C43_any_line_ending (indent : Nat) (space next : Byte) (s : List Byte) (h10 : (10 : Byte) ∈ s) (h : NoLoneCr s) :
    trimQuote indent space next s = some (dedent (if space = 0 then [] else [space])
      (startColumn indent space (splitLines (lfOnly s))) (splitLines (lfOnly s))) := by
  have hc := crlf_of h
  rw [C50_quote_line_endings indent space next s h]
  refine C43_multi_line_is_dedent indent space next _ ?_ hc.noCr
  rw [hc.filter, List.mem_filter]
  exact ⟨h10, by decide⟩

/-- **C15**, the part that holds: texts where every carriage return stands before a line feed.  What is missing is texts
    with other carriage returns. -/
theorem C15_memory_safe_partial (indent : Nat) (space next : Byte) (s : List Byte) (h : NoLoneCr s) :
    ∃ out, trimQuote indent space next s = some out := by
  by_cases h10 : (10 : Byte) ∈ s
  · exact ⟨_, C43_any_line_ending indent space next s h10 h⟩
  · have h13 : (13 : Byte) ∉ s := by
      intro h13
      obtain ⟨p, t, e⟩ := List.append_of_mem h13
      have := h p t e
      cases t with
      | nil => cases this
      | cons d t =>
        have : d = 10 := by simpa using this
        subst this
        exact h10 (by rw [e]; simp)
    exact ⟨_, C13_single_line_unchanged indent space next s h10 h13⟩

theorem noLoneCr_of_noCr {s : List Byte} (h : (13 : Byte) ∉ s) : NoLoneCr s := fun p t e => absurd (by rw [e]; simp) h

example : NoLoneCr b#"a\n b\n" := noLoneCr_of_noCr (by decide)

/-- `m` is the line `l` moved `k` columns to the right; blank lines may be replaced by any blank line. -/
def ShiftedLine (k : Nat) (l m : List Byte) : Prop :=
  if BlankLine l then BlankLine m = true else m = List.replicate k 32 ++ l

/-- The same for several lines. -/
def Shifted (k : Nat) : List (List Byte) → List (List Byte) → Prop
  | [], [] => True
  | l :: ls, m :: ms => ShiftedLine k l m ∧ Shifted k ls ms
  | _, _ => False

theorem shifted_blank {k : Nat} {l m : List Byte} (h : ShiftedLine k l m) : BlankLine m = BlankLine l := by
  rw [ShiftedLine] at h
  split at h
  · rename_i hb; rw [h, hb]
  · rename_i hb
    have hb : BlankLine l = false := by simpa using hb
    rw [h, hb]
    simp only [BlankLine, List.all_append] at hb ⊢
    rw [hb, Bool.and_false]

theorem shifted_length {k : Nat} : ∀ {ls ms : List (List Byte)}, Shifted k ls ms → ls.length = ms.length
  | [], [], _ => rfl
  | _ :: _, _ :: _, h => by simp [shifted_length h.2]
  | [], _ :: _, h => h.elim
  | _ :: _, [], h => h.elim

theorem shifted_append {k : Nat} : ∀ {ls ms ls' ms' : List (List Byte)}, Shifted k ls ms → Shifted k ls' ms' → Shifted k (ls ++ ls') (ms ++ ms')
  | [], [], _, _, _, h => h
  | _ :: _, _ :: _, _, _, h, h' => ⟨h.1, shifted_append h.2 h'⟩
  | [], _ :: _, _, _, h, _ => h.elim
  | _ :: _, [], _, _, h, _ => h.elim

theorem shifted_reverse {k : Nat} : ∀ {ls ms : List (List Byte)}, Shifted k ls ms → Shifted k ls.reverse ms.reverse
  | [], [], _ => trivial
  | _ :: _, _ :: _, h => by
    rw [List.reverse_cons, List.reverse_cons]
    exact shifted_append (shifted_reverse h.2) ⟨h.1, trivial⟩
  | [], _ :: _, h => h.elim
  | _ :: _, [], h => h.elim

theorem shifted_dropWhile {k : Nat} : ∀ {ls ms : List (List Byte)}, Shifted k ls ms → Shifted k (ls.dropWhile BlankLine) (ms.dropWhile BlankLine)
  | [], [], _ => trivial
  | a :: t, b :: u, h => by
    rw [List.dropWhile_cons, List.dropWhile_cons, shifted_blank h.1]
    split
    · exact shifted_dropWhile h.2
    · exact h
  | [], _ :: _, h => h.elim
  | _ :: _, [], h => h.elim

theorem shifted_dropBlankEnd {k : Nat} {ls ms : List (List Byte)} (h : Shifted k ls ms) : Shifted k (dropBlankEnd ls) (dropBlankEnd ms) :=
  shifted_reverse (shifted_dropWhile (shifted_reverse h))

theorem rtrim_append_solid {p l : List Byte} (h : BlankLine l = false) : rtrim (p ++ l) = p ++ rtrim l := by
  have := rdrop_append_ne (p := isBlank) (a := p) (b := l) h
  rw [rtrim_eq, rtrim_eq]; exact this

theorem shifted_rtrimLast {k : Nat} {ls ms : List (List Byte)} (h : Shifted k ls ms) (hs : EndsSolid ls) : Shifted k (rtrimLast ls) (rtrimLast ms) := by
  rcases List.eq_nil_or_concat ls with rfl | ⟨pre, l, rfl⟩
  · obtain ⟨_, h, -⟩ := hs; simp at h
  rcases List.eq_nil_or_concat ms with rfl | ⟨pre', m, rfl⟩
  · have := shifted_length h; simp at this
  simp only [List.concat_eq_append] at h hs ⊢
  rw [rtrimLast_snoc, rtrimLast_snoc]
  have hr := shifted_reverse h
  simp only [List.reverse_append, List.reverse_cons, List.reverse_nil, List.nil_append, List.singleton_append] at hr
  have hp : Shifted k pre pre' := by
    have := shifted_reverse hr.2
    simpa using this
  have hl : BlankLine l = false := by
    obtain ⟨z, hz, hb⟩ := hs
    simp at hz; rw [← hz] at hb; exact hb
  refine shifted_append hp ⟨?_, trivial⟩
  have h1 := hr.1
  rw [ShiftedLine, hl] at h1
  simp only [Bool.false_eq_true, if_false] at h1
  rw [ShiftedLine, rtrim_blank hl]
  simp only [Bool.false_eq_true, if_false]
  rw [h1, rtrim_append_solid hl]

theorem width_shift (k : Nat) (l : List Byte) : width (List.replicate k 32 ++ l) = k + width l := by
  induction k with
  | zero => simp
  | succ k ih => rw [List.replicate_succ, List.cons_append, width, if_pos rfl, ih]; omega

theorem cut_shift (n k : Nat) (l : List Byte) : cut (n + k) (List.replicate k 32 ++ l) = cut n l := by
  induction k with
  | zero => simp
  | succ k ih => rw [List.replicate_succ, List.cons_append, ← Nat.add_assoc, cut, if_pos rfl, ih]

theorem minWidth_shift {k : Nat} : ∀ {ls ms : List (List Byte)} (n : Nat), Shifted k ls ms → minWidth (n + k) ms = minWidth n ls + k
  | [], [], n, _ => rfl
  | a :: t, b :: u, n, h => by
    have hb := shifted_blank h.1
    have h1 := h.1
    rw [ShiftedLine] at h1
    have ih := fun n => minWidth_shift (k := k) n h.2
    simp only [minWidth, List.foldl_cons] at ih ⊢
    cases ha : BlankLine a with
    | true => rw [ha] at hb; simp only [hb, if_true]; exact ih n
    | false =>
      rw [ha] at hb h1
      simp only [Bool.false_eq_true, if_false] at h1
      simp only [hb, Bool.false_eq_true, if_false]
      rw [h1, width_shift, ← ih]
      congr 1
      omega
  | [], _ :: _, _, h => h.elim
  | _ :: _, [], _, h => h.elim

theorem cut_blank : ∀ (n : Nat) (l : List Byte), BlankLine l = true → BlankLine (cut n l) = true
  | 0, l, h => by simpa [cut] using h
  | n + 1, [], _ => rfl
  | n + 1, c :: t, h => by
    have ht : BlankLine t = true := by
      simp only [BlankLine, List.all_cons, Bool.and_eq_true] at h; exact h.2
    rw [cut]
    split
    · exact cut_blank n t ht
    · split
      · split
        · exact ht
        · exact cut_blank (n + 1 - 8) t ht
      · exact h
termination_by n l => l.length

theorem rtrim_of_blank {l : List Byte} (h : BlankLine l = true) : rtrim l = [] := by
  rw [rtrim_eq]; exact rdrop_eq_nil.2 h

theorem tidy_shift {k n : Nat} : ∀ {ls ms : List (List Byte)}, Shifted k ls ms → EndsSolid ls →
    tidy (ms.map (cut (n + k))) = tidy (ls.map (cut n))
  | [], [], _, _ => rfl
  | [a], [b], h, hs => by
    have h1 := h.1
    rw [ShiftedLine, endsSolid_single hs] at h1
    simp only [Bool.false_eq_true, if_false] at h1
    rw [h1]
    simp [tidy, cut_shift]
  | a :: a2 :: t, b :: b2 :: u, h, hs => by
    have ih := tidy_shift (n := n) h.2 (endsSolid_cons hs)
    simp only [List.map_cons, tidy] at ih ⊢
    rw [ih]
    congr 1
    have h1 := h.1
    rw [ShiftedLine] at h1
    split at h1
    · rename_i hb
      rw [rtrim_of_blank (cut_blank _ _ hb), rtrim_of_blank (cut_blank _ _ h1)]
    · rw [h1, cut_shift]
  | [], _ :: _, h, _ => h.elim
  | _ :: _, [], h, _ => h.elim
  | [_], _ :: _ :: _, h, _ => h.2.elim
  | _ :: _ :: _, [_], h, _ => h.2.elim

theorem dropBlankEnd_cons (a : List Byte) (t : List (List Byte)) :
    dropBlankEnd (a :: t) = if dropBlankEnd t = [] then (if BlankLine a then [] else [a]) else a :: dropBlankEnd t := by
  have e : dropBlankEnd (a :: t) = ((t.reverse ++ [a]).dropWhile BlankLine).reverse := by simp [dropBlankEnd]
  rw [e, List.dropWhile_append]
  by_cases h : t.reverse.dropWhile BlankLine = []
  · rw [if_pos (by rw [h]; rfl), if_pos (by rw [dropBlankEnd, h]; rfl)]
    simp only [List.dropWhile_cons, List.dropWhile_nil]
    split <;> simp
  · have h2 : dropBlankEnd t ≠ [] := by simpa [dropBlankEnd] using h
    rw [if_neg (by simpa using h), if_neg h2]
    simp [dropBlankEnd]

theorem rtrimLast_cons (a : List Byte) {t : List (List Byte)} (h : t ≠ []) : rtrimLast (a :: t) = a :: rtrimLast t := by
  rcases List.eq_nil_or_concat t with rfl | ⟨pre, l, rfl⟩
  · exact absurd rfl h
  · rw [List.concat_eq_append, ← List.cons_append, rtrimLast_snoc, rtrimLast_snoc]; rfl

theorem shifted_nil {k : Nat} {ls ms : List (List Byte)} (h : Shifted k ls ms) : ls = [] ↔ ms = [] := by
  have := shifted_length h
  rw [← List.length_eq_zero_iff, ← List.length_eq_zero_iff, this]

theorem dropBlankEnd_solid {ls : List (List Byte)} (h : dropBlankEnd ls ≠ []) : EndsSolid (dropBlankEnd ls) := by
  cases hr : ls.reverse.dropWhile BlankLine with
  | nil => rw [dropBlankEnd, hr] at h; exact absurd rfl h
  | cons x xs =>
    refine ⟨x, by simp [dropBlankEnd, hr], ?_⟩
    have := List.head?_dropWhile_not (p := BlankLine) ls.reverse
    rw [hr] at this
    simpa using this

theorem rtrimLast_solid {ls : List (List Byte)} (h : EndsSolid ls) : EndsSolid (rtrimLast ls) := by
  rcases List.eq_nil_or_concat ls with rfl | ⟨pre, l, rfl⟩
  · obtain ⟨_, h, -⟩ := h; simp at h
  · rw [List.concat_eq_append] at *
    rw [rtrimLast_snoc]
    refine ⟨rtrim l, by simp, ?_⟩
    obtain ⟨z, hz, hb⟩ := h
    simp at hz; subst hz
    exact rtrim_blank hb

theorem endsSolid_dropWhile {ls : List (List Byte)} (h : EndsSolid ls) :
    EndsSolid (ls.dropWhile BlankLine) := by
  induction ls with
  | nil => exact h
  | cons a t ih =>
    rw [List.dropWhile_cons]
    split
    · rename_i hb
      cases t with
      | nil => rw [endsSolid_single h] at hb; cases hb
      | cons b t => exact ih (endsSolid_cons h)
    · exact h

/-- The lines `t` after the first line `a` moved by `k` columns and the start column too: the meaning is the same. -/
theorem dedent_shift (k indent : Nat) (space : List Byte) (a b : List Byte) (t u : List (List Byte)) (hne : t ≠ [])
    (h0 : ShiftedLine 0 a b) (h : Shifted k t u) : dedent space (indent + k) (b :: u) = dedent space indent (a :: t) := by
  have hab := shifted_blank h0
  have hlen := shifted_length h
  have hdr := shifted_dropBlankEnd h
  have hdl := shifted_length hdr
  have hnil := shifted_nil hdr
  have htpos := List.length_pos_iff.2 hne
  rw [dedent, dedent, dropBlankEnd_cons, dropBlankEnd_cons, hab]
  by_cases hT : dropBlankEnd t = []
  · have hU := hnil.1 hT
    rw [if_pos hT, if_pos hU]
    rw [ShiftedLine] at h0
    cases ha : BlankLine a with
    | true =>
      have e1 : ¬ ((a :: t).length - ([] : List (List Byte)).length = 0) := by simp
      have e2 : ¬ ((b :: u).length - ([] : List (List Byte)).length = 0) := by simp
      simp only [if_true, e1, e2, if_false, rtrimLast, List.getLast?_nil]
      simp [hlen]
    | false =>
      rw [ha] at h0
      simp only [Bool.false_eq_true, if_false, List.replicate_zero, List.nil_append] at h0 ⊢
      subst h0
      have e1 : ¬ ((b :: t).length - [b].length = 0) := by simpa using hne
      have e2 : ¬ ((b :: u).length - [b].length = 0) := by simp only [List.length_cons, List.length_nil]; omega
      simp only [e1, e2, if_false]
      simp [rtrimLast, rtrim_blank ha, minWidth, hlen]
  · have hU : dropBlankEnd u ≠ [] := fun e => hT (hnil.2 e)
    rw [if_neg hT, if_neg hU]
    have hs := dropBlankEnd_solid hT
    -- the lines that are kept
    obtain ⟨T, U, e1, e2, hTU, hsT⟩ : ∃ T U,
        (if (a :: t).length - (a :: dropBlankEnd t).length = 0 then a :: dropBlankEnd t else rtrimLast (a :: dropBlankEnd t)) = a :: T ∧
        (if (b :: u).length - (b :: dropBlankEnd u).length = 0 then b :: dropBlankEnd u else rtrimLast (b :: dropBlankEnd u)) = b :: U ∧
        Shifted k T U ∧ EndsSolid T := by
      by_cases hz : (a :: t).length - (a :: dropBlankEnd t).length = 0
      · have hz2 : (b :: u).length - (b :: dropBlankEnd u).length = 0 := by simp at hz ⊢; omega
        exact ⟨_, _, by rw [if_pos hz], by rw [if_pos hz2], hdr, hs⟩
      · have hz2 : ¬ ((b :: u).length - (b :: dropBlankEnd u).length = 0) := by simp at hz ⊢; omega
        exact ⟨_, _, by rw [if_neg hz, rtrimLast_cons a hT], by rw [if_neg hz2, rtrimLast_cons b hU],
          shifted_rtrimLast hdr hs, rtrimLast_solid hs⟩
    simp only [e1, e2]
    have hsuf : (b :: u).length - (b :: dropBlankEnd u).length = (a :: t).length - (a :: dropBlankEnd t).length := by
      simp; omega
    rw [hsuf, hab]
    have hlTU := shifted_length hTU
    cases ha : BlankLine a with
    | true =>
      simp only [if_true]
      have hd := shifted_dropWhile hTU
      have hsd := endsSolid_dropWhile hsT
      have hdlen := shifted_length hd
      cases hx : T.dropWhile BlankLine with
      | nil => rw [hx] at hsd; obtain ⟨_, h, -⟩ := hsd; simp at h
      | cons x xs =>
        cases hy : U.dropWhile BlankLine with
        | nil => rw [hx, hy] at hdlen; simp at hdlen
        | cons y ys =>
          rw [hx, hy] at hd hdlen
          rw [hx] at hsd
          have hxb : BlankLine x = false := by
            have := List.head?_dropWhile_not (p := BlankLine) T
            rw [hx] at this
            simpa using this
          have hy1 := hd.1
          rw [ShiftedLine, hxb] at hy1
          simp only [Bool.false_eq_true, if_false] at hy1
          simp only [List.headD_cons]
          have hw : width y = width x + k := by rw [hy1, width_shift]; omega
          rw [hw, minWidth_shift _ hd, tidy_shift hd hsd, hlTU, hdlen]
    | false =>
      rw [ShiftedLine, ha] at h0
      simp only [Bool.false_eq_true, if_false, List.replicate_zero, List.nil_append] at h0 ⊢
      subst h0
      rw [minWidth_shift _ hTU]
      have hne' : T ≠ [] := by rintro rfl; obtain ⟨_, h, -⟩ := hsT; simp at h
      have htid : tidy (b :: U.map (cut (minWidth indent T + k))) = tidy (b :: T.map (cut (minWidth indent T))) := by
        have := tidy_shift (n := minWidth indent T) hTU hsT
        cases T with
        | nil => exact absurd rfl hne'
        | cons x xs =>
          cases U with
          | nil => simp at hlTU
          | cons y ys =>
            simp only [List.map_cons, tidy] at this ⊢
            rw [this]
      rw [htid]
      congr 4
      omega

/-- **C16.**  A quote of several lines: move its start column and each line after the first by `k` columns to the right
    (blank lines may be changed arbitrarily); the text it stands for stays the same. -/
theorem C16_reindent (k indent : Nat) (space next next' : Byte) (a b : List Byte) (t u : List (List Byte)) (hne : t ≠ [])
    (hsp : space ≠ 0) (h0 : ShiftedLine 0 a b) (h : Shifted k t u)
    (hl : ∀ l ∈ a :: t, (10 : Byte) ∉ l ∧ (13 : Byte) ∉ l) (hm : ∀ l ∈ b :: u, (10 : Byte) ∉ l ∧ (13 : Byte) ∉ l) :
    trimQuote (indent + k) space next' (unlines (b :: u)) = trimQuote indent space next (unlines (a :: t)) := by
  have hlen := shifted_length h
  have htpos := List.length_pos_iff.2 hne
  rw [trimQuote, trimQuote, if_neg (fun h => hsp h.2), if_neg (fun h => hsp h.2)]
  rw [trimQuoteAt_eq_dedent _ _ _ _ (by simp; omega) hl, trimQuoteAt_eq_dedent _ _ _ _ (by simp; omega) hm,
    dedent_shift k indent _ a b t u hne h0 h]

example : Shifted 3 [b#"  b", b#" ", b#"	c"] [b#"     b", b#"", b#"   	c"] := by
  simp only [Shifted, ShiftedLine]; decide
example : trimQuote 4 32 39 b#"a
     b

   	c" = trimQuote 1 32 39 b#"a
  b
 
	c" := by decide +kernel
example : trimQuote 1 32 39 b#"a
  b
 
	c" = some b#"a
 b

c" := by decide +kernel

end Xmq.Props
