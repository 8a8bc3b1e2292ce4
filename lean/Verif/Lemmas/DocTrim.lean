import Verif.Model.DocTrim
import Verif.Spec.DocTrim
import Verif.Props.TrimNode
/-!
# Trimming keeps what is to be seen
-/
namespace Xmq
open Xmq.Spec Xmq.Props

theorem white_eq (c : Byte) : isXmlWhitespace c = XmlWhite c := by
  simp only [isXmlWhitespace, XmlWhite]
  cases c == 32 <;> cases c == 9 <;> cases c == 10 <;> cases c == 13 <;> rfl

theorem all_white (s : List Byte) : s.all isXmlWhitespace = s.all XmlWhite := by
  rw [show isXmlWhitespace = XmlWhite from funext white_eq]

theorem all_of_dropWhile {α : Type} {p : α → Bool} {l : List α} (h : l.dropWhile p = []) : ∀ x ∈ l, p x = true := by
  intro x hx
  have e := List.takeWhile_append_dropWhile (p := p) (l := l)
  rw [h, List.append_nil] at e
  rw [← e] at hx
  exact List.all_eq_true.1 List.all_takeWhile x hx

theorem rtrim_back {b : List Byte} (l : List Byte) (hb : BlankLine b = true) : rtrim (l ++ b) = rtrim l := by
  unfold rtrim
  rw [List.reverse_append, List.dropWhile_append_of_pos]
  intro c hc
  exact (List.all_eq_true.1 hb) c (List.mem_reverse.1 hc)

theorem strip_front {b : List Byte} (l : List Byte) (hb : BlankLine b = true) : strip (b ++ l) = strip l := by
  unfold strip
  rw [List.dropWhile_append_of_pos]
  exact fun c hc => (List.all_eq_true.1 hb) c hc

theorem strip_of_blank {b : List Byte} (hb : BlankLine b = true) : strip b = [] := by
  have := strip_front [] hb
  rw [List.append_nil] at this
  rw [this]; rfl

theorem strip_back {b : List Byte} (l : List Byte) (hb : BlankLine b = true) : strip (l ++ b) = strip l := by
  by_cases hl : BlankLine l = true
  · rw [strip_of_blank hl, strip_of_blank]
    unfold BlankLine at *
    rw [List.all_append, hl, hb]; rfl
  · have : ∃ x y, l.dropWhile Blank = x :: y := by
      cases h : l.dropWhile Blank with
      | nil =>
        exact absurd (List.all_eq_true.2 (all_of_dropWhile h)) hl
      | cons x y => exact ⟨x, y, rfl⟩
    obtain ⟨x, y, e⟩ := this
    unfold strip
    rw [List.dropWhile_append, e]
    simp only [List.isEmpty_cons, Bool.false_eq_true, if_false]
    exact rtrim_back _ hb

theorem blank_of_strip {l : List Byte} (h : strip l = []) : BlankLine l = true := by
  unfold strip rtrim at h
  rw [List.reverse_eq_nil_iff] at h
  replace h := all_of_dropWhile h
  unfold BlankLine
  rw [List.all_eq_true]
  intro c hc
  rw [← List.takeWhile_append_dropWhile (p := Blank) (l := l), List.mem_append] at hc
  rcases hc with hc | hc
  · exact List.all_eq_true.1 (List.all_takeWhile (p := Blank) (l := l)) c hc
  · exact h c (List.mem_reverse.2 hc)

theorem inks_append (a b : List (List Byte)) : inks (a ++ b) = inks a ++ inks b := by simp [inks]

theorem inks_cons (a : List Byte) (t : List (List Byte)) : inks (a :: t) = inks [a] ++ inks t := inks_append [a] t

theorem inks_blank {ls : List (List Byte)} (h : ∀ l ∈ ls, BlankLine l = true) : inks ls = [] := by
  unfold inks
  rw [List.filter_eq_nil_iff]
  intro a ha
  obtain ⟨l, hl, rfl⟩ := List.mem_map.1 ha
  rw [strip_of_blank (h l hl)]
  simp

theorem inks_map {f : List Byte → List Byte} (h : ∀ l, strip (f l) = strip l) (ls : List (List Byte)) : inks (ls.map f) = inks ls := by
  unfold inks
  rw [List.map_map]
  congr 1
  exact List.map_congr_left fun l _ => h l

theorem strip_cut (n : Nat) (l : List Byte) : strip (cut n l) = strip l := by
  obtain ⟨b, e, hb⟩ := cut_suffix n l
  exact Eq.symm (by rw [e, strip_front _ hb, ← e])

theorem strip_rtrim (l : List Byte) : strip (rtrim l) = strip l := by
  have e : l = rtrim l ++ (l.reverse.takeWhile Blank).reverse := by
    unfold rtrim
    rw [← List.reverse_append, List.takeWhile_append_dropWhile, List.reverse_reverse]
  have hb : BlankLine (l.reverse.takeWhile Blank).reverse = true := by
    unfold BlankLine
    rw [List.all_reverse]
    exact List.all_takeWhile
  exact Eq.symm (by
    have h := strip_back (rtrim l) hb
    rw [← e] at h
    exact h)

theorem inks_tidy (ls : List (List Byte)) : inks (tidy ls) = inks ls := by
  induction ls with
  | nil => rfl
  | cons a t ih =>
    cases t with
    | nil => rfl
    | cons b r =>
      rw [tidy, inks_cons, ih, inks_cons a]
      congr 1
      unfold inks
      rw [List.map_singleton, List.map_singleton, strip_rtrim]

theorem inks_dropBlankEnd (ls : List (List Byte)) : inks (dropBlankEnd ls) = inks ls := by
  have e : ls = dropBlankEnd ls ++ (ls.reverse.takeWhile BlankLine).reverse := by
    unfold dropBlankEnd
    rw [← List.reverse_append, List.takeWhile_append_dropWhile, List.reverse_reverse]
  have hb : ∀ l ∈ (ls.reverse.takeWhile BlankLine).reverse, BlankLine l = true := by
    intro l hl
    exact List.all_eq_true.1 (List.all_takeWhile (p := BlankLine) (l := ls.reverse)) l (List.mem_reverse.1 hl)
  exact Eq.symm (by
    have h := inks_append (dropBlankEnd ls) (ls.reverse.takeWhile BlankLine).reverse
    rw [← e, inks_blank hb, List.append_nil] at h
    exact h)

theorem inks_rtrimLast (ls : List (List Byte)) : inks (rtrimLast ls) = inks ls := by
  rcases List.eq_nil_or_concat ls with rfl | ⟨pre, m, rfl⟩
  · rfl
  · rw [List.concat_eq_append, rtrimLast]
    simp only [List.getLast?_append, List.getLast?_singleton, Option.some_or, List.dropLast_concat]
    rw [inks_append, inks_append]
    congr 1
    unfold inks
    rw [List.map_singleton, List.map_singleton, strip_rtrim]

theorem inks_dropWhile (ls : List (List Byte)) : inks (ls.dropWhile BlankLine) = inks ls := by
  have h := inks_append (ls.takeWhile BlankLine) (ls.dropWhile BlankLine)
  rw [List.takeWhile_append_dropWhile, inks_blank (ls := ls.takeWhile BlankLine)] at h
  · exact h.symm
  · exact fun l hl => List.all_eq_true.1 List.all_takeWhile l hl

theorem splitLines_append_nl (a b : List Byte) : splitLines (a ++ 10 :: b) = splitLines a ++ splitLines b := by
  induction a with
  | nil => rw [List.nil_append, splitLines.eq_def (10 :: b)]; rfl
  | cons c t ih =>
    rw [List.cons_append, splitLines, splitLines]
    split
    · rw [ih]; rfl
    · rw [ih]
      cases h : splitLines t with
      | nil => exact absurd h (splitLines_ne_nil t)
      | cons l ls => rfl

theorem inks_nls (n : Nat) (b : List Byte) : inks (splitLines (List.replicate n 10 ++ b)) = inks (splitLines b) := by
  induction n with
  | zero => rfl
  | succ n ih =>
    rw [List.replicate_succ, List.cons_append, ← List.nil_append (10 :: _), splitLines_append_nl, inks_append, ih]
    rfl

theorem inks_back_nls (n : Nat) (b : List Byte) : inks (splitLines (b ++ List.replicate n 10)) = inks (splitLines b) := by
  cases n with
  | zero => simp
  | succ n =>
    rw [List.replicate_succ, splitLines_append_nl, inks_append]
    have := inks_nls n []
    rw [List.append_nil] at this
    rw [this]
    exact List.append_nil _

theorem inks_unlines {ls : List (List Byte)} (h : ∀ l ∈ ls, (10 : Byte) ∉ l) : inks (splitLines (unlines ls)) = inks ls := by
  by_cases hne : ls = []
  · subst hne; rfl
  · rw [splitLines_unlines ls hne h]

theorem mem_cut {n : Nat} {l : List Byte} {c : Byte} (h : c ∈ cut n l) : c ∈ l := by
  obtain ⟨b, e, _⟩ := cut_suffix n l
  rw [e]; exact List.mem_append_right _ h

theorem mem_rtrim {l : List Byte} {c : Byte} (h : c ∈ rtrim l) : c ∈ l := by
  unfold rtrim at h
  exact List.mem_reverse.1 ((List.dropWhile_sublist _).subset (List.mem_reverse.1 h))

theorem tidy_noNl {ls : List (List Byte)} (h : ∀ l ∈ ls, (10 : Byte) ∉ l) : ∀ l ∈ tidy ls, (10 : Byte) ∉ l := by
  intro l hl
  obtain ⟨x, hx, e⟩ := mem_tidy hl
  rcases e with rfl | rfl
  · exact h _ hx
  · exact fun hm => h _ hx (mem_rtrim hm)

theorem rtrimLast_noNl {ls : List (List Byte)} (h : ∀ l ∈ ls, (10 : Byte) ∉ l) : ∀ l ∈ rtrimLast ls, (10 : Byte) ∉ l := by
  rcases List.eq_nil_or_concat ls with rfl | ⟨pre, m, rfl⟩
  · exact h
  · rw [List.concat_eq_append] at h ⊢
    rw [rtrimLast]
    simp only [List.getLast?_append, List.getLast?_singleton, Option.some_or, List.dropLast_concat]
    intro l hl
    rw [List.mem_append, List.mem_singleton] at hl
    rcases hl with hl | rfl
    · exact h l (by simp [hl])
    · exact fun hm => h m (by simp) (mem_rtrim hm)

theorem map_cut_noNl (n : Nat) {ls : List (List Byte)} (h : ∀ l ∈ ls, (10 : Byte) ∉ l) : ∀ l ∈ ls.map (cut n), (10 : Byte) ∉ l := by
  intro l hl
  obtain ⟨x, hx, rfl⟩ := List.mem_map.1 hl
  exact fun hm => h x hx (mem_cut hm)

/-- Removing the indentation keeps what is to be seen. -/
theorem inks_dedent (k : Nat) (ls : List (List Byte)) (h : ∀ l ∈ ls, (10 : Byte) ∉ l) : inks (splitLines (dedent [] k ls)) = inks ls := by
  have hc : ∀ l ∈ dropBlankEnd ls, (10 : Byte) ∉ l := by
    intro l hl
    refine h l ?_
    unfold dropBlankEnd at hl
    exact List.mem_reverse.1 ((List.dropWhile_sublist _).subset (List.mem_reverse.1 hl))
  have key : ∀ core, core = (if ls.length - (dropBlankEnd ls).length = 0 then dropBlankEnd ls else rtrimLast (dropBlankEnd ls)) →
      inks core = inks ls ∧ ∀ l ∈ core, (10 : Byte) ∉ l := by
    rintro core rfl
    split
    · exact ⟨inks_dropBlankEnd ls, hc⟩
    · exact ⟨(inks_rtrimLast _).trans (inks_dropBlankEnd ls), rtrimLast_noNl hc⟩
  unfold dedent
  dsimp only
  generalize hcore : (if ls.length - (dropBlankEnd ls).length = 0 then dropBlankEnd ls else rtrimLast (dropBlankEnd ls)) = core
  obtain ⟨hi, hn⟩ := key core hcore.symm
  rw [← hi]
  cases core with
  | nil =>
    have := inks_nls (ls.length - 2) []
    rw [List.append_nil] at this
    exact this
  | cons first rest =>
    have hr : ∀ l ∈ rest, (10 : Byte) ∉ l := fun l hl => hn l (List.mem_cons_of_mem _ hl)
    dsimp only
    split
    · rename_i hb
      rw [List.append_assoc, inks_nls, inks_back_nls, inks_unlines, inks_tidy, inks_map (strip_cut _), inks_dropWhile, inks_cons first,
        inks_blank (ls := [first]) (by simpa using hb)]
      · rfl
      · refine tidy_noNl (map_cut_noNl _ fun l hl => hr l ((List.dropWhile_sublist _).subset hl))
    · have e : ∀ n, (List.replicate n ([] : List Byte)).flatten = [] := by
        intro n; induction n with
        | zero => rfl
        | succ n ih => rw [List.replicate_succ]; simpa using ih
      rw [e, List.nil_append, inks_back_nls, inks_unlines, inks_tidy, inks_cons first, inks_map (strip_cut _), ← inks_cons]
      refine tidy_noNl ?_
      intro l hl
      rcases List.mem_cons.1 hl with rfl | hl
      · exact hn _ (by simp)
      · exact map_cut_noNl _ hr l hl

theorem unlines_front (x a : List Byte) (t : List (List Byte)) : unlines ((x ++ a) :: t) = x ++ unlines (a :: t) := by
  cases t with
  | nil => simp [unlines_single]
  | cons b t => simp [unlines_cons]

theorem seen_front (n : Nat) (s : List Byte) : inks (splitLines (List.replicate n 32 ++ s)) = inks (splitLines s) := by
  have h := unlines_splitLines s
  cases hs : splitLines s with
  | nil => exact absurd hs (splitLines_ne_nil s)
  | cons a t =>
    have hl := splitLines_nl (s := s)
    rw [hs] at h hl
    have hb : BlankLine (List.replicate n 32) = true := by simp [BlankLine, Blank]
    rw [← h, ← unlines_front, inks_unlines, inks_cons, inks_cons a]
    · congr 1
      unfold inks
      rw [List.map_singleton, List.map_singleton, strip_front _ hb]
    · intro l hm
      rcases List.mem_cons.1 hm with rfl | hm
      · intro hx
        rcases List.mem_append.1 hx with hx | hx
        · exact absurd (List.eq_of_mem_replicate hx) (by decide)
        · exact hl a (by simp) hx
      · exact hl l (by simp [hm])

theorem unlines_suffix (pre : List (List Byte)) (l b : List Byte) : unlines (pre ++ [l ++ b]) = unlines (pre ++ [l]) ++ b := by
  cases pre with
  | nil => simp [unlines_single]
  | cons x y => rw [unlines_snoc _ (by simp), unlines_snoc _ (by simp)]; simp

theorem seen_back (n : Nat) (s : List Byte) : inks (splitLines (s ++ List.replicate n 32)) = inks (splitLines s) := by
  have h := unlines_splitLines s
  rcases List.eq_nil_or_concat (splitLines s) with hs | ⟨pre, m, hs⟩
  · exact absurd hs (splitLines_ne_nil s)
  · rw [List.concat_eq_append] at hs
    have hl := splitLines_nl (s := s)
    rw [hs] at h hl ⊢
    have hb : BlankLine (List.replicate n 32) = true := by simp [BlankLine, Blank]
    rw [← h, ← unlines_suffix, inks_unlines, inks_append, inks_append]
    · congr 1
      unfold inks
      rw [List.map_singleton, List.map_singleton, strip_back _ hb]
    · intro l hm
      rcases List.mem_append.1 hm with hm | hm
      · exact hl l (by simp [hm])
      · rw [List.mem_singleton] at hm
        subst hm
        intro hx
        rcases List.mem_append.1 hx with hx | hx
        · exact hl m (by simp) hx
        · exact absurd (List.eq_of_mem_replicate hx) (by decide)

theorem takeWhile_spaces (l : List Byte) : l.takeWhile (· == 32) = List.replicate (l.takeWhile (· == 32)).length 32 := by
  rw [List.eq_replicate_iff]
  refine ⟨rfl, fun b hb => ?_⟩
  simpa using List.all_eq_true.1 (List.all_takeWhile (p := (· == (32 : Byte))) (l := l)) b hb

theorem stripSpaces_split (s : List Byte) : ∃ a b, s = List.replicate a 32 ++ (stripSpaces s ++ List.replicate b 32) := by
  refine ⟨(s.takeWhile (· == 32)).length, ((s.dropWhile (· == 32)).reverse.takeWhile (· == 32)).length, ?_⟩
  have h1 : s.dropWhile (· == 32) = stripSpaces s ++ List.replicate ((s.dropWhile (· == 32)).reverse.takeWhile (· == 32)).length 32 := by
    unfold stripSpaces
    rw [← List.reverse_replicate, ← takeWhile_spaces, ← List.reverse_append, List.takeWhile_append_dropWhile, List.reverse_reverse]
  rw [← h1, ← takeWhile_spaces, List.takeWhile_append_dropWhile]

theorem noLoneCr_strip {s : List Byte} (h : NoLoneCr s) : NoLoneCr (stripSpaces s) := by
  obtain ⟨a, b, e⟩ := stripSpaces_split s
  intro p t ht
  have := h (List.replicate a 32 ++ p) (t ++ List.replicate b 32) (by rw [ht] at e; rw [e]; simp)
  cases t with
  | nil =>
    cases b with
    | zero => simp at this
    | succ b => rw [List.replicate_succ] at this; simp at this
  | cons x y => simpa using this

theorem seen_stripSpaces {s : List Byte} (h : NoLoneCr s) : seen (stripSpaces s) = seen s := by
  obtain ⟨a, b, e⟩ := stripSpaces_split s
  have hf : ∀ n, (List.replicate n (32 : Byte)).filter (· != 13) = List.replicate n 32 := by
    intro n
    rw [List.filter_eq_self]
    intro x hx
    rw [List.eq_of_mem_replicate hx]; rfl
  unfold seen
  rw [(crlf_of h).filter, (crlf_of (noLoneCr_strip h)).filter]
  conv => rhs; rw [e]
  rw [List.filter_append, List.filter_append, hf, hf, seen_front, seen_back]

theorem mem_of_unlines {ls : List (List Byte)} {c : Byte} (h : c ∈ unlines ls) : c = 10 ∨ ∃ l ∈ ls, c ∈ l := by
  induction ls with
  | nil => cases h
  | cons a t ih =>
    cases t with
    | nil => rw [unlines_single] at h; exact .inr ⟨a, by simp, h⟩
    | cons b r =>
      rw [unlines_cons, List.mem_append, List.mem_cons] at h
      rcases h with h | h | h
      · exact .inr ⟨a, by simp, h⟩
      · exact .inl h
      · rcases ih h with h | ⟨l, hl, h⟩
        · exact .inl h
        · exact .inr ⟨l, List.mem_cons_of_mem _ hl, h⟩

theorem dedent_noCr (k : Nat) (ls : List (List Byte)) (h : ∀ l ∈ ls, (13 : Byte) ∉ l) : (13 : Byte) ∉ dedent [] k ls := by
  have hnl : ∀ n, (13 : Byte) ∉ List.replicate n 10 := fun n hm => absurd (List.eq_of_mem_replicate hm) (by decide)
  have hc : ∀ l ∈ dropBlankEnd ls, (13 : Byte) ∉ l := by
    intro l hl
    refine h l ?_
    unfold dropBlankEnd at hl
    exact List.mem_reverse.1 ((List.dropWhile_sublist _).subset (List.mem_reverse.1 hl))
  have key : ∀ core, core = (if ls.length - (dropBlankEnd ls).length = 0 then dropBlankEnd ls else rtrimLast (dropBlankEnd ls)) →
      ∀ l ∈ core, (13 : Byte) ∉ l := by
    rintro core rfl
    split
    · exact hc
    · rcases List.eq_nil_or_concat (dropBlankEnd ls) with e | ⟨pre, m, e⟩
      · rw [e]; simp [rtrimLast]
      · rw [List.concat_eq_append] at e
        rw [e] at hc ⊢
        rw [rtrimLast]
        simp only [List.getLast?_append, List.getLast?_singleton, Option.some_or, List.dropLast_concat]
        intro l hl
        rw [List.mem_append, List.mem_singleton] at hl
        rcases hl with hl | rfl
        · exact hc l (by simp [hl])
        · exact fun hm => hc m (by simp) (mem_rtrim hm)
  have tidyOk : ∀ xs : List (List Byte), (∀ l ∈ xs, (13 : Byte) ∉ l) → (13 : Byte) ∉ unlines (tidy xs) := by
    intro xs hx hm
    rcases mem_of_unlines hm with e | ⟨l, hl, hm⟩
    · exact absurd e (by decide)
    · obtain ⟨x, hx', e⟩ := mem_tidy hl
      rcases e with rfl | rfl
      · exact hx _ hx' hm
      · exact hx _ hx' (mem_rtrim hm)
  have cutOk : ∀ n (xs : List (List Byte)), (∀ l ∈ xs, (13 : Byte) ∉ l) → ∀ l ∈ xs.map (cut n), (13 : Byte) ∉ l := by
    intro n xs hx l hl
    obtain ⟨x, hx', rfl⟩ := List.mem_map.1 hl
    exact fun hm => hx x hx' (mem_cut hm)
  unfold dedent
  dsimp only
  generalize hcore : (if ls.length - (dropBlankEnd ls).length = 0 then dropBlankEnd ls else rtrimLast (dropBlankEnd ls)) = core
  have hn := key core hcore.symm
  cases core with
  | nil => exact hnl _
  | cons first rest =>
    have hr : ∀ l ∈ rest, (13 : Byte) ∉ l := fun l hl => hn l (List.mem_cons_of_mem _ hl)
    dsimp only
    split
    · simp only [List.mem_append, not_or]
      exact ⟨⟨hnl _, tidyOk _ (cutOk _ _ fun l hl => hr l ((List.dropWhile_sublist _).subset hl))⟩, hnl _⟩
    · have e : ∀ n, (List.replicate n ([] : List Byte)).flatten = [] := by
        intro n; induction n with
        | zero => rfl
        | succ n ih => rw [List.replicate_succ]; simpa using ih
      rw [e, List.nil_append]
      simp only [List.mem_append, not_or]
      refine ⟨tidyOk _ ?_, hnl _⟩
      intro l hl
      rcases List.mem_cons.1 hl with rfl | hl
      · exact hn _ (by simp)
      · exact cutOk _ _ hr l hl

theorem lfOnly_noCr {s : List Byte} (h : (13 : Byte) ∉ s) : lfOnly s = s := by
  rw [(crlf_of (noLoneCr_of_noCr h)).filter, List.filter_eq_self]
  intro x hx
  simp only [bne_iff_ne]
  rintro rfl
  exact h hx

theorem seen_nil_white {s : List Byte} (h : NoLoneCr s) (hs : seen s = []) : s.all XmlWhite = true := by
  have hc := crlf_of h
  rw [← all_white, hc.all_ws, ← unlines_splitLines (lfOnly s)]
  refine unlines_all_ws _ (splitLines_ok hc.noCr) fun l hl => blank_of_strip ?_
  unfold seen inks at hs
  rw [List.filter_eq_nil_iff] at hs
  have := hs (strip l) (List.mem_map.2 ⟨l, hl, rfl⟩)
  simpa using this

/-- What becomes of one text. -/
theorem trimTextNode_seen {s : List Byte} (h : NoLoneCr s) :
    (s.all XmlWhite = true ∧ trimTextNode s = .removed) ∨ (s.all XmlWhite = false ∧ ∃ t, trimTextNode s = .content t ∧ seen t = seen s) := by
  cases hw : s.all XmlWhite with
  | true =>
    refine .inl ⟨rfl, ?_⟩
    unfold trimTextNode
    rw [all_white, if_pos hw]
  | false =>
    refine .inr ⟨rfl, ?_⟩
    have hs := noLoneCr_strip h
    have hseen : ∀ t, unQuote 0 0 (if s.getLast? = some b#' ' then b#' ' else 0) (stripSpaces s) false = some t → seen t = seen s := by
      intro t ht
      rw [← seen_stripSpaces h]
      rw [unQuote] at ht
      simp only [Bool.false_eq_true, if_false] at ht
      by_cases h10 : (10 : Byte) ∈ stripSpaces s
      · rw [C43_any_line_ending _ _ _ _ h10 hs] at ht
        simp only [if_true] at ht
        obtain rfl := Option.some.inj ht
        have hcr := (crlf_of hs).noCr
        rw [seen, lfOnly_noCr (dedent_noCr _ _ fun l hl hm => hcr (splitLines_mem l hl 13 hm)), inks_dedent _ _ splitLines_nl, seen]
      · have h13 : (13 : Byte) ∉ stripSpaces s := by
          intro h13
          obtain ⟨p, t, e⟩ := List.append_of_mem h13
          have := hs p t e
          cases t with
          | nil => cases this
          | cons x y => simp at this; subst this; exact h10 (by rw [e]; simp)
        rw [C13_single_line_unchanged _ _ _ _ h10 h13] at ht
        rw [← Option.some.inj ht]
    have hout : ∃ t, unQuote 0 0 (if s.getLast? = some b#' ' then b#' ' else 0) (stripSpaces s) false = some t := by
      rw [unQuote]
      simp only [Bool.false_eq_true, if_false]
      exact C15_memory_safe_partial _ _ _ _ hs
    obtain ⟨t, ht⟩ := hout
    have hst := hseen t ht
    unfold trimTextNode
    rw [all_white, if_neg (by rw [hw]; simp), ht]
    cases t with
    | nil =>
      exfalso
      have e : seen [] = [] := rfl
      rw [e] at hst
      rw [seen_nil_white h hst.symm] at hw
      cases hw
    | cons x y => exact ⟨x :: y, rfl, hst⟩

mutual
theorem trimNode_trims : ∀ n : Node, NoLoneCrIn n → ∃ x, trimNode n = some x ∧ ∀ t t', Trims t t' → Trims (n :: t) (x ++ t')
  | .text s, h => by
    rw [NoLoneCrIn] at h
    rcases trimTextNode_seen h with ⟨hw, e⟩ | ⟨hw, t, e, hs⟩
    · exact ⟨[], by rw [trimNode, e], fun _ _ ht => .whiteText hw ht⟩
    · exact ⟨[.text t], by rw [trimNode, e], fun _ _ ht => .text hw hs ht⟩
  | .comment s, h => by
    rw [NoLoneCrIn] at h
    rcases trimTextNode_seen h with ⟨hw, e⟩ | ⟨hw, t, e, hs⟩
    · exact ⟨[], by rw [trimNode, e], fun _ _ ht => .whiteComment hw ht⟩
    · exact ⟨[.comment t], by rw [trimNode, e], fun _ _ ht => .comment hw hs ht⟩
  | .entity name, _ => ⟨[.entity name], by rw [trimNode], fun _ _ ht => .entity ht⟩
  | .element name attrs kids, h => by
    rw [NoLoneCrIn] at h
    obtain ⟨ks, e, hk⟩ := trimNodes_trims kids h
    exact ⟨[.element name attrs ks], by rw [trimNode, e], fun _ _ ht => .element hk ht⟩
theorem trimNodes_trims : ∀ ns : List Node, NoLoneCrInAll ns → ∃ x, trimNodes ns = some x ∧ Trims ns x
  | [], _ => ⟨[], by rw [trimNodes], .nil⟩
  | n :: t, h => by
    rw [NoLoneCrInAll] at h
    obtain ⟨x, e1, h1⟩ := trimNode_trims n h.1
    obtain ⟨y, e2, h2⟩ := trimNodes_trims t h.2
    exact ⟨x ++ y, by rw [trimNodes, e1, e2], h1 t y h2⟩
end

end Xmq
