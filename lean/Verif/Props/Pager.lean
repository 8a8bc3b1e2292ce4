import Verif.Spec.Pager
/-!
# C85: the pager
-/
namespace Xmq.Props
open Xmq Xmq.Pager Xmq.Spec.Pager

/-- What is drawn is the text from the beginning of the line on, without a change, up to some point. -/
theorem C85_draws_text (s : List Byte) (w h : Nat) (p : Place) : screen s w h p <+: s.drop p.lo := by
  suffices ∀ (t : List Byte) (esc : Bool) (i row col : Nat), draw w h p.ilo esc i row col t <+: t from this _ _ _ _ _
  intro t
  induction t with
  | nil => intros; simp [draw]
  | cons c t ih =>
    intro esc i row col
    rw [draw]
    have hc : ∀ l, l <+: t → c :: l <+: c :: t := fun l hl => by simpa using hl
    split
    · exact hc _ (ih _ _ _ _)
    · split
      · split
        · split
          · simp
          · exact hc _ (ih _ _ _ _)
        · split
          · split
            · simp
            · exact hc _ (ih _ _ _ _)
          · exact hc _ (ih _ _ _ _)
      · exact hc _ (ih _ _ _ _)

theorem nextPage_fix (s : List Byte) (w k : Nat) (p : Place) (h : findNextLine s w p = p) : findNextPage s w k p = p := by
  induction k with
  | zero => rfl
  | succ k ih => rw [findNextPage, h, ih]

/-- `r` is not behind `e`, but perhaps for the end of a line. -/
def Covers (s : List Byte) (r e : Nat) : Prop := r ≤ e ∨ (r = e + 1 ∧ s[e]? = some 10)

theorem covers_succ {s : List Byte} {r i n : Nat} (h : Covers s r (i + 1 + n)) : Covers s r (i + (n + 1)) := by
  rw [show i + (n + 1) = i + 1 + n by omega]; exact h

theorem drop_cons {s : List Byte} {i : Nat} {c : Byte} {t : List Byte} (h : s.drop i = c :: t) : s[i]? = some c ∧ s.drop (i + 1) = t := by
  refine ⟨?_, ?_⟩
  · have := congrArg (fun l => l[0]?) h
    simpa [List.getElem?_drop] using this
  · rw [← List.drop_drop, h]; rfl

theorem couple (s : List Byte) (w H ilo : Nat) (t : List Byte) : ∀ (k i : Nat) (p : Place) (mode : Mode) (c' : Nat) (esc : Bool) (rd c : Nat),
    s.drop i = t → ilo ≤ i → p.ilo ≤ i → nextScan w .head 0 p.ilo (s.drop p.ilo) = nextScan w mode c' i t →
    (mode = .escape → esc = true) → rd < H → (k < H - rd ∨ (k = H - rd ∧ c ≤ c')) →
    Covers s (findNextPage s w k p).ilo (i + (draw w H ilo esc i rd c t).length) := by
  induction t with
  | nil =>
    intro k i p mode c' esc rd c hd hi hp hL he hr hk
    have hp' : findNextLine s w p = p := by unfold findNextLine; rw [hL]; cases mode <;> simp [nextScan]
    rw [nextPage_fix s w k p hp']
    exact Or.inl (by simp [draw]; omega)
  | cons b t ih =>
    intro k
    induction k with
    | zero => intro i p mode c' esc rd c hd hi hp hL he hr hk; exact Or.inl (by simp only [findNextPage]; omega)
    | succ k ihk =>
      intro i p mode c' esc rd c hd hi hp hL he hr hk
      obtain ⟨hb, hd'⟩ := drop_cons hd
      have text : (mode = .behind ∨ (mode = .head ∧ b ≠ 27)) →
          Covers s (findNextPage s w (k + 1) p).ilo (i + (draw w H ilo esc i rd c (b :: t)).length) := by
        intro hm
        have hs : nextScan w mode c' i (b :: t) = if b == 10 then .newline i else if c' + 1 ≥ w then .wrapped i
            else nextScan w .head (c' + 1) (i + 1) t := by
          rcases hm with rfl | ⟨rfl, hb27⟩
          · simp [nextScan]
          · simp [nextScan, hb27]
        rw [hs] at hL
        by_cases hn : b = 10
        · subst hn
          simp only [beq_self_eq_true, if_true] at hL
          have hf : findNextLine s w p = ⟨i + 1, i + 1⟩ := by unfold findNextLine; rw [hL]
          rw [findNextPage, hf, draw]
          cases esc with
          | true =>
            simp only [Bool.true_or, if_true, List.length_cons]
            exact covers_succ (ih k (i + 1) ⟨i + 1, i + 1⟩ .head 0 _ rd c hd' (by omega) (Nat.le_refl _) (by simp [hd']) (by simp) hr (by omega))
          | false =>
            simp only [Bool.false_or, show ((10 : Byte) == 27) = false by decide, Bool.false_eq_true, if_false, ge_iff_le, if_pos hi,
              beq_self_eq_true, if_true]
            by_cases hH : H ≤ rd + 1
            · rw [if_pos hH]
              have : k = 0 := by omega
              subst this
              exact Or.inr ⟨rfl, by simpa using hb⟩
            · rw [if_neg hH, List.length_cons]
              exact covers_succ (ih k (i + 1) ⟨i + 1, i + 1⟩ .head 0 _ (rd + 1) 0 hd' (by omega) (Nat.le_refl _) (by simp [hd']) (by simp)
                (by omega) (by omega))
        · simp only [beq_iff_eq, hn, if_false] at hL
          by_cases hw : c' + 1 ≥ w
          · rw [if_pos hw] at hL
            have hf : findNextLine s w p = ⟨p.lo, i⟩ := by unfold findNextLine; rw [hL]
            rw [findNextPage, hf]
            exact ihk i ⟨p.lo, i⟩ .head 0 esc rd c hd hi (Nat.le_refl _) (by simp [hd]) (by simp) hr (by omega)
          · rw [if_neg hw] at hL
            rw [draw]
            by_cases he27 : (esc || b == 27) = true
            · rw [if_pos he27, List.length_cons]
              exact covers_succ (ih (k + 1) (i + 1) p .head (c' + 1) _ rd c hd' (by omega) (by omega) hL (by simp) hr (by omega))
            · rw [if_neg he27, if_pos hi]
              simp only [beq_iff_eq, hn, if_false]
              by_cases hcw : c + 1 ≥ w
              · rw [if_pos hcw]
                by_cases hH : rd + 1 ≥ H
                · omega
                · rw [if_neg hH, List.length_cons]
                  exact covers_succ (ih (k + 1) (i + 1) p .head (c' + 1) _ (rd + 1) 0 hd' (by omega) (by omega) hL (by simp) (by omega) (by omega))
              · rw [if_neg hcw, List.length_cons]
                exact covers_succ (ih (k + 1) (i + 1) p .head (c' + 1) _ rd (c + 1) hd' (by omega) (by omega) hL (by simp) hr (by omega))
      cases mode with
      | behind => exact text (Or.inl rfl)
      | head =>
        by_cases hb27 : b = 27
        · subst hb27
          rw [nextScan] at hL
          simp only [beq_self_eq_true, if_true] at hL
          rw [draw]
          simp only [beq_self_eq_true, Bool.or_true, if_true, List.length_cons]
          exact covers_succ (ih (k + 1) (i + 1) p .escape c' _ rd c hd' (by omega) (by omega) hL (by decide) hr hk)
        · exact text (Or.inr ⟨rfl, hb27⟩)
      | escape =>
        have := he rfl
        subst this
        rw [nextScan] at hL
        rw [draw]
        simp only [Bool.true_or, if_true, List.length_cons]
        refine covers_succ (ih (k + 1) (i + 1) p _ c' _ rd c hd' (by omega) (by omega) hL ?_ hr hk)
        intro hm
        by_cases hbm : b = 109
        · simp [hbm] at hm
        · simpa using hbm

/-- Before the place nothing is counted. -/
theorem draw_before (s : List Byte) (w H ilo : Nat) (hl : ilo ≤ s.length) (n : Nat) : ∀ (i : Nat) (esc : Bool), i + n = ilo →
    ∃ esc', (draw w H ilo esc i 0 0 (s.drop i)).length = n + (draw w H ilo esc' ilo 0 0 (s.drop ilo)).length := by
  induction n with
  | zero => intro i esc h; exact ⟨esc, by simp at h; subst h; simp⟩
  | succ n ih =>
    intro i esc h
    have hi : i < s.length := by omega
    rw [List.drop_eq_getElem_cons hi, draw]
    split
    · obtain ⟨e, h'⟩ := ih (i + 1) (s[i] != b#'m') (by omega)
      exact ⟨e, by rw [List.length_cons, h']; omega⟩
    · rw [if_neg (by omega)]
      obtain ⟨e, h'⟩ := ih (i + 1) false (by omega)
      exact ⟨e, by rw [List.length_cons, h']; omega⟩

/-- Going on a page, and any less, loses nothing: the new place is not behind what has been drawn, but for the end of a line. -/
theorem C85_page_loses_nothing (s : List Byte) (w h k : Nat) (hh : 1 ≤ h) (hk : k ≤ h) (p : Place) (hp : Inside s p) :
    (findNextPage s w k p).ilo ≤ p.lo + (screen s w h p).length ∨
      ((findNextPage s w k p).ilo = p.lo + (screen s w h p).length + 1 ∧ s[p.lo + (screen s w h p).length]? = some 10) := by
  obtain ⟨esc, he⟩ := draw_before s w h p.ilo hp.2 (p.ilo - p.lo) p.lo false (by have := hp.1; omega)
  have hl := hp.1
  have : p.lo + (screen s w h p).length = p.ilo + (draw w h p.ilo esc p.ilo 0 0 (s.drop p.ilo)).length := by
    rw [screen, he]; omega
  rw [this]
  exact couple s w h p.ilo _ k p.ilo p .head 0 esc 0 0 rfl (Nat.le_refl _) (Nat.le_refl _) rfl (by simp) (by omega) (by omega)

theorem nextScan_pos (w : Nat) (t : List Byte) : ∀ (mode : Mode) (col i j : Nat),
    (nextScan w mode col i t = .wrapped j ∨ nextScan w mode col i t = .newline j) → i ≤ j ∧ j < i + t.length := by
  induction t with
  | nil => intro mode col i j h; cases mode <;> simp [nextScan] at h
  | cons c t ih =>
    intro mode col i j h
    have step : ∀ (m : Mode) (cl : Nat), (nextScan w m cl (i + 1) t = .wrapped j ∨ nextScan w m cl (i + 1) t = .newline j) →
        i ≤ j ∧ j < i + (t.length + 1) := fun m cl hh => by have := ih m cl (i + 1) j hh; omega
    rw [List.length_cons]
    cases mode with
    | escape => rw [nextScan] at h; exact step _ _ h
    | head =>
      rw [nextScan] at h
      split at h
      · exact step _ _ h
      · split at h
        · simp at h; omega
        · split at h
          · simp at h; omega
          · exact step _ _ h
    | behind =>
      rw [nextScan] at h
      split at h
      · simp at h; omega
      · split at h
        · simp at h; omega
        · exact step _ _ h

theorem nextLine_inside (s : List Byte) (w : Nat) (p : Place) (hp : Inside s p) : Inside s (findNextLine s w p) ∧ p.ilo ≤ (findNextLine s w p).ilo := by
  obtain ⟨h1, h2⟩ := hp
  unfold findNextLine
  have hl : (s.drop p.ilo).length = s.length - p.ilo := by simp
  split
  · next j e => have := nextScan_pos w _ .head 0 p.ilo j (Or.inr e); exact ⟨⟨Nat.le_refl _, by simp only; omega⟩, by simp only; omega⟩
  · next j e => have := nextScan_pos w _ .head 0 p.ilo j (Or.inl e); exact ⟨⟨by simp only; omega, by simp only; omega⟩, by simp only; omega⟩
  · exact ⟨⟨h1, h2⟩, Nat.le_refl _⟩

theorem nextPage_inside (s : List Byte) (w k : Nat) (p : Place) (hp : Inside s p) : Inside s (findNextPage s w k p) ∧ p.ilo ≤ (findNextPage s w k p).ilo := by
  induction k generalizing p with
  | zero => exact ⟨hp, Nat.le_refl _⟩
  | succ k ih =>
    obtain ⟨h1, h2⟩ := nextLine_inside s w p hp
    obtain ⟨h3, h4⟩ := ih _ h1
    exact ⟨h3, by rw [findNextPage]; omega⟩

/-- With at least two columns, going on a line moves, unless the last row has been reached. -/
theorem C85_progress (s : List Byte) (w : Nat) (hw : 2 ≤ w) (p : Place) :
    p.ilo < (findNextLine s w p).ilo ∨ nextScan w .head 0 p.ilo (s.drop p.ilo) = .ended := by
  unfold findNextLine
  split
  · next j e => have := nextScan_pos w _ .head 0 p.ilo j (Or.inr e); exact Or.inl (by simp only; omega)
  · next j e =>
    left
    cases hd : s.drop p.ilo with
    | nil => rw [hd] at e; simp [nextScan] at e
    | cons c t =>
      rw [hd, nextScan] at e
      split at e
      · have := nextScan_pos w _ _ _ _ j (Or.inl e); simp only; omega
      · split at e
        · simp at e
        · rw [if_neg (by omega)] at e
          have := nextScan_pos w _ _ _ _ j (Or.inl e); simp only; omega
  · next e => exact Or.inr e

theorem draw_all (w H ilo : Nat) (t : List Byte) : ∀ (mode : Mode) (c' i : Nat) (esc : Bool) (rd c : Nat), ilo ≤ i →
    nextScan w mode c' i t = .ended → (mode = .escape → esc = true) → rd < H → c ≤ c' → draw w H ilo esc i rd c t = t := by
  induction t with
  | nil => intros; simp [draw]
  | cons b t ih =>
    intro mode c' i esc rd c hi hL he hr hc
    have text : (mode = .behind ∨ (mode = .head ∧ b ≠ 27)) → draw w H ilo esc i rd c (b :: t) = b :: t := by
      intro hm
      have hs : nextScan w mode c' i (b :: t) = if b == 10 then .newline i else if c' + 1 ≥ w then .wrapped i
          else nextScan w .head (c' + 1) (i + 1) t := by
        rcases hm with rfl | ⟨rfl, hb27⟩
        · simp [nextScan]
        · simp [nextScan, hb27]
      rw [hs] at hL
      by_cases hn : b = 10
      · simp [hn] at hL
      · simp only [beq_iff_eq, hn, if_false] at hL
        by_cases hw : c' + 1 ≥ w
        · simp [hw] at hL
        · rw [if_neg hw] at hL
          rw [draw]
          split
          · rw [ih .head (c' + 1) (i + 1) _ rd c (by omega) hL (by simp) hr (by omega)]
          · simp only [beq_iff_eq, hn, if_false]
            rw [if_neg (by omega), ih .head (c' + 1) (i + 1) _ rd (c + 1) (by omega) hL (by simp) hr (by omega)]
    cases mode with
    | behind => exact text (Or.inl rfl)
    | head =>
      by_cases hb27 : b = 27
      · subst hb27
        rw [nextScan] at hL
        simp only [beq_self_eq_true, if_true] at hL
        rw [draw]
        simp only [beq_self_eq_true, Bool.or_true, if_true]
        rw [ih .escape c' (i + 1) _ rd c (by omega) hL (by decide) hr hc]
      · exact text (Or.inr ⟨rfl, hb27⟩)
    | escape =>
      have := he rfl
      subst this
      rw [nextScan] at hL
      rw [draw]
      simp only [Bool.true_or, if_true]
      rw [ih _ c' (i + 1) _ rd c (by omega) hL ?_ hr hc]
      intro hm
      by_cases hbm : b = 109
      · simp [hbm] at hm
      · simpa using hbm

/-- On the last row the screen has everything to the end. -/
theorem C85_last_screen (s : List Byte) (w h : Nat) (hh : 1 ≤ h) (p : Place) (hp : Inside s p)
    (he : nextScan w .head 0 p.ilo (s.drop p.ilo) = .ended) : screen s w h p = s.drop p.lo := by
  obtain ⟨esc, hd⟩ := draw_before s w h p.ilo hp.2 (p.ilo - p.lo) p.lo false (by have := hp.1; omega)
  rw [draw_all w h p.ilo _ .head 0 p.ilo esc 0 0 (Nat.le_refl _) he (by simp) (by omega) (Nat.le_refl _)] at hd
  refine List.IsPrefix.eq_of_length (C85_draws_text s w h p) ?_
  have := hp.1; have := hp.2
  rw [screen, hd, List.length_drop, List.length_drop]; omega

theorem shows_from (s : List Byte) (w h : Nat) (hw : 2 ≤ w) (hh : 1 ≤ h) (n : Nat) (hn : n < s.length) (h10 : s[n]? ≠ some 10) (m : Nat) :
    ∀ p, Inside s p → p.lo ≤ n → s.length - p.ilo ≤ m → ∃ k p', presses s w h p (List.replicate k .space) = some p' ∧ Shown s w h p' n := by
  induction m with
  | zero =>
    intro p hp hlo hm
    have : p.ilo = s.length := by have := hp.2; omega
    refine ⟨0, p, rfl, hlo, ?_⟩
    rw [C85_last_screen s w h hh p hp (by rw [this]; simp [nextScan]), List.length_drop]; omega
  | succ m ih =>
    intro p hp hlo hm
    by_cases hs : n < p.lo + (screen s w h p).length
    · exact ⟨0, p, rfl, hlo, hs⟩
    · rcases C85_progress s w hw p with hpr | he
      · obtain ⟨h', rfl⟩ : ∃ h', h = h' + 1 := ⟨h - 1, by omega⟩
        obtain ⟨h1, h2⟩ := nextLine_inside s w p hp
        obtain ⟨h3, h4⟩ := nextPage_inside s w h' _ h1
        have hc := C85_page_loses_nothing s w (h' + 1) (h' + 1) hh (Nat.le_refl _) p hp
        have hle : (findNextPage s w (h' + 1) p).ilo ≤ n := by
          rcases hc with hc | ⟨hc, h10'⟩
          · omega
          · rcases Nat.lt_or_ge n (findNextPage s w (h' + 1) p).ilo with hlt | hge
            · have : n = p.lo + (screen s w (h' + 1) p).length := by omega
              rw [← this] at h10'
              exact absurd h10' h10
            · exact hge
        have hlo' := (nextPage_inside s w (h' + 1) p hp).1.1
        obtain ⟨k, p', hk, hk'⟩ := ih (findNextPage s w (h' + 1) p) (nextPage_inside s w (h' + 1) p hp).1 (by omega)
          (by rw [findNextPage]; omega)
        exact ⟨k + 1, p', by simpa [List.replicate_succ, presses, press] using hk, hk'⟩
      · rw [C85_last_screen s w h hh p hp he, List.length_drop] at hs
        omega

/-- Going on page after page shows every byte of the text but the ends of lines, whatever escape sequences it has. -/
theorem C85_shows_everything (s : List Byte) (w h : Nat) (hw : 2 ≤ w) (hh : 1 ≤ h) (n : Nat) (hn : n < s.length)
    (h10 : s[n]? ≠ some 10) : ∃ k p, presses s w h ⟨0, 0⟩ (List.replicate k .space) = some p ∧ Shown s w h p n :=
  shows_from s w h hw hh n hn h10 s.length ⟨0, 0⟩ ⟨Nat.le_refl _, Nat.zero_le _⟩ (Nat.zero_le _) (by simp)

theorem skipEscape (w col : Nat) (body t : List Byte) (hb : (109 : Byte) ∉ body) (i : Nat) :
    nextScan w .escape col i (body ++ 109 :: t) = nextScan w .behind col (i + body.length + 1) t := by
  induction body generalizing i with
  | nil => simp [nextScan]
  | cons c body ih =>
    simp at hb
    rw [List.cons_append, nextScan, if_neg (by simpa using fun h => hb.1 h.symm), ih hb.2]
    congr 1
    simp; omega

/-- An escape sequence, or none, and then a byte: what the byte is decides. -/
theorem scan_esc (w col : Nat) (e : Option (List Byte)) (c : Byte) (t : List Byte) (he : EscGood e) (hc : e = none → c ≠ 27) (i : Nat) :
    nextScan w .head col i (escBytes e ++ c :: t) =
      if c = 10 then .newline (i + (escBytes e).length) else if col + 1 ≥ w then .wrapped (i + (escBytes e).length)
      else nextScan w .head (col + 1) (i + (escBytes e).length + 1) t := by
  cases e with
  | none => simp [escBytes, nextScan, hc rfl]
  | some body =>
    simp only [escBytes, List.cons_append, List.append_assoc, List.nil_append]
    rw [nextScan]
    simp only [beq_self_eq_true, if_true]
    rw [skipEscape w col body (c :: t) (he body rfl), nextScan]
    simp only [beq_iff_eq, List.length_cons, List.length_append, List.length_nil]
    have h1 : i + 1 + body.length + 1 = i + (body.length + (0 + 1) + 1) := by omega
    rw [h1]

theorem scan_pieces (w : Nat) (ps : List Piece) (hp : ∀ p ∈ ps, PieceGood p) (t : List Byte) : ∀ (col i : Nat), col + ps.length < w →
    nextScan w .head col i (bytesOf ps ++ t) = nextScan w .head (col + ps.length) (i + (bytesOf ps).length) t := by
  induction ps with
  | nil => intros; simp [bytesOf]
  | cons p ps ih =>
    intro col i hlt
    obtain ⟨h1, h2, h3⟩ := hp p (by simp)
    have hb : bytesOf (p :: ps) ++ t = escBytes p.esc ++ p.char :: (bytesOf ps ++ t) := by simp [bytesOf]
    simp only [List.length_cons] at hlt
    rw [hb, scan_esc w col p.esc p.char _ h1 h3, if_neg h2, if_neg (by omega), ih (fun q hq => hp q (by simp [hq])) _ _ (by omega)]
    simp only [bytesOf, List.length_cons, List.flatMap_cons, List.length_append, List.length_nil]
    congr 1 <;> omega

/-- A row that ends with its line, perhaps with escape sequences: the next row is the next line. -/
theorem C85_next_line (s : List Byte) (w : Nat) (p : Place) (ps : List Piece) (hps : ∀ q ∈ ps, PieceGood q) (e : Option (List Byte))
    (he : EscGood e) (t : List Byte) (hs : s.drop p.ilo = bytesOf ps ++ (escBytes e ++ 10 :: t)) (hw : ps.length < w) :
    s.drop (findNextLine s w p).ilo = t ∧ (findNextLine s w p).lo = (findNextLine s w p).ilo := by
  have hl : p.ilo ≤ s.length := by
    rcases Nat.lt_or_ge s.length p.ilo with h | h
    · rw [List.drop_of_length_le (by omega)] at hs; simp at hs
    · exact h
  unfold findNextLine
  rw [hs, scan_pieces w ps hps _ 0 p.ilo (by omega), scan_esc w _ e 10 t he (by simp)]
  simp only [if_true, and_true]
  have := congrArg (List.drop ((bytesOf ps).length + ((escBytes e).length + 1))) hs
  rw [List.drop_drop] at this
  rw [show p.ilo + (bytesOf ps).length + (escBytes e).length + 1 = p.ilo + ((bytesOf ps).length + ((escBytes e).length + 1)) by omega, this,
    ← List.drop_drop, List.drop_left, ← List.drop_drop, List.drop_left]
  rfl

/-- A longer row: the next row begins `width - 1` characters further on, in the same line. -/
theorem C85_next_row (s : List Byte) (w : Nat) (p : Place) (ps : List Piece) (hps : ∀ q ∈ ps, PieceGood q) (e : Option (List Byte))
    (he : EscGood e) (c : Byte) (hc : c ≠ 10) (hc' : e = none → c ≠ 27) (t : List Byte)
    (hs : s.drop p.ilo = bytesOf ps ++ (escBytes e ++ c :: t)) (hw : ps.length + 1 = w) :
    findNextLine s w p = ⟨p.lo, p.ilo + (bytesOf ps).length + (escBytes e).length⟩ := by
  unfold findNextLine
  rw [hs, scan_pieces w ps hps _ 0 p.ilo (by omega), scan_esc w _ e c t he hc', if_neg hc, if_pos (by omega)]

theorem skipAnsi_never (s : List Byte) (i : Nat) : skipAnsiBackwards s i = i := by
  unfold skipAnsiBackwards
  split
  · rfl
  · next hm =>
    split
    · rfl
    · split
      · rfl
      · obtain ⟨j, rfl⟩ : ∃ j, i = j + 1 := ⟨i - 1, by omega⟩
        have : at' s (j + 1) = 109 := by simpa using hm
        have hb : backLoop s (j + 1) = none := by
          rw [backLoop, this, if_neg (by decide), if_pos (by decide)]
        rw [hb]

theorem skipBack_range (s : List Byte) (lo : Nat) (fuel : Nat) : ∀ (i width : Nat), i ≤ fuel → 1 ≤ width →
    i - width ≤ skipBack s lo fuel i width ∧ skipBack s lo fuel i width ≤ i := by
  induction fuel with
  | zero => intro i width hi _; simp [skipBack]; omega
  | succ fuel ih =>
    intro i width hi hw
    rw [skipBack]
    simp only [skipAnsi_never]
    split
    · split
      · omega
      · split
        · omega
        · split
          · omega
          · next h => have h' : width - 1 ≠ 0 := by simpa using h
                      have := ih (i - 1) (width - 1) (by omega) (by omega); omega
    · omega

theorem countNonAnsi_le (t : List Byte) : countNonAnsi t ≤ t.length := by
  induction t with
  | nil => simp [countNonAnsi]
  | cons c t ih => rw [countNonAnsi, List.length_cons]; split <;> omega

theorem prevLoop_le (s : List Byte) (i : Nat) : prevLoop s i ≤ i + 1 := by
  induction i with
  | zero => simp [prevLoop]
  | succ i ih => rw [prevLoop]; split <;> omega

theorem prevStart_le (s : List Byte) (p : Place) : findPrevLineStart s p ≤ p.lo := by
  unfold findPrevLineStart
  split
  · exact Nat.le_refl _
  · have := prevLoop_le s (p.lo - 2)
    rcases Nat.lt_or_ge p.lo 2 with h | h
    · rw [show p.lo - 2 = 0 by omega]; simp [prevLoop]
    · omega

theorem prevLine_inside (s : List Byte) (w : Nat) (hw : 1 ≤ w) (p : Place) (hp : Inside s p) : Inside s (findPrevLine s w p) := by
  obtain ⟨h1, h2⟩ := hp
  have h3 := prevStart_le s p
  unfold findPrevLine
  simp only
  split
  · next hd =>
    have hc := countNonAnsi_le ((s.take p.ilo).drop (findPrevLineStart s p))
    rw [List.length_drop, List.length_take] at hc
    have := skipBack_range s p.lo p.ilo p.ilo w (Nat.le_refl _) hw
    exact ⟨by simp only; omega, by simp only; omega⟩
  · exact ⟨Nat.le_refl _, by simp only; omega⟩

theorem prevPage_inside (s : List Byte) (w : Nat) (hw : 1 ≤ w) (k : Nat) (p : Place) (hp : Inside s p) : Inside s (findPrevPage s w k p) := by
  induction k generalizing p with
  | zero => exact hp
  | succ k ih => exact ih _ (prevLine_inside s w hw p hp)

/-- Whatever keys are pressed, the place stays inside the text, when the text has 100 bytes or the key for its end is not used. -/
theorem C85_inside_partial (s : List Byte) (w h : Nat) (hw : 1 ≤ w) (ks : List Key) (hk : 100 ≤ s.length ∨ .last ∉ ks) (p : Place)
    (hp : Inside s p) : ∃ p', presses s w h p ks = some p' ∧ Inside s p' := by
  induction ks generalizing p with
  | nil => exact ⟨p, rfl, hp⟩
  | cons k ks ih =>
    have hk' : 100 ≤ s.length ∨ .last ∉ ks := hk.imp id fun h => by simp at h; exact h.2
    have : ∃ p', press s w h p k = some p' ∧ Inside s p' := by
      cases k with
      | space => exact ⟨_, rfl, (nextPage_inside s w h p hp).1⟩
      | pageUp => exact ⟨_, rfl, prevPage_inside s w hw h p hp⟩
      | down => exact ⟨_, rfl, (nextLine_inside s w p hp).1⟩
      | up => exact ⟨_, rfl, prevLine_inside s w hw p hp⟩
      | first => exact ⟨_, rfl, Nat.le_refl _, Nat.zero_le _⟩
      | last =>
        have h100 : 100 ≤ s.length := hk.resolve_right (by simp)
        exact ⟨⟨s.length - 100, s.length - 100⟩, by simp [press]; omega, Nat.le_refl _, by simp only; omega⟩
    obtain ⟨p', e, hp'⟩ := this
    obtain ⟨p'', e', hp''⟩ := ih hk' p' hp'
    exact ⟨p'', by simp [presses, e, e'], hp''⟩

theorem prevLoop_find (s : List Byte) (q n : Nat) (hq : LineStart s q) (hq1 : q ≠ 1) (hn : ∀ i, q ≤ i → i < q + n → s[i]? ≠ some 10) :
    prevLoop s (q + n - 1) = q := by
  induction n with
  | zero =>
    rcases hq with rfl | ⟨h0, hq⟩
    · simp [prevLoop]
    · obtain ⟨j, rfl⟩ : ∃ j, q = j + 2 := ⟨q - 2, by omega⟩
      simp only [Nat.add_zero, show j + 2 - 1 = j + 1 by omega] at hq ⊢
      rw [prevLoop, if_pos (by simp [at', hq])]
  | succ n ih =>
    have ih' := ih (fun i h1 h2 => hn i h1 (by omega))
    have hlast := hn (q + n) (by omega) (by omega)
    rw [show q + (n + 1) - 1 = q + n by omega]
    rcases Nat.eq_zero_or_pos (q + n) with h0 | h0
    · rw [h0]; simp only [prevLoop]; omega
    · obtain ⟨j, hj⟩ : ∃ j, q + n = j + 1 := ⟨q + n - 1, by omega⟩
      rw [hj] at hlast ⊢
      rw [prevLoop, if_neg]
      · rw [← ih', hj]; rfl
      · intro hc
        have : at' s (j + 1) = 10 := by simpa using hc
        unfold at' at this
        cases hh : s[j + 1]? with
        | none => rw [hh] at this; simp at this
        | some c => rw [hh] at this hlast; simp at this hlast; exact hlast this

/-- The beginning of the line before. -/
theorem prevStart_line (s : List Byte) (q p : Nat) (h : LineFromTo s q p) (hq1 : q ≠ 1) : findPrevLineStart s ⟨p, p⟩ = q := by
  obtain ⟨h1, h2, h3, h4⟩ := h
  unfold findPrevLineStart
  rw [if_neg (by simp)]
  have := prevLoop_find s q (p - 1 - q) h1 hq1 (fun i hi hj => h4 i hi (by omega))
  rw [show q + (p - 1 - q) - 1 = p - 2 by omega] at this
  exact this

theorem scan_count (w : Nat) (t : List Byte) : ∀ (col i j : Nat), col < w → nextScan w .head col i t = .newline j →
    col + countNonAnsi (t.take (j + 1 - i)) ≤ w := by
  induction t with
  | nil => intro col i j _ h; simp [nextScan] at h
  | cons c t ih =>
    intro col i j hc h
    have hp := nextScan_pos w _ _ _ _ j (Or.inr h)
    rw [show j + 1 - i = (j - i) + 1 by omega, List.take_succ_cons, countNonAnsi]
    rw [nextScan] at h
    split at h
    · next h27 => rw [if_pos h27]; omega
    · next h27 =>
      rw [if_neg h27]
      split at h
      · simp at h; subst h; simp [countNonAnsi]; omega
      · split at h
        · simp at h
        · have := ih (col + 1) (i + 1) j (by omega) h
          rw [show j + 1 - (i + 1) = j - i by omega] at this
          omega

/-- Up undoes down for lines that fit on a row, coloured or not; but not for the second line when the first one is empty. -/
theorem C85_up_undoes_down_partial (s : List Byte) (w : Nat) (hw : 1 ≤ w) (q p : Nat) (h : LineFromTo s q p) (hq1 : q ≠ 1)
    (hd : findNextLine s w ⟨q, q⟩ = ⟨p, p⟩) : findPrevLine s w ⟨p, p⟩ = ⟨q, q⟩ := by
  have hlt := h.2.1
  unfold findPrevLine
  simp only [prevStart_line s q p h hq1]
  rw [if_neg]
  unfold findNextLine at hd
  split at hd
  · next j e =>
    simp only [Place.mk.injEq, and_self] at hd
    have := scan_count w _ 0 q j (by omega) e
    rw [hd, show (s.drop q).take (p - q) = (s.take p).drop q by rw [List.drop_take]] at this
    omega
  · simp at hd; omega
  · simp at hd; omega

theorem countNonAnsi_plain (t : List Byte) (h : (27 : Byte) ∉ t) : countNonAnsi t = t.length := by
  induction t with
  | nil => rfl
  | cons c t ih =>
    simp at h
    rw [countNonAnsi, if_neg (by simpa using fun e => h.1 e.symm), ih h.2, List.length_cons]

/-- Behind a line that is as wide as the screen or wider, the key for going up has no effect, however often it is pressed. -/
theorem C85_up_stuck (s : List Byte) (w h : Nat) (hw : 1 ≤ w) (q p : Nat) (hl : LineFromTo s q p) (hq1 : q ≠ 1)
    (hplain : (27 : Byte) ∉ (s.take p).drop q) (hlong : w < p - q) (k : Nat) :
    presses s w h ⟨p, p⟩ (List.replicate (k + 1) .up) = some ⟨q, p⟩ := by
  have hlt := hl.2.1
  have hps : p ≤ s.length := by
    have := hl.2.2.1
    rcases Nat.lt_or_ge (p - 1) s.length with h | h
    · omega
    · rw [List.getElem?_eq_none h] at this; simp at this
  have hcount : countNonAnsi ((s.take p).drop q) > w := by
    rw [countNonAnsi_plain _ hplain, List.length_drop, List.length_take]; omega
  have hback : ∀ lo, skipBack s lo p p w = p := by
    intro lo
    obtain ⟨j, rfl⟩ : ∃ j, p = j + 1 := ⟨p - 1, by omega⟩
    rw [skipBack]
    simp only [skipAnsi_never, Nat.add_sub_cancel]
    have : at' s j = 10 := by
      have := hl.2.2.1
      simp only [Nat.add_sub_cancel] at this
      simp [at', this]
    simp [this]
  have h1 : findPrevLine s w ⟨p, p⟩ = ⟨q, p⟩ := by
    unfold findPrevLine
    simp only [prevStart_line s q p hl hq1]
    rw [if_pos hcount, hback]
  have h2 : findPrevLine s w ⟨q, p⟩ = ⟨q, p⟩ := by
    have hs : findPrevLineStart s ⟨q, p⟩ = q := by unfold findPrevLineStart; rw [if_pos (by simpa using hlt)]
    unfold findPrevLine
    simp only [hs]
    rw [if_pos hcount, hback]
  have h3 : ∀ k, presses s w h ⟨q, p⟩ (List.replicate k .up) = some ⟨q, p⟩ := by
    intro k
    induction k with
    | zero => rfl
    | succ k ih => simp [List.replicate_succ, presses, press, h2, ih]
  simp [List.replicate_succ, presses, press, h1, h3]

/-- Up undoes down. -/
def C85_up_undoes_down : Prop := ∀ (s : List Byte) (w q p : Nat), 1 ≤ w → LineStart s q → findNextLine s w ⟨q, q⟩ = ⟨p, p⟩ →
  findPrevLine s w ⟨p, p⟩ = ⟨q, q⟩

/-- Not behind an empty first line: the second line is left out. -/
theorem C85_false_first : ¬ C85_up_undoes_down := fun h => by
  have := h b#"\nab\ncd\n" 80 1 4 (by decide) (Or.inr (by decide)) (by decide +kernel)
  exact absurd this (by decide +kernel)

/-- Going down to a row and up again, in a line that is wider than the screen. -/
def C85_rows : Prop := ∀ (s : List Byte) (w : Nat) (p : Place), 2 ≤ w → Inside s p → LineStart s p.lo →
  findNextLine s w p ≠ p → findPrevLine s w (findNextLine s w p) = p

/-- Down goes `width - 1` characters and up goes `width`. -/
theorem C85_false_rows : ¬ C85_rows := fun h => by
  have := h b#"abcdefghijklmn\n" 4 ⟨0, 6⟩ (by decide) ⟨by decide, by decide⟩ (Or.inl rfl) (by decide +kernel)
  exact absurd this (by decide +kernel)

/-- With one column. -/
def C85_one_column : Prop := ∀ (s : List Byte) (p : Place), Inside s p →
  p.ilo < (findNextLine s 1 p).ilo ∨ nextScan 1 .head 0 p.ilo (s.drop p.ilo) = .ended

/-- Going on does not move. -/
theorem C85_false_one_column : ¬ C85_one_column := fun h => by
  have := h b#"ab\n" ⟨0, 0⟩ ⟨by decide, by decide⟩
  exact absurd this (by decide +kernel)

/-- All keys keep the place inside the text. -/
def C85_inside : Prop := ∀ (s : List Byte) (w h : Nat) (ks : List Key), 1 ≤ w → presses s w h ⟨0, 0⟩ ks ≠ none

/-- The key for the end does not: it goes 100 bytes before the end, which is before the beginning of a short text. -/
theorem C85_false_end : ¬ C85_inside := fun h => h b#"a=1\n" 80 24 [.last] (by decide) (by decide +kernel)

example : LineFromTo b#"a\nbc\n" 2 5 :=
  ⟨Or.inr (by decide), by decide, by decide, fun i h1 h2 => by
    rcases (by omega : i = 2 ∨ i = 3) with rfl | rfl <;> decide⟩
example : findNextLine b#"a\nbc\n" 80 ⟨2, 2⟩ = ⟨5, 5⟩ := by decide +kernel
example : findNextLine (27 :: b#"[1mabcdef\n") 4 ⟨0, 0⟩ = ⟨0, 7⟩ := by decide +kernel
example : screen b#"ab\ncd\nef\n" 80 2 ⟨3, 3⟩ = b#"cd\nef" := by decide +kernel

end Xmq.Props
