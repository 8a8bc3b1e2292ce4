import Verif.Lemmas.Colour
import Verif.Lemmas.PrintCompact
import Verif.Spec.Colour
/-!
# Readings of the themes
-/
namespace Xmq
open Spec

theorem isCont_high {c : Byte} (h : isCont c = true) : 0x80 ≤ c ∧ c < 0xc0 := by
  have := forall_byte (P := fun c => isCont c = true → 0x80 ≤ c ∧ c < 0xc0) (by decide +kernel) c
  exact this h

/-! ## Without a theme -/

theorem keepOne_ne {c : Byte} {k : List Byte} (h : (c == b#' ' || c == b#'\t') = false) : keepOne (c :: k) = c :: k := by
  simp only [keepOne, h]; rfl

theorem face_plain {d : Dress} (hr : d.render = .plain ∨ d.render = .terminal) (hs : d.space = b#" ") (ht : d.tab = b#"\t")
    (c : Byte) (k : List Byte) : d.face (c :: k) = keepOne (c :: k) := by
  unfold Dress.face keepOne
  by_cases h1 : c = b#' '
  · subst h1; simp [hs]
  · by_cases h2 : c = b#'\t'
    · subst h2; simp [ht]
    · simp only [beq_iff_eq, h1, h2, Bool.or_eq_true, or_self, if_false]
      rcases hr with hr | hr <;> rw [hr] <;> simp [needsEscape]

theorem plain_reading (cfg : OutCfg) : Reading plainDress cfg (fun _ => True) (fun w v => w = v) where
  nil := rfl
  app h h' := by rw [h, h']
  left _ := trivial
  right _ := trivial
  pre h := nomatch h
  post h := nomatch h
  face _ _ := face_plain (Or.inl rfl) rfl rfl _ _
  nl := rfl
  space := rfl
  raw _ := rfl
  bad := rfl
  indent := rfl

/-! ## Terminal -/

theorem ansiText_other {c : Byte} (h : c ≠ 27) (t : List Byte) : ansiText false (c :: t) = c :: ansiText false t := by
  cases t <;> simp [ansiText, h]

theorem ansiText_plain {w : List Byte} (h : (27 : Byte) ∉ w) (rest : List Byte) :
    ansiText false (w ++ rest) = w ++ ansiText false rest := by
  induction w with
  | nil => rfl
  | cons c t ih =>
    simp only [List.mem_cons, not_or] at h
    rw [List.cons_append, ansiText_other (fun e => h.1 e.symm), ih h.2]
    rfl

theorem ansiText_sequence {w : List Byte} (h : b#'m' ∉ w) (rest : List Byte) :
    ansiText true (w ++ b#'m' :: rest) = ansiText false rest := by
  induction w with
  | nil => rw [List.nil_append, ansiText]; rfl
  | cons c t ih =>
    simp only [List.mem_cons, not_or] at h
    rw [List.cons_append, ansiText, if_neg (fun e => h.1 e.symm), ih h.2]

theorem decDigits_digit (k n : Nat) : ∀ c ∈ decDigits k n, 48 ≤ c.toNat ∧ c.toNat < 58 := by
  induction k generalizing n with
  | zero => simp [decDigits]
  | succ k ih =>
    intro c hc
    rw [decDigits] at hc
    split at hc
    · rename_i hn
      simp only [List.mem_singleton] at hc
      subst hc
      rw [byte_ofNat_toNat (by omega)]
      omega
    · simp only [List.mem_append, List.mem_singleton] at hc
      rcases hc with hc | hc
      · exact ih _ c hc
      · subst hc
        rw [byte_ofNat_toNat (by omega)]
        omega

theorem printInt_noM (n : Int) : b#'m' ∉ printInt n := by
  have key : ∀ k n, b#'m' ∉ decDigits k n := fun k n h => by
    have := decDigits_digit k n _ h
    revert this
    decide
  unfold printInt
  split
  · simp only [List.mem_cons, not_or]
    exact ⟨by decide, key _ _⟩
  · exact key _ _

/-- A colour sequence is not seen. -/
theorem ansiColor_read (c : ColorDef) (rest : List Byte) : ansiText false (ansiColor c ++ rest) = ansiText false rest := by
  have e : ansiColor c ++ rest = 27 :: 91 :: ((b#"0;" ++ (if c.bold then b#"1;" else []) ++ (if c.underline then b#"4;" else []) ++
      b#"38;2;" ++ printInt c.r ++ b#";" ++ printInt c.g ++ b#";" ++ printInt c.b) ++ b#'m' :: rest) := by
    simp [ansiColor]
  rw [e, ansiText]
  apply ansiText_sequence
  have h1 : b#'m' ∉ (if c.bold then b#"1;" else []) := by split <;> decide
  have h2 : b#'m' ∉ (if c.underline then b#"4;" else []) := by split <;> decide
  have h3 : b#'m' ∉ b#"0;" := by decide
  have h4 : b#'m' ∉ b#"38;2;" := by decide
  have h5 : b#'m' ∉ b#";" := by decide
  simp only [List.mem_append, not_or]
  exact ⟨⟨⟨⟨⟨⟨⟨⟨h3, h1⟩, h2⟩, h4⟩, printInt_noM _⟩, h5⟩, printInt_noM _⟩, h5⟩, printInt_noM _⟩

theorem noColor_read (rest : List Byte) : ansiText false (noColor ++ rest) = ansiText false rest := by
  show ansiText false (27 :: 91 :: ([b#'0'] ++ b#'m' :: rest)) = _
  rw [ansiText]
  exact ansiText_sequence (by decide) rest

theorem terminal_reading (colors : ColorName → ColorDef) {cfg : OutCfg} (hi : ∀ c ∈ cfg.indentationSpace, c = b#' ') :
    Reading (terminalDress colors) cfg (fun s => (27 : Byte) ∉ s)
      (fun w v => ∀ rest, ansiText false (w ++ rest) = v ++ ansiText false rest) where
  nil rest := rfl
  app h h' rest := by rw [List.append_assoc, h, h', List.append_assoc]
  left h := fun hm => h (List.mem_append_left _ hm)
  right h := fun hm => h (List.mem_append_right _ hm)
  pre := by
    intro c m h rest
    simp only [terminalDress] at h
    cases hn : c.name with
    | some n =>
      rw [hn] at h
      cases h
      exact ansiColor_read _ rest
    | none =>
      rw [hn] at h
      simp only at h
      split at h
      · cases h
      · cases h
        exact noColor_read rest
  post h := nomatch h
  face := by
    intro c k hk hg rest
    rw [face_plain (Or.inr rfl) rfl rfl]
    exact ansiText_plain hg rest
  nl := ansiText_plain (w := b#"\n") (by decide)
  space := ansiText_plain (w := b#" ") (by decide)
  raw := by
    intro s h
    refine ansiText_plain fun hm => ?_
    have := h _ hm
    revert this
    decide
  bad := ansiText_plain (by decide)
  indent := ansiText_plain fun hm => absurd (hi _ hm) (by decide)

/-! ## HTML -/

theorem pageText_other {c : Byte} (h1 : c ≠ b#'<') (h2 : c ≠ b#'&') (t : List Byte) :
    pageText false (c :: t) = c :: pageText false t := by
  have h1' : c ≠ 60 := h1
  have h2' : c ≠ 38 := h2
  rw [pageText]
  all_goals grind

theorem pageText_plain {w : List Byte} (h1 : b#'<' ∉ w) (h2 : b#'&' ∉ w) (rest : List Byte) :
    pageText false (w ++ rest) = w ++ pageText false rest := by
  induction w with
  | nil => rfl
  | cons c t ih =>
    simp only [List.mem_cons, not_or] at h1 h2
    rw [List.cons_append, pageText_other (fun e => h1.1 e.symm) (fun e => h2.1 e.symm), ih h1.2 h2.2]
    rfl

theorem pageText_tag {w : List Byte} (h : b#'>' ∉ w) (rest : List Byte) :
    pageText true (w ++ b#'>' :: rest) = pageText false rest := by
  induction w with
  | nil => rw [List.nil_append, pageText]; rfl
  | cons c t ih =>
    simp only [List.mem_cons, not_or] at h
    rw [List.cons_append, pageText, if_neg (fun e => h.1 e.symm), ih h.2]

theorem pageText_element {w : List Byte} (h : b#'>' ∉ w) (rest : List Byte) :
    pageText false (b#'<' :: (w ++ b#">") ++ rest) = pageText false rest := by
  have e : b#'<' :: (w ++ b#">") ++ rest = 60 :: (w ++ b#'>' :: rest) := by simp
  rw [e, pageText]
  exact pageText_tag h rest

theorem tag_noEnd (n : ColorName) : b#'>' ∉ n.tag := by cases n <;> decide

theorem _root_.Xmq.Spec.TidyMarkup.left {a b : List Byte} (h : TidyMarkup (a ++ b)) : TidyMarkup a := by
  rintro x c y z rfl
  exact h x c y (z ++ b) (by simp)

theorem _root_.Xmq.Spec.TidyMarkup.right {a b : List Byte} (h : TidyMarkup (a ++ b)) : TidyMarkup b := by
  rintro x c y z rfl
  exact h (a ++ x) c y z (by simp)

theorem html_face {d : Dress} (hd : d.render = .html) (hs : d.space = b#" ") (ht : d.tab = b#"\t") {c : Byte} {k : List Byte}
    (hk : ∀ x ∈ k, isCont x = true) (hg : TidyMarkup (keepOne (c :: k))) (rest : List Byte) :
    pageText false (d.face (c :: k) ++ rest) = keepOne (c :: k) ++ pageText false rest := by
  have cont1 : b#'<' ∉ k := fun hm => absurd (hk _ hm) (by decide)
  have cont2 : b#'&' ∉ k := fun hm => absurd (hk _ hm) (by decide)
  have short : c = b#'&' ∨ c = b#'<' ∨ c = b#'>' → k = [] := by
    intro hc
    cases k with
    | nil => rfl
    | cons x t =>
      have hb : (c == b#' ' || c == b#'\t') = false := by rcases hc with rfl | rfl | rfl <;> rfl
      rw [keepOne_ne hb] at hg
      exact absurd (isCont_high (hk x (by simp))) (hg [] c x t rfl hc)
  unfold Dress.face keepOne
  by_cases h1 : c = b#' '
  · subst h1
    simp only [beq_self_eq_true, if_true, hs, Bool.true_or]
    exact pageText_plain (by decide) (by decide) rest
  · by_cases h2 : c = b#'\t'
    · subst h2
      simp only [beq_self_eq_true, if_true, ht, Bool.or_true, if_neg (show ¬(b#'\t' == b#' ') = true by decide)]
      exact pageText_plain (by decide) (by decide) rest
    · simp only [beq_iff_eq, h1, h2, Bool.or_eq_true, or_self, if_false, hd]
      by_cases h3 : c = b#'&'
      · subst h3
        rw [short (Or.inl rfl)]
        show pageText false (38 :: 97 :: 109 :: 112 :: 59 :: rest) = _
        rw [pageText]
        rfl
      · by_cases h4 : c = b#'<'
        · subst h4
          rw [short (Or.inr (Or.inl rfl))]
          show pageText false (38 :: 108 :: 116 :: 59 :: rest) = _
          rw [pageText]
          rfl
        · by_cases h5 : c = b#'>'
          · subst h5
            rw [short (Or.inr (Or.inr rfl))]
            show pageText false (38 :: 103 :: 116 :: 59 :: rest) = _
            rw [pageText]
            rfl
          · have e : (needsEscape .html c).getD (c :: k) = c :: k := by simp [needsEscape, h3, h4, h5]
            rw [e]
            apply pageText_plain
            · simp only [List.mem_cons, not_or]; exact ⟨fun e => h4 e.symm, cont1⟩
            · simp only [List.mem_cons, not_or]; exact ⟨fun e => h3 e.symm, cont2⟩

theorem html_reading (front back : List Byte) (id clazz : Option (List Byte)) (dark : Bool) {cfg : OutCfg}
    (hi : ∀ c ∈ cfg.indentationSpace, c = b#' ') :
    Reading (htmlDress front back id clazz dark) cfg TidyMarkup
      (fun w v => ∀ rest, pageText false (w ++ rest) = v ++ pageText false rest) where
  nil rest := rfl
  app h h' rest := by rw [List.append_assoc, h, h', List.append_assoc]
  left h := TidyMarkup.left h
  right h := TidyMarkup.right h
  pre := by
    intro c m h rest
    simp only [htmlDress, Option.map_eq_some_iff] at h
    obtain ⟨n, _, rfl⟩ := h
    exact pageText_element (tag_noEnd n) rest
  post := by
    intro c m h rest
    simp only [htmlDress, Option.map_eq_some_iff] at h
    obtain ⟨n, _, rfl⟩ := h
    have e : b#"</" ++ n.tag ++ b#">" = b#'<' :: ((b#'/' :: n.tag) ++ b#">") := by simp
    rw [e]
    refine pageText_element ?_ rest
    simp only [List.mem_cons, not_or]
    exact ⟨by decide, tag_noEnd n⟩
  face hk hg := html_face rfl rfl rfl hk hg
  nl := pageText_plain (w := b#"\n") (by decide) (by decide)
  space := pageText_plain (w := b#" ") (by decide) (by decide)
  raw := by
    intro s h
    apply pageText_plain
    · exact fun hm => by have := h _ hm; revert this; decide
    · exact fun hm => by have := h _ hm; revert this; decide
  bad := by
    intro rest
    show pageText false (38 :: 98 :: ([97, 100, 117, 116, 102, 56, 59] ++ rest)) = _
    have e : pageText false (38 :: 98 :: ([97, 100, 117, 116, 102, 56, 59] ++ rest)) =
        38 :: pageText false (98 :: ([97, 100, 117, 116, 102, 56, 59] ++ rest)) := by
      rw [pageText] <;> simp
    rw [e]
    have := pageText_plain (w := [98, 97, 100, 117, 116, 102, 56, 59]) (by decide) (by decide) rest
    exact congrArg (38 :: ·) this
  indent := pageText_plain (fun hm => absurd (hi _ hm) (by decide)) (fun hm => absurd (hi _ hm) (by decide))

/-! ## Proper UTF-8 -/

/-- No continuation byte behind a 7 bit byte, as a check. -/
def tidyAscii : Bool → List Byte → Bool
  | _, [] => true
  | p, c :: t => !(p && isCont c) && tidyAscii (c < 0x80) t

theorem tidyAscii_spec {p : Bool} {s : List Byte} (h : tidyAscii p s = true) :
    ∀ a c x b, s = a ++ c :: x :: b → c < 0x80 → isCont x = false := by
  induction s generalizing p with
  | nil => intro a c x b e; simp at e
  | cons y t ih =>
    intro a c x b e hc
    simp only [tidyAscii, Bool.and_eq_true] at h
    cases a with
    | cons z a =>
      simp only [List.cons_append, List.cons.injEq] at e
      exact ih h.2 a c x b e.2 hc
    | nil =>
      simp only [List.nil_append, List.cons.injEq] at e
      obtain ⟨rfl, rfl⟩ := e
      have := h.2
      simp only [tidyAscii, hc, decide_true, Bool.true_and, Bool.and_eq_true] at this
      simpa using this.1

theorem tidyAscii_high {n : Nat} (h1 : 0x80 ≤ n) (h2 : n < 256) : decide (UInt8.ofNat n < (0x80 : Byte)) = false := by
  rw [decide_eq_false_iff_not, UInt8.lt_iff_toNat_lt, byte_ofNat_toNat h2]
  simp
  omega

theorem _root_.Xmq.Spec.ValidUtf8.tidyAscii {s : List Byte} (h : ValidUtf8 s) (p : Bool) : Xmq.tidyAscii p s = true := by
  induction h generalizing p with
  | nil => rfl
  | cons cp hcp rest _ ih =>
    have first : ∀ (p : Bool) (n : Nat) (t : List Byte), n < 256 → ¬(0x80 ≤ n ∧ n < 0xC0) →
        Xmq.tidyAscii p (UInt8.ofNat n :: t) = Xmq.tidyAscii (UInt8.ofNat n < (0x80 : Byte)) t := by
      intro p n t hn hr
      have : isCont (UInt8.ofNat n) = false := by
        rw [Bool.eq_false_iff]
        exact fun e => hr ((isCont_ofNat hn).1 e)
      simp [Xmq.tidyAscii, this]
    have next : ∀ (n : Nat) (t : List Byte), 0x80 ≤ n → n < 256 →
        Xmq.tidyAscii false (UInt8.ofNat n :: t) = Xmq.tidyAscii false t := by
      intro n t h1 h2
      simp only [Xmq.tidyAscii, Bool.false_and, Bool.not_false, Bool.true_and, tidyAscii_high h1 h2]
    unfold rfc3629
    split
    · simp only [List.map_cons, List.map_nil, List.cons_append, List.nil_append]
      rw [first _ _ _ (by omega) (by omega)]
      exact ih _
    · split
      · simp only [List.map_cons, List.map_nil, List.cons_append, List.nil_append]
        rw [first _ _ _ (by omega) (by omega), tidyAscii_high (by omega) (by omega), next _ _ (by omega) (by omega)]
        exact ih _
      · split
        · simp only [List.map_cons, List.map_nil, List.cons_append, List.nil_append]
          rw [first _ _ _ (by omega) (by omega), tidyAscii_high (by omega) (by omega), next _ _ (by omega) (by omega),
            next _ _ (by omega) (by omega)]
          exact ih _
        · simp only [List.map_cons, List.map_nil, List.cons_append, List.nil_append]
          rw [first _ _ _ (by omega) (by omega), tidyAscii_high (by omega) (by omega), next _ _ (by omega) (by omega),
            next _ _ (by omega) (by omega), next _ _ (by omega) (by omega)]
          exact ih _

/-- Proper UTF-8 is tidy. -/
theorem _root_.Xmq.Spec.ValidUtf8.tidyMarkup {s : List Byte} (h : ValidUtf8 s) : TidyMarkup s := by
  intro a c x b e hc hx
  have hc' : c < 0x80 := by rcases hc with rfl | rfl | rfl <;> decide
  have h1 := tidyAscii_spec (h.tidyAscii false) a c x b e hc'
  have h2 := forall_byte (P := fun c => 0x80 ≤ c ∧ c < 0xc0 → isCont c = true) (by decide +kernel) x hx
  rw [h1] at h2
  cases h2

end Xmq
