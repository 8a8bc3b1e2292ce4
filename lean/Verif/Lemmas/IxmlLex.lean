import Verif.Lemmas.IxmlTok
/-!
# Names, numbers and character sets of ixml grammars are read as they are written
-/
namespace Xmq.Ixml
open Xmq.Spec Xmq.Spec.Ixml

/-! ## Names -/

theorem letter_class {c : Byte} (h : IsLetter c) : isNameStart c = true ∧ isNameFollower c = true ∧ isMark c = false ∧ isWs c = false ∧
    isQuote c = false ∧ isTmark c = false ∧ isNaming c = true ∧ isAltStart c = true ∧ c ≠ 0 ∧ c ≠ b#'#' ∧ c ≠ b#'~' ∧ c ≠ b#'[' ∧ c ≠ b#'|' ∧
    c ≠ b#'.' ∧ c ≠ b#')' := by
  revert h
  refine forall_byte (P := fun c => IsLetter c → isNameStart c = true ∧ isNameFollower c = true ∧ isMark c = false ∧ isWs c = false ∧
    isQuote c = false ∧ isTmark c = false ∧ isNaming c = true ∧ isAltStart c = true ∧ c ≠ 0 ∧ c ≠ b#'#' ∧ c ≠ b#'~' ∧ c ≠ b#'[' ∧ c ≠ b#'|' ∧
    c ≠ b#'.' ∧ c ≠ b#')') ?_ c
  unfold IsLetter
  decide +kernel

theorem name_follower {c : Byte} (h : IsLetter c ∨ c = b#'-' ∨ (48 ≤ c.toNat ∧ c.toNat ≤ 57)) : isNameFollower c = true := by
  revert h
  refine forall_byte (P := fun c => IsLetter c ∨ c = b#'-' ∨ (48 ≤ c.toNat ∧ c.toNat ≤ 57) → isNameFollower c = true) ?_ c
  unfold IsLetter
  decide +kernel

theorem isName_head {n : List Byte} (h : IsName n) : ∃ c t, n = c :: t ∧ IsLetter c := by
  obtain ⟨c, t, rfl, hc, _⟩ := h
  exact ⟨c, t, rfl, hc⟩

theorem name_read {n : List Byte} (h : IsName n) {tail : List Byte} (ht : isNameFollower (peek tail) = false) : name (n ++ tail) = .ok (n, tail) := by
  obtain ⟨c, t, rfl, hc, hd⟩ := h
  unfold name
  have h1 := (letter_class hc).1
  have h2 : ∀ x ∈ t, isNameFollower x = true := fun x hx => name_follower (hd x hx)
  have h3 := takeWhile_stop isNameFollower tail ht
  simp only [List.cons_append, peek_cons, h1, if_true, List.drop_one, List.tail_cons, takeWhile_all_append _ _ _ h2, dropWhile_all_append _ _ _ h2,
    h3.1, h3.2, List.append_nil]
  simp

theorem gap_ws {s : List Byte} (h : Gap true s) : ∀ c ∈ s, isWs c = true := fun c hc => (blank_ws (h.2 rfl c hc)).1

theorem namingTail_read {m : Byte} {n s ta : List Byte} {al : Option (List Byte)} (hn : IsName n) (hs : S true s) (ha : WAlias true al ta) {tail : List Byte}
    (h1 : isWs (peek tail) = false) (h2 : isNameFollower (peek tail) = false) (h3 : peek tail ≠ b#'>') : (do
      let (nm, s) ← name (n ++ (s ++ (ta ++ tail)))
      let s ← ws s
      if peek s = b#'>' then do
        let s ← ws (s.drop 1)
        let (al, s) ← name s
        let s ← ws s
        .ok (m, nm, some al, s)
      else .ok (m, nm, none, s) : Res (Byte × List Byte × Option (List Byte) × List Byte)) = .ok (m, n, al, tail) := by
  cases ha with
  | none =>
    simp only [List.nil_append]
    rw [name_read hn (peek_S_not hs tail isNameFollower ws_not_follower h2)]
    simp only [ok_bind]
    rw [ws_S hs h1]
    simp only [ok_bind, h3, if_false]
  | some a s1 s2 hs1 hna hs2 =>
    simp only [List.cons_append, List.append_assoc]
    rw [name_read hn (peek_S_not hs _ isNameFollower ws_not_follower (by rfl))]
    simp only [ok_bind]
    rw [ws_S hs (by rfl)]
    simp only [ok_bind, peek_cons, if_true, List.drop_one, List.tail_cons]
    obtain ⟨d, v, hdv, hd⟩ := isName_head hna
    rw [ws_S hs1 (by rw [hdv]; exact (letter_class hd).2.2.2.1)]
    simp only [ok_bind]
    rw [name_read hna (peek_S_not hs2 tail isNameFollower ws_not_follower h2)]
    simp only [ok_bind]
    rw [ws_S hs2 h1]
    simp only [ok_bind]

theorem naming_read {m : Byte} {n : List Byte} {al : Option (List Byte)} {t : List Byte} (h : WNaming true m n al t) {tail : List Byte}
    (h1 : isWs (peek tail) = false) (h2 : isNameFollower (peek tail) = false) (h3 : peek tail ≠ b#'>') : naming (t ++ tail) = .ok (m, n, al, tail) := by
  obtain ⟨tm, s, ta, hm, hn, hs, ha⟩ := h
  obtain ⟨c, u, hcu, hc⟩ := isName_head hn
  have hl := letter_class hc
  have key := namingTail_read (m := m) hn hs ha h1 h2 h3
  have hp : peek (n ++ (s ++ (ta ++ tail))) = c := by rw [hcu]; rfl
  cases hm with
  | none =>
    unfold naming
    simp only [List.nil_append, List.append_assoc, hp, hl.2.2.2.2.2.2.1, if_true, hl.2.2.1]
    rw [if_neg (by decide), ws_none (by rw [hp]; exact hl.2.2.2.1)]
    simp only [ok_bind, hp, hl.1, if_true]
    exact key
  | mk m g hm hg =>
    have hmk : isMark m = true := by rcases hm with rfl | rfl | rfl <;> decide
    have hnm : isNaming m = true := by unfold isNaming; rw [hmk]; simp
    unfold naming
    simp only [List.cons_append, List.append_assoc, peek_cons, hnm, if_true, hmk, List.drop_one, List.tail_cons]
    rw [ws_S hg.1 (by rw [hp]; exact hl.2.2.2.1)]
    simp only [ok_bind, hp, hl.1, if_true]
    simpa using key

/-! ## Numbers -/

theorem encoded_head {c : Nat} {t : List Byte} (h : Encoded c t) : ∃ ds, t = b#'#' :: ds ∧ Hex ds c ∧ 0 < c ∧ c < 0x110000 := by
  obtain ⟨ds, h0, h1, h2⟩ := h
  exact ⟨ds, rfl, h2, h0, h1⟩

theorem encoded_tail {c : Nat} {t s tail : List Byte} (m : Byte) (h : Encoded c t) (hs : S true s) (h1 : isWs (peek tail) = false) (h2 : isHex (peek tail) = false) :
    (if peek (t ++ (s ++ tail)) = b#'#' then
      if isHex (peek ((t ++ (s ++ tail)).drop 1)) then (do
        let r ← ws (((t ++ (s ++ tail)).drop 1).dropWhile isHex)
        .ok (m, hexInt (((t ++ (s ++ tail)).drop 1).takeWhile isHex), r) : Res (Byte × Int × List Byte))
      else .err
    else .abort) = .ok (m, (c : Int), tail) := by
  obtain ⟨ds, rfl, hd, h0, hc⟩ := encoded_head h
  obtain ⟨ha, hne⟩ := hex_all hd
  obtain ⟨b, u, rfl⟩ : ∃ b u, ds = b :: u := by
    cases ds with
    | nil => exact absurd rfl hne
    | cons b u => exact ⟨b, u, rfl⟩
  have hb : isHex b = true := ha b (by simp)
  have h3 := takeWhile_stop isHex (s ++ tail) (peek_S_not hs tail isHex ws_not_hex h2)
  simp only [List.cons_append, peek_cons, if_true, List.drop_one, List.tail_cons, hb]
  rw [← List.cons_append, takeWhile_all_append _ _ _ ha, dropWhile_all_append _ _ _ ha, h3.1, h3.2, List.append_nil, ws_S hs h1, hexInt_hex hd hc]
  rfl

theorem encoded_read {m : Byte} {c : Nat} {tm t s : List Byte} (hm : WTmark true m tm) (h : Encoded c t) (hs : S true s) {tail : List Byte}
    (h1 : isWs (peek tail) = false) (h2 : isHex (peek tail) = false) : encoded (tm ++ (t ++ (s ++ tail))) = .ok (m, (c : Int), tail) := by
  have h3 := encoded_tail m h hs h1 h2
  have hp : peek (t ++ (s ++ tail)) = b#'#' := by
    obtain ⟨ds, rfl, -⟩ := encoded_head h
    rfl
  cases hm with
  | none =>
    unfold encoded
    simp only [List.nil_append]
    rw [hp, if_neg (by decide), ws_none (by rw [hp]; decide)]
    exact h3
  | mk m g hm hg =>
    have hmk : isTmark m = true := by rcases hm with rfl | rfl <;> decide
    unfold encoded
    simp only [List.cons_append, peek_cons, hmk, if_true, List.drop_one, List.tail_cons]
    rw [ws_S hg.1 (by rw [hp]; decide)]
    simp only [List.drop_one] at h3
    exact h3

/-! ## Looking ahead -/

theorem skipTmark_none {s : List Byte} (h : isTmark (peek s) = false) : skipTmark s = s := by
  unfold skipTmark; rw [h]; rfl

theorem skipTmark_mk {m : Byte} {tm : List Byte} (hm : WTmark true m tm) {t : List Byte} (h1 : isTmark (peek t) = false) (h2 : isWs (peek t) = false) :
    skipTmark (tm ++ t) = t := by
  cases hm with
  | none => exact skipTmark_none h1
  | mk m g hm hg =>
    have hmk : isTmark m = true := by rcases hm with rfl | rfl <;> decide
    unfold skipTmark
    simp only [List.cons_append, peek_cons, hmk, if_true, List.drop_one, List.tail_cons]
    rw [dropWhile_all_append _ _ _ (gap_ws hg), (takeWhile_stop isWs t h2).2]

theorem skipTmark_mark {m : Byte} {tm : List Byte} (hm : WMark true m tm) {t : List Byte} (h1 : isTmark (peek t) = false) (h2 : isWs (peek t) = false) :
    skipTmark (tm ++ t) = t ∨ (peek (tm ++ t) = b#'@' ∧ skipTmark (tm ++ t) = tm ++ t) := by
  cases hm with
  | none => exact .inl (skipTmark_none h1)
  | mk m g hm hg =>
    by_cases hmk : isTmark m = true
    · left
      unfold skipTmark
      simp only [List.cons_append, peek_cons, hmk, if_true, List.drop_one, List.tail_cons]
      rw [dropWhile_all_append _ _ _ (gap_ws hg), (takeWhile_stop isWs t h2).2]
    · right
      rcases hm with rfl | rfl | rfl
      · exact ⟨rfl, skipTmark_none (by simpa using hmk)⟩
      · exact absurd (by decide) hmk
      · exact absurd (by decide) hmk

theorem utf8_bytes {c : Nat} (h0 : 0 < c) (h : c < 0x110000) {q : Byte} (hq : q.toNat < 128) (hne : c ≠ q.toNat) : ∀ b ∈ utf8 c, b ≠ q ∧ b ≠ 0 := by
  have key : ∀ b ∈ utf8 c, b.toNat = c ∨ 128 ≤ b.toNat := by
    intro b hb
    unfold utf8 rfc3629 at hb
    split at hb
    · simp at hb; subst hb; left; simp; omega
    · right
      split at hb
      · simp at hb; rcases hb with rfl | rfl <;> simp <;> omega
      · split at hb
        · simp at hb; rcases hb with rfl | rfl | rfl <;> simp <;> omega
        · simp at hb; rcases hb with rfl | rfl | rfl | rfl <;> simp <;> omega
  intro b hb
  refine ⟨?_, ?_⟩
  · rintro rfl
    rcases key _ hb with h | h
    · exact hne h.symm
    · omega
  · rintro rfl
    rcases key _ hb with h | h
    · have : (0 : Byte).toNat = 0 := rfl
      omega
    · have : (0 : Byte).toNat = 0 := rfl
      omega

theorem skipStringTo_append (q : Byte) : ∀ (a t : List Byte), (∀ b ∈ a, b ≠ q ∧ b ≠ 0) → skipStringTo q (a ++ t) = skipStringTo q t
  | [], _, _ => rfl
  | b :: a, t, h => by
    have hb := h b (by simp)
    rw [List.cons_append, skipStringTo, if_neg hb.1, if_neg hb.2]
    exact skipStringTo_append q a t (fun c hc => h c (by simp [hc]))

theorem skipStringTo_str {q : Byte} (hq : q = b#'"' ∨ q = 39) {cs : List Nat} {t : List Byte} (h : Str q cs t) (tail : List Byte) :
    ∃ x, skipStringTo q (t ++ q :: tail) = some x ∧ (x = tail ∨ peek x = q) := by
  have hq1 : q.toNat < 128 := by rcases hq with rfl | rfl <;> decide
  induction h with
  | nil => exact ⟨tail, by rw [List.nil_append, skipStringTo, if_pos rfl], .inl rfl⟩
  | char c cs t h0 h1 hne _ ih =>
    obtain ⟨x, hx, hx2⟩ := ih
    refine ⟨x, ?_, hx2⟩
    rw [List.append_assoc, skipStringTo_append q _ _ (utf8_bytes h0 h1 hq1 hne), hx]
  | quote cs t _ ih =>
    refine ⟨q :: (t ++ q :: tail), ?_, .inr rfl⟩
    rw [List.cons_append, skipStringTo, if_pos rfl]
    rfl

theorem skipString_quoted {cs : List Nat} {t : List Byte} (h : Quoted cs t) (tail : List Byte) :
    skipString (t ++ tail) = tail ∨ isQuote (peek (skipString (t ++ tail))) = true := by
  obtain ⟨q, cs, t, hq, hs⟩ := h
  have hiq : isQuote q = true := by rcases hq with rfl | rfl <;> decide
  unfold skipString
  simp only [List.cons_append, peek_cons, hiq, if_true, List.drop_one, List.tail_cons, List.append_assoc, List.nil_append]
  obtain ⟨x, hx, hx2⟩ := skipStringTo_str hq hs tail
  rw [hx]
  rcases hx2 with rfl | hx2
  · exact .inl rfl
  · exact .inr (by rw [Option.getD_some, hx2]; exact hiq)

theorem quote_class {c : Byte} (h : isQuote c = true) : isWs c = false ∧ c ≠ b#'-' ∧ isTmark c = false ∧ c ≠ b#'#' ∧ c ≠ b#'~' ∧ isAltStart c = true ∧ c ≠ 0
    ∧ c ≠ b#'.' ∧ c ≠ b#')' ∧ c ≠ b#'|' := by
  revert h
  exact forall_byte (P := fun c => isQuote c = true → isWs c = false ∧ c ≠ b#'-' ∧ isTmark c = false ∧ c ≠ b#'#' ∧ c ≠ b#'~' ∧ isAltStart c = true ∧ c ≠ 0
    ∧ c ≠ b#'.' ∧ c ≠ b#')' ∧ c ≠ b#'|')
    (by decide +kernel) c

/-- A string that is not followed by a minus does not start a range. -/
theorem isRangeStart_quoted_no {cs : List Nat} {t s tail : List Byte} (h : Quoted cs t) (hs : S true s) (h1 : isWs (peek tail) = false)
    (h2 : peek tail ≠ b#'-') : isRangeStart (t ++ (s ++ tail)) = .ok false := by
  obtain ⟨q, u, rfl, hq⟩ := quoted_head h
  unfold isRangeStart
  have hp : peek (q :: u ++ (s ++ tail)) = q := rfl
  rw [hp, if_pos hq]
  rcases skipString_quoted h (s ++ tail) with e | e
  · rw [e, skipWs_S hs h1]
    simp [h2]
  · have hc := quote_class e
    rw [show skipWs (skipString (q :: u ++ (s ++ tail))) = .ok (skipString (q :: u ++ (s ++ tail))) from skipWs_S S.nil hc.1]
    have h9 := hc.2.1
    simp only [ok_bind]
    rw [beq_eq_false_iff_ne.2 h9]

theorem isEncodedStart_enc {c : Nat} {t : List Byte} (h : Encoded c t) (x : List Byte) : isEncodedStart (t ++ x) = true := by
  obtain ⟨ds, rfl, -⟩ := encoded_head h
  unfold isEncodedStart
  rw [skipTmark_none (by rfl)]
  rfl

theorem skipEncoded_enc {c : Nat} {t : List Byte} (h : Encoded c t) {x : List Byte} (hx : isHex (peek x) = false) : skipEncoded (t ++ x) = x := by
  obtain ⟨ds, rfl, hd, -⟩ := encoded_head h
  unfold skipEncoded
  simp only [List.cons_append, peek_cons, if_true, List.drop_one, List.tail_cons]
  rw [dropWhile_all_append _ _ _ (hex_all hd).1, (takeWhile_stop isHex x hx).2]

theorem isRangeStart_enc {c : Nat} {t s tail : List Byte} (h : Encoded c t) (hs : S true s) (h1 : isWs (peek tail) = false) (h2 : isHex (peek tail) = false) :
    isRangeStart (t ++ (s ++ tail)) = .ok (peek tail == b#'-') := by
  unfold isRangeStart
  have hp : peek (t ++ (s ++ tail)) = b#'#' := by
    obtain ⟨ds, rfl, -⟩ := encoded_head h
    rfl
  rw [hp, if_neg (by decide), isEncodedStart_enc h, if_pos rfl, skipEncoded_enc h (peek_S_not hs tail isHex ws_not_hex h2), skipWs_S hs h1]
  rfl

/-- A single character in quotes. -/
theorem quoted_one {c : Nat} {t : List Byte} (h : Quoted [c] t) (hn : t ≠ b#"\"\"\"\"" ∧ t ≠ b#"''''") :
    ∃ q, (q = b#'"' ∨ q = 39) ∧ t = q :: (utf8 c ++ [q]) ∧ 0 < c ∧ c < 0x110000 ∧ c ≠ q.toNat := by
  generalize hcs : [c] = cs at h
  obtain ⟨q, cs, t, hq, hs⟩ := h
  cases hs with
  | nil => cases hcs
  | char d ds u h0 h1 hne hs' =>
    obtain ⟨rfl, rfl⟩ : c = d ∧ [] = ds := by simpa using hcs
    cases hs' with
    | nil => exact ⟨q, hq, by simp, h0, h1, hne⟩
  | quote ds u hs' =>
    obtain ⟨rfl, rfl⟩ : c = q.toNat ∧ [] = ds := by simpa using hcs
    cases hs' with
    | nil =>
      rcases hq with rfl | rfl
      · exact absurd rfl hn.1
      · exact absurd rfl hn.2

theorem isRangeStart_end {a : Nat} {na : Bool} {ta s x : List Byte} (h : End true a na ta) (hs : S true s) :
    isRangeStart (ta ++ (s ++ b#'-' :: x)) = .ok true := by
  cases h with
  | num _ h => rw [isRangeStart_enc h hs (by rfl) (by rfl)]; rfl
  | chr _ h hn =>
    obtain ⟨q, hq, rfl, h0, h1, hne⟩ := quoted_one h (hn rfl)
    have hiq : isQuote q = true := by rcases hq with rfl | rfl <;> decide
    have hq1 : q.toNat < 128 := by rcases hq with rfl | rfl <;> decide
    unfold isRangeStart
    simp only [List.cons_append, peek_cons, hiq, if_true]
    have : skipString (q :: (utf8 a ++ [q] ++ (s ++ b#'-' :: x))) = s ++ b#'-' :: x := by
      unfold skipString
      simp only [peek_cons, hiq, if_true, List.drop_one, List.tail_cons, List.append_assoc]
      rw [skipStringTo_append q _ _ (utf8_bytes h0 h1 hq1 hne)]
      rw [List.cons_append, skipStringTo, if_pos rfl]
      rfl
    rw [this, skipWs_S hs (by rfl)]
    rfl

/-! ## Character sets -/

/-- The parts of a member. -/
def parts : Member → List CharsetPart
  | .chars cs => cs.map fun (c : Nat) => .range c c
  | .code c => [.range c c]
  | .range a b _ => [.range a b]
  | .cat n => [.category (catName n)]

/-- Members that contain a number. -/
def numeric : Member → Bool
  | .code _ => true
  | .range _ _ n => n
  | _ => false

theorem catNames_shape : ∀ n ∈ catNames, ∀ x : List Byte, (isWs (peek x) = true ∨ peek x = b#';' ∨ peek x = b#'|' ∨ peek x = b#']') →
    codeStart (n ++ x) = n.length ∧ 0 < n.length ∧ isQuote (peek (n ++ x)) = false ∧ isTmark (peek (n ++ x)) = false ∧ peek (n ++ x) ≠ b#'#' ∧
    categoryParts (catName n) ≠ none ∧ isWs (peek (n ++ x)) = false ∧ peek (n ++ x) ≠ 0 := by
  intro n hn x hx
  have hx2 : ((peek x ≥ b#'a' && peek x ≤ b#'z') || peek x == b#'C') = false := by
    revert hx
    exact forall_byte (P := fun c => (isWs c = true ∨ c = b#';' ∨ c = b#'|' ∨ c = b#']') → ((c ≥ b#'a' && c ≤ b#'z') || c == b#'C') = false) (by decide +kernel) (peek x)
  have h1 : ∀ a : Byte, (a ≥ b#'A' && a ≤ b#'Z') = true → codeStart ([a] ++ x) = 1 := by
    intro a ha
    have e1 : peek ([a] ++ x) = a := rfl
    have e2 : ([a] ++ x).drop 1 = x := rfl
    unfold codeStart
    dsimp only
    rw [e1, e2, hx2, ha]; rfl
  have h2 : ∀ a b : Byte, (a ≥ b#'A' && a ≤ b#'Z') = true → ((b ≥ b#'a' && b ≤ b#'z') || b == b#'C') = true → codeStart ([a, b] ++ x) = 2 := by
    intro a b ha hb
    have e1 : peek ([a, b] ++ x) = a := rfl
    have e2 : peek (([a, b] ++ x).drop 1) = b := rfl
    unfold codeStart
    dsimp only
    rw [e1, e2, hb, ha]; rfl
  have h3 : catNames.all (fun n => match n with
    | [a] => (a ≥ b#'A' && a ≤ b#'Z')
    | [a, b] => (a ≥ b#'A' && a ≤ b#'Z') && ((b ≥ b#'a' && b ≤ b#'z') || b == b#'C')
    | _ => false) = true := by decide +kernel
  have h4 : ∀ n ∈ catNames, categoryParts (catName n) ≠ none := by decide +kernel
  have h5 := List.all_eq_true.1 h3 n hn
  have h6 : ∀ a : Byte, (a ≥ b#'A' && a ≤ b#'Z') = true → isQuote a = false ∧ isTmark a = false ∧ a ≠ b#'#' ∧ isWs a = false ∧ a ≠ 0 := fun a =>
    forall_byte (P := fun a => (a ≥ b#'A' && a ≤ b#'Z') = true → isQuote a = false ∧ isTmark a = false ∧ a ≠ b#'#' ∧ isWs a = false ∧ a ≠ 0) (by decide +kernel) a
  split at h5
  · rename_i a
    have := h6 a h5
    exact ⟨h1 a h5, by simp, this.1, this.2.1, this.2.2.1, h4 _ hn, this.2.2.2.1, this.2.2.2.2⟩
  · rename_i a b
    rw [Bool.and_eq_true] at h5
    have := h6 a h5.1
    exact ⟨h2 a b h5.1 h5.2, by simp, this.1, this.2.1, this.2.2.1, h4 _ hn, this.2.2.2.1, this.2.2.2.2⟩
  · cases h5

/-- What may follow a member. -/
def MemStop (c : Byte) : Prop := c = b#';' ∨ c = b#'|' ∨ c = b#']'

theorem memStop_class {c : Byte} (h : MemStop c) : isWs c = false ∧ isHex c = false ∧ isQuote c = false ∧ c ≠ b#'-' ∧ c ≠ 0 := by
  rcases h with rfl | rfl | rfl <;> decide

theorem end_head {f : Bool} {a : Nat} {na : Bool} {ta : List Byte} (h : End f a na ta) (x : List Byte) : isWs (peek (ta ++ x)) = false := by
  cases h with
  | num _ h => obtain ⟨ds, rfl, -⟩ := encoded_head h; rfl
  | chr _ h hn => obtain ⟨q, u, rfl, hq⟩ := quoted_head h; exact (quote_class hq).1

theorem rangeFrom_read {f : Bool} {a : Nat} {na : Bool} {ta s tail : List Byte} (mark : Byte) (h : End f a na ta) (hs : S true s) (h1 : isWs (peek tail) = false)
    (h2 : isHex (peek tail) = false) (h3 : isQuote (peek tail) = false) :
    rangeFrom (ta ++ (s ++ tail)) mark = .ok ((a : Int), (if na then 0 else mark), if na then tail else s ++ tail) := by
  unfold rangeFrom
  cases h with
  | num _ h =>
    have hp : peek (ta ++ (s ++ tail)) = b#'#' := by
      obtain ⟨ds, rfl, -⟩ := encoded_head h
      rfl
    have := encoded_read (WTmark.none) h hs h1 h2
    rw [List.nil_append] at this
    rw [hp, if_neg (by decide), this]
    rfl
  | chr _ h hn =>
    obtain ⟨q, u, e, hq⟩ := quoted_head h
    have hp : peek (ta ++ (s ++ tail)) = q := by rw [e]; rfl
    rw [hp, if_pos hq, string_quoted h (peek_S_not hs tail isQuote ws_not_quote h3)]
    rfl

theorem rangeTo_read {f : Bool} {a : Nat} {na : Bool} {ta s tail : List Byte} (mark : Byte) (h : End f a na ta) (hs : S true s) (h1 : isWs (peek tail) = false)
    (h2 : isHex (peek tail) = false) (h3 : isQuote (peek tail) = false) :
    rangeTo (ta ++ (s ++ tail)) mark = .ok ((a : Int), (if na then 0 else mark), if na then tail else s ++ tail) := by
  have := rangeFrom_read mark h hs h1 h2 h3
  unfold rangeFrom at this
  unfold rangeTo
  cases h with
  | num _ h => rw [isEncodedStart_enc h, if_pos rfl]; exact this
  | chr _ h hn =>
    obtain ⟨q, u, e, hq⟩ := quoted_head h
    have hp : peek (ta ++ (s ++ tail)) = q := by rw [e]; rfl
    rw [hp, if_pos hq] at this ⊢
    exact this

theorem ws_if {s tail : List Byte} (b : Bool) (hs : S true s) (h : isWs (peek tail) = false) : ws (if b then tail else s ++ tail) = .ok tail := by
  cases b
  · exact ws_S hs h
  · exact ws_none h

theorem range_read {a b : Nat} {na nb : Bool} {ta s1 s2 tb s3 tail : List Byte} (mark : Byte) (ha : End true a na ta) (h1 : S true s1) (h2 : S true s2)
    (hb : End false b nb tb) (h3 : S true s3) (ht : MemStop (peek tail)) :
    range (ta ++ (s1 ++ b#'-' :: (s2 ++ (tb ++ (s3 ++ tail))))) mark = .ok ((a : Int), (b : Int), (if (na || nb) = true then 0 else mark), tail) := by
  have hc := memStop_class ht
  unfold range
  rw [rangeFrom_read mark ha h1 rfl rfl rfl]
  simp only [ok_bind]
  rw [ws_if na h1 rfl]
  simp only [ok_bind, peek_cons, if_true, List.drop_one, List.tail_cons]
  rw [ws_S h2 (end_head hb _)]
  simp only [ok_bind]
  rw [rangeTo_read _ hb h3 hc.1 hc.2.1 hc.2.2.1]
  simp only [ok_bind]
  rw [ws_if nb h3 hc.1]
  simp only [ok_bind]
  cases na <;> cases nb <;> rfl

theorem member_read {m : Member} {t : List Byte} (h : WMember true m t) (mark : Byte) {tail : List Byte} (ht : MemStop (peek tail)) :
    member (t ++ tail) mark = .ok (parts m, if numeric m then 0 else mark, tail) := by
  have hc := memStop_class ht
  unfold member
  cases h with
  | chars cs t s hq hs =>
    obtain ⟨q, u, e, hiq⟩ := quoted_head hq
    rw [List.append_assoc, isRangeStart_quoted_no hq hs hc.1 hc.2.2.2.1]
    have hp : peek (t ++ (s ++ tail)) = q := by rw [e]; rfl
    have hqc := quote_class hiq
    have h1 : isEncodedStart (t ++ (s ++ tail)) = false := by
      unfold isEncodedStart
      rw [skipTmark_none (by rw [hp]; exact hqc.2.2.1), hp]
      simp [hqc.2.2.2.1]
    have h2 : codeStart (t ++ (s ++ tail)) = 0 := by
      unfold codeStart
      dsimp only
      rw [hp]
      have : (q ≥ b#'A' && q ≤ b#'Z') = false := by
        revert hiq
        exact forall_byte (P := fun q => isQuote q = true → (q ≥ b#'A' && q ≤ b#'Z') = false) (by decide +kernel) q
      rw [this]; rfl
    simp only [ok_bind, h1, h2, hp, hiq]
    rw [string_quoted hq (peek_S_not hs tail isQuote ws_not_quote hc.2.2.1)]
    simp only [ok_bind]
    simp [ws_S hs hc.1, parts, numeric]
  | code c t s he hs =>
    rw [List.append_assoc, isRangeStart_enc he hs hc.1 hc.2.1, isEncodedStart_enc he]
    have := encoded_read (WTmark.none) he hs hc.1 hc.2.1
    rw [List.nil_append] at this
    rw [this]
    simp [hc.2.2.2.1, parts, numeric]
  | range a b na nb ta s1 s2 tb s3 ha h1 h2 hb h3 =>
    have := range_read mark ha h1 h2 hb h3 ht
    simp only [List.append_assoc, List.cons_append] at this ⊢
    rw [isRangeStart_end ha h1, this]
    simp [parts, numeric]
  | cat n s hn hs =>
    rw [List.append_assoc]
    obtain ⟨h1, h2, h3, h4, h5, h6, -, -⟩ := catNames_shape n hn (s ++ tail) (by
      rcases peek_S hs tail with rfl | h
      · exact .inr ht
      · exact .inl h)
    have h7 : isEncodedStart (n ++ (s ++ tail)) = false := by
      unfold isEncodedStart
      rw [skipTmark_none h4]
      simp [h5]
    have h8 : isRangeStart (n ++ (s ++ tail)) = .ok false := by
      unfold isRangeStart
      simp [h3, h7]
    rw [h8]
    simp only [ok_bind, h7, h1]
    rw [if_neg (by simp), if_neg (by simp), if_pos h2]
    simp only [List.take_left', List.drop_left']
    rw [if_neg h6, ws_S hs hc.1]
    rfl

theorem wmember_pos {m : Member} {t : List Byte} (h : WMember true m t) (x : List Byte) : peek (t ++ x) ≠ 0 ∧ isWs (peek (t ++ x)) = false ∧ t ≠ [] := by
  cases h with
  | chars cs t s hq hs =>
    obtain ⟨q, u, rfl, hiq⟩ := quoted_head hq
    have := quote_class hiq
    exact ⟨this.2.2.2.2.2.2.1, this.1, by simp⟩
  | code c t s he hs =>
    obtain ⟨ds, rfl, -⟩ := encoded_head he
    exact ⟨by simp, rfl, by simp⟩
  | range a b na nb ta s1 s2 tb s3 ha h1 h2 hb h3 =>
    cases ha with
    | num _ h => obtain ⟨ds, rfl, -⟩ := encoded_head h; exact ⟨by simp, rfl, by simp⟩
    | chr _ h hn =>
      obtain ⟨q, u, rfl, hiq⟩ := quoted_head h
      have := quote_class hiq
      exact ⟨this.2.2.2.2.2.2.1, this.1, by simp⟩
  | cat n s hn hs =>
    obtain ⟨c, u, rfl⟩ : ∃ c u, n = c :: u := by
      cases n with
      | nil => exact absurd hn (by decide)
      | cons c u => exact ⟨c, u, rfl⟩
    have h := catNames_shape _ hn b#";" (by decide)
    exact ⟨h.2.2.2.2.2.2.2, h.2.2.2.2.2.2.1, by simp⟩

theorem wmembers_head {ms : List Member} {t : List Byte} (h : WMembers true ms t) (x : List Byte) : t = [] ∨ (peek (t ++ x) ≠ 0 ∧ isWs (peek (t ++ x)) = false) := by
  cases h with
  | nil => exact .inl rfl
  | one m t h => exact .inr ⟨(wmember_pos h x).1, (wmember_pos h x).2.1⟩
  | cons m ms t s u c h _ _ _ _ =>
    refine .inr ?_
    rw [List.append_assoc]
    exact ⟨(wmember_pos h _).1, (wmember_pos h _).2.1⟩

theorem charsetLoop_read {ms : List Member} {t : List Byte} (h : WMembers true ms t) : ∀ (n : Nat) (mark : Byte) (acc : List CharsetPart) (tail : List Byte), t.length < n →
    charsetLoop n (t ++ b#']' :: tail) mark acc = .ok (acc ++ ms.flatMap parts, if ms.any numeric then 0 else mark, tail) := by
  induction h with
  | nil =>
    intro n mark acc tail hn
    obtain ⟨k, rfl⟩ : ∃ k, n = k + 1 := ⟨n - 1, by omega⟩
    rw [charsetLoop]
    have : member (b#']' :: tail) mark = .ok ([], mark, b#']' :: tail) := by
      unfold member isRangeStart
      simp [isQuote, isEncodedStart, skipTmark, isTmark, codeStart]
    simp [this]
  | one m t h =>
    intro n mark acc tail hn
    obtain ⟨k, rfl⟩ : ∃ k, n = k + 1 := ⟨n - 1, by omega⟩
    rw [charsetLoop, if_neg (wmember_pos h _).1, member_read h mark (.inr (.inr rfl))]
    simp
  | cons m ms t s u c h hc hs hne hms ih =>
    intro n mark acc tail hn
    obtain ⟨k, rfl⟩ : ∃ k, n = k + 1 := ⟨n - 1, by omega⟩
    have hl : 0 < t.length := List.length_pos_iff.2 (wmember_pos h []).2.2
    simp only [List.length_append, List.length_cons] at hn
    rw [charsetLoop, List.append_assoc, if_neg (wmember_pos h _).1, List.cons_append, member_read h mark (by unfold MemStop; rcases hc with rfl | rfl <;> simp)]
    simp only [ok_bind, peek_cons, List.drop_one, List.tail_cons]
    have h93 : c ≠ b#']' := by rcases hc with rfl | rfl <;> decide
    simp only [h93, hc, if_false, if_true, List.append_assoc]
    have hws : isWs (peek (u ++ b#']' :: tail)) = false := by
      rcases wmembers_head hms (b#']' :: tail) with rfl | h
      · rfl
      · exact h.2
    rw [ws_S hs hws]
    simp only [ok_bind]
    rw [ih k _ _ tail (by omega)]
    simp only [List.flatMap_cons, List.any_cons, List.append_assoc]
    congr 3
    by_cases h1 : numeric m = true <;> by_cases h2 : ms.any numeric = true <;> simp [h1, h2]

theorem charset_read_incl {m : Byte} {ms : List Member} {tm s1 t : List Byte} (hm : WTmark true m tm) (h1 : S true s1) (h : WMembers true ms t) (mark : Byte) (tail : List Byte) :
    charset (tm ++ b#'[' :: (s1 ++ (t ++ b#']' :: tail))) mark = .ok (⟨m, false, ms.flatMap parts⟩, if ms.any numeric then 0 else mark, tail) := by
  have hws : isWs (peek (t ++ b#']' :: tail)) = false := by
    rcases wmembers_head h (b#']' :: tail) with rfl | h
    · rfl
    · exact h.2
  have e : wsAfter (isTmark (peek (tm ++ b#'[' :: (s1 ++ (t ++ b#']' :: tail))))) (tm ++ b#'[' :: (s1 ++ (t ++ b#']' :: tail))) = .ok (b#'[' :: (s1 ++ (t ++ b#']' :: tail))) ∧
      (if isTmark (peek (tm ++ b#'[' :: (s1 ++ (t ++ b#']' :: tail)))) then peek (tm ++ b#'[' :: (s1 ++ (t ++ b#']' :: tail))) else 0) = m := by
    cases hm with
    | none => exact ⟨rfl, rfl⟩
    | mk m g hm hg =>
      have hmk : isTmark m = true := by rcases hm with rfl | rfl <;> decide
      unfold wsAfter
      simp only [List.cons_append, peek_cons, hmk, if_true, List.drop_one, List.tail_cons]
      exact ⟨ws_S hg.1 (by rfl), trivial⟩
  unfold charset
  rw [e.1, e.2]
  simp only [ok_bind, peek_cons, wsAfter, List.drop_one, List.tail_cons, show ((b#'[' : Byte) == b#'~') = false from rfl, Bool.false_eq_true, if_false]
  simp only [ok_bind, peek_cons, if_true, List.drop_one, List.tail_cons]
  rw [ws_S h1 hws]
  simp only [ok_bind]
  rw [charsetLoop_read h _ _ _ _ (by simp only [List.length_append]; omega)]
  simp

theorem charset_read_excl {m : Byte} {ms : List Member} {tm gap s1 t : List Byte} (hm : WTmark true m tm) (hg : Gap true gap) (h1 : S true s1) (h : WMembers true ms t) (mark : Byte) (tail : List Byte) :
    charset (tm ++ b#'~' :: (gap ++ b#'[' :: (s1 ++ (t ++ b#']' :: tail)))) mark = .ok (⟨m, true, ms.flatMap parts⟩, if ms.any numeric then 0 else mark, tail) := by
  have hws : isWs (peek (t ++ b#']' :: tail)) = false := by
    rcases wmembers_head h (b#']' :: tail) with rfl | h
    · rfl
    · exact h.2
  generalize hX : b#'~' :: (gap ++ b#'[' :: (s1 ++ (t ++ b#']' :: tail))) = X
  have hp : peek X = b#'~' := by rw [← hX]; rfl
  have e : wsAfter (isTmark (peek (tm ++ X))) (tm ++ X) = .ok X ∧
      (if isTmark (peek (tm ++ X)) then peek (tm ++ X) else 0) = m := by
    cases hm with
    | none => rw [List.nil_append, hp]; exact ⟨rfl, rfl⟩
    | mk m g hm hg =>
      have hmk : isTmark m = true := by rcases hm with rfl | rfl <;> decide
      unfold wsAfter
      simp only [List.cons_append, peek_cons, hmk, if_true, List.drop_one, List.tail_cons]
      exact ⟨ws_S hg.1 (by rw [hp]; decide), trivial⟩
  unfold charset
  rw [e.1, e.2]
  simp only [ok_bind, hp]
  subst hX
  simp only [wsAfter, List.drop_one, List.tail_cons]
  rw [if_pos (by decide), ws_S hg.1 (by rfl)]
  simp only [ok_bind, peek_cons, if_true, List.drop_one, List.tail_cons]
  rw [ws_S h1 hws]
  simp only [ok_bind]
  rw [charsetLoop_read h _ _ _ _ (by simp only [List.length_append]; omega)]
  simp

end Xmq.Ixml
