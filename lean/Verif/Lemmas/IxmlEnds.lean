import Verif.Model.Ixml
import Verif.Lemmas.Utf8
/-!
# Reading an ixml grammar ends
-/
namespace Xmq.Ixml

/-- A step that does not run out of fuel, does not hang if there is no `{` in the text, and ends in a state with `P`. -/
def Fine {α : Type} (T : List Byte) (r : Res α) (P : α → Prop) : Prop :=
  r ≠ .fuel ∧ ((∀ b ∈ T, b ≠ b#'{') → r ≠ .hang) ∧ ∀ a, r = .ok a → P a

theorem Fine.ok {α : Type} {T : List Byte} {a : α} {P : α → Prop} (h : P a) : Fine T (.ok a) P :=
  ⟨by simp, by simp, fun b e => by cases e; exact h⟩
theorem Fine.err {α : Type} {T : List Byte} {P : α → Prop} : Fine T (.err : Res α) P := ⟨by simp, by simp, by simp⟩
theorem Fine.abort {α : Type} {T : List Byte} {P : α → Prop} : Fine T (.abort : Res α) P := ⟨by simp, by simp, by simp⟩

theorem Fine.bind {α β : Type} {T : List Byte} {r : Res α} {P : α → Prop} {f : α → Res β} {Q : β → Prop} (h : Fine T r P) (hf : ∀ a, P a → Fine T (f a) Q) :
    Fine T (r >>= f) Q := by
  cases r with
  | ok a => exact hf a (h.2.2 a rfl)
  | err => exact .err
  | abort => exact .abort
  | hang => exact ⟨by simp [Bind.bind, Res.bind], fun hT => absurd rfl (h.2.1 hT), by simp [Bind.bind, Res.bind]⟩
  | fuel => exact absurd rfl h.1

theorem Fine.mono {α : Type} {T : List Byte} {r : Res α} {P Q : α → Prop} (h : Fine T r P) (hq : ∀ a, P a → Q a) : Fine T r Q :=
  ⟨h.1, h.2.1, fun a e => hq a (h.2.2 a e)⟩

/-- The text `s'` is what remains of `s` after at least `k` bytes. -/
def Rem (k : Nat) (s s' : List Byte) : Prop := s' <:+ s ∧ s'.length + k ≤ s.length

theorem Rem.refl (s : List Byte) : Rem 0 s s := ⟨List.suffix_refl s, by omega⟩
theorem Rem.trans {a b : Nat} {s t u : List Byte} (h1 : Rem a s t) (h2 : Rem b t u) : Rem (a + b) s u :=
  ⟨h2.1.trans h1.1, by have := h1.2; have := h2.2; omega⟩
theorem Rem.weaken {a b : Nat} {s t : List Byte} (h : Rem a s t) (hb : b ≤ a) : Rem b s t := ⟨h.1, by have := h.2; omega⟩
theorem rem_drop (s : List Byte) (n : Nat) : Rem 0 s (s.drop n) := ⟨List.drop_suffix n s, by simp⟩
theorem rem_dropWhile (s : List Byte) (p : Byte → Bool) : Rem 0 s (s.dropWhile p) := ⟨List.dropWhile_suffix p, by
  have := (List.dropWhile_suffix p (l := s)).length_le; omega⟩
theorem rem_drop1 {s : List Byte} (h : peek s ≠ 0) : Rem 1 s (s.drop 1) := by
  cases s with
  | nil => exact absurd rfl h
  | cons c t => exact ⟨List.drop_suffix 1 _, by simp⟩
theorem rem_drop_pos {s : List Byte} (h : peek s ≠ 0) {n : Nat} (hn : 0 < n) : Rem 1 s (s.drop n) := by
  cases s with
  | nil => exact absurd rfl h
  | cons c t => exact ⟨List.drop_suffix n _, by simp; omega⟩
theorem rem_if {s : List Byte} (b : Bool) : Rem 0 s (if b then s.drop 1 else s) := by
  cases b
  · exact .refl s
  · exact rem_drop s 1

/-! ## Looking ahead -/

theorem skipComment_rem : ∀ (n : Nat) (s s' : List Byte), skipComment n s = some s' → peek s ≠ 0 → Rem 1 s s' := by
  intro n
  induction n with
  | zero => intro s s' h; cases h
  | succ n ih =>
    intro s s' h hp
    rw [skipComment] at h
    try simp only at h
    have h1 : Rem 1 s (if peek (s.drop 1) = b#'{' then (skipComment n (s.drop 1)).getD (s.drop 1) else s.drop 1) := by
      split
      · rename_i hb
        cases e : skipComment n (s.drop 1) with
        | none => exact rem_drop1 hp
        | some u => exact ((rem_drop1 hp).trans (ih _ u e (by rw [hb]; decide))).weaken (by omega)
      · exact rem_drop1 hp
    generalize (if peek (s.drop 1) = b#'{' then (skipComment n (s.drop 1)).getD (s.drop 1) else s.drop 1) = j at h h1
    split at h
    · cases h
      exact h1.trans (rem_drop j 1)
    · split at h
      · cases h
      · rename_i hz
        exact (h1.trans (ih j s' h hz)).weaken (by omega)

/-- More fuel does not change what is skipped. -/
theorem skipComment_fuel : ∀ (n : Nat) (s : List Byte), s.length < n → peek s ≠ 0 → ∀ m, n ≤ m → skipComment m s = skipComment n s := by
  intro n
  induction n with
  | zero => intro s h; omega
  | succ n ih =>
    intro s hs hp m hm
    obtain ⟨m, rfl⟩ : ∃ k, m = k + 1 := ⟨m - 1, by omega⟩
    have hd := (rem_drop1 hp).2
    have e1 : (if peek (s.drop 1) = b#'{' then (skipComment m (s.drop 1)).getD (s.drop 1) else s.drop 1) =
        (if peek (s.drop 1) = b#'{' then (skipComment n (s.drop 1)).getD (s.drop 1) else s.drop 1) := by
      split
      · rename_i hb
        rw [ih (s.drop 1) (by omega) (by rw [hb]; decide) m (by omega)]
      · rfl
    have h1 : Rem 1 s (if peek (s.drop 1) = b#'{' then (skipComment n (s.drop 1)).getD (s.drop 1) else s.drop 1) := by
      split
      · rename_i hb
        cases e : skipComment n (s.drop 1) with
        | none => exact rem_drop1 hp
        | some u => exact ((rem_drop1 hp).trans (skipComment_rem _ _ u e (by rw [hb]; decide))).weaken (by omega)
      · exact rem_drop1 hp
    rw [skipComment, skipComment]
    simp only [e1]
    generalize (if peek (s.drop 1) = b#'{' then (skipComment n (s.drop 1)).getD (s.drop 1) else s.drop 1) = j at h1
    split
    · rfl
    · split
      · rfl
      · rename_i hz
        exact ih j (by have := h1.2; omega) hz m (by omega)

theorem peek_mem {s : List Byte} (h : peek s ≠ 0) : peek s ∈ s := by
  cases s with
  | nil => exact absurd rfl h
  | cons c t => simp

theorem ws_ne {s : List Byte} (h : isWs (peek s) = true) : peek s ≠ 0 := by
  intro e; rw [e] at h; exact absurd h (by decide)

theorem skipWsLoop_fine (T : List Byte) : ∀ (n : Nat) (s : List Byte), s.length < n → s <:+ T → Fine T (skipWsLoop n s) (Rem 0 s) := by
  intro n
  induction n with
  | zero => intro s h; omega
  | succ n ih =>
    intro s hs hT
    rw [skipWsLoop]
    split
    · rename_i hw
      have hp := ws_ne hw
      split
      · rename_i hb
        cases e : skipComment (s.length + 1) s with
        | none =>
          refine ⟨by simp, fun hT' => ?_, by simp⟩
          exact absurd hb (hT' _ (hT.subset (peek_mem hp)))
        | some s' =>
          have h1 := skipComment_rem _ _ _ e hp
          exact (ih s' (by have := h1.2; omega) (h1.1.trans hT)).mono fun a ha => (h1.trans ha).weaken (by omega)
      · have h1 := rem_drop1 hp
        exact (ih _ (by have := h1.2; omega) (h1.1.trans hT)).mono fun a ha => (h1.trans ha).weaken (by omega)
    · exact .ok (.refl s)

theorem skipWs_fine {T s : List Byte} (hT : s <:+ T) : Fine T (skipWs s) (Rem 0 s) := skipWsLoop_fine T _ s (by omega) hT

theorem skipStringTo_rem (q : Byte) : ∀ s s', skipStringTo q s = some s' → s' <:+ s
  | [], _, h => by cases h
  | c :: s, s', h => by
    rw [skipStringTo] at h
    split at h
    · cases h; exact List.suffix_cons c s
    · split at h
      · cases h
      · exact (skipStringTo_rem q s s' h).trans (List.suffix_cons c s)

theorem skipString_suffix (s : List Byte) : skipString s <:+ s := by
  unfold skipString
  split
  · cases e : skipStringTo (peek s) (s.drop 1) with
    | none => exact List.suffix_refl s
    | some s' => exact (skipStringTo_rem _ _ _ e).trans (List.drop_suffix 1 s)
  · exact List.suffix_refl s

theorem isRangeStart_fine {T s : List Byte} (hT : s <:+ T) : Fine T (isRangeStart s) (fun _ => True) := by
  unfold isRangeStart
  split
  · exact (skipWs_fine ((skipString_suffix s).trans hT)).bind fun _ _ => .ok trivial
  · split
    · refine (skipWs_fine (T := T) (s := skipEncoded s) ?_).bind fun _ _ => .ok trivial
      unfold skipEncoded
      split
      · exact ((List.dropWhile_suffix _).trans (List.drop_suffix 1 s)).trans hT
      · exact hT
    · exact .ok trivial

/-! ## Tokens -/

theorem commentLoop_fine (T : List Byte) : ∀ (n : Nat) (s : List Byte), s.length < n → Fine T (commentLoop n s) (Rem 1 s) := by
  intro n
  induction n with
  | zero => intro s h; omega
  | succ n ih =>
    intro s hs
    rw [commentLoop]
    by_cases h0 : peek s = 0
    · rw [if_pos h0]; exact .err
    · rw [if_neg h0]
      have step : ∀ u, Rem 0 s u → peek u ≠ 0 ∨ Rem 1 s u → Fine T (if peek u = b#'}' then .ok (u.drop 1) else commentLoop n (u.drop 1)) (Rem 1 s) := by
        intro u hu hu1
        have h1 : Rem 1 s (u.drop 1) := by
          rcases hu1 with h | h
          · exact (hu.trans (rem_drop1 h)).weaken (by omega)
          · exact h.trans (rem_drop u 1)
        split
        · exact .ok h1
        · exact (ih _ (by have := h1.2; omega)).mono fun a ha => (h1.trans ha).weaken (by omega)
      have hd := rem_drop1 h0
      by_cases hb : peek s = b#'{'
      · simp only [hb, if_true]
        exact (ih (s.drop 1) (by have := hd.2; omega)).bind fun u hu => step u (hd.trans hu |>.weaken (by omega)) (.inr (hd.trans hu |>.weaken (by omega)))
      · simp only [hb, if_false]
        exact step s (.refl s) (.inl h0)

theorem wsLoop_fine (T : List Byte) : ∀ (n : Nat) (s : List Byte), s.length < n → Fine T (wsLoop n s) (Rem 0 s) := by
  intro n
  induction n with
  | zero => intro s h; omega
  | succ n ih =>
    intro s hs
    rw [wsLoop]
    split
    · rename_i hw
      have hd := rem_drop1 (ws_ne hw)
      split
      · refine (commentLoop_fine T (s.length + 1) (s.drop 1) (by have := hd.2; omega)).bind fun u hu => ?_
        have h1 := hd.trans hu
        exact (ih u (by have := h1.2; omega)).mono fun a ha => (h1.trans ha).weaken (by omega)
      · exact (ih _ (by have := hd.2; omega)).mono fun a ha => (hd.trans ha).weaken (by omega)
    · exact .ok (.refl s)

theorem ws_fine (T s : List Byte) : Fine T (ws s) (Rem 0 s) := wsLoop_fine T _ s (by omega)

theorem encoded_fine (T s : List Byte) : Fine T (encoded s) (fun r => Rem 1 s r.2.2) := by
  unfold encoded
  refine (ws_fine T _).bind fun u hu => ?_
  have h1 : Rem 0 s u := (rem_if (s := s) (isTmark (peek s))).trans hu
  split
  · rename_i hp
    have hd := rem_drop1 (s := u) (by rw [hp]; decide)
    simp only
    split
    · refine (ws_fine T _).bind fun v hv => .ok ?_
      exact (((h1.trans hd).trans (rem_dropWhile _ _)).trans hv).weaken (by omega)
    · exact .err
  · exact .abort

theorem decode_len (s : List Byte) : 1 ≤ (decodeUtf8 s).len := by
  unfold decodeUtf8
  simp only
  repeat' split
  all_goals simp

theorem stringLoop_fine (T : List Byte) (q : Byte) (hq : q ≠ 0) : ∀ (n : Nat) (s : List Byte) (acc : List Nat), s.length < n →
    Fine T (stringLoop q n s acc) (fun r => Rem 0 s r.2) := by
  intro n
  induction n with
  | zero => intro s acc h; omega
  | succ n ih =>
    intro s acc hs
    rw [stringLoop]
    split
    · exact .err
    · rename_i h0
      split
      · exact .ok (rem_drop s 1)
      · rename_i hc
        simp only
        have hne : peek (if peek s = q then s.drop 1 else s) ≠ 0 := by
          split
          · rename_i hpq
            have : peek (s.drop 1) = q := Decidable.byContradiction fun h => hc ⟨hpq, h⟩
            rw [this]; exact hq
          · exact h0
        have h1 : Rem 0 s (if peek s = q then s.drop 1 else s) := by
          split
          · exact rem_drop s 1
          · exact .refl s
        generalize (if peek s = q then s.drop 1 else s) = u at hne h1
        split
        · have h2 := h1.trans (rem_drop_pos hne (decode_len u))
          exact (ih _ _ (by have := h2.2; omega)).mono fun a ha => (h2.trans ha).weaken (by omega)
        · exact .abort

theorem quote_ne {s : List Byte} (h : isQuote (peek s) = true) : peek s ≠ 0 := by
  intro e; rw [e] at h; exact absurd h (by decide)

theorem string_fine (T s : List Byte) : Fine T (string s) (fun r => Rem 1 s r.2) := by
  unfold string
  split
  · rename_i hq
    have hd := rem_drop1 (quote_ne hq)
    refine (stringLoop_fine T (peek s) (quote_ne hq) _ (s.drop 1) [] (by have := hd.2; omega)).bind fun r hr => .ok ?_
    exact (hd.trans hr).weaken (by omega)
  · exact .abort

theorem name_fine (T s : List Byte) : Fine T (name s) (fun r => Rem 1 s r.2) := by
  unfold name
  split
  · rename_i hn
    refine .ok ((rem_drop1 (s := s) ?_).trans (rem_dropWhile _ _))
    intro e; rw [e] at hn; exact absurd hn (by decide)
  · exact .abort

theorem naming_fine (T s : List Byte) : Fine T (naming s) (fun r => Rem 1 s r.2.2.2) := by
  unfold naming
  split
  · refine (ws_fine T _).bind fun u hu => ?_
    have h1 : Rem 0 s u := (rem_if (s := s) (isMark (peek s))).trans hu
    split
    · refine (name_fine T u).bind fun ⟨nm, v⟩ hv => ?_
      refine (ws_fine T v).bind fun w hw => ?_
      have h2 : Rem 1 s w := ((h1.trans hv).trans hw).weaken (by omega)
      split
      · refine (ws_fine T _).bind fun x hx => (name_fine T x).bind fun ⟨al, y⟩ hy => (ws_fine T y).bind fun z hz => .ok ?_
        exact ((((h2.trans (rem_drop w 1)).trans hx).trans hy).trans hz).weaken (by omega)
      · exact .ok h2
    · exact .err
  · exact .abort

theorem rangeFrom_fine (T s : List Byte) (mark : Byte) : Fine T (rangeFrom s mark) (fun r => Rem 1 s r.2.2) := by
  unfold rangeFrom
  split
  · exact (string_fine T s).bind fun ⟨cs, u⟩ hu => .ok hu
  · exact (encoded_fine T s).bind fun ⟨m, v, u⟩ hu => .ok hu

theorem rangeTo_fine (T s : List Byte) (mark : Byte) : Fine T (rangeTo s mark) (fun r => Rem 1 s r.2.2) := by
  unfold rangeTo
  split
  · exact (string_fine T s).bind fun ⟨cs, u⟩ hu => .ok hu
  · split
    · exact (encoded_fine T s).bind fun ⟨m, v, u⟩ hu => .ok hu
    · exact .err

theorem range_fine (T s : List Byte) (mark : Byte) : Fine T (range s mark) (fun r => Rem 0 s r.2.2.2) := by
  unfold range
  refine (rangeFrom_fine T s mark).bind fun ⟨a, m, u⟩ hu => (ws_fine T u).bind fun v hv => ?_
  split
  · refine (ws_fine T _).bind fun w hw => (rangeTo_fine T w m).bind fun ⟨b, m', x⟩ hx => (ws_fine T x).bind fun y hy => .ok ?_
    exact (((((hu.trans hv).trans (rem_drop v 1)).trans hw).trans hx).trans hy).weaken (by omega)
  · exact .abort

theorem member_fine {T s : List Byte} (hT : s <:+ T) (mark : Byte) : Fine T (member s mark) (fun r => Rem 0 s r.2.2) := by
  unfold member
  refine (isRangeStart_fine hT).bind fun b _ => ?_
  split
  · exact (range_fine T s mark).bind fun ⟨a, b, m, u⟩ hu => .ok hu
  · split
    · exact (encoded_fine T s).bind fun ⟨m, v, u⟩ hu => .ok (hu.weaken (by omega))
    · split
      · simp only
        split
        · exact .err
        · exact (ws_fine T _).bind fun u hu => .ok ((rem_drop s _).trans hu)
      · split
        · exact (string_fine T s).bind fun ⟨cs, u⟩ hu => (ws_fine T u).bind fun v hv => .ok ((hu.trans hv).weaken (by omega))
        · exact .ok (.refl s)

theorem charsetLoop_fine (T : List Byte) : ∀ (n : Nat) (s : List Byte) (mark : Byte) (acc : List CharsetPart), s.length < n → s <:+ T →
    Fine T (charsetLoop n s mark acc) (fun r => Rem 0 s r.2.2) := by
  intro n
  induction n with
  | zero => intro s mark acc h; omega
  | succ n ih =>
    intro s mark acc hs hT
    rw [charsetLoop]
    split
    · exact .err
    · refine (member_fine hT mark).bind fun ⟨ps, m, u⟩ hu => ?_
      simp only
      split
      · exact .ok (hu.trans (rem_drop u 1))
      · split
        · rename_i hc
          have hd : Rem 1 u (u.drop 1) := rem_drop1 (by rcases hc with h | h <;> rw [h] <;> decide)
          refine (ws_fine T _).bind fun v hv => ?_
          have h1 := (hu.trans hd).trans hv
          exact (ih v m _ (by have := h1.2; omega) (h1.1.trans hT)).mono fun a ha => (h1.trans ha).weaken (by omega)
        · exact .err

theorem wsAfter_fine (T s : List Byte) (b : Bool) : Fine T (wsAfter b s) (Rem 0 s) := by
  unfold wsAfter
  split
  · exact (ws_fine T _).mono fun a ha => (rem_drop s 1).trans ha
  · exact .ok (.refl s)

theorem charset_fine {T s : List Byte} (hT : s <:+ T) (mark : Byte) : Fine T (charset s mark) (fun r => Rem 1 s r.2.2) := by
  unfold charset
  refine (wsAfter_fine T s _).bind fun u hu => ?_
  refine (wsAfter_fine T u _).bind fun v hv => ?_
  split
  · rename_i hb
    have h1 := (hu.trans hv).trans (rem_drop1 (s := v) (by rw [hb]; decide))
    refine (ws_fine T _).bind fun w hw => ?_
    have h2 := h1.trans hw
    refine (charsetLoop_fine T _ w mark [] (by omega) (h2.1.trans hT)).bind fun ⟨ps, m, x⟩ hx => .ok ?_
    exact (h2.trans hx).weaken (by omega)
  · exact .abort

/-! ## Expressions -/

/-- Changing rules does not move on in the text. -/
theorem pop_fine (T : List Byte) (st : St) : Fine T st.pop (fun r => r.2.rest = st.rest) := by
  unfold St.pop
  split
  · exact .abort
  · split
    · exact .abort
    · exact .ok rfl

theorem makeOptional_fine (T : List Byte) (st : St) : Fine T (makeOptional st) (fun r => r.rest = st.rest) := by
  unfold makeOptional
  exact (pop_fine T st).bind fun ⟨x, s⟩ h => .ok h

theorem makeRepeat_fine (T : List Byte) (st : St) (fm : Byte) : Fine T (makeRepeat st fm) (fun r => r.rest = st.rest) := by
  unfold makeRepeat
  exact (pop_fine T st).bind fun ⟨x, s⟩ h => .ok h

theorem makeRepeatZero_fine (T : List Byte) (st : St) (fm : Byte) : Fine T (makeRepeatZero st fm) (fun r => r.rest = st.rest) := by
  unfold makeRepeatZero
  exact (pop_fine T st).bind fun ⟨x, s⟩ h => .ok h

theorem makeRepeatInfix_fine (T : List Byte) (st : St) (fm im : Byte) : Fine T (makeRepeatInfix st fm im) (fun r => r.rest = st.rest) := by
  unfold makeRepeatInfix
  exact (pop_fine T st).bind fun ⟨x, s⟩ h => (pop_fine T s).bind fun ⟨y, u⟩ h2 => .ok (h2.trans h)

theorem makeRepeatZeroInfix_fine (T : List Byte) (st : St) (fm im : Byte) : Fine T (makeRepeatZeroInfix st fm im) (fun r => r.rest = st.rest) := by
  unfold makeRepeatZeroInfix
  exact (makeRepeatInfix_fine T st fm im).bind fun s h => (makeOptional_fine T _).mono fun a ha => ha.trans h

theorem addLiteral_rest (st : St) (cs : List Int) : (addLiteral st cs).rest = st.rest := by
  unfold addLiteral
  split <;> rfl

theorem insertion_fine (T : List Byte) (st : St) (h : peek st.rest ≠ 0) : Fine T (insertion st) (fun r => Rem 1 st.rest r.rest) := by
  unfold insertion
  refine (ws_fine T _).bind fun u hu => ?_
  have h1 := (rem_drop1 h).trans hu
  split
  · refine (string_fine T u).bind fun ⟨cs, v⟩ hv => ?_
    simp only
    split
    · exact .abort
    · exact .ok ((h1.trans hv).weaken (by omega))
  · split
    · exact (encoded_fine T u).bind fun _ _ => .abort
    · exact .err

theorem terminal_fine {T : List Byte} (st : St) (hT : st.rest <:+ T) : Fine T (terminal st) (fun r => Rem 1 st.rest r.rest) := by
  unfold terminal
  split
  · split
    · refine (wsAfter_fine T st.rest _).bind fun u hu => (string_fine T u).bind fun ⟨cs, v⟩ hv => (ws_fine T v).bind fun w hw => .ok ?_
      rw [addLiteral_rest]
      exact ((hu.trans hv).trans hw).weaken (by omega)
    · refine (encoded_fine T st.rest).bind fun ⟨m, v, u⟩ hu => .ok ?_
      rw [addLiteral_rest]
      exact hu
  · exact (charset_fine hT st.mark).bind fun ⟨cs, m, u⟩ hu => .ok hu

theorem isFactorStart_ne {s : List Byte} (h : isFactorStart s = true) : peek s ≠ 0 := by
  intro e
  cases s with
  | nil => exact absurd h (by decide)
  | cons c t =>
    rw [peek_cons] at e
    subst e
    revert h
    unfold isFactorStart isTerminalStart isLiteralStart isQuotedStart isEncodedStart isCharsetStart skipTmark
    simp [isTmark, isQuote, isNaming, isNameStart, isMark, isWs]

theorem altStart_ne {c : Byte} (h : isAltStart c = true) : c ≠ 0 := by
  intro e; rw [e] at h; exact absurd h (by decide)

/-- How much fuel a function needs. -/
def fuelOf : Job → Nat
  | .alts => 5 | .alt => 4 | .term => 3 | .factor => 2 | .group => 1

/-- How many bytes a function takes at least. -/
def takes : Job → Nat
  | .alts => 0 | .alt => 1 | .term => 1 | .factor => 1 | .group => 1

theorem run_fine (T : List Byte) : ∀ (n : Nat) (j : Job) (st : St), 5 * st.rest.length + fuelOf j ≤ n → st.rest <:+ T → (j = .group → peek st.rest ≠ 0) →
    Fine T (run n j st) (fun r => Rem (takes j) st.rest r.rest) := by
  intro n
  induction n with
  | zero => intro j st h; cases j <;> simp [fuelOf] at h
  | succ n ih =>
    intro j st hn hT hg
    cases j with
    | alts =>
      simp only [fuelOf] at hn
      rw [run]
      refine (ws_fine T _).bind fun s hs => ?_
      have hsl := hs.2
      simp only
      split
      · exact .ok hs
      · rename_i hstop
        have tail : ∀ st' : St, Rem 0 st.rest st'.rest → Fine T (if peek st'.rest = b#'.' ∨ peek st'.rest = b#')' then .ok st'
            else if peek st'.rest = b#'|' ∨ peek st'.rest = b#';' then do
              let s ← ws (st'.rest.drop 1)
              match st'.rules[st'.cur]? with
              | none => .abort
              | some r => run n .alts { st' with rest := s, rules := st'.rules ++ [⟨r.name, none, r.mark, []⟩], cur := st'.rules.length }
            else .err) (fun r => Rem (takes .alts) st.rest r.rest) := by
          intro st' h'
          split
          · exact .ok h'
          · split
            · rename_i hc
              have hd : Rem 1 st'.rest (st'.rest.drop 1) := rem_drop1 (by rcases hc with h | h <;> rw [h] <;> decide)
              refine (ws_fine T _).bind fun u hu => ?_
              have h1 := (h'.trans hd).trans hu
              split
              · exact .abort
              · exact (ih .alts _ (by simp only [fuelOf]; have := h1.2; omega) (h1.1.trans hT) (by simp)).mono fun a ha => (h1.trans ha).weaken (by simp [takes])
            · exact .err
        split
        · exact tail _ hs
        · split
          · rename_i ha
            refine (ih .alt _ (by simp only [fuelOf]; omega) (hs.1.trans hT) (by simp)).bind fun st' h' => (ws_fine T _).bind fun u hu => ?_
            exact tail _ (((hs.trans h').trans hu).weaken (by omega))
          · exact .err
    | alt =>
      simp only [fuelOf] at hn
      rw [run]
      split
      · refine (ih .term st (by simp only [fuelOf]; omega) hT (by simp)).bind fun st' h' => (ws_fine T _).bind fun s hs => ?_
        have h1 := h'.trans hs
        simp only
        split
        · exact .ok h1
        · refine (ws_fine T _).bind fun u hu => ?_
          have h2 : Rem 1 st.rest u := by
            refine (h1.trans (Rem.trans (a := 0) (b := 0) ?_ hu)).weaken (by simp [takes])
            split
            · exact rem_drop s 1
            · exact .refl s
          exact (ih .alt _ (by simp only [fuelOf]; have := h2.2; omega) (h2.1.trans hT) (by simp)).mono fun a ha => (h2.trans ha).weaken (by simp [takes])
      · exact .err
    | term =>
      simp only [fuelOf] at hn
      rw [run]
      split
      · refine (ih .factor st (by simp only [fuelOf]; omega) hT (by simp)).bind fun st' h' => ?_
        have h' : Rem 1 st.rest st'.rest := h'
        simp only
        split
        · refine (ws_fine T _).bind fun s hs => (makeOptional_fine T _).mono fun a ha => ?_
          rw [ha]
          exact ((h'.trans (rem_drop _ 1)).trans hs).weaken (by simp [takes])
        · split
          · have h1 : Rem 1 st.rest (st'.rest.drop 1) := h'.trans (rem_drop _ 1)
            split
            · refine (ws_fine T _).bind fun s hs => ?_
              have h2 : Rem 1 st.rest s := (h1.trans (rem_drop _ 1)).trans hs
              refine (ih .factor _ (by simp only [fuelOf]; have := h2.2; omega) (h2.1.trans hT) (by simp)).bind fun st2 h3 => ?_
              have h3 : Rem 1 st.rest st2.rest := (h2.trans h3).weaken (by simp [takes])
              split
              · refine (makeRepeatInfix_fine T _ _ _).bind fun st3 e => (ws_fine T _).bind fun u hu => .ok ?_
                rw [e] at hu
                exact h3.trans hu
              · refine (makeRepeatZeroInfix_fine T _ _ _).bind fun st3 e => (ws_fine T _).bind fun u hu => .ok ?_
                rw [e] at hu
                exact h3.trans hu
            · split
              · refine (makeRepeat_fine T _ _).bind fun st3 e => (ws_fine T _).bind fun u hu => .ok ?_
                rw [e] at hu
                exact h1.trans hu
              · refine (makeRepeatZero_fine T _ _).bind fun st3 e => (ws_fine T _).bind fun u hu => .ok ?_
                rw [e] at hu
                exact h1.trans hu
          · refine (ws_fine T _).bind fun u hu => .ok ?_
            exact h'.trans hu
      · exact .abort
    | factor =>
      simp only [fuelOf] at hn
      rw [run]
      split
      · rename_i hf
        have hp := isFactorStart_ne hf
        have fin : ∀ st' : St, Rem 1 st.rest st'.rest → Fine T (do let s ← ws st'.rest; Res.ok { st' with rest := s }) (fun r => Rem (takes .factor) st.rest r.rest) :=
          fun st' h' => (ws_fine T _).bind fun u hu => .ok (h'.trans hu)
        split
        · exact (terminal_fine st hT).bind fin
        · split
          · exact (naming_fine T st.rest).bind fun ⟨m, nm, al, s⟩ hs => fin _ hs
          · split
            · exact (insertion_fine T st hp).bind fin
            · exact (ih .group st (by simp only [fuelOf]; omega) hT (fun _ => hp)).bind fin
      · exact .abort
    | group =>
      simp only [fuelOf] at hn
      rw [run]
      refine (ws_fine T _).bind fun s hs => ?_
      have h1 : Rem 1 st.rest s := (rem_drop1 (hg rfl)).trans hs
      have fin : ∀ st' : St, Rem 1 st.rest st'.rest → Fine T (if peek st'.rest = b#')' then do
          let s ← ws (st'.rest.drop 1)
          Res.ok { st' with rest := s }
          else .err) (fun r => Rem (takes .group) st.rest r.rest) := by
        intro st' h'
        split
        · exact (ws_fine T _).bind fun u hu => .ok ((h'.trans (rem_drop _ 1)).trans hu)
        · exact .err
      split
      · refine (ih .alts _ (by simp only [fuelOf]; have := h1.2; omega) (h1.1.trans hT) (by simp)).bind fun st' h' => ?_
        exact fin _ (h1.trans h')
      · split
        · exact fin _ h1
        · exact .err

/-! ## The grammar -/

theorem rule_fine {T : List Byte} (n : Nat) (st : St) (hn : 5 * st.rest.length + 5 ≤ n) (hT : st.rest <:+ T) : Fine T (rule n st) (fun r => Rem 1 st.rest r.rest) := by
  unfold rule
  refine (naming_fine T st.rest).bind fun ⟨m, nm, al, s⟩ hs => (ws_fine T s).bind fun u hu => ?_
  have h1 := hs.trans hu
  split
  · refine (ws_fine T _).bind fun v hv => ?_
    have h2 : Rem 1 st.rest v := (h1.trans (rem_drop u 1)).trans hv
    refine (run_fine T n .alts _ (by simp only [fuelOf]; have := h2.2; omega) (h2.1.trans hT) (by simp)).bind fun st' h' => ?_
    split
    · exact (ws_fine T _).bind fun w hw => .ok (((h2.trans h').trans (rem_drop _ 1)).trans hw)
    · exact .err
  · exact .err

theorem rulesLoop_fine {T : List Byte} (n : Nat) : ∀ (k : Nat) (st : St), st.rest.length < k → 5 * st.rest.length + 5 ≤ n → st.rest <:+ T →
    Fine T (rulesLoop n k st) (fun r => Rem 0 st.rest r.rest) := by
  intro k
  induction k with
  | zero => intro st h; omega
  | succ k ih =>
    intro st hk hn hT
    rw [rulesLoop]
    split
    · refine (rule_fine n st hn hT).bind fun st' h' => ?_
      have := h'.2
      exact (ih st' (by omega) (by omega) (h'.1.trans hT)).mono fun a ha => (h'.trans ha).weaken (by omega)
    · exact .ok (.refl _)

theorem prolog_fine (T s : List Byte) : Fine T (prolog s) (Rem 0 s) := by
  unfold prolog
  refine (ws_fine T _).bind fun u hu => ?_
  have h1 := (rem_drop s 4).trans hu
  split
  · simp only
    split
    · refine (ws_fine T _).bind fun v hv => ?_
      have h2 := (h1.trans (rem_drop u 7)).trans hv
      split
      · refine (string_fine T v).bind fun ⟨cs, w⟩ hw => (ws_fine T w).bind fun x hx => ?_
        split
        · exact .ok ((((h2.trans hw).trans hx).trans (rem_drop x 1)).weaken (by omega))
        · exact .err
      · exact .err
    · exact .err
  · exact .err

theorem readGrammar_fine (text : List Byte) : Fine text (readGrammar text) (fun _ => True) := by
  unfold readGrammar
  simp only
  refine (ws_fine text text).bind fun s hs => ?_
  have fin : ∀ u, Rem 0 text u → Fine text (if isNaming (peek u) then do
      let st ← rulesLoop (8 * text.length + 8) (8 * text.length + 8) ⟨u, [], 0, 0, 0, []⟩
      let s ← ws st.rest
      if s = [] then Res.ok { st with rest := s } else .err
      else .err) (fun _ => True) := by
    intro u hu
    split
    · have := hu.2
      refine (rulesLoop_fine (T := text) _ _ ⟨u, [], 0, 0, 0, []⟩ (by simp only; omega) (by simp only; omega) hu.1).bind fun st hst => (ws_fine text _).bind fun v hv => ?_
      split
      · exact .ok trivial
      · exact .err
    · exact .err
  split
  · exact (prolog_fine text s).bind fun v hv => (ws_fine text v).bind fun u hu => fin u ((hs.trans hv).trans hu)
  · exact fin s hs

end Xmq.Ixml
