import Verif.Model.Ixml
import Verif.Spec.Ixml
import Verif.Props.Utf8
import Verif.Lemmas.JsonString
/-!
# The tokens of ixml grammars are read as they are written
-/
namespace Xmq.Ixml
open Xmq.Spec Xmq.Spec.Ixml

@[simp] theorem ok_bind {α β : Type} (a : α) (f : α → Res β) : (Res.ok a >>= f) = f a := rfl
@[simp] theorem err_bind {α β : Type} (f : α → Res β) : ((Res.err : Res α) >>= f) = .err := rfl
@[simp] theorem abort_bind {α β : Type} (f : α → Res β) : ((Res.abort : Res α) >>= f) = .abort := rfl
@[simp] theorem hang_bind {α β : Type} (f : α → Res β) : ((Res.hang : Res α) >>= f) = .hang := rfl
@[simp] theorem fuel_bind {α β : Type} (f : α → Res β) : ((Res.fuel : Res α) >>= f) = .fuel := rfl

/-! ## Whitespace -/

theorem cbody_head {lim : Bool} {t : List Byte} (h : CBody lim t) : t = [] ∨ (∃ c u, t = c :: u ∧ c ≠ 0 ∧ c ≠ b#'}') := by
  cases h with
  | nil => exact .inl rfl
  | char c t h0 h1 h2 _ => exact .inr ⟨c, t, rfl, h0, h2⟩
  | nest b t _ _ _ => exact .inr ⟨b#'{', _, rfl, by decide, by decide⟩

theorem commentLoop_body {b : List Byte} (h : CBody true b) : ∀ (n : Nat) (tail : List Byte), b.length < n →
    commentLoop n (b ++ b#'}' :: tail) = .ok tail := by
  induction h with
  | nil =>
    intro n tail hn
    obtain ⟨k, rfl⟩ : ∃ k, n = k + 1 := ⟨n - 1, by omega⟩
    rw [commentLoop]
    simp
  | char c t h0 h1 h2 _ ih =>
    intro n tail hn
    obtain ⟨k, rfl⟩ : ∃ k, n = k + 1 := ⟨n - 1, by omega⟩
    rw [commentLoop]
    simp only [List.length_cons] at hn
    simp only [List.cons_append, peek_cons, h0, h1, ok_bind, h2, if_false, List.drop_one, List.tail_cons]
    exact ih k tail (by omega)
  | nest b t hb ht hl ihb iht =>
    intro n tail hn
    obtain ⟨k, rfl⟩ : ∃ k, n = k + 1 := ⟨n - 1, by omega⟩
    simp only [List.length_cons, List.length_append] at hn
    rw [commentLoop]
    simp only [List.cons_append, List.append_assoc, peek_cons, if_true, List.drop_one, List.tail_cons]
    rw [if_neg (by decide), ihb k (t ++ b#'}' :: tail) (by omega)]
    simp only [ok_bind]
    rcases cbody_head ht with rfl | ⟨c, u, rfl, hc0, hc⟩
    · simp
    · have hc2 : c ≠ b#'{' := by simpa using hl rfl
      have := iht (k + 1) tail (by simp only [List.length_cons] at hn ⊢; omega)
      rw [commentLoop] at this
      simp only [List.cons_append, peek_cons, hc0, hc2, ok_bind, hc, if_false, List.drop_one, List.tail_cons] at this ⊢
      exact this

theorem blank_ws {c : Byte} (h : Blank c) : isWs c = true ∧ c ≠ b#'{' := by
  rcases h with rfl | rfl | rfl | rfl <;> decide

theorem wsLoop_S {s : List Byte} (h : S true s) (tail : List Byte) (ht : isWs (peek tail) = false) : ∀ n, s.length < n →
    wsLoop n (s ++ tail) = .ok tail := by
  induction h with
  | nil =>
    intro n hn
    obtain ⟨k, rfl⟩ : ∃ k, n = k + 1 := ⟨n - 1, by omega⟩
    rw [wsLoop]
    simp [ht]
  | blank c t hc _ ih =>
    intro n hn
    obtain ⟨k, rfl⟩ : ∃ k, n = k + 1 := ⟨n - 1, by omega⟩
    simp only [List.length_cons] at hn
    rw [wsLoop]
    obtain ⟨h1, h2⟩ := blank_ws hc
    simp only [List.cons_append, peek_cons, h1, if_true, if_neg h2, List.drop_one, List.tail_cons]
    exact ih k (by omega)
  | comment b t hb _ ih =>
    intro n hn
    obtain ⟨k, rfl⟩ : ∃ k, n = k + 1 := ⟨n - 1, by omega⟩
    simp only [List.length_cons, List.length_append] at hn
    rw [wsLoop]
    simp only [List.cons_append, List.append_assoc, peek_cons, List.drop_one, List.tail_cons, if_true]
    rw [if_pos (by decide), commentLoop_body hb _ _ (by simp only [List.length_append, List.length_cons]; omega)]
    exact ih k (by omega)

theorem ws_S {s : List Byte} (h : S true s) {tail : List Byte} (ht : isWs (peek tail) = false) : ws (s ++ tail) = .ok tail :=
  wsLoop_S h tail ht _ (by simp only [List.length_append]; omega)

theorem ws_none {tail : List Byte} (ht : isWs (peek tail) = false) : ws tail = .ok tail := ws_S S.nil ht

theorem skipComment_body {b : List Byte} (h : CBody true b) : ∀ (n : Nat) (c : Byte) (tail : List Byte), b.length < n →
    skipComment n (c :: (b ++ b#'}' :: tail)) = some tail := by
  induction h with
  | nil =>
    intro n c tail hn
    obtain ⟨k, rfl⟩ : ∃ k, n = k + 1 := ⟨n - 1, by omega⟩
    rw [skipComment]
    simp
  | char c' t h0 h1 h2 _ ih =>
    intro n c tail hn
    obtain ⟨k, rfl⟩ : ∃ k, n = k + 1 := ⟨n - 1, by omega⟩
    rw [skipComment]
    simp only [List.length_cons] at hn
    simp only [List.cons_append, peek_cons, h0, h1, h2, if_false, List.drop_one, List.tail_cons]
    exact ih k c' tail (by omega)
  | nest b t hb ht hl ihb iht =>
    intro n c tail hn
    obtain ⟨k, rfl⟩ : ∃ k, n = k + 1 := ⟨n - 1, by omega⟩
    simp only [List.length_cons, List.length_append] at hn
    rw [skipComment]
    simp only [List.cons_append, List.append_assoc, peek_cons, if_true, List.drop_one, List.tail_cons]
    rw [ihb k _ (t ++ b#'}' :: tail) (by omega)]
    simp only [Option.getD_some]
    rcases cbody_head ht with rfl | ⟨d, u, rfl, hc0, hc⟩
    · simp
    · have hc2 : d ≠ b#'{' := by simpa using hl rfl
      have := iht (k + 1) 0 tail (by simp only [List.length_cons] at hn ⊢; omega)
      rw [skipComment] at this
      simp only [List.cons_append, peek_cons, hc0, hc2, hc, if_false, List.drop_one, List.tail_cons] at this ⊢
      exact this

theorem skipWsLoop_S {s : List Byte} (h : S true s) (tail : List Byte) (ht : isWs (peek tail) = false) : ∀ n, s.length < n →
    skipWsLoop n (s ++ tail) = .ok tail := by
  induction h with
  | nil =>
    intro n hn
    obtain ⟨k, rfl⟩ : ∃ k, n = k + 1 := ⟨n - 1, by omega⟩
    rw [skipWsLoop]
    simp [ht]
  | blank c t hc _ ih =>
    intro n hn
    obtain ⟨k, rfl⟩ : ∃ k, n = k + 1 := ⟨n - 1, by omega⟩
    simp only [List.length_cons] at hn
    rw [skipWsLoop]
    obtain ⟨h1, h2⟩ := blank_ws hc
    simp only [List.cons_append, peek_cons, h1, if_true, if_neg h2, List.drop_one, List.tail_cons]
    exact ih k (by omega)
  | comment b t hb _ ih =>
    intro n hn
    obtain ⟨k, rfl⟩ : ∃ k, n = k + 1 := ⟨n - 1, by omega⟩
    simp only [List.length_cons, List.length_append] at hn
    rw [skipWsLoop]
    simp only [List.cons_append, List.append_assoc, peek_cons, if_true]
    rw [if_pos (by decide), skipComment_body hb _ _ _ (by simp only [List.length_append, List.length_cons]; omega)]
    exact ih k (by omega)

theorem skipWs_S {s : List Byte} (h : S true s) {tail : List Byte} (ht : isWs (peek tail) = false) : skipWs (s ++ tail) = .ok tail :=
  skipWsLoop_S h tail ht _ (by simp only [List.length_append]; omega)

/-- What follows is what follows the whitespace, or whitespace. -/
theorem peek_S {lim : Bool} {s : List Byte} (h : S lim s) (tail : List Byte) : s = [] ∨ isWs (peek (s ++ tail)) = true := by
  cases h with
  | nil => exact .inl rfl
  | blank c t hc _ => exact .inr (by simpa using (blank_ws hc).1)
  | comment b t _ _ => exact .inr (by simp [isWs])

theorem peek_S_not {lim : Bool} {s : List Byte} (h : S lim s) (tail : List Byte) (P : Byte → Bool) (hp : ∀ c, isWs c = true → P c = false)
    (ht : P (peek tail) = false) : P (peek (s ++ tail)) = false := by
  rcases peek_S h tail with rfl | h
  · exact ht
  · exact hp _ h

theorem ws_not_follower : ∀ c, isWs c = true → isNameFollower c = false :=
  fun c => forall_byte (P := fun c => isWs c = true → isNameFollower c = false) (by decide +kernel) c
theorem ws_not_hex : ∀ c, isWs c = true → isHex c = false :=
  fun c => forall_byte (P := fun c => isWs c = true → isHex c = false) (by decide +kernel) c
theorem ws_not_quote : ∀ c, isWs c = true → isQuote c = false :=
  fun c => forall_byte (P := fun c => isWs c = true → isQuote c = false) (by decide +kernel) c

/-! ## Strings -/

theorem decode_utf8 (c : Nat) (h : c < 0x110000) (rest : List Byte) :
    decodeUtf8 (utf8 c ++ rest) = ⟨true, c, (utf8 c).length⟩ := by
  exact Props.C01_decode_encode c (by omega) rest (utf8 c) (encodeUtf8_rfc3629 c (by omega))

theorem utf8_head (c : Nat) (h0 : 0 < c) (h : c < 0x110000) : ∃ b t, utf8 c = b :: t ∧ b ≠ 0 ∧ (b.toNat = c ∨ 128 ≤ b.toNat) := by
  unfold utf8 rfc3629
  split
  · refine ⟨_, _, rfl, ?_, .inl ?_⟩
    · intro hb
      have := congrArg UInt8.toNat hb
      simp at this; omega
    · simp; omega
  · split
    · refine ⟨_, _, rfl, ?_, .inr ?_⟩
      · intro hb
        have := congrArg UInt8.toNat hb
        simp at this; omega
      · simp; omega
    · split
      · refine ⟨_, _, rfl, ?_, .inr ?_⟩
        · intro hb
          have := congrArg UInt8.toNat hb
          simp at this; omega
        · simp; omega
      · refine ⟨_, _, rfl, ?_, .inr ?_⟩
        · intro hb
          have := congrArg UInt8.toNat hb
          simp at this; omega
        · simp; omega

theorem stringLoop_str {q : Byte} (hq : q = b#'"' ∨ q = 39) {cs : List Nat} {t : List Byte} (h : Str q cs t) (tail : List Byte) (ht : peek tail ≠ q) :
    ∀ n acc, t.length < n → stringLoop q n (t ++ q :: tail) acc = .ok (acc.reverse ++ cs, tail) := by
  have hq0 : q ≠ 0 := by rcases hq with rfl | rfl <;> decide
  have hq1 : q.toNat < 128 := by rcases hq with rfl | rfl <;> decide
  induction h with
  | nil =>
    intro n acc hn
    obtain ⟨k, rfl⟩ : ∃ k, n = k + 1 := ⟨n - 1, by omega⟩
    rw [stringLoop]
    simp [hq0, ht]
  | char c cs t h0 h1 hne _ ih =>
    intro n acc hn
    obtain ⟨k, rfl⟩ : ∃ k, n = k + 1 := ⟨n - 1, by omega⟩
    obtain ⟨b, u, hb, hb0, hb1⟩ := utf8_head c h0 h1
    have hbq : b ≠ q := by
      intro e
      rw [e] at hb1
      rcases hb1 with hb1 | hb1
      · exact hne hb1.symm
      · omega
    rw [stringLoop]
    have hd := decode_utf8 c h1 (t ++ q :: tail)
    rw [List.append_assoc]
    have hp : peek (utf8 c ++ (t ++ q :: tail)) = b := by rw [hb]; rfl
    simp only [hp, if_neg hb0, hbq, false_and, if_false, hd, if_true, List.drop_left]
    have hl : 0 < (utf8 c).length := by rw [hb]; simp
    rw [ih k _ (by simp only [List.length_append] at hn; omega)]
    simp
  | quote cs t _ ih =>
    intro n acc hn
    obtain ⟨k, rfl⟩ : ∃ k, n = k + 1 := ⟨n - 1, by omega⟩
    simp only [List.length_cons] at hn
    rw [stringLoop]
    have hd : decodeUtf8 (q :: (t ++ q :: tail)) = ⟨true, q.toNat, 1⟩ := by
      unfold decodeUtf8
      rcases hq with rfl | rfl <;> simp <;> decide
    simp only [List.cons_append, peek_cons, if_neg hq0, List.drop_one, List.tail_cons, ne_eq, not_true_eq_false, and_false, if_false, if_true, hd]
    rw [ih k _ (by omega)]
    simp

theorem str_pos {q : Byte} (hq : q = b#'"' ∨ q = 39) {cs : List Nat} {t : List Byte} (h : Str q cs t) : ∀ c ∈ cs, 0 < c ∧ c < 0x110000 := by
  induction h with
  | nil => simp
  | char c cs t h0 h1 _ _ ih =>
    intro d hd
    rcases List.mem_cons.1 hd with rfl | hd
    · exact ⟨h0, h1⟩
    · exact ih d hd
  | quote cs t _ ih =>
    intro d hd
    rcases List.mem_cons.1 hd with rfl | hd
    · rcases hq with rfl | rfl <;> decide
    · exact ih d hd

theorem quoted_pos {cs : List Nat} {t : List Byte} (h : Quoted cs t) : ∀ c ∈ cs, 0 < c ∧ c < 0x110000 := by
  obtain ⟨q, cs, t, hq, hs⟩ := h
  exact str_pos hq hs

theorem takeWhile_all_append {α : Type} (p : α → Bool) (a b : List α) (h : ∀ x ∈ a, p x = true) : (a ++ b).takeWhile p = a ++ b.takeWhile p :=
  List.takeWhile_append_of_pos h

theorem string_quoted {cs : List Nat} {t : List Byte} (h : Quoted cs t) {tail : List Byte} (ht : isQuote (peek tail) = false) :
    string (t ++ tail) = .ok (cs, tail) := by
  obtain ⟨q, cs, t, hq, hs⟩ := h
  have hiq : isQuote q = true := by rcases hq with rfl | rfl <;> decide
  have htq : peek tail ≠ q := by
    intro e; rw [e, hiq] at ht; cases ht
  unfold string
  simp only [List.cons_append, peek_cons, hiq, if_true, List.drop_one, List.tail_cons, List.append_assoc, List.singleton_append, List.nil_append]
  rw [stringLoop_str hq hs tail htq _ _ (by simp only [List.length_cons, List.length_append]; omega)]
  simp only [ok_bind, List.reverse_nil, List.nil_append]
  congr 2
  have := str_pos hq hs
  have h2 := takeWhile_all_append (fun x : Nat => decide (x ≠ 0)) cs [] (fun x hx => by have := (str_pos hq hs x hx).1; simp; omega)
  simpa using h2

theorem quoted_head {cs : List Nat} {t : List Byte} (h : Quoted cs t) : ∃ q u, t = q :: u ∧ isQuote q = true := by
  obtain ⟨q, cs, t, hq, hs⟩ := h
  exact ⟨q, _, rfl, by rcases hq with rfl | rfl <;> decide⟩

/-! ## Numbers -/

theorem hexVal_class (b : Byte) (v : Nat) (h : hexVal b = some v) : isHex b = true ∧ v < 16 ∧
    (if b ≤ b#'9' then b.toNat - 48 else if b ≤ b#'F' then b.toNat - 55 else b.toNat - 87) = v := by
  revert h
  have : ∀ b : Byte, ∀ v, hexVal b = some v → isHex b = true ∧ v < 16 ∧
    (if b ≤ b#'9' then b.toNat - 48 else if b ≤ b#'F' then b.toNat - 55 else b.toNat - 87) = v := by
    intro b
    refine forall_byte (P := fun b => ∀ v, hexVal b = some v → isHex b = true ∧ v < 16 ∧
      (if b ≤ b#'9' then b.toNat - 48 else if b ≤ b#'F' then b.toNat - 55 else b.toNat - 87) = v) ?_ b
    intro n v hv
    have h2 : ∀ n : Fin 256, (hexVal (UInt8.ofNat n.val)).all (fun v => isHex (UInt8.ofNat n.val) && decide (v < 16) &&
        decide ((if UInt8.ofNat n.val ≤ b#'9' then (UInt8.ofNat n.val).toNat - 48 else if UInt8.ofNat n.val ≤ b#'F' then (UInt8.ofNat n.val).toNat - 55
          else (UInt8.ofNat n.val).toNat - 87) = v)) = true := by decide +kernel
    have h3 := h2 n
    rw [hv] at h3
    simp only [Option.all_some, Bool.and_eq_true, decide_eq_true_eq] at h3
    exact ⟨h3.1.1, h3.1.2, h3.2⟩
  exact this b v

theorem hex_all {ds : List Byte} {n : Nat} (h : Hex ds n) : (∀ b ∈ ds, isHex b = true) ∧ ds ≠ [] := by
  induction h with
  | one b v hv => exact ⟨by intro c hc; simp at hc; subst hc; exact (hexVal_class _ _ hv).1, by simp⟩
  | snoc bs n b v _ hv ih =>
    refine ⟨?_, by simp⟩
    intro c hc
    rcases List.mem_append.1 hc with hc | hc
    · exact ih.1 c hc
    · simp at hc; subst hc; exact (hexVal_class _ _ hv).1

theorem hex_fold {ds : List Byte} {n : Nat} (h : Hex ds n) :
    ds.foldl (fun acc c => acc * 16 + (if c ≤ b#'9' then c.toNat - 48 else if c ≤ b#'F' then c.toNat - 55 else c.toNat - 87)) 0 = n := by
  induction h with
  | one b v hv => simp only [List.foldl_cons, List.foldl_nil, (hexVal_class _ _ hv).2.2]; omega
  | snoc bs n b v _ hv ih => rw [List.foldl_append, ih]; simp only [List.foldl_cons, List.foldl_nil, (hexVal_class _ _ hv).2.2]

theorem hexInt_hex {ds : List Byte} {n : Nat} (h : Hex ds n) (hn : n < 0x110000) : hexInt ds = n := by
  unfold hexInt
  rw [hex_fold h]
  dsimp only
  have e : (min n (2 ^ 63 - 1)) % 2 ^ 32 = n := by omega
  rw [e, if_pos (by omega)]

theorem dropWhile_all_append {α : Type} (p : α → Bool) (a b : List α) (h : ∀ x ∈ a, p x = true) : (a ++ b).dropWhile p = b.dropWhile p :=
  List.dropWhile_append_of_pos h

theorem takeWhile_stop (p : Byte → Bool) (t : List Byte) (h : p (peek t) = false) : t.takeWhile p = [] ∧ t.dropWhile p = t := by
  cases t with
  | nil => simp
  | cons c u => simp only [peek_cons] at h; simp [List.takeWhile_cons, List.dropWhile_cons, h]

end Xmq.Ixml
