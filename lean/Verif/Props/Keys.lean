import Verif.Model.Keys
import Verif.Spec.Keys
/-!
# C102: the pager does what the keys mean
-/
namespace Xmq.Props

open Xmq Xmq.Keys Xmq.Spec Xmq.Pager

theorem other_key (c : Byte) : 33 ≤ c ∧ c ≤ 126 ∧ c ∉ b#"<>qQ" → ∀ r, readKey (c :: r) = (.character (some c), r) ∧
    action (.character (some c)) = .stay := by
  intro h r
  refine ⟨?_, ?_⟩
  · have : c ≠ 10 ∧ c ≠ 13 ∧ c ≠ 0 ∧ c ≠ 224 ∧ c ≠ 27 := by
      revert h
      exact forall_byte (P := fun c => 33 ≤ c ∧ c ≤ 126 ∧ c ∉ b#"<>qQ" → c ≠ 10 ∧ c ≠ 13 ∧ c ≠ 0 ∧ c ≠ 224 ∧ c ≠ 27) (by decide +kernel) c
    simp [readKey, getChar, this]
  · revert h
    exact forall_byte (P := fun c => 33 ≤ c ∧ c ≤ 126 ∧ c ∉ b#"<>qQ" → action (.character (some c)) = .stay) (by decide +kernel) c

theorem stroke_read (k : Stroke) (hk : k.Ok) (r : List Byte) :
    (readKey (k.sent ++ r)).2 = r ∧
    action (readKey (k.sent ++ r)).1 = (match k.means with | some m => .move m | none => .stay) := by
  cases k with
  | other c =>
    obtain ⟨h1, h2⟩ := other_key c hk r
    rw [Stroke.sent, List.singleton_append, h1]
    exact ⟨rfl, h2⟩
  | _ => exact ⟨rfl, rfl⟩

/-- Any keys one after the other: the pager is where they lead to and has read all of them. -/
theorem C102_keys (s : List Byte) (w h : Nat) (ks : List Stroke) (hk : ∀ k ∈ ks, k.Ok) (p : Place) (r : List Byte) (n : Nat) :
    rounds s w h (ks.length + n) p (ks.flatMap Stroke.sent ++ r) =
      match presses s w h p (ks.filterMap Stroke.means) with
      | none => .outside
      | some q => rounds s w h n q r := by
  induction ks generalizing p with
  | nil => simp [presses]
  | cons k ks ih =>
    obtain ⟨h1, h2⟩ := stroke_read k (hk k (by simp)) (ks.flatMap Stroke.sent ++ r)
    have e : (k :: ks).length + n = (ks.length + n) + 1 := by simp; omega
    rw [e, List.flatMap_cons, List.append_assoc, rounds, h1, h2]
    have ih := ih (fun k hk' => hk k (by simp [hk']))
    cases hm : k.means with
    | none => simp only [List.filterMap_cons, hm]; exact ih p
    | some m =>
      simp only [List.filterMap_cons, hm, presses]
      cases press s w h p m with
      | none => rfl
      | some q => simpa using ih q

/-- q or Q ends the pager at the place where it is; nothing behind it is read. -/
theorem C102_quit (s : List Byte) (w h : Nat) (ks : List Stroke) (hk : ∀ k ∈ ks, k.Ok) (p q : Place) (c : Byte) (hc : c ∈ b#"qQ")
    (hq : presses s w h p (ks.filterMap Stroke.means) = some q) (r : List Byte) :
    rounds s w h (ks.length + 1) p (ks.flatMap Stroke.sent ++ c :: r) = .left q r := by
  rw [C102_keys s w h ks hk p (c :: r) 1, hq]
  simp only [List.mem_cons, List.not_mem_nil, or_false] at hc
  rcases hc with rfl | rfl <;> rfl

/-- Without q, Q and escape the pager does not end by itself. -/
theorem C102_stays (s : List Byte) (w h : Nat) (ks : List Stroke) (hk : ∀ k ∈ ks, k.Ok) (p q : Place)
    (hq : presses s w h p (ks.filterMap Stroke.means) = some q) (r : List Byte) :
    rounds s w h ks.length p (ks.flatMap Stroke.sent ++ r) = .reading q r := by
  have := C102_keys s w h ks hk p r 0
  rw [hq] at this
  simpa [rounds] using this

example : rounds b#"ab\ncd\nef\n" 80 2 3 ⟨0, 0⟩ (27 :: b#"[Bxq!") = .left ⟨3, 3⟩ b#"!" := by decide +kernel

/-- A key takes between one and four bytes. -/
theorem C102_bytes (inp : List Byte) : ∃ k, 1 ≤ k ∧ k ≤ 4 ∧ (readKey inp).2 = inp.drop k := by
  have g : ∀ l : List Byte, (getChar l).2 = l.drop 1 := fun l => by cases l <;> rfl
  simp only [readKey]
  repeat' split
  all_goals simp only [g, List.drop_drop]
  all_goals first
    | exact ⟨1, by omega, by omega, rfl⟩
    | exact ⟨2, by omega, by omega, rfl⟩
    | exact ⟨3, by omega, by omega, rfl⟩
    | exact ⟨4, by omega, by omega, rfl⟩

theorem high_key (c : Byte) : 128 ≤ c → c ≠ 224 → ∀ r, readKey (c :: r) = (.character (some c), r) := by
  intro h h2 r
  have : c ≠ 10 ∧ c ≠ 13 ∧ c ≠ 0 ∧ c ≠ 27 := by
    revert h
    exact forall_byte (P := fun c => 128 ≤ c → c ≠ 10 ∧ c ≠ 13 ∧ c ≠ 0 ∧ c ≠ 27) (by decide +kernel) c
  simp [readKey, getChar, this, h2]

theorem high_stay (c : Byte) : 128 ≤ c → action (.character (some c)) = .stay :=
  forall_byte (P := fun c => 128 ≤ c → action (.character (some c)) = .stay) (by decide +kernel) c

theorem high_second (c : Byte) (h : 128 ≤ c) (r : List Byte) : readKey (224 :: c :: r) = (.character (some c), r) := by
  have : c ≠ 72 ∧ c ≠ 75 ∧ c ≠ 77 ∧ c ≠ 80 ∧ c ≠ 73 ∧ c ≠ 81 := by
    revert h
    exact forall_byte (P := fun c => 128 ≤ c → c ≠ 72 ∧ c ≠ 75 ∧ c ≠ 77 ∧ c ≠ 80 ∧ c ≠ 73 ∧ c ≠ 81) (by decide +kernel) c
  simp [readKey, getChar, this]

/-- Characters beyond ASCII have no effect, though their bytes look like keys of Windows. -/
theorem C102_text (s : List Byte) (w h : Nat) (p : Place) (r : List Byte) : ∀ bs : List Byte, (∀ b ∈ bs, 128 ≤ b) →
    bs.getLast? ≠ some 224 → ∃ n, ∀ m, rounds s w h (n + m) p (bs ++ r) = rounds s w h m p r
  | [], _, _ => ⟨0, fun m => by simp⟩
  | c :: t, hb, hl => by
    by_cases hc : c = 224
    · subst hc
      cases t with
      | nil => simp at hl
      | cons d t =>
        have hd : 128 ≤ d := hb d (by simp)
        obtain ⟨n, hn⟩ := C102_text s w h p r t (fun b hb' => hb b (by simp [hb'])) (by
          intro e
          apply hl
          cases t with
          | nil => simp at e
          | cons x t => simpa [List.getLast?_cons_cons] using e)
        refine ⟨n + 1, fun m => ?_⟩
        have e : n + 1 + m = (n + m) + 1 := by omega
        rw [e, List.cons_append, List.cons_append, rounds, high_second d hd, high_stay d hd]
        exact hn m
    · obtain ⟨n, hn⟩ := C102_text s w h p r t (fun b hb' => hb b (by simp [hb'])) (by
        intro e
        apply hl
        cases t with
        | nil => simp at e
        | cons x t => simpa [List.getLast?_cons_cons] using e)
      refine ⟨n + 1, fun m => ?_⟩
      have e : n + 1 + m = (n + m) + 1 := by omega
      rw [e, List.cons_append, rounds, high_key c (hb c (by simp)) hc, high_stay c (hb c (by simp))]
      exact hn m
termination_by bs => bs.length

/-- Not so: escape does not end the pager, but takes the next key as well. -/
theorem C102_escape_false : ¬ ∀ (s : List Byte) (w h : Nat) (p : Place) (r : List Byte), rounds s w h 1 p (27 :: r) = .left p r := fun h =>
  absurd (h [] 1 1 ⟨0, 0⟩ b#"x") (by decide +kernel)

/-- Not so: a key without a meaning may end it; F2 of an xterm sends ESC O Q. -/
theorem C102_f2_false (s : List Byte) (w h : Nat) (p : Place) (r : List Byte) : rounds s w h 2 p (27 :: b#"OQ" ++ r) = .left p r := rfl

/-- Not so: when the terminal is gone the pager does not end, but goes on for ever. -/
theorem C102_gone_false (s : List Byte) (w h n : Nat) (p : Place) : rounds s w h n p [] = .reading p [] := by
  induction n with
  | zero => rfl
  | succ n ih => exact ih

end Xmq.Props
