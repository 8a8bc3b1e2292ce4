import Verif.Lemmas.JsonRead
/-!
# Property C28: the JSON parser terminates, and accepts JSON
-/
namespace Xmq.Props
open Xmq Xmq.Spec

/-- **C28**, as one would like it: parsing any buffer ends with success or an error. -/
def JsonParserEnds : Prop :=
  ∀ (dtdOk : List Byte → Bool) (s : List Byte), ∃ fuel, parseJsonBuffer dtdOk fuel s = .err ∨ ∃ st, parseJsonBuffer dtdOk fuel s = .ok st

/-- **C28** is false: `{` alone makes the parser loop forever in `while (c == ',')`. -/
theorem C28_hangs (dtdOk : List Byte → Bool) (fuel : Nat) : parseJsonBuffer dtdOk (fuel + 2) b#"{" = .hang := by
  rfl

/-- **C28** is false: an array that is not closed makes an assertion fail. -/
theorem C28_aborts (dtdOk : List Byte → Bool) (fuel : Nat) : parseJsonBuffer dtdOk (fuel + 3) b#"[1" = .abort := by
  rfl

theorem C28_false : ¬ JsonParserEnds := by
  intro h
  obtain ⟨fuel, h⟩ := h (fun _ => true) b#"{"
  match fuel, h with
  | 0, h => revert h; simp [parseJsonBuffer, parseJson]
  | 1, h => exact absurd h (by
      have : parseJsonBuffer (fun _ => true) 1 b#"{" = .outOfFuel := rfl
      rw [this]; simp)
  | fuel + 2, h => rw [C28_hangs] at h; simp at h

/-- **C28**, the part that holds: for every buffer that does not end in `{` or `,` the parser ends, with success, an error or a
    failing assertion. -/
theorem C28_ends_partial (dtdOk : List Byte → Bool) (s : List Byte) (h : s.getLast? ≠ some b#'{' ∧ s.getLast? ≠ some b#',')
    (fuel : Nat) (hf : s.length < fuel) :
    parseJsonBuffer dtdOk fuel s = .err ∨ parseJsonBuffer dtdOk fuel s = .abort ∨ ∃ st, parseJsonBuffer dtdOk fuel s = .ok st := by
  have := parseJson_sane dtdOk fuel none ⟨s, [], false⟩ hf
  unfold parseJsonBuffer
  cases hr : parseJson dtdOk fuel none ⟨s, [], false⟩ with
  | ok st =>
    rw [JRes.bind_ok]
    split
    · exact .inr (.inr ⟨_, rfl⟩)
    · exact .inl rfl
  | err => exact .inl rfl
  | abort => exact .inr (.inl rfl)
  | hang =>
    rw [hr] at this
    rcases this with e | e
    · exact absurd e h.1
    · exact absurd e h.2
  | outOfFuel => rw [hr] at this; exact this.elim

/-- A case for `C28_ends_partial`: an object that is not closed, inside an array. -/
example : ([b#'[', b#'{', b#'"', b#'a', b#'"'] : List Byte).getLast? ≠ some b#'{' ∧
    parseJsonBuffer (fun _ => true) 6 [b#'[', b#'{', b#'"', b#'a', b#'"'] = .err := by decide +kernel

/-- **C28**, all buffers: apart from the loop just mentioned the parser ends. -/
theorem C28_only_loop (dtdOk : List Byte → Bool) (s : List Byte) (fuel : Nat) (hf : s.length < fuel) :
    parseJsonBuffer dtdOk fuel s ≠ .outOfFuel ∧
      (parseJsonBuffer dtdOk fuel s = .hang → s.getLast? = some b#'{' ∨ s.getLast? = some b#',') := by
  have := parseJson_sane dtdOk fuel none ⟨s, [], false⟩ hf
  unfold parseJsonBuffer
  cases hr : parseJson dtdOk fuel none ⟨s, [], false⟩ with
  | ok st =>
    rw [JRes.bind_ok]
    split <;> exact ⟨by simp, by simp⟩
  | err => simp
  | abort => simp
  | hang => rw [hr] at this; exact ⟨by simp, fun _ => this⟩
  | outOfFuel => rw [hr] at this; exact this.elim

/-- **C28**, as one would like it: every JSON text is accepted. -/
def JsonAccepted : Prop :=
  ∀ (dtdOk : List Byte → Bool) (v : JV) (t : List Byte), JDoc true JsonWs v t → ∃ fuel st, parseJsonBuffer dtdOk fuel t = .ok st

theorem jsonNumber_one : JsonNumber b#"1" :=
  ⟨[], b#"1", [], [], rfl, .inl rfl, .inr ⟨⟨by decide, by simp [JDigit]⟩, by decide⟩, .inl rfl, .inl rfl⟩

/-- **C28** is false here as well: a number before a tab is not recognised. -/
theorem C28_accepted_false : ¬ JsonAccepted := by
  intro h
  obtain ⟨fuel, st, h⟩ := h (fun _ => true) (.num b#"1") (b#"1" ++ [9]) ⟨[], b#"1", [9], by simp [JsonWs], .num _ jsonNumber_one, by simp [JsonWs], rfl⟩
  match fuel, h with
  | 0, h => cases h
  | fuel + 1, h =>
    have : parseJsonBuffer (fun _ => true) (fuel + 1) (b#"1" ++ [9]) = .err := rfl
    rw [this] at h
    cases h

/-- **C28**, the part that holds: every JSON text is accepted, to its end and whatever libxml2 thinks of doctypes, unless it has
    a number starting with `0e`, a number followed by a tab or carriage return, a `\/`, a surrogate or a key `!DOCTYPE`. -/
theorem C28_accepted_partial (v : JV) (t : List Byte) (h : JDoc false JsonWsN v t)
    (ha : v.Ok NoZeroE (fun _ => True) (fun k _ => k.take 8 ≠ b#"!DOCTYPE") (fun _ => True)) :
    ∃ st : JSt, st.rest = [] ∧ ∀ dtdOk, ∃ N, ∀ fuel, N ≤ fuel → parseJsonBuffer dtdOk fuel t = .ok st :=
  ⟨_, rfl, fun dtdOk => parse_doc dtdOk v t h ha⟩

/-- A case for `C28_accepted_partial`: `{"a" : [1 , {}]}` with some whitespace. -/
example : JDoc false JsonWsN (.obj (.cons b#"a" (.arr (.cons (.num b#"1") (.cons (.obj .nil) .nil))) .nil)) b#" {\"a\" : [1 , {}]\n}" := by
  have w0 : ∀ b, JsonWsN b [] := fun b => ⟨by simp, by simp⟩
  have w1 : ∀ b, JsonWsN b b#" " := fun b => ⟨by simp, by simp⟩
  refine ⟨b#" ", b#"{\"a\" : [1 , {}]\n}", [], w1 _, ?_, w0 _, rfl⟩
  refine .obj _ b#"\"a\" : [1 , {}]\n" ?_
  refine .one b#"a" b#"a" _ [] b#" " b#" " b#"[1 , {}]" b#"\n" (w0 _) ?_ (w1 _) (w1 _) ?_ ⟨by simp, by simp⟩
  · exact .raw _ _ _ (by decide) (by decide) (by decide) .nil
  · refine .arr _ b#"1 , {}" ?_
    exact .cons _ _ _ [] b#"1" b#" " b#" {}" (w0 _) (.num _ jsonNumber_one) (w1 _) (.one _ b#" " b#"{}" [] (w1 _) (.obj _ [] (.nil _ (w0 _))) (w0 _))

end Xmq.Props
