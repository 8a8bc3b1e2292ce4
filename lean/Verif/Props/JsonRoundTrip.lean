import Verif.Lemmas.JsonWrite
/-!
# Property C49: JSON that is converted to a document and back has the same value
-/
namespace Xmq.Props
open Xmq Xmq.Spec

/-- **C49**, as one would like it: when a JSON text is read, the document is written as a JSON text of the same value. -/
def JsonRoundTrip : Prop :=
  ∀ (v : JV) (t : List Byte) (doc : List Node), JDoc true JsonWs v t → ReadsJson t doc →
    ∃ out, printJson doc = some (out ++ b#"\n") ∧ JText true JsonWs v out

/-- The value of `{"a b":{}}`. -/
def unnamedEmpty : JV := .obj (.cons b#"a b" (.obj .nil) .nil)

theorem unnamedEmpty_text : JDoc true JsonWs unnamedEmpty b#"{\"a b\":{}}" := by
  have w0 : ∀ b, JsonWs b [] := fun b => by simp [JsonWs]
  refine ⟨[], b#"{\"a b\":{}}", [], w0 _, ?_, w0 _, rfl⟩
  refine .obj _ b#"\"a b\":{}" ?_
  refine .one b#"a b" b#"a b" _ [] [] [] b#"{}" [] (w0 _) ?_ (w0 _) (w0 _) (.obj _ [] (.nil _ (w0 _))) (w0 _)
  exact .raw _ _ _ (by decide) (by decide) (by decide) (.raw _ _ _ (by decide) (by decide) (by decide)
    (.raw _ _ _ (by decide) (by decide) (by decide) .nil))

/-- **C49** is false: `{"a b":{}}` is written as `{{}}`. -/
theorem C49_unnamed : ∃ doc, ReadsJson b#"{\"a b\":{}}" doc ∧ printJson doc = some b#"{{}}\n" := by
  refine ⟨[.element b#"_" [] [.element b#"_" [⟨b#"_", [.text b#"a b"]⟩] []]], ⟨_, fun dtdOk => ⟨20, rfl⟩, by decide +kernel⟩, by decide +kernel⟩

/-- More keys with a meaning of their own: attributes that turn an object into an array, the key `_`, a key with an index, a lone
    standalone text. -/
theorem C49_special_keys :
    (∃ doc, ReadsJson b#"{\"_A\":\"x\",\"b\":1}" doc ∧ printJson doc = some b#"[1]\n") ∧
    (∃ doc, ReadsJson b#"{\"_\":1}" doc ∧ printJson doc = some b#"{\"\":1}\n") ∧
    (∃ doc, ReadsJson b#"{\"a[1]\":1}" doc ∧ printJson doc = some b#"{\"a\":1}\n") ∧
    (∃ doc, ReadsJson b#"{\"|\":\"1\"}" doc ∧ printJson doc = some b#"1\n") := by
  refine ⟨⟨[.element b#"_" [⟨b#"A", [.text b#"x"]⟩] [.element b#"b" [] [.text b#"1"]]], ⟨_, fun dtdOk => ⟨30, rfl⟩, by decide +kernel⟩, by decide +kernel⟩,
    ⟨[.element b#"_" [] [.element b#"_" [] [.text b#"1"]]], ⟨_, fun dtdOk => ⟨30, rfl⟩, by decide +kernel⟩, by decide +kernel⟩,
    ⟨[.element b#"_" [] [.element b#"a" [] [.text b#"1"]]], ⟨_, fun dtdOk => ⟨30, rfl⟩, by decide +kernel⟩, by decide +kernel⟩,
    ⟨[.element b#"_" [] [.text b#"1"]], ⟨_, fun dtdOk => ⟨30, rfl⟩, by decide +kernel⟩, by decide +kernel⟩⟩

theorem C49_false : ¬ JsonRoundTrip := by
  intro h
  obtain ⟨doc, h1, h2⟩ := C49_unnamed
  obtain ⟨out, h3, h4⟩ := h unnamedEmpty _ doc unnamedEmpty_text h1
  rw [h2] at h3
  have e : out = b#"{{}}" := by
    have := Option.some.inj h3
    have : b#"{{}}" ++ b#"\n" = out ++ b#"\n" := this
    exact (List.append_cancel_right this).symm
  subst e
  unfold unnamedEmpty at h4
  generalize ht : (b#"{{}}" : List Byte) = t at h4
  cases h4 with
  | obj ms t hm =>
    generalize hms : JMs.cons b#"a b" (JV.obj .nil) .nil = ms at hm
    cases hm with
    | nil _ _ => cases hms
    | one k l v w w' w'' t' w''' hw hl _ _ _ _ =>
      match w, hw with
      | [], _ => revert ht; simp
      | c :: w, hw =>
        simp only [List.cons_append, List.cons.injEq] at ht
        have := hw c List.mem_cons_self
        rw [← ht.2.1] at this
        revert this
        decide
    | cons => cases hms

theorem jsonNumber_bytes {s : List Byte} (h : JsonNumber s) : ∀ c ∈ s, c ≠ 0 := by
  have hd : ∀ c, JDigit c → c ≠ 0 := fun c => forall_byte (P := fun c => JDigit c → c ≠ 0) (by decide +kernel) c
  obtain ⟨minus, int, frac, exp, rfl, hm, hi, hf, he⟩ := h
  intro c hc
  simp only [List.mem_append] at hc
  rcases hc with ((hc | hc) | hc) | hc
  · rcases hm with rfl | rfl
    · cases hc
    · rw [List.mem_singleton.1 hc]; decide
  · rcases hi with rfl | ⟨hi, _⟩
    · rw [List.mem_singleton.1 hc]; decide
    · exact hd c (hi.2 c hc)
  · rcases hf with rfl | ⟨ds, rfl, hf⟩
    · cases hc
    · rcases List.mem_cons.1 hc with rfl | hc
      · decide
      · exact hd c (hf.2 c hc)
  · rcases he with rfl | ⟨e, sign, ds, rfl, he, hs, hf⟩
    · cases hc
    · rcases List.mem_cons.1 hc with rfl | hc
      · rcases he with rfl | rfl <;> decide
      · rcases List.mem_append.1 hc with hc | hc
        · rcases hs with rfl | rfl | rfl
          · cases hc
          · rw [List.mem_singleton.1 hc]; decide
          · rw [List.mem_singleton.1 hc]; decide
        · exact hd c (hf.2 c hc)

/-- **C49**, the part that holds: every JSON text is read, and the document is written as a JSON text of the same value, if
    * its numbers do not start with `0e` and are not directly followed by a tab or carriage return,
    * its strings are UTF-8 without control characters other than those with a short escape, and are not written with `\/` or
      surrogates,
    * its keys are names, or are no names, do not start with `_` or end with `]` and are not one of `|`, `//`, `!DOCTYPE`…; in
      the latter case the value is not an empty array or object,
    * no object has the same key twice. -/
theorem C49_round_trip_partial (v : JV) (hv : v.Ok (fun s => JsonNumber s ∧ NoZeroE s) StrOk MemberOk (fun ms => ms.keys.Nodup)) :
    ∃ doc out, (∀ t, JDoc false JsonWsN v t → ReadsJson t doc) ∧ printJson doc = some (out ++ b#"\n") ∧ JText false JsonWsN v out := by
  refine ⟨[toNode none v], ser v, fun t ht => ?_, ?_, ser_text v hv⟩
  · have hp : v.Ok NoZeroE (fun _ => True) (fun k _ => NoDoctype k) (fun _ => True) :=
      JV.Ok.imp (fun _ h => h.2) (fun _ _ => True.intro) (fun _ _ h => memberOk_noDoctype h) (fun _ _ => True.intro) v hv
    have hb : v.Ok (fun s => cstr s = s) (fun s => cstr s = s) (fun k _ => KeyFine (some k)) (fun _ => True) :=
      JV.Ok.imp (fun s h => cstr_of s (jsonNumber_bytes h.1)) (fun _ h => cstr_strOk h.2) (fun _ _ h => memberOk_fine h) (fun _ _ => True.intro) v hv
    refine ⟨⟨[], (valToks none v).reverse, false⟩, fun dtdOk => ?_, ?_⟩
    · obtain ⟨N, hN⟩ := parse_doc dtdOk v t ht hp
      exact ⟨N, hN N (Nat.le_refl _)⟩
    · rw [List.reverse_reverse]
      exact build_doc v hb
  · obtain ⟨l, _, h⟩ := write_value v hv none (keyWrite_none v) ⟨[], 0⟩
    have e : (⟨[], 0⟩ : JP).comma = ⟨[], 0⟩ := rfl
    rw [e, serKey] at h
    unfold printJson
    dsimp only
    rw [JP.objectNodes, node_name]
    rw [if_pos (by decide)]
    rw [show (none : Option (List Byte)).isSome = false from rfl] at h
    rw [h, Option.bind_some, JP.objectNodes]
    rfl

/-- A case for `C49_round_trip_partial`: `{"a":[1,"1",{}],"b c":"\"é"}`. -/
example : (JV.obj (.cons b#"a" (.arr (.cons (.num b#"1") (.cons (.str b#"1") (.cons (.obj .nil) .nil)))) (.cons b#"b c" (.str [b#'"', 0xc3, 0xa9]) .nil))).Ok
    (fun s => JsonNumber s ∧ NoZeroE s) StrOk MemberOk (fun ms => ms.keys.Nodup) := by
  have hn : JsonNumber b#"1" := ⟨[], b#"1", [], [], rfl, .inl rfl, .inr ⟨⟨by decide, by simp [JDigit]⟩, by decide⟩, .inl rfl, .inl rfl⟩
  have hu : ValidUtf8 b#"b c" := .cons 98 (by decide) _ (.cons 32 (by decide) _ (.cons 99 (by decide) _ .nil))
  have h1 : ValidUtf8 b#"1" := .cons 49 (by decide) _ .nil
  have h2 : ValidUtf8 [b#'"', 0xc3, 0xa9] := .cons 34 (by decide) _ (.cons 0xe9 (by decide) _ .nil)
  simp only [JV.Ok, JVs.Ok, JMs.Ok]
  refine ⟨by decide, .inl ⟨b#'a', [], rfl, by decide, by simp⟩, ⟨⟨hn, by unfold NoZeroE; decide⟩, ⟨h1, by decide⟩, ⟨by decide, True.intro⟩, True.intro⟩, .inr ⟨⟨.inr ⟨b#'b', b#" c", rfl, by decide,
    .inr ⟨b#' ', by decide, by decide, by decide⟩⟩, by decide, by decide, by decide, by decide⟩, ⟨hu, by decide⟩, ?_, ?_⟩, ⟨h2, by decide⟩, True.intro⟩
  all_goals intro h; cases h

end Xmq.Props
