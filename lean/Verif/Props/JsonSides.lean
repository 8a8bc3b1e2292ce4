import Verif.Lemmas.JsonSides
import Verif.Props.JsonDoc
/-!
# C77: comments beside the root survive the conversion to JSON and back
-/
namespace Xmq.Props
open Spec

/-- A document with comments before and behind its root. -/
def withComments (pre : List (List Byte)) (n : Node) (post : List (List Byte)) : List Node := pre.map .comment ++ n :: post.map .comment

/-- A document is kept: it can be written, what is written is JSON, and reading that gives the document. -/
def KeepsNodes (doc : List Node) : Prop := ∃ out, printJsonDoc doc = some out ∧ (∃ v, JDoc true JsonWs v out) ∧ ReadsJsonDoc out doc

/-- **C77** in full: a document that is kept as JSON is also kept when comments stand before and behind its root. -/
def JsonKeepsComments : Prop := ∀ name attrs kids pre post, KeepsDocument (.element name attrs kids) → (∀ s ∈ pre ++ post, StrOk s) →
  KeepsNodes (withComments pre (.element name attrs kids) post)

/-! ## The model with comments extends the one without -/

/-- A document that is a single element is written as in `printJson`. -/
theorem C77_writes_alike (name : List Byte) (attrs : List Attr) (kids : List Node) :
    printJsonDoc [.element name attrs kids] = printJson [.element name attrs kids] := by
  have := JsonSides.printJsonDoc_eq [] [] name attrs kids
  simp only [List.map_nil, List.nil_append] at this
  rw [this, JsonSides.object_nodes_quiet _ ⟨rfl, rfl⟩]
  unfold printJson
  simp only [Option.map_map, jsonNodeName]
  rfl

/-- What was read without comments beside the root is read alike. -/
theorem C77_reads_alike {input : List Byte} {d : List Node} (h : ReadsJson input d) : ReadsJsonDoc input d := by
  obtain ⟨st, hp, hb⟩ := h
  refine ⟨st, hp, ?_⟩
  unfold buildJson at hb
  obtain ⟨st', h1, h2⟩ := Option.bind_eq_some_iff.1 hb
  obtain ⟨f, h3, _⟩ := JsonSides.fold_plain _ h1 false
  unfold buildJsonDoc
  have : (⟨[⟨false, [], [], [], false⟩], [[]], false⟩ : JB) = JsonSides.plain [⟨false, [], [], [], false⟩] false := rfl
  rw [this, h3]
  exact h2

/-- A text is read as at most one document. -/
theorem C77_reads_unique {input : List Byte} {d d' : List Node} (h : ReadsJsonDoc input d) (h' : ReadsJsonDoc input d') : d = d' := by
  have le : ∀ dtdOk f f', f ≤ f' → JRes.Le (parseJsonBuffer dtdOk f input) (parseJsonBuffer dtdOk f' input) := by
    intro dtdOk f f' hf
    exact JRes.Le.bind (parseJson_le dtdOk f f' hf _ _) fun _ => .refl _
  obtain ⟨st, hp, hb⟩ := h
  obtain ⟨st', hp', hb'⟩ := h'
  obtain ⟨f, e⟩ := hp fun _ => true
  obtain ⟨f', e'⟩ := hp' fun _ => true
  have e1 : parseJsonBuffer (fun _ => true) (f + f') input = .ok st := by
    rcases le (fun _ => true) f (f + f') (by omega) with h | h <;> rw [e] at h
    · cases h
    · exact h.symm
  have e2 : parseJsonBuffer (fun _ => true) (f + f') input = .ok st' := by
    rcases le (fun _ => true) f' (f + f') (by omega) with h | h <;> rw [e'] at h
    · cases h
    · exact h.symm
  rw [e1] at e2
  cases e2
  rw [hb] at hb'
  exact Option.some.inj hb'

/-! ## What survives -/

/-- **C77**, the part that holds.  Any number of comments before and behind a root as in C75 are kept in their order on their side; the text is JSON of
    RFC 8259 in which no object has a key twice.  (So there is no array in the document and the root has a name and is not only a text.) -/
theorem C77_round_trip_partial (pre post : List (List Byte)) (n : Node) (h : JsonRoot n) (hpre : ∀ s ∈ pre, StrOk s) (hpost : ∀ s ∈ post, StrOk s) :
    ∃ out, printJsonDoc (withComments pre n post) = some out ∧ ReadsJsonDoc out (withComments pre n post) ∧
      ∃ v, JDoc false JsonWsN v out ∧ v.Ok JsonNumber (fun _ => True) (fun _ _ => True) (fun ms => ms.keys.Nodup) := by
  obtain ⟨h, name, attrs, kids, rfl, hr⟩ := h
  have hok := JsonSides.docMembers_ok pre post name attrs kids h hpre hpost
  have hj : JDoc false JsonWsN (.obj (membersOf (JsonSides.docMembers pre post name attrs kids)))
      (ser (.obj (membersOf (JsonSides.docMembers pre post name attrs kids))) ++ b#"\n") := by
    refine ⟨[], _, b#"\n", ws_nil _, ser_text_of _ (JV.Ok.imp (fun _ h => h.1) (fun _ h => h) (fun _ _ h => h.1) (fun _ _ => True.intro) _ hok), ?_, by simp⟩
    exact ⟨by decide, by intro h; cases h⟩
  refine ⟨_, JsonSides.write_doc pre post name attrs kids h hr hpre hpost, ?_, _, hj,
    JV.Ok.imp (fun _ h => h.1) (fun _ _ => True.intro) (fun _ _ _ => True.intro) (fun _ h => h) _ hok⟩
  refine ⟨⟨[], (valToks none (.obj (membersOf (JsonSides.docMembers pre post name attrs kids)))).reverse, false⟩, fun dtdOk => ?_, ?_⟩
  · obtain ⟨N, hN⟩ := parse_doc dtdOk _ _ hj (JV.Ok.imp (fun _ h => h.2) (fun _ _ => True.intro) (fun _ _ h => h.2) (fun _ _ => True.intro) _ hok)
    exact ⟨N, hN N (Nat.le_refl _)⟩
  · rw [List.reverse_reverse]
    exact JsonSides.build_doc pre post name attrs kids h hpre hpost

/-- Different documents, or different comments beside them, are written differently. -/
theorem C77_injective_partial (pre pre' post post' : List (List Byte)) (n n' : Node) (h : JsonRoot n) (h' : JsonRoot n')
    (hs : ∀ s ∈ pre ++ post, StrOk s) (hs' : ∀ s ∈ pre' ++ post', StrOk s)
    (e : printJsonDoc (withComments pre n post) = printJsonDoc (withComments pre' n' post')) : withComments pre n post = withComments pre' n' post' := by
  obtain ⟨out, h1, h2, _⟩ := C77_round_trip_partial pre post n h (fun s hm => hs s (List.mem_append_left _ hm)) (fun s hm => hs s (List.mem_append_right _ hm))
  obtain ⟨out', h1', h2', _⟩ := C77_round_trip_partial pre' post' n' h' (fun s hm => hs' s (List.mem_append_left _ hm)) (fun s hm => hs' s (List.mem_append_right _ hm))
  rw [h1, h1'] at e
  cases e
  exact C77_reads_unique h2 h2'

/-- A case: `/*one*/ /*two*/ a { b } /*three*/ /*four*/`; the last comment is written before the one before it. -/
theorem comments_written : printJsonDoc (withComments [b#"one", b#"two"] (.element b#"a" [] [.element b#"b" [] []]) [b#"three", b#"four"]) = some
    b#"{\"_//[0]\":\"one\",\"_//[1]\":\"two\",\"_\":\"a\",\"b\":{},\"_//[2]\":\"four\",\"_//[3]\":\"three\"}\n" := by
  decide +kernel

/-- It meets the conditions. -/
example : JsonRoot (.element b#"a" [] [.element b#"b" [] []]) ∧ (∀ s ∈ [b#"one", b#"two"], StrOk s) ∧ ∀ s ∈ [b#"three", b#"four"], StrOk s := by
  have name : ∀ c t, JLetter c → (∀ x ∈ t, JNameByte x) → NameKey (c :: t) := fun c t hc ht => ⟨c, t, rfl, hc, ht⟩
  refine ⟨⟨?_, _, _, _, rfl, by simp⟩, fun s hs => ascii_strOk s ?_, fun s hs => ascii_strOk s ?_⟩
  · simp only [JsonNode, JsonNodes]
    refine ⟨name _ _ (by decide) (by simp), by simp, by simp, ?_, ⟨name _ _ (by decide) (by simp), by simp, by simp, by simp, trivial⟩, trivial⟩
    intro pre a b post e
    match pre, e with
    | [], e => simp at e
    | _ :: pre, e => simp at e
  · simp only [List.mem_cons, List.not_mem_nil, or_false] at hs
    rcases hs with rfl | rfl <;> decide
  · simp only [List.mem_cons, List.not_mem_nil, or_false] at hs
    rcases hs with rfl | rfl <;> decide

/-! ## What does not survive -/

theorem not_keepsNodes {doc : List Node} (out : List Byte) (d : List Node) (h : printJsonDoc doc = some out) (hr : ReadsJsonDoc out d) (hd : (d == doc) = false) :
    ¬ KeepsNodes doc := by
  rintro ⟨out', h', _, hr'⟩
  rw [h] at h'
  cases h'
  rw [C77_reads_unique hr hr'] at hd
  simp at hd

/-- A root that has only a text and the comments beside it: they are lost. -/
theorem C77_false_value : ¬ KeepsNodes [.comment b#"c", .element b#"_" [] [.text b#"1"]] ∧ KeepsDocument (.element b#"_" [] [.text b#"1"]) := by
  refine ⟨not_keepsNodes b#"1\n" [.element b#"_" [] [.text b#"1"]] (by decide +kernel) ⟨_, fun _ => ⟨30, rfl⟩, by decide +kernel⟩ (by decide +kernel), ?_⟩
  refine ⟨b#"1\n", by decide +kernel, ⟨.num b#"1", [], b#"1", b#"\n", ?_, ?_, ?_, by simp⟩, ⟨_, fun _ => ⟨30, rfl⟩, by decide +kernel⟩⟩
  · intro c hc; cases hc
  · exact .num _ ⟨[], b#"1", [], [], rfl, .inl rfl, .inr ⟨⟨by decide, by simp [JDigit]⟩, by decide⟩, .inl rfl, .inl rfl⟩
  · intro c hc; rw [List.mem_singleton.1 hc]; decide

/-- A comment behind the root moves into the first object of an array in the root: `a { b(A) { _ { c } } } /*3*/`. -/
theorem C77_false_array : ¬ KeepsNodes [.element b#"a" [] [.element b#"b" [⟨b#"A", []⟩] [.element b#"_" [] [.element b#"c" [] []]]], .comment b#"3"] :=
  not_keepsNodes b#"{\"_\":\"a\",\"b\":[{\"c\":{},\"_//\":\"3\"}]}\n"
    [.element b#"a" [] [.element b#"b" [⟨b#"A", []⟩] [.element b#"_" [] [.element b#"c" [] []], .comment b#"3"]]]
    (by decide +kernel) ⟨_, fun _ => ⟨30, rfl⟩, by decide +kernel⟩ (by decide +kernel)

/-- When the root is an array, the comments before and behind it both move before its first object. -/
theorem C77_false_array_root : ¬ KeepsNodes [.comment b#"1", .element b#"_" [⟨b#"A", []⟩] [.element b#"_" [] [.element b#"c" [] []]], .comment b#"2"] :=
  not_keepsNodes b#"[{\"_//[0]\":\"1\",\"c\":{},\"_//[1]\":\"2\"}]\n"
    [.element b#"_" [⟨b#"A", []⟩] [.comment b#"1", .comment b#"2", .element b#"_" [] [.element b#"c" [] []]]]
    (by decide +kernel) ⟨_, fun _ => ⟨30, rfl⟩, by decide +kernel⟩ (by decide +kernel)

/-- A comment behind a root without a name moves before it. -/
theorem C77_false_unnamed : ¬ KeepsNodes [.element b#"_" [] [.element b#"c" [] []], .comment b#"2"] :=
  not_keepsNodes b#"{\"c\":{},\"_//\":\"2\"}\n" [.comment b#"2", .element b#"_" [] [.element b#"c" [] []]]
    (by decide +kernel) ⟨_, fun _ => ⟨30, rfl⟩, by decide +kernel⟩ (by decide +kernel)

/-- A document of comments only is not written as JSON: all but the last are dropped, and there is a member without an object. -/
theorem C77_only_comments : printJsonDoc [.comment b#"1", .comment b#"2"] = some b#"\"//\":\"2\"\n" := by decide +kernel

/-- So the full claim is false. -/
theorem C77_false : ¬ JsonKeepsComments := by
  intro h
  refine C77_false_value.1 (h _ _ _ [b#"c"] [] C77_false_value.2 fun s hs => ascii_strOk s ?_)
  simp only [List.append_nil, List.mem_singleton] at hs
  subst hs
  decide

end Xmq.Props
