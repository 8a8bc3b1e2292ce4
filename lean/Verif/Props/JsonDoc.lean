import Verif.Lemmas.JsonDoc
import Verif.Props.JsonRoundTrip
import Verif.Props.JsonStrings
/-!
# C75: a document survives the conversion to JSON and back
-/
namespace Xmq.Props
open Spec

/-- A document is kept: it can be written, what is written is JSON, and reading that gives the document. -/
def KeepsDocument (n : Node) : Prop := ∃ out, printJson [n] = some out ∧ (∃ v, JDoc true JsonWs v out) ∧ ReadsJson out [n]

/-- **C75** in full: what is written as JSON for a document with a single element is JSON, and reading it gives the document. -/
def JsonKeepsDocument : Prop := ∀ name attrs kids, KeepsDocument (.element name attrs kids)

/-! ## Reading is a function of the text -/

/-- The same outcome, unless the fuel is used up. -/
def JRes.Le (a b : JRes) : Prop := a = .outOfFuel ∨ a = b

theorem JRes.Le.bind {a b : JRes} {f g : JSt → JRes} (h : JRes.Le a b) (hf : ∀ st, JRes.Le (f st) (g st)) : JRes.Le (a.bind f) (b.bind g) := by
  rcases h with rfl | rfl
  · exact .inl rfl
  · cases a with
    | ok st => exact hf st
    | err => exact .inr rfl
    | abort => exact .inr rfl
    | hang => exact .inr rfl
    | outOfFuel => exact .inl rfl

theorem JRes.Le.refl (a : JRes) : JRes.Le a a := .inr rfl

theorem arrayLoop_le {value value' : JSt → JRes} (h : ∀ st, JRes.Le (value st) (value' st)) (k k' : Nat) (hk : k ≤ k') (st : JSt) :
    JRes.Le (jsonArrayLoop value k st) (jsonArrayLoop value' k' st) := by
  induction k generalizing k' st with
  | zero => exact .inl rfl
  | succ k ih =>
    match k', hk with
    | k' + 1, hk =>
      rw [jsonArrayLoop, jsonArrayLoop]
      dsimp only
      repeat' split
      all_goals first
        | exact .refl _
        | refine JRes.Le.bind (h _) fun st => ?_
      split
      · exact ih k' (by omega) _
      · exact .refl _

theorem objectLoop_le {value value' : Option (List Byte) → JSt → JRes} (h : ∀ key st, JRes.Le (value key st) (value' key st)) (k k' : Nat) (hk : k ≤ k') (st : JSt) :
    JRes.Le (jsonObjectLoop value k st) (jsonObjectLoop value' k' st) := by
  induction k generalizing k' st with
  | zero => exact .inl rfl
  | succ k ih =>
    match k', hk with
    | k' + 1, hk =>
      rw [jsonObjectLoop, jsonObjectLoop]
      dsimp only
      repeat' split
      all_goals first
        | exact .refl _
        | refine JRes.Le.bind (h _ _) fun st => ?_
      split
      · exact ih k' (by omega) _
      · exact .refl _

theorem parseJson_le (dtdOk : List Byte → Bool) (f f' : Nat) (h : f ≤ f') (key : Option (List Byte)) (st : JSt) :
    JRes.Le (parseJson dtdOk f key st) (parseJson dtdOk f' key st) := by
  induction f generalizing f' key st with
  | zero => exact .inl rfl
  | succ f ih =>
    match f', h with
    | f' + 1, h =>
      rw [parseJson, parseJson]
      refine JRes.Le.bind ?_ fun _ => .refl _
      unfold parseJsonValue
      repeat' split
      all_goals first
        | exact .refl _
        | exact objectLoop_le (fun key st => ih f' (by omega) key st) f f' (by omega) _
        | exact arrayLoop_le (fun st => ih f' (by omega) none st) f f' (by omega) _

/-- A text is read as at most one document. -/
theorem C75_reads_unique {input : List Byte} {d d' : List Node} (h : ReadsJson input d) (h' : ReadsJson input d') : d = d' := by
  have le : ∀ dtdOk f f', f ≤ f' → JRes.Le (parseJsonBuffer dtdOk f input) (parseJsonBuffer dtdOk f' input) := by
    intro dtdOk f f' hf
    exact JRes.Le.bind (parseJson_le dtdOk f f' hf _ _) fun _ => .refl _
  obtain ⟨st, hp, hb⟩ := h
  obtain ⟨st', hp', hb'⟩ := h'
  obtain ⟨f, e⟩ := hp fun _ => true
  obtain ⟨f', e'⟩ := hp' fun _ => true
  have e1 : parseJsonBuffer (fun _ => true) (f + f') input = .ok st := by
    rcases le (fun _ => true) f (f + f') (by omega) with h | h <;> rw [e] at h
    · cases h
    · exact h.symm
  have e2 : parseJsonBuffer (fun _ => true) (f + f') input = .ok st' := by
    rcases le (fun _ => true) f' (f + f') (by omega) with h | h <;> rw [e'] at h
    · cases h
    · exact h.symm
  rw [e1] at e2
  cases e2
  rw [hb] at hb'
  exact Option.some.inj hb'

/-! ## What survives -/

/-- **C75**, the part that holds.  A document is written as a JSON text of RFC 8259, in which no object has a key twice, and read back as the same document, with its
    attributes, standalone texts, comments and repeated children in order, if
    * names are ASCII, start with a letter and have no colon; no attribute is called `A`, `S` or starts with `xmlns`,
      and no element has an attribute twice,
    * texts are UTF-8 without control characters that need `\u`,
    * there are no entity references, and no text is directly followed by another text,
    * a text alone in an element is a JSON number if it starts with a digit or minus and has only characters of numbers,
    * the root is not just a name with a text. -/
theorem C75_round_trip_partial (n : Node) (h : JsonRoot n) :
    ∃ out, printJson [n] = some out ∧ ReadsJson out [n] ∧
      ∃ v, JDoc false JsonWsN v out ∧ v.Ok JsonNumber (fun _ => True) (fun _ _ => True) (fun ms => ms.keys.Nodup) := by
  obtain ⟨h, name, attrs, kids, rfl, hr⟩ := h
  have hok := rootMembers_ok name attrs kids h
  have hj : JDoc false JsonWsN (.obj (membersOf (rootMembers name attrs kids))) (ser (.obj (membersOf (rootMembers name attrs kids))) ++ b#"\n") := by
    refine ⟨[], _, b#"\n", ws_nil _, ser_text_of _ (JV.Ok.imp (fun _ h => h.1) (fun _ h => h) (fun _ _ h => h.1) (fun _ _ => True.intro) _ hok), ?_, by simp⟩
    exact ⟨by decide, by intro h; cases h⟩
  refine ⟨_, write_docRoot name attrs kids h hr, ?_, _, hj, JV.Ok.imp (fun _ h => h.1) (fun _ _ => True.intro) (fun _ _ _ => True.intro) (fun _ h => h) _ hok⟩
  refine ⟨⟨[], (valToks none (.obj (membersOf (rootMembers name attrs kids)))).reverse, false⟩, fun dtdOk => ?_, ?_⟩
  · obtain ⟨N, hN⟩ := parse_doc dtdOk _ _ hj (JV.Ok.imp (fun _ h => h.2) (fun _ _ => True.intro) (fun _ _ h => h.2) (fun _ _ => True.intro) _ hok)
    exact ⟨N, hN N (Nat.le_refl _)⟩
  · rw [List.reverse_reverse]
    exact build_docRoot name attrs kids h

/-- Different documents are written differently. -/
theorem C75_injective_partial (n n' : Node) (h : JsonRoot n) (h' : JsonRoot n') (e : printJson [n] = printJson [n']) : n = n' := by
  obtain ⟨out, h1, h2, _⟩ := C75_round_trip_partial n h
  obtain ⟨out', h1', h2', _⟩ := C75_round_trip_partial n' h'
  rw [h1, h1'] at e
  cases e
  exact (List.cons.inj (C75_reads_unique h2 h2')).1

/-- The members can be found by name: attributes behind `_`, and elements and texts whose name occurs only once under their name, with
    true, false, null and numbers as such and every other text as a string. -/
theorem C75_lookup_partial (name : List Byte) (attrs : List Attr) (kids : List Node) (h : JsonRoot (.element name attrs kids)) :
    ∃ out ms, printJson [.element name attrs kids] = some out ∧ JDoc false JsonWsN (.obj ms) out ∧ ms.Has b#"_" (.str name) ∧
      (∀ a s, ⟨a, [.text s]⟩ ∈ attrs → ms.Has (b#'_' :: a) (.str s)) ∧ (∀ a, ⟨a, []⟩ ∈ attrs → ms.Has (b#'_' :: a) .null) ∧
      (∀ k s, .element k [] [.text s] ∈ kids → (kids.map jsonNodeName).count k = 1 → JsonNumber s → NoZeroE s → ms.Has k (.num s)) ∧
      (∀ k s, .element k [] [.text s] ∈ kids → (kids.map jsonNodeName).count k = 1 → ¬ NumberLike s → s ≠ b#"true" → s ≠ b#"false" → s ≠ b#"null" →
        ms.Has k (.str s)) ∧
      (∀ k, .element k [] [.text b#"true"] ∈ kids → (kids.map jsonNodeName).count k = 1 → ms.Has k (.bool true)) ∧
      (∀ k, .element k [] [.text b#"false"] ∈ kids → (kids.map jsonNodeName).count k = 1 → ms.Has k (.bool false)) ∧
      (∀ k, .element k [] [.text b#"null"] ∈ kids → (kids.map jsonNodeName).count k = 1 → ms.Has k .null) ∧
      (∀ s, .text s ∈ kids → (kids.map jsonNodeName).count b#"text" = 1 → ms.Has b#"|" (.str s)) ∧
      (∀ s, .comment s ∈ kids → (kids.map jsonNodeName).count b#"comment" = 1 → ms.Has b#"//" (.str s)) := by
  obtain ⟨h, name', attrs', kids', e, hr⟩ := h
  cases e
  have hok := rootMembers_ok name attrs kids h
  have hj : JDoc false JsonWsN (.obj (membersOf (rootMembers name attrs kids))) (ser (.obj (membersOf (rootMembers name attrs kids))) ++ b#"\n") := by
    refine ⟨[], _, b#"\n", ws_nil _, ser_text_of _ (JV.Ok.imp (fun _ h => h.1) (fun _ h => h) (fun _ _ h => h.1) (fun _ _ => True.intro) _ hok), ?_, by simp⟩
    exact ⟨by decide, by intro h; cases h⟩
  have hattr : ∀ a ∈ attrs, (membersOf (rootMembers name attrs kids)).Has (attrMember a).1 (attrMember a).2 := fun a ha =>
    membersOf_has (List.mem_cons_of_mem _ (List.mem_append_left _ (List.mem_map_of_mem ha)))
  have hkid : ∀ n ∈ kids, (kids.map jsonNodeName).count (jsonNodeName n) = 1 → (membersOf (rootMembers name attrs kids)).Has (nodeKey n) (jdocVal n) := by
    intro n hn hc
    refine membersOf_has (List.mem_cons_of_mem _ (List.mem_append_right _ ?_))
    exact jdocMembers_mem kids n hn _ _ hc
  have htext : ∀ k s, .element k [] [.text s] ∈ kids → (kids.map jsonNodeName).count k = 1 → (membersOf (rootMembers name attrs kids)).Has k (textVal s) := by
    intro k s hm hc
    have := hkid _ hm hc
    rwa [jdocVal_text] at this
  refine ⟨_, _, write_docRoot name attrs kids h hr, hj, .here _, fun a s ha => hattr _ ha, fun a ha => hattr _ ha, fun k s hm hc hn hz => ?_,
    fun k s hm hc hn h1 h2 h3 => ?_, fun k hm hc => ?_, fun k hm hc => ?_, fun k hm hc => ?_, fun s hm hc => ?_, fun s hm hc => ?_⟩
  · have hv := htext k s hm hc
    have hne : ∀ w, s = w → (w = b#"true" ∨ w = b#"false" ∨ w = b#"null") → False := by
      rintro w rfl hw
      have := (number_is ⟨hn, hz⟩).1
      rcases hw with rfl | rfl | rfl <;> revert this <;> decide
    unfold textVal at hv
    rw [if_neg fun e => hne _ e (.inl rfl), if_neg fun e => hne _ e (.inr (.inl rfl)), if_neg fun e => hne _ e (.inr (.inr rfl)), if_pos (number_is ⟨hn, hz⟩).1] at hv
    exact hv
  · have hv := htext k s hm hc
    unfold textVal at hv
    rw [if_neg h1, if_neg h2, if_neg h3, if_neg fun e => hn (numberLike_of e)] at hv
    exact hv
  · have hv := htext k _ hm hc
    unfold textVal at hv
    rwa [if_pos rfl] at hv
  · have hv := htext k _ hm hc
    unfold textVal at hv
    rwa [if_neg (by decide), if_pos rfl] at hv
  · have hv := htext k _ hm hc
    unfold textVal at hv
    rwa [if_neg (by decide), if_neg (by decide), if_pos rfl] at hv
  · have := hkid _ hm hc
    rwa [jdocVal] at this
  · have := hkid _ hm hc
    rwa [jdocVal] at this

/-- A case: `a(x=1 y){'one'/*c*/b b=2 'two'/*d*/c(z='')=true}`. -/
def jsonDocument : Node :=
  .element b#"a" [⟨b#"x", [.text b#"1"]⟩, ⟨b#"y", []⟩] [.text b#"one", .comment b#"c", .element b#"b" [] [], .element b#"b" [] [.text b#"2"],
    .text b#"two", .comment b#"d", .element b#"c" [⟨b#"z", [.text []]⟩] [.text b#"true"]]

/-- It is written with indices. -/
theorem jsonDocument_written : printJson [jsonDocument] = some
    b#"{\"_\":\"a\",\"_x\":\"1\",\"_y\":null,\"|[0]\":\"one\",\"//[0]\":\"c\",\"b[0]\":{},\"b[1]\":2,\"|[1]\":\"two\",\"//[1]\":\"d\",\"c\":{\"_z\":\"\",\"|\":\"true\"}}\n" := by
  decide +kernel

theorem ascii_strOk (s : List Byte) (h : ∀ c ∈ s, 0x20 ≤ c ∧ c < 0x7f) : StrOk s := by
  refine ⟨validUtf8_ascii s fun c hc => ?_, fun c hc => ?_⟩
  · have := h c hc
    grind
  · have := h c hc
    unfold JsonByte
    grind

/-- It meets the conditions. -/
example : JsonRoot jsonDocument := by
  have name : ∀ c t, JLetter c → (∀ x ∈ t, JNameByte x) → NameKey (c :: t) := fun c t hc ht => ⟨c, t, rfl, hc, ht⟩
  have h2 : JsonNumber b#"2" := ⟨[], b#"2", [], [], rfl, .inl rfl, .inr ⟨⟨by decide, by simp [JDigit]⟩, by decide⟩, .inl rfl, .inl rfl⟩
  have n2 : ∀ (n : List Byte), NameKey n → JsonNode (.element n [] []) := by
    intro n h
    rw [JsonNode]
    exact ⟨h, by simp, by simp, by simp, by rw [JsonNodes]; trivial⟩
  refine ⟨?_, _, _, _, rfl, by simp⟩
  unfold jsonDocument
  simp only [JsonNode, JsonNodes]
  refine ⟨name _ _ (by decide) (by simp), ⟨?_, by decide⟩, by simp, ?_, ascii_strOk _ (by decide), ascii_strOk _ (by decide), ⟨name _ _ (by decide) (by simp), by simp, by simp, by simp, trivial⟩,
    ⟨name _ _ (by decide) (by simp), by simp, ?_, ?_, ascii_strOk _ (by decide), trivial⟩, ascii_strOk _ (by decide), ascii_strOk _ (by decide),
    ⟨name _ _ (by decide) (by simp), ⟨?_, by decide⟩, by simp, ?_, ascii_strOk _ (by decide), trivial⟩, trivial⟩
  · intro a ha
    simp only [List.mem_cons, List.not_mem_nil, or_false] at ha
    rcases ha with rfl | rfl
    · exact ⟨name _ _ (by decide) (by simp), by decide, by decide, by decide, .inr ⟨_, rfl, ascii_strOk _ (by decide)⟩⟩
    · exact ⟨name _ _ (by decide) (by simp), by decide, by decide, by decide, .inl rfl⟩
  · intro pre a b post e
    match pre, e with
    | [], e => simp at e
    | [_], e => simp at e
    | [_, _], e => simp at e
    | [_, _, _], e => simp at e
    | [_, _, _, _], e => simp at e
    | [_, _, _, _, _], e => simp at e
    | [_, _, _, _, _, _], e => simp at e
    | _ :: _ :: _ :: _ :: _ :: _ :: _ :: pre, e => simp at e
  · intro _ s e _
    cases e
    exact h2
  · intro pre a b post e
    match pre, e with
    | [], e => simp at e
    | _ :: pre, e => simp at e
  · intro a ha
    rw [List.mem_singleton.1 ha]
    exact ⟨name _ _ (by decide) (by simp), by decide, by decide, by decide, .inr ⟨_, rfl, ascii_strOk _ (by decide)⟩⟩
  · intro pre a b post e
    match pre, e with
    | [], e => simp at e
    | _ :: pre, e => simp at e

/-! ## What does not survive -/

theorem not_keeps {n : Node} (out : List Byte) (d : List Node) (h : printJson [n] = some out) (hr : ReadsJson out d) (hd : (d == [n]) = false) : ¬ KeepsDocument n := by
  rintro ⟨out', h', _, hr'⟩
  rw [h] at h'
  cases h'
  rw [C75_reads_unique hr hr'] at hd
  simp at hd

/-- The name of a root that has only a text is lost: `a=1` is written as `1`. -/
theorem C75_false_root : ¬ KeepsDocument (.element b#"a" [] [.text b#"1"]) :=
  not_keeps b#"1\n" [.element b#"_" [] [.text b#"1"]] (by decide +kernel) ⟨_, fun _ => ⟨30, rfl⟩, by decide +kernel⟩ (by decide +kernel)

/-- An element whose name starts with `_` becomes an attribute. -/
theorem C75_false_underscore : ¬ KeepsDocument (.element b#"a" [] [.element b#"_x" [] [.text b#"t"]]) :=
  not_keeps b#"{\"_\":\"a\",\"_x\":\"t\"}\n" [.element b#"a" [⟨b#"x", [.text b#"t"]⟩] []] (by decide +kernel) ⟨_, fun _ => ⟨30, rfl⟩, by decide +kernel⟩
    (by decide +kernel)

/-- A character reference becomes an element. -/
theorem C75_false_entity : ¬ KeepsDocument (.element b#"a" [] [.element b#"b" [] [], .entity b#"n"]) :=
  not_keeps b#"{\"_\":\"a\",\"b\":{},\"&\":\"&n;\"}\n" [.element b#"a" [] [.element b#"b" [] [], .element b#"_" [⟨b#"_", [.text b#"&"]⟩] [.text b#"&n;"]]]
    (by decide +kernel) ⟨_, fun _ => ⟨30, rfl⟩, by decide +kernel⟩ (by decide +kernel)

/-- An attribute `S` is lost unless the value needs it. -/
theorem C75_false_S : ¬ KeepsDocument (.element b#"a" [] [.element b#"b" [⟨b#"S", []⟩] [.text b#"t"]]) :=
  not_keeps b#"{\"_\":\"a\",\"b\":\"t\"}\n" [.element b#"a" [] [.element b#"b" [] [.text b#"t"]]] (by decide +kernel) ⟨_, fun _ => ⟨30, rfl⟩, by decide +kernel⟩
    (by decide +kernel)

/-- An element called `text` and a text are counted together: the index `[1]` is given to the only text. -/
theorem C75_counted_together : printJson [.element b#"a" [] [.element b#"text" [] [], .text b#"t"]] = some b#"{\"_\":\"a\",\"text[0]\":{},\"|[1]\":\"t\"}\n" := by
  decide +kernel

/-- So the full claim is false. -/
theorem C75_false : ¬ JsonKeepsDocument := fun h => C75_false_root (h _ _ _)

end Xmq.Props
