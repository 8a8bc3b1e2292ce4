import Verif.Spec.JsonDoc
import Verif.Lemmas.JsonWrite
/-!
# Lemmas for documents written as JSON
-/
namespace Xmq
open Spec

/-! ## The value written for a document -/

/-- Members from a list. -/
def membersOf : List (List Byte × JV) → JMs
  | [] => .nil
  | m :: t => .cons m.1 m.2 (membersOf t)

open Classical in
/-- The value for a text alone in an element. -/
noncomputable def textVal (s : List Byte) : JV :=
  if s = b#"true" then .bool true
  else if s = b#"false" then .bool false
  else if s = b#"null" then .null
  else if jsonIsNumber s = true then .num s
  else .str s

/-- The member for an attribute. -/
def attrMember (a : Attr) : List Byte × JV := (b#'_' :: a.name, match a.value with | [.text s] => .str s | _ => .null)

/-- The key for a node. -/
def nodeKey : Node → List Byte
  | .text _ => b#"|"
  | .comment _ => b#"//"
  | .entity n => n
  | .element n _ _ => n

mutual
/-- The value for a node. -/
noncomputable def jdocVal : Node → JV
  | .text s => .str s
  | .comment s => .str s
  | .entity _ => .null
  | .element _ attrs kids =>
    match attrs, kids with
    | [], [.text s] => textVal s
    | attrs, kids => .obj (membersOf (attrs.map attrMember ++ jdocMembers (kids.map jsonNodeName) [] kids))
/-- The members for the children. -/
noncomputable def jdocMembers (names done : List (List Byte)) : List Node → List (List Byte × JV)
  | [] => []
  | n :: t => (nodeKey n ++ indexSuffix (nameCount names (jsonNodeName n)) (nameCount done (jsonNodeName n)), jdocVal n) ::
      jdocMembers names (jsonNodeName n :: done) t
end

theorem jdocVal_obj (name : List Byte) (attrs : List Attr) (kids : List Node) (h : attrs = [] → ∀ s, kids ≠ [.text s]) :
    jdocVal (.element name attrs kids) = .obj (membersOf (attrs.map attrMember ++ jdocMembers (kids.map jsonNodeName) [] kids)) := by
  rw [jdocVal]
  exact fun s ha hk => h ha s hk

theorem jdocVal_text (name s : List Byte) : jdocVal (.element name [] [.text s]) = textVal s := by rw [jdocVal]

/-! ## Numbers -/

theorem jnumLoop_all (s : List Byte) : ∀ (st : JNum) (n : Nat), jnumLoop st n s = some (n + s.length) →
    ∀ c ∈ s, JDigit c ∨ c = b#'.' ∨ c = b#'e' ∨ c = b#'E' ∨ c = b#'+' ∨ c = b#'-' := by
  induction s with
  | nil => intro st n _ c hc; cases hc
  | cons c t ih =>
    intro st n h
    have step : ∀ st', (JDigit c ∨ c = b#'.' ∨ c = b#'e' ∨ c = b#'E' ∨ c = b#'+' ∨ c = b#'-') → jnumLoop st' (n + 1) t = some (n + (c :: t).length) →
        ∀ x ∈ c :: t, JDigit x ∨ x = b#'.' ∨ x = b#'e' ∨ x = b#'E' ∨ x = b#'+' ∨ x = b#'-' := by
      intro st' hc h x hx
      rcases List.mem_cons.1 hx with rfl | hx
      · exact hc
      · exact ih st' (n + 1) (by rw [h]; simp only [List.length_cons]; congr 1; omega) x hx
    have stop : some n = some (n + (c :: t).length) → ∀ x ∈ c :: t, JDigit x ∨ x = b#'.' ∨ x = b#'e' ∨ x = b#'E' ∨ x = b#'+' ∨ x = b#'-' := by
      intro h
      have := Option.some.inj h
      simp only [List.length_cons] at this
      omega
    rw [jnumLoop] at h
    dsimp only at h
    repeat' split at h
    all_goals first
      | exact stop h
      | (refine step _ ?_ h; rw [← isDigit_iff]; clear ih step stop h; grind)
      | cases h

theorem numberLike_of {s : List Byte} (h : jsonIsNumber s = true) : NumberLike s := by
  simp only [jsonIsNumber, beq_iff_eq] at h
  cases s with
  | nil => cases h
  | cons c t =>
    unfold isJnumber at h
    dsimp only at h
    split at h
    · cases h
    · rename_i hc
      have hc' : JDigit c ∨ c = b#'-' := by
        rw [← isDigit_iff]
        cases hd : isDigit c <;> simp_all
      refine ⟨⟨c, t, rfl, hc'⟩, fun x hx => ?_⟩
      rcases List.mem_cons.1 hx with rfl | hx
      · rcases hc' with h | h
        · exact .inl h
        · exact .inr (.inr (.inr (.inr (.inr h))))
      · exact jnumLoop_all t _ 1 (by rw [h]; simp only [List.length_cons]; congr 1; omega) x hx

theorem noZeroE_of {s : List Byte} (h : jsonIsNumber s = true) : NoZeroE s := by
  simp only [jsonIsNumber, beq_iff_eq] at h
  constructor <;>
  · intro e
    match s, e with
    | c :: d :: t, e =>
      simp at e
      obtain ⟨rfl, rfl⟩ := e
      revert h
      simp [isJnumber, jnumLoop, isDigit, hasNumberEnded]

/-! ## Writing -/

theorem sepOf_plain {s : List Byte} (h : s = b#"true" ∨ s = b#"false" ∨ s = b#"null") : ¬ JSep ((s.getLast?).getD 0) := by
  rcases h with rfl | rfl | rfl <;> decide

/-- The members of an object behind a comma each. -/
def serAll (l : List (List Byte × JV)) : List Byte := l.flatMap fun m => b#',' :: (serStr m.1 ++ b#':' :: ser m.2)

theorem serMembs_membersOf (l : List (List Byte × JV)) : serMembs (membersOf l) = serAll l := by
  induction l with
  | nil => rfl
  | cons m l ih =>
    rw [membersOf, serMembs, ih, serAll, serAll, List.flatMap_cons]
    simp

theorem ser_obj (l : List (List Byte × JV)) : ser (.obj (membersOf l)) = b#'{' :: ((serAll l).tail ++ [b#'}']) := by
  cases l with
  | nil => rw [membersOf, ser]; rfl
  | cons m l =>
    rw [membersOf, ser, serMembs_membersOf]
    simp [serAll]

/-- From `ps` the members were written and led to `ps'`. -/
structure Wrote (ps : JP) (l : List (List Byte × JV)) (ps' : JP) : Prop where
  out : ps'.out = ps.out ++ (if JSep ps.last then (serAll l).tail else serAll l)
  same : l = [] → ps' = ps
  last : l ≠ [] → ¬ JSep ps'.last

theorem Wrote.nil (ps : JP) : Wrote ps [] ps := ⟨by simp [serAll], fun _ => rfl, fun h => absurd rfl h⟩

theorem serAll_append (a b : List (List Byte × JV)) : serAll (a ++ b) = serAll a ++ serAll b := by simp [serAll]

theorem Wrote.append {ps ps1 ps2 : JP} {a b : List (List Byte × JV)} (h : Wrote ps a ps1) (h' : Wrote ps1 b ps2) : Wrote ps (a ++ b) ps2 := by
  cases a with
  | nil => rw [List.nil_append, ← h.same rfl]; exact h'
  | cons m a =>
    have hl := h.last (by simp)
    refine ⟨?_, fun e => by simp at e, fun _ => ?_⟩
    · rw [h'.out, if_neg hl, h.out, serAll_append]
      have e : (serAll (m :: a)).tail ++ serAll b = (serAll (m :: a) ++ serAll b).tail := by
        rw [serAll, List.flatMap_cons]; rfl
      split
      · rw [List.append_assoc, e]
      · rw [List.append_assoc]
    · by_cases hb : b = []
      · rw [h'.same hb]; exact hl
      · exact h'.last hb

theorem Wrote.one {ps ps' : JP} {k : List Byte} {v : JV} (h : ps'.out = ps.comma.out ++ serStr k ++ b#':' :: ser v) (hl : ¬ JSep ps'.last) :
    Wrote ps [(k, v)] ps' := by
  refine ⟨?_, fun e => by simp at e, fun _ => hl⟩
  rw [h]
  by_cases hs : JSep ps.last
  · rw [comma_of_sep ps hs, if_pos hs]; simp [serAll]
  · rw [comma_of_not ps hs, if_neg hs]; simp [serAll]

/-- Keys whose bytes need no escape. -/
theorem cEsc_plain {k : List Byte} (h : ∀ c ∈ k, cEsc c = [c]) : k.flatMap cEsc = k := by
  induction k with
  | nil => rfl
  | cons c t ih => rw [List.flatMap_cons, h c List.mem_cons_self, ih fun x hx => h x (List.mem_cons_of_mem _ hx)]; rfl

theorem indexSuffix_plain (t u : Nat) : ∀ c ∈ indexSuffix t u, cEsc c = [c] ∧ JsonByte c := by
  intro c hc
  unfold indexSuffix at hc
  split at hc
  · simp only [List.mem_append, List.mem_singleton, List.mem_cons, List.not_mem_nil, or_false] at hc
    rcases hc with (rfl | hc) | rfl
    · decide
    · have := Props.decDigits_isDigit _ _ c hc
      revert this
      unfold Props.IsDigit
      exact forall_byte (P := fun c => 48 ≤ c ∧ c ≤ 57 → cEsc c = [c] ∧ JsonByte c) (by decide +kernel) c
    · decide
  · cases hc

theorem nameKey_bytes {k : List Byte} (h : NameKey k) : ∀ c ∈ k, cEsc c = [c] ∧ JsonByte c := by
  have hb : ∀ c, JNameByte c → cEsc c = [c] ∧ JsonByte c := fun c =>
    forall_byte (P := fun c => JNameByte c → cEsc c = [c] ∧ JsonByte c) (by decide +kernel) c
  obtain ⟨c, t, rfl, hc, ht⟩ := h
  intro x hx
  rcases List.mem_cons.1 hx with rfl | hx
  · exact hb _ (.inl hc)
  · exact hb x (ht x hx)

theorem serStr_plain {k : List Byte} (h : ∀ c ∈ k, cEsc c = [c] ∧ JsonByte c) : serStr k = b#'"' :: (k ++ [b#'"']) := by
  rw [serStr, cEsc_plain fun c hc => (h c hc).1]

theorem nodeKey_bytes (n : Node) (h : JsonNode n) (t u : Nat) : ∀ c ∈ nodeKey n ++ indexSuffix t u, cEsc c = [c] ∧ JsonByte c := by
  intro c hc
  rcases List.mem_append.1 hc with hc | hc
  · cases n with
    | text s =>
      have : ∀ c ∈ b#"|", cEsc c = [c] ∧ JsonByte c := by decide
      exact this c hc
    | comment s =>
      have : ∀ c ∈ b#"//", cEsc c = [c] ∧ JsonByte c := by decide
      exact this c hc
    | entity n => rw [JsonNode] at h; exact h.elim
    | element name attrs kids => rw [JsonNode] at h; exact nameKey_bytes h.1 c hc
  · exact indexSuffix_plain t u c hc

theorem write_elementName (ps : JP) {name : List Byte} (h : NameKey name) (attrs : List Attr) (t u : Nat) :
    ps.elementName name attrs t u = some ⟨ps.out ++ serStr (name ++ indexSuffix t u), b#'"'⟩ := by
  have hu := (jsonString_name h).2.2.2
  have hp : ∀ c ∈ name ++ indexSuffix t u, cEsc c = [c] ∧ JsonByte c := nodeKey_bytes (.element name [] []) (by rw [JsonNode]; exact ⟨h, by simp, by simp, by simp, by rw [JsonNodes]; trivial⟩) t u
  rw [serStr_plain hp]
  unfold JP.elementName
  dsimp only
  rw [if_pos (by simpa using hu), Option.map_some]
  simp [print_out, nodeKey]

theorem write_textVal (ps : JP) (s : List Byte) (h : StrOk s) (hn : NumberLike s → JsonNumber s) :
    ∃ l, ps.value s false = some ⟨ps.out ++ ser (textVal s), l⟩ ∧ ¬ JSep l := by
  unfold textVal
  split
  · rename_i e
    exact ⟨_, by rw [value_plain ps s (by rw [e]; decide), ser, e], by decide⟩
  split
  · rename_i e
    exact ⟨_, by rw [value_plain ps s (by rw [e]; decide), ser, e], by decide⟩
  split
  · rename_i e
    exact ⟨_, by rw [value_plain ps s (by rw [e]; decide), ser, e], by decide⟩
  rename_i h1 h2 h3
  split
  · rename_i e
    exact ⟨_, by rw [value_plain ps s (by rw [e]; rfl), ser], (number_is ⟨hn (numberLike_of e), noZeroE_of e⟩).2⟩
  · rename_i e
    refine ⟨_, ?_, show ¬ JSep b#'"' by decide⟩
    rw [ser]
    exact value_string ps s h false fun _ => .inr (by simp [jsonIsKeyword, h1, h2, h3, e])

theorem quoteAsC_ser {s : List Byte} (h : StrOk s) : quoteAsC s true = some (serStr s) := by
  have := quoteAsC_eq s h.1 (by
    intro x hx e
    have := h.2 x hx
    revert this
    rw [e]
    decide)
  have := quoteAsC_quotes _ _ this
  rw [this]; rfl

theorem write_attribute (ps : JP) (a : Attr) (h : JsonAttr a) : ∃ ps', ps.attribute a = some ps' ∧ Wrote ps [attrMember a] ps' := by
  have hn := jsonString_name h.name
  have hb := nameKey_bytes h.name
  have hq : quoteAsC a.name false = some a.name := by
    rw [quoteAsC_eq _ hn.2.2.1 (by
      intro x hx e
      have := hn.1 x hx
      revert this
      rw [e]
      decide), hn.2.1]
  unfold JP.attribute
  rw [if_neg (by simpa using hn.2.2.2), hq]
  dsimp only [Option.bind_some]
  have hk : serStr (b#'_' :: a.name) = b#'"' :: b#'_' :: (a.name ++ [b#'"']) := serStr_plain (k := b#'_' :: a.name) (by
    intro c hc
    rcases List.mem_cons.1 hc with rfl | hc
    · decide
    · exact hb c hc)
  rcases h.value with hv | ⟨s, hv, hs⟩
  · refine ⟨_, by rw [hv]; rfl, ?_⟩
    rw [attrMember, hv]
    refine .one ?_ ?_
    · rw [hk]; simp [print_out, ser]
    · show ¬ JSep b#'l'; decide
  · have hat : attrString a = some s := by simp [attrString, hv]
    refine ⟨(((ps.comma.print b#"\"_").print a.name).print b#"\":").print (serStr s), by
      rw [if_neg (by simp [hv]), hat, Option.bind_some, quoteAsC_ser hs, Option.map_some], ?_⟩
    rw [attrMember, hv]
    refine .one ?_ ?_
    · rw [hk]; simp [print_out, ser]
    · unfold JP.print
      rw [show serStr s = (b#'"' :: s.flatMap cEsc) ++ [b#'"'] from rfl, List.getLast?_append]
      show ¬ JSep b#'"'
      decide

theorem write_attributes (attrs : List Attr) (h : ∀ a ∈ attrs, JsonAttr a) (ps : JP) :
    ∃ ps', ps.attributes attrs = some ps' ∧ Wrote ps (attrs.map attrMember) ps' := by
  induction attrs generalizing ps with
  | nil => exact ⟨ps, rfl, .nil ps⟩
  | cons a t ih =>
    obtain ⟨p1, e1, w1⟩ := write_attribute ps a (h a List.mem_cons_self)
    obtain ⟨p2, e2, w2⟩ := ih (fun x hx => h x (List.mem_cons_of_mem _ hx)) p1
    refine ⟨p2, ?_, Wrote.append w1 w2⟩
    unfold JP.attributes at e2 ⊢
    rw [List.foldlM_cons, e1]
    exact e2

theorem jsonAttr_other {attrs : List Attr} (h : ∀ a ∈ attrs, JsonAttr a) : attrOf attrs b#"A" = none ∧ attrOf attrs b#"S" = none ∧
    (attrs ≠ [] → hasAttrOtherThanAS attrs = true) := by
  refine ⟨?_, ?_, fun hne => ?_⟩
  · simp only [attrOf, List.find?_eq_none, beq_iff_eq]
    exact fun a ha => (h a ha).notA
  · simp only [attrOf, List.find?_eq_none, beq_iff_eq]
    exact fun a ha => (h a ha).notS
  · cases attrs with
    | nil => exact absurd rfl hne
    | cons a t =>
      have := h a List.mem_cons_self
      simp [hasAttrOtherThanAS, this.notA, this.notS, (jsonString_name this.name).2.2.2]

theorem keyValues_pair {kids : List Node} (h : JsonNodes kids) (hp : ∀ pre a b post, kids ≠ pre ++ .text a :: .text b :: post)
    (hk : (keyValues kids).isSome = true) : ∃ s, kids = [.text s] := by
  match kids, h with
  | [], _ => cases hk
  | [n], h =>
    rw [JsonNodes] at h
    cases n with
    | text s => exact ⟨s, rfl⟩
    | entity s => have := h.1; rw [JsonNode] at this; exact this.elim
    | comment s => simp [keyValues, Node.val?] at hk
    | element _ _ _ => simp [keyValues, Node.val?] at hk
  | n :: m :: t, h =>
    exfalso
    rw [JsonNodes, JsonNodes] at h
    have key : ∀ n : Node, JsonNode n → n.val?.isSome = true → ∃ s, n = .text s := by
      intro n h hv
      cases n with
      | text s => exact ⟨s, rfl⟩
      | entity s => rw [JsonNode] at h; exact h.elim
      | comment s => cases hv
      | element _ _ _ => cases hv
    unfold keyValues at hk
    rw [if_neg (by simp), List.mapM_cons, List.mapM_cons] at hk
    cases hn : n.val? with
    | none => rw [hn] at hk; cases hk
    | some v =>
      cases hm : m.val? with
      | none => rw [hn, hm] at hk; cases hk
      | some w =>
        obtain ⟨a, rfl⟩ := key n h.1 (by rw [hn]; rfl)
        obtain ⟨b, rfl⟩ := key m h.2.1 (by rw [hm]; rfl)
        exact hp [] a b t rfl

mutual
theorem write_docNode : (n : Node) → JsonNode n → (ps : JP) → (t u : Nat) → 1 ≤ t →
    ∃ ps', JP.node ps true t u n = some ps' ∧ Wrote ps [(nodeKey n ++ indexSuffix t u, jdocVal n)] ps'
  | .text s, h, ps, t, u, ht => by
    have hb := nodeKey_bytes _ h t u
    rw [JsonNode] at h
    have hq := quoteAsC_eq s h.1 (by
      intro x hx e
      have := h.2 x hx
      revert this
      rw [e]
      decide)
    refine ⟨_, by rw [JP.node, JP.standaloneQuote, hq]; rfl, .one ?_ (show ¬ JSep b#'"' by decide)⟩
    have e : (if t = 1 then [] else b#"[" ++ decDigits (u + 1) u ++ b#"]") = indexSuffix t u := by
      unfold indexSuffix
      split
      · rw [if_neg (by omega)]
      · rw [if_pos (by omega)]
    rw [serStr_plain hb, e, jdocVal, ser, serStr]
    simp [print_out, nodeKey]
  | .comment s, h, ps, t, u, ht => by
    have hb := nodeKey_bytes _ h t u
    rw [JsonNode] at h
    refine ⟨_, by rw [JP.node, JP.comment, value_string _ s h true (by simp)], .one ?_ (show ¬ JSep b#'"' by decide)⟩
    rw [serStr_plain hb, jdocVal, ser]
    simp [print_out, nodeKey]
  | .entity n, h, ps, t, u, ht => by rw [JsonNode] at h; exact h.elim
  | .element name attrs kids, h, ps, t, u, ht => by
    rw [JsonNode] at h
    obtain ⟨hn, ⟨ha, had⟩, hnum, hp, hk⟩ := h
    obtain ⟨hA, hS, hO⟩ := jsonAttr_other ha
    have hu := (jsonString_name hn).2.2.2
    by_cases hkv : attrs = [] ∧ ∃ s, kids = [.text s]
    · obtain ⟨rfl, s, rfl⟩ := hkv
      rw [JsonNodes, JsonNode] at hk
      obtain ⟨l, hv, hl⟩ := write_textVal ((⟨ps.comma.out ++ serStr (name ++ indexSuffix t u), b#'"'⟩ : JP).print b#":") s hk.1 (hnum rfl s rfl)
      refine ⟨⟨((⟨ps.comma.out ++ serStr (name ++ indexSuffix t u), b#'"'⟩ : JP).print b#":").out ++ ser (textVal s), l⟩, ?_, .one ?_ hl⟩
      · rw [JP.node, if_neg (by simp), if_pos (by simp [keyValues, Node.val?])]
        unfold JP.keyNode
        dsimp only
        rw [write_elementName _ hn]
        simp only [if_true, Option.map_some, Option.bind_some]
        rw [show (attrOf [] b#"S").isSome = false from rfl, hv]
      · rw [jdocVal_text, print_out]
        simp [nodeKey]
    · have hobj : attrs = [] → ∀ s, kids ≠ [.text s] := fun e s e' => hkv ⟨e, s, e'⟩
      rw [jdocVal_obj name attrs kids hobj]
      have wrap : ∀ ps' : JP, Wrote ⟨ps.comma.out ++ serStr (name ++ indexSuffix t u) ++ b#":" ++ b#"{", b#'{'⟩
          (attrs.map attrMember ++ jdocMembers (kids.map jsonNodeName) [] kids) ps' →
          Wrote ps [(nodeKey (.element name attrs kids) ++ indexSuffix t u,
            .obj (membersOf (attrs.map attrMember ++ jdocMembers (kids.map jsonNodeName) [] kids)))] ⟨ps'.out ++ b#"}", b#'}'⟩ := by
        intro ps' hw
        refine .one ?_ (show ¬ JSep b#'}' by decide)
        rw [ser_obj, hw.out, if_pos (show JSep b#'{' by decide)]
        simp [nodeKey]
      obtain ⟨p1, e1, w1⟩ := write_attributes attrs ha ⟨ps.comma.out ++ serStr (name ++ indexSuffix t u) ++ b#":" ++ b#"{", b#'{'⟩
      by_cases he : kids = []
      · subst he
        rw [jdocMembers, List.append_nil] at wrap ⊢
        refine ⟨_, ?_, wrap p1 w1⟩
        rw [JP.node, if_pos (by simp)]
        unfold JP.leaf
        dsimp only
        rw [if_pos (by simpa using hu), write_elementName _ hn, hA]
        simp only [Option.map_some, Option.bind_some, Option.isSome_none, Bool.false_eq_true, if_false]
        cases attrs with
        | nil =>
          have := w1.same rfl
          subst this
          simp [JP.write]
        | cons a t =>
          rw [if_pos (by simp)]
          simp only [JP.write]
          rw [e1]
          rfl
      · obtain ⟨p2, e2, w2⟩ := write_docNodes kids hk (kids.map jsonNodeName) [] p1 (fun n hn => List.mem_map_of_mem hn)
        refine ⟨_, ?_, wrap p2 (w1.append w2)⟩
        rw [JP.node, if_neg (by simp [he]), if_neg, if_neg (by rw [hA]; simp)]
        · dsimp only
          rw [write_elementName _ hn]
          simp only [if_true, Option.map_some, Option.bind_some]
          rw [if_neg (by simp)]
          simp only [Option.bind_some]
          rw [print_out, e1]
          simp only [Option.bind_some]
          rw [e2]
          rfl
        · intro hc
          rw [Bool.and_eq_true] at hc
          obtain ⟨s, hs⟩ := keyValues_pair hk hp hc.1
          have hne : attrs ≠ [] := fun e => hkv ⟨e, s, hs⟩
          rw [hO hne] at hc
          simp [hne] at hc
theorem write_docNodes : (l : List Node) → JsonNodes l → (names done : List (List Byte)) → (ps : JP) → (∀ n ∈ l, jsonNodeName n ∈ names) →
    ∃ ps', JP.objectNodes ps true names done l = some ps' ∧ Wrote ps (jdocMembers names done l) ps'
  | [], _, names, done, ps, _ => ⟨ps, by rw [JP.objectNodes], by rw [jdocMembers]; exact .nil ps⟩
  | n :: l, h, names, done, ps, hm => by
    rw [JsonNodes] at h
    have hc : 1 ≤ nameCount names (jsonNodeName n) := List.count_pos_iff.2 (hm n List.mem_cons_self)
    obtain ⟨p1, e1, w1⟩ := write_docNode n h.1 ps _ (nameCount done (jsonNodeName n)) hc
    obtain ⟨p2, e2, w2⟩ := write_docNodes l h.2 names (jsonNodeName n :: done) p1 fun x hx => hm x (List.mem_cons_of_mem _ hx)
    refine ⟨p2, ?_, by rw [jdocMembers]; exact Wrote.append w1 w2⟩
    have hu : (jsonNodeName n == b#"_") = false := by
      cases n with
      | text s => rfl
      | comment s => rfl
      | entity s => have := h.1; rw [JsonNode] at this; exact this.elim
      | element name attrs kids =>
        have := h.1
        rw [JsonNode] at this
        simpa [jsonNodeName] using (jsonString_name this.1).2.2.2
    rw [JP.objectNodes]
    rw [hu]
    simp only [Bool.false_eq_true, if_false]
    rw [e1]
    simp only [Option.bind_some]
    exact e2
end

/-- The members for the root. -/
noncomputable def rootMembers (name : List Byte) (attrs : List Attr) (kids : List Node) : List (List Byte × JV) :=
  (b#"_", .str name) :: (attrs.map attrMember ++ jdocMembers (kids.map jsonNodeName) [] kids)

theorem write_docRoot (name : List Byte) (attrs : List Attr) (kids : List Node) (h : JsonNode (.element name attrs kids))
    (hr : attrs = [] → ∀ s, kids ≠ [.text s]) :
    printJson [.element name attrs kids] = some (ser (.obj (membersOf (rootMembers name attrs kids))) ++ b#"\n") := by
  rw [JsonNode] at h
  obtain ⟨hn, ⟨ha, had⟩, _, hp, hk⟩ := h
  obtain ⟨hA, hS, hO⟩ := jsonAttr_other ha
  have hu := (jsonString_name hn).2.2.2
  have w0 : Wrote ⟨b#"{", b#'{'⟩ [(b#"_", .str name)] ⟨b#"{" ++ b#"\"_\":" ++ serStr name, b#'"'⟩ := by
    refine .one ?_ (show ¬ JSep b#'"' by decide)
    rw [ser, show serStr b#"_" = b#"\"_\"" by decide, comma_of_sep _ (show JSep b#'{' by decide)]
    simp
  obtain ⟨p1, e1, w1⟩ := write_attributes attrs ha ⟨b#"{" ++ b#"\"_\":" ++ serStr name, b#'"'⟩
  obtain ⟨p2, e2, w2⟩ := write_docNodes kids hk (kids.map jsonNodeName) [] p1 (fun n hn => List.mem_map_of_mem hn)
  have hw := w0.append (w1.append w2)
  have ho := hw.out
  rw [if_pos (show JSep b#'{' by decide)] at ho
  have hnode : JP.node ⟨[], 0⟩ false 1 0 (.element name attrs kids) = some ⟨p2.out ++ b#"}", b#'}'⟩ := by
    rw [JP.node, if_neg (by simp), if_neg, if_neg (by rw [hA]; simp)]
    · have hc : (⟨[], 0⟩ : JP).comma = ⟨[], 0⟩ := rfl
      dsimp only
      rw [hc]
      simp only [Bool.false_eq_true, if_false, Option.bind_some, Bool.not_false, Bool.true_and]
      rw [if_pos (by simpa using hu), write_elementName _ hn, print_out, comma_of_sep _ (show JSep b#'{' by decide)]
      simp only [Option.bind_some, List.nil_append]
      rw [show indexSuffix 1 0 = [] from rfl, List.append_nil, e1]
      simp only [Option.bind_some]
      rw [e2]
      rfl
    · intro hc
      rw [Bool.and_eq_true] at hc
      obtain ⟨s, hs⟩ := keyValues_pair hk hp hc.1
      have hne : attrs ≠ [] := fun e => hr e s hs
      rw [hO hne] at hc
      simp [hne] at hc
  unfold printJson
  dsimp only
  rw [JP.objectNodes]
  have hc : nameCount [jsonNodeName (.element name attrs kids)] (jsonNodeName (.element name attrs kids)) = 1 := by simp [nameCount]
  rw [if_neg (by simpa [jsonNodeName] using hu), hc, show nameCount [] (jsonNodeName (.element name attrs kids)) = 0 from rfl, hnode]
  simp only [Option.bind_some]
  rw [JP.objectNodes, ser_obj, rootMembers]
  simp only [Option.map_some]
  rw [ho]
  simp

/-! ## Reading -/

theorem valToks_trim {k k' : List Byte} (h : trimIndexSuffix k' = trimIndexSuffix k) (v : JV) : valToks (some k') v = valToks (some k) v := by
  have hm : (some k').map trimIndexSuffix = (some k).map trimIndexSuffix := by simp [h]
  have hi : keyInfo (some k') = keyInfo (some k) := by unfold keyInfo; rw [hm]
  have hl : ∀ s, literalToks (some k') s = literalToks (some k) s := by intro s; unfold literalToks; rw [hi]
  cases v with
  | str s => rw [valToks, valToks]; unfold strToks quoteToks; dsimp only; rw [hm, hi]
  | num s => rw [valToks, valToks, hl]
  | bool b => cases b <;> rw [valToks, valToks, hl]
  | null => rw [valToks, valToks]; unfold nullToks; rw [hm, hl]
  | arr vs => rw [valToks, valToks]; unfold arrayToks; rw [hi]
  | obj ms => rw [valToks, valToks]; unfold objectToks; rw [hi]

theorem trim_suffix {k : List Byte} (hk : k ≠ []) (ht : trimIndexSuffix k = k) (t u : Nat) : trimIndexSuffix (k ++ indexSuffix t u) = trimIndexSuffix k := by
  unfold indexSuffix
  split
  · rw [ht, ← List.append_assoc, ← List.append_assoc]
    exact Props.C34_suffix_removed k _ hk (Props.decDigits_isDigit _ _)
  · rw [List.append_nil]

theorem membToks_append (a b : List (List Byte × JV)) : membToks (membersOf (a ++ b)) = membToks (membersOf a) ++ membToks (membersOf b) := by
  induction a with
  | nil => rfl
  | cons m a ih => rw [List.cons_append, membersOf, membersOf, membToks, membToks, ih, List.append_assoc]

theorem attrKey_toks {a : Attr} (h : JsonAttr a) :
    (∀ s, strToks (some (b#'_' :: a.name)) s = [.tok .attr_key a.name, .tok .attr_value_quote s]) ∧
      nullToks (some (b#'_' :: a.name)) = [.tok .attr_key a.name] := by
  obtain ⟨⟨c, t, e, hc, ht⟩, _, _, hns, _⟩ := h
  have hl := letter_facts c hc
  rw [e] at hns ⊢
  have htrim : trimIndexSuffix (b#'_' :: c :: t) = b#'_' :: c :: t := by
    refine trim_of_last _ ?_
    intro e
    have := List.mem_of_getLast? e
    rcases List.mem_cons.1 this with h | h
    · cases h
    · rcases List.mem_cons.1 h with h | h
      · exact hl.2.2.2.2.2.1 h.symm
      · exact (nameByte_facts _ (ht _ h)).2.2.1 rfl
  have hi : keyInfo (some (b#'_' :: c :: t)) = ⟨none, b#'_' :: c :: t, none⟩ := by
    unfold keyInfo
    rw [Option.map_some, htrim]
    dsimp only
    have h1 : isXmqElementName (b#'_' :: c :: t) = true := by
      unfold isXmqElementName
      simp only [show isXmqElementStart b#'_' = true by decide, Bool.true_and, List.all_eq_true]
      intro x hx
      rcases List.mem_cons.1 hx with rfl | hx
      · exact (nameByte_facts x hl.2.2.2.2.2.2).1
      · exact (nameByte_facts x (ht x hx)).1
    have h2 : ((b#'_' :: c :: t).tail.any (· == b#':')) = false := by
      simp only [List.tail_cons, List.any_eq_false, beq_iff_eq]
      intro x hx
      rcases List.mem_cons.1 hx with rfl | hx
      · exact (nameByte_facts x hl.2.2.2.2.2.2).2.1
      · exact (nameByte_facts x (ht x hx)).2.1
    rw [if_pos h1, if_neg (by rw [h2]; simp)]
  constructor
  · intro s
    unfold strToks
    have h3 : (b#'_' :: c :: t) ≠ b#"_//" := by
      intro e
      simp only [List.cons.injEq] at e
      exact hl.2.2.2.1 e.2.1
    simp only [Option.map_some, htrim, Option.some.injEq, h3, if_false]
    rw [if_neg (by simp), if_neg (by simp), if_neg (by simp)]
    unfold quoteToks
    rw [hi]
    simp only [Option.map_some, htrim]
    rw [if_pos (by simp)]
    simp only [Option.getD_some]
    rw [if_neg]
    · rfl
    · intro hq
      rw [beq_iff_eq] at hq
      refine hns ?_
      have : List.take 6 (b#'_' :: c :: t) = b#'_' :: List.take 5 (c :: t) := rfl
      rw [this] at hq
      exact (List.cons.inj hq).2
  · unfold nullToks
    rw [Option.map_some, htrim]
    rfl

theorem build_docAttrs (attrs : List Attr) (h : ∀ a ∈ attrs, JsonAttr a) (o : Open) (st : List Open) :
    ∃ l, (membToks (membersOf (attrs.map attrMember))).foldlM jsonStep (o :: st) = some ({ o with attrs := attrs.reverse ++ o.attrs, lastAttr := l } :: st) := by
  induction attrs generalizing o with
  | nil => exact ⟨o.lastAttr, rfl⟩
  | cons a t ih =>
    obtain ⟨l, hl⟩ := ih (fun x hx => h x (List.mem_cons_of_mem _ hx)) { o with attrs := a :: o.attrs, lastAttr := true }
    refine ⟨l, ?_⟩
    have ha := h a List.mem_cons_self
    rw [List.map_cons, membersOf, membToks, List.foldlM_append]
    have : (valToks (some (attrMember a).1) (attrMember a).2).foldlM jsonStep (o :: st) = some ({ o with attrs := a :: o.attrs, lastAttr := true } :: st) := by
      obtain ⟨h1, h2⟩ := attrKey_toks ha
      rcases ha.value with hv | ⟨s, hv, hs⟩
      · rw [attrMember, hv]
        dsimp only
        rw [valToks, h2]
        obtain ⟨n, v⟩ := a
        cases hv
        rfl
      · rw [attrMember, hv]
        dsimp only
        rw [valToks, h1]
        obtain ⟨n, v⟩ := a
        cases hv
        simp [List.foldlM, jsonStep, addToLast, addChild, Val.node, Node.val?, cstr_strOk hs.2]
    rw [this]
    simp only [Option.bind_eq_bind, Option.bind_some, hl, List.reverse_cons, List.append_assoc, List.singleton_append]

theorem nameKey_fine {k : List Byte} (h : NameKey k) : KeyFine (some k) := memberOk_fine (v := .null) (.inl h)

theorem build_textVal (name s : List Byte) (hn : NameKey name) (hs : StrOk s) (o : Open) (st : List Open) :
    (valToks (some name) (textVal s)).foldlM jsonStep (o :: st) = some ({ o with kids := .element name [] [.text s] :: o.kids, lastAttr := false } :: st) := by
  have hf := nameKey_fine hn
  have hc := cstr_strOk hs.2
  have hi := nameKey_info hn
  have hlit := build_literal (some name) hf s hc o st
  have hka : keyAttrL (some name) = [] := by unfold keyAttrL; rw [hi]
  rw [hka, hi] at hlit
  unfold textVal
  split
  · rename_i e; subst e; rw [valToks]; exact hlit
  split
  · rename_i e; subst e; rw [valToks]; exact hlit
  split
  · rename_i e; subst e; rw [valToks, hf.null]; exact hlit
  rename_i h1 h2 h3
  split
  · rw [valToks]; exact hlit
  · rename_i e
    rw [valToks, hf.plain s, if_neg (by simp [jsonIsKeyword, h1, h2, h3, e])]
    have := build_leaf (some name) hf [] (by simp) s hc o st
    rw [hka, hi] at this
    rw [hi]
    exact this

theorem jsonNode_key {n : Node} (h : JsonNode n) : nodeKey n ≠ [] ∧ trimIndexSuffix (nodeKey n) = nodeKey n := by
  cases n with
  | text s => exact ⟨by simp [nodeKey], rfl⟩
  | comment s => exact ⟨by simp [nodeKey], rfl⟩
  | entity s => rw [JsonNode] at h; exact h.elim
  | element name attrs kids =>
    rw [JsonNode] at h
    refine ⟨?_, nameKey_trim h.1⟩
    obtain ⟨c, t, e, _⟩ := h.1
    simp [nodeKey, e]

mutual
theorem build_docNode : (n : Node) → JsonNode n → (o : Open) → (st : List Open) → (∀ a b r, n = .text b → o.kids ≠ .text a :: r) →
    (valToks (some (nodeKey n)) (jdocVal n)).foldlM jsonStep (o :: st) = some ({ o with kids := n :: o.kids, lastAttr := false } :: st)
  | .text s, h, o, st, hp => by
    rw [JsonNode] at h
    rw [jdocVal, valToks]
    have e : strToks (some b#"|") s = [.tok .quote s] := rfl
    rw [nodeKey, e, List.foldlM_cons, jsonStep, cstr_strOk h.2, addTop]
    have : addChild o.kids (.text s) = .text s :: o.kids := by
      unfold addChild
      split
      · rename_i b a t hb hk
        exact absurd hk (hp a s t rfl)
      · rfl
    rw [this]
    rfl
  | .comment s, h, o, st, hp => by
    rw [JsonNode] at h
    rw [jdocVal, valToks]
    have e : strToks (some b#"//") s = [.tok .comment s] := rfl
    rw [nodeKey, e, List.foldlM_cons, jsonStep, cstr_strOk h.2]
    rfl
  | .entity n, h, o, st, hp => by rw [JsonNode] at h; exact h.elim
  | .element name attrs kids, h, o, st, hp => by
    rw [JsonNode] at h
    obtain ⟨hn, ⟨ha, had⟩, _, hp, hk⟩ := h
    rw [nodeKey]
    by_cases hkv : attrs = [] ∧ ∃ s, kids = [.text s]
    · obtain ⟨rfl, s, rfl⟩ := hkv
      rw [JsonNodes, JsonNode] at hk
      rw [jdocVal_text]
      exact build_textVal name s hn hk.1 o st
    · rw [jdocVal_obj name attrs kids fun e s e' => hkv ⟨e, s, e'⟩, valToks, membToks_append]
      have e : objectToks (some name) = [.tok .element_key name, .tok .brace_left b#"{"] := by
        unfold objectToks
        rw [nameKey_info hn]
        rfl
      obtain ⟨l, hl⟩ := build_docAttrs attrs ha ⟨false, name, [], [], false⟩ ({ o with lastAttr := false } :: st)
      obtain ⟨l', hl'⟩ := build_docNodes kids hk (kids.map jsonNodeName) [] ⟨false, name, attrs.reverse ++ [], [], l⟩ ({ o with lastAttr := false } :: st) hp
      rw [e]
      simp only [List.cons_append, List.nil_append, List.foldlM_cons, List.foldlM_append, List.foldlM_nil, jsonStep, addTop, addChild,
        Option.bind_eq_bind, Option.bind_some, Option.pure_def, pushLast, Bool.false_eq_true, if_false, List.reverse_nil] at hl hl' ⊢
      rw [hl]
      simp only [Option.bind_some]
      rw [hl']
      simp [popLast]
theorem build_docNodes : (l : List Node) → JsonNodes l → (names done : List (List Byte)) → (o : Open) → (st : List Open) →
    (∀ pre a b post, o.kids.reverse ++ l ≠ pre ++ .text a :: .text b :: post) →
    ∃ la, (membToks (membersOf (jdocMembers names done l))).foldlM jsonStep (o :: st) = some ({ o with kids := l.reverse ++ o.kids, lastAttr := la } :: st)
  | [], _, names, done, o, st, _ => ⟨o.lastAttr, by rw [jdocMembers]; rfl⟩
  | n :: l, h, names, done, o, st, hp => by
    rw [JsonNodes] at h
    obtain ⟨la, hl⟩ := build_docNodes l h.2 names (jsonNodeName n :: done) { o with kids := n :: o.kids, lastAttr := false } st (by
      intro pre a b post
      have := hp pre a b post
      simpa using this)
    refine ⟨la, ?_⟩
    have hkey := jsonNode_key h.1
    rw [jdocMembers, membersOf, membToks, List.foldlM_append, valToks_trim (trim_suffix hkey.1 hkey.2 _ _), build_docNode n h.1 o st]
    · simp only [Option.bind_eq_bind, Option.bind_some, hl, List.reverse_cons, List.append_assoc, List.singleton_append]
    · intro a b r hn hk
      refine hp r.reverse a b l ?_
      rw [hk, hn]
      simp
end

theorem build_docRoot (name : List Byte) (attrs : List Attr) (kids : List Node) (h : JsonNode (.element name attrs kids)) :
    buildJson (valToks none (.obj (membersOf (rootMembers name attrs kids)))) = some [.element name attrs kids] := by
  rw [JsonNode] at h
  obtain ⟨hn, ⟨ha, had⟩, _, hp, hk⟩ := h
  have e0 : strToks (some b#"_") name = [.rename name] := by
    obtain ⟨c, t, rfl, hc, ht⟩ := hn
    have hl := letter_facts c hc
    have h1 : isXmqElementName (c :: t) = true := by
      unfold isXmqElementName
      simp only [hl.1, Bool.true_and, List.all_eq_true]
      exact fun x hx => (nameByte_facts x (ht x hx)).1
    have h2 : ((c :: t).any (· == b#':')) = false := by
      simp only [List.any_eq_false, beq_iff_eq]
      intro x hx
      rcases List.mem_cons.1 hx with rfl | hx
      · exact (nameByte_facts x hl.2.2.2.2.2.2).2.1
      · exact (nameByte_facts x (ht x hx)).2.1
    unfold strToks
    have htr : trimIndexSuffix b#"_" = b#"_" := rfl
    simp only [Option.map_some, htr, Option.some.injEq, h1, and_true]
    rw [if_neg (by decide), if_neg (by decide), if_neg (by decide), if_pos trivial, h2]
    rfl
  rw [rootMembers, membersOf, valToks, membToks, valToks, e0, membToks_append]
  have e : objectToks none = [.tok .element_key b#"_", .tok .brace_left b#"{"] := rfl
  obtain ⟨l, hl⟩ := build_docAttrs attrs ha ⟨false, name, [], [], false⟩ [⟨false, [], [], [], false⟩]
  obtain ⟨l', hl'⟩ := build_docNodes kids hk (kids.map jsonNodeName) [] ⟨false, name, attrs.reverse ++ [], [], l⟩ [⟨false, [], [], [], false⟩] hp
  rw [e]
  unfold buildJson
  simp only [List.cons_append, List.nil_append, List.foldlM_cons, List.foldlM_append, List.foldlM_nil, jsonStep, addTop, addChild,
    Option.bind_eq_bind, Option.bind_some, Option.pure_def, pushLast, Bool.false_eq_true, if_false, List.reverse_nil] at hl hl' ⊢
  rw [hl]
  simp only [Option.bind_some]
  rw [hl']
  simp [popLast]

/-! ## The value is one that can be written and read -/

theorem membersOf_keys (l : List (List Byte × JV)) : (membersOf l).keys = l.map (·.1) := by
  induction l with
  | nil => rfl
  | cons m l ih => rw [membersOf, JMs.keys, ih]; rfl

theorem membersOf_has {k : List Byte} {v : JV} {l : List (List Byte × JV)} (h : (k, v) ∈ l) : (membersOf l).Has k v := by
  induction l with
  | nil => cases h
  | cons m l ih =>
    rw [membersOf]
    rcases List.mem_cons.1 h with rfl | h
    · exact .here _
    · exact .there _ _ _ (ih h)

theorem nameKey_bracket {k : List Byte} (h : NameKey k) : (91 : Byte) ∉ k := by
  have hb : ∀ c, JNameByte c → c ≠ 91 := fun c => forall_byte (P := fun c => JNameByte c → c ≠ 91) (by decide +kernel) c
  obtain ⟨c, t, rfl, hc, ht⟩ := h
  intro hx
  rcases List.mem_cons.1 hx with h | hx
  · exact hb c (letter_facts c hc).2.2.2.2.2.2 h.symm
  · exact hb _ (ht _ hx) rfl

theorem nodeKey_bracket {n : Node} (h : JsonNode n) : (91 : Byte) ∉ nodeKey n := by
  cases n with
  | text s => simp [nodeKey]
  | comment s => simp [nodeKey]
  | entity s => rw [JsonNode] at h; exact h.elim
  | element name attrs kids => rw [JsonNode] at h; exact nameKey_bracket h.1

theorem nodeKey_name {n m : Node} (h : JsonNode n) (h' : JsonNode m) (e : nodeKey n = nodeKey m) : jsonNodeName n = jsonNodeName m := by
  have el : ∀ name : List Byte, NameKey name → name ≠ b#"|" ∧ name ≠ b#"//" := by
    rintro name ⟨c, t, rfl, hc, _⟩
    have := letter_facts c hc
    refine ⟨fun e => this.2.2.1 (List.cons.inj e).1, fun e => this.2.2.2.1 (List.cons.inj e).1⟩
  cases n <;> cases m <;> unfold JsonNode at h h' <;> simp only [nodeKey, jsonNodeName] at e ⊢
  all_goals first
    | rfl
    | exact h.elim
    | exact h'.elim
    | exact e
    | exact absurd e (by decide)
    | exact absurd e (el _ h.1).1
    | exact absurd e (el _ h.1).2
    | exact absurd e.symm (el _ h'.1).1
    | exact absurd e.symm (el _ h'.1).2

theorem jdocMembers_key (l : List Node) (names done : List (List Byte)) : ∀ k ∈ (jdocMembers names done l).map (·.1),
    ∃ m ∈ l, ∃ u, nameCount done (jsonNodeName m) ≤ u ∧ k = nodeKey m ++ indexSuffix (nameCount names (jsonNodeName m)) u := by
  induction l generalizing done with
  | nil => rw [jdocMembers]; simp
  | cons n l ih =>
    rw [jdocMembers]
    intro k hk
    rw [List.map_cons, List.mem_cons] at hk
    rcases hk with rfl | hk
    · exact ⟨n, List.mem_cons_self, _, Nat.le_refl _, rfl⟩
    · obtain ⟨m, hm, u, hu, e⟩ := ih _ k hk
      refine ⟨m, List.mem_cons_of_mem _ hm, u, Nat.le_trans ?_ hu, e⟩
      simp only [nameCount, List.count_cons]
      omega

theorem jsonNodes_all {l : List Node} (h : JsonNodes l) : ∀ n ∈ l, JsonNode n := by
  induction l with
  | nil => simp
  | cons n l ih =>
    rw [JsonNodes] at h
    intro m hm
    rcases List.mem_cons.1 hm with rfl | hm
    · exact h.1
    · exact ih h.2 m hm

theorem jdocMembers_nodup (l : List Node) (h : JsonNodes l) (names done : List (List Byte))
    (hc : ∀ x, (l.map jsonNodeName).count x ≤ names.count x) : ((jdocMembers names done l).map (·.1)).Nodup := by
  induction l generalizing done with
  | nil => rw [jdocMembers]; simp
  | cons n l ih =>
    have hall := jsonNodes_all h
    rw [JsonNodes] at h
    rw [jdocMembers, List.map_cons, List.nodup_cons]
    refine ⟨?_, ih h.2 _ fun x => Nat.le_trans (by simp only [List.map_cons, List.count_cons]; omega) (hc x)⟩
    intro hmem
    obtain ⟨m, hm, u, hu, e⟩ := jdocMembers_key l names _ _ hmem
    have hn := hall n List.mem_cons_self
    have hm' := hall m (List.mem_cons_of_mem _ hm)
    have ek : ∀ (k : List Byte) (t u : Nat), k ++ indexSuffix t u = elementKey k t u := by
      intro k t u
      unfold indexSuffix elementKey
      split <;> simp
    dsimp only at e
    rw [ek, ek] at e
    obtain ⟨e1, _, e3⟩ := Props.elementKey_inj (nodeKey_bracket hn) (nodeKey_bracket hm') e
    have en := nodeKey_name hn hm' e1
    have hcnt : 1 < nameCount names (jsonNodeName n) := by
      have := hc (jsonNodeName n)
      have h2 : 0 < (l.map jsonNodeName).count (jsonNodeName n) := List.count_pos_iff.2 (by rw [en]; exact List.mem_map_of_mem hm)
      simp only [List.map_cons, List.count_cons_self] at this
      unfold nameCount
      omega
    have := e3 hcnt
    rw [← en] at hu
    simp only [nameCount, List.count_cons_self] at hu this
    omega

theorem jdocMembers_mem (l : List Node) (n : Node) (hn : n ∈ l) (names done : List (List Byte)) (hc : names.count (jsonNodeName n) = 1) :
    (nodeKey n, jdocVal n) ∈ jdocMembers names done l := by
  induction l generalizing done with
  | nil => cases hn
  | cons m l ih =>
    rw [jdocMembers]
    rcases List.mem_cons.1 hn with rfl | hn
    · refine List.mem_cons.2 (.inl ?_)
      rw [nameCount, hc, indexSuffix, if_neg (by omega), List.append_nil]
    · exact List.mem_cons_of_mem _ (ih hn _)

theorem members_nodup {attrs : List Attr} {kids : List Node} (ha : ∀ a ∈ attrs, JsonAttr a) (had : (attrs.map (·.name)).Nodup) (hk : JsonNodes kids) :
    ((attrs.map attrMember ++ jdocMembers (kids.map jsonNodeName) [] kids).map (·.1)).Nodup ∧
      ∀ k ∈ (attrs.map attrMember ++ jdocMembers (kids.map jsonNodeName) [] kids).map (·.1), k ≠ b#"_" := by
  have h1 : ∀ k ∈ (attrs.map attrMember).map (·.1), ∃ c t, k = b#'_' :: c :: t := by
    intro k hk
    simp only [List.map_map, List.mem_map, Function.comp] at hk
    obtain ⟨a, ha', rfl⟩ := hk
    obtain ⟨c, t, e, _⟩ := (ha a ha').name
    exact ⟨c, t, by rw [attrMember, e]⟩
  have h2 : ∀ k ∈ (jdocMembers (kids.map jsonNodeName) [] kids).map (·.1), k.head? ≠ some b#'_' := by
    intro k hk'
    obtain ⟨m, hm, u, _, rfl⟩ := jdocMembers_key kids _ _ k hk'
    have hj := jsonNodes_all hk m hm
    cases m with
    | text s => simp [nodeKey]
    | comment s => simp [nodeKey]
    | entity s => rw [JsonNode] at hj; exact hj.elim
    | element name attrs kids =>
      rw [JsonNode] at hj
      obtain ⟨c, t, e, hc, _⟩ := hj.1
      rw [nodeKey, e]
      simpa using (letter_facts c hc).2.1
  refine ⟨?_, ?_⟩
  · rw [List.map_append, List.nodup_append]
    refine ⟨?_, jdocMembers_nodup kids hk _ _ fun x => Nat.le_refl _, ?_⟩
    · rw [List.map_map]
      have : ((fun m : List Byte × JV => m.1) ∘ attrMember) = (fun n => b#'_' :: n) ∘ (fun a : Attr => a.name) := rfl
      rw [this, ← List.map_map]
      exact List.Pairwise.map _ (fun a b h e => h (List.cons.inj e).2) had
    · intro a ha' b hb e
      obtain ⟨c, t, rfl⟩ := h1 a ha'
      exact h2 b hb (by rw [← e]; rfl)
  · intro k hk' e
    rw [List.map_append, List.mem_append] at hk'
    rcases hk' with hk' | hk'
    · obtain ⟨c, t, rfl⟩ := h1 k hk'
      cases e
    · exact h2 k hk' (by rw [e]; rfl)

/-- What is needed of numbers, strings and keys. -/
def DocKey (k : List Byte) (_ : JV) : Prop := (∀ c ∈ k, JsonByte c) ∧ NoDoctype k

theorem noDoctype_of {k : List Byte} (h : k.head? ≠ some b#'!') : NoDoctype k := by
  intro e
  cases k with
  | nil => cases e
  | cons c t =>
    simp only [List.take_succ_cons, List.cons.injEq] at e
    exact h (by rw [e.1]; rfl)

theorem membersOf_ok {N S : List Byte → Prop} {K : List Byte → JV → Prop} {O : JMs → Prop} (l : List (List Byte × JV))
    (h : ∀ m ∈ l, K m.1 m.2 ∧ m.2.Ok N S K O) : (membersOf l).Ok N S K O := by
  induction l with
  | nil => rw [membersOf, JMs.Ok]; trivial
  | cons m l ih =>
    rw [membersOf, JMs.Ok]
    exact ⟨(h m List.mem_cons_self).1, (h m List.mem_cons_self).2, ih fun x hx => h x (List.mem_cons_of_mem _ hx)⟩

theorem attrMember_ok {a : Attr} (h : JsonAttr a) : DocKey (attrMember a).1 (attrMember a).2 ∧
    (attrMember a).2.Ok (fun s => JsonNumber s ∧ NoZeroE s) (fun s => ∀ c ∈ s, JsonByte c) DocKey (fun ms => ms.keys.Nodup) := by
  refine ⟨⟨?_, noDoctype_of (by simp [attrMember])⟩, ?_⟩
  · intro c hc
    rcases List.mem_cons.1 hc with rfl | hc
    · decide
    · exact (nameKey_bytes h.name c hc).2
  · rcases h.value with hv | ⟨s, hv, hs⟩
    · rw [attrMember, hv]; trivial
    · rw [attrMember, hv]; exact hs.2

theorem textVal_ok {s : List Byte} (h : StrOk s) (hn : NumberLike s → JsonNumber s) :
    (textVal s).Ok (fun s => JsonNumber s ∧ NoZeroE s) (fun s => ∀ c ∈ s, JsonByte c) DocKey (fun ms => ms.keys.Nodup) := by
  unfold textVal
  split
  · trivial
  split
  · trivial
  split
  · trivial
  split
  · rename_i e
    exact ⟨hn (numberLike_of e), noZeroE_of e⟩
  · exact h.2

theorem docKey_ok {n : Node} (h : JsonNode n) (t u : Nat) (v : JV) : DocKey (nodeKey n ++ indexSuffix t u) v := by
  refine ⟨fun c hc => (nodeKey_bytes n h t u c hc).2, noDoctype_of ?_⟩
  cases n with
  | text s => simp [nodeKey]
  | comment s => simp [nodeKey]
  | entity s => rw [JsonNode] at h; exact h.elim
  | element name attrs kids =>
    rw [JsonNode] at h
    obtain ⟨c, t, e, hc, _⟩ := h.1
    rw [nodeKey, e]
    simpa using (letter_facts c hc).2.2.2.2.1

mutual
theorem jdocVal_ok : (n : Node) → JsonNode n → (jdocVal n).Ok (fun s => JsonNumber s ∧ NoZeroE s) (fun s => ∀ c ∈ s, JsonByte c) DocKey (fun ms => ms.keys.Nodup)
  | .text s, h => by rw [JsonNode] at h; rw [jdocVal]; exact h.2
  | .comment s, h => by rw [JsonNode] at h; rw [jdocVal]; exact h.2
  | .entity n, h => by rw [JsonNode] at h; exact h.elim
  | .element name attrs kids, h => by
    rw [JsonNode] at h
    obtain ⟨hn, ⟨ha, had⟩, hnum, hp, hk⟩ := h
    by_cases hkv : attrs = [] ∧ ∃ s, kids = [.text s]
    · obtain ⟨rfl, s, rfl⟩ := hkv
      rw [JsonNodes, JsonNode] at hk
      rw [jdocVal_text]
      exact textVal_ok hk.1 (hnum rfl s rfl)
    · rw [jdocVal_obj name attrs kids fun e s e' => hkv ⟨e, s, e'⟩, JV.Ok]
      refine ⟨by rw [membersOf_keys]; exact (members_nodup ha had hk).1, membersOf_ok _ fun m hm => ?_⟩
      rcases List.mem_append.1 hm with hm | hm
      · obtain ⟨a, ha', rfl⟩ := List.mem_map.1 hm
        exact attrMember_ok (ha a ha')
      · exact jdocMembers_ok kids hk _ _ m hm
theorem jdocMembers_ok : (l : List Node) → JsonNodes l → (names done : List (List Byte)) → ∀ m ∈ jdocMembers names done l, DocKey m.1 m.2 ∧
    m.2.Ok (fun s => JsonNumber s ∧ NoZeroE s) (fun s => ∀ c ∈ s, JsonByte c) DocKey (fun ms => ms.keys.Nodup)
  | [], _, names, done => by rw [jdocMembers]; simp
  | n :: l, h, names, done => by
    rw [JsonNodes] at h
    rw [jdocMembers]
    intro m hm
    rcases List.mem_cons.1 hm with rfl | hm
    · exact ⟨docKey_ok h.1 _ _ _, jdocVal_ok n h.1⟩
    · exact jdocMembers_ok l h.2 _ _ m hm
end

theorem rootMembers_ok (name : List Byte) (attrs : List Attr) (kids : List Node) (h : JsonNode (.element name attrs kids)) :
    (JV.obj (membersOf (rootMembers name attrs kids))).Ok (fun s => JsonNumber s ∧ NoZeroE s) (fun s => ∀ c ∈ s, JsonByte c) DocKey (fun ms => ms.keys.Nodup) := by
  rw [JsonNode] at h
  obtain ⟨hn, ⟨ha, had⟩, hnum, hp, hk⟩ := h
  rw [JV.Ok]
  refine ⟨?_, membersOf_ok _ fun m hm => ?_⟩
  · rw [membersOf_keys, rootMembers, List.map_cons, List.nodup_cons]
    exact ⟨fun h => (members_nodup ha had hk).2 _ h rfl, (members_nodup ha had hk).1⟩
  rw [rootMembers] at hm
  rcases List.mem_cons.1 hm with rfl | hm
  · exact ⟨⟨by simp only []; decide, noDoctype_of (by simp)⟩, fun c hc => (nameKey_bytes hn c hc).2⟩
  rcases List.mem_append.1 hm with hm | hm
  · obtain ⟨a, ha', rfl⟩ := List.mem_map.1 hm
    exact attrMember_ok (ha a ha')
  · exact jdocMembers_ok kids hk _ _ m hm

end Xmq
