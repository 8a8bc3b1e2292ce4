import Verif.Model.JsonPrint
import Verif.Lemmas.JsonBuild
/-!
# The JSON text written for the document of a JSON value
-/
namespace Xmq
open Spec

/-- A string as it is written. -/
def serStr (s : List Byte) : List Byte := b#'"' :: (s.flatMap cEsc ++ [b#'"'])

mutual
/-- A value as it is written. -/
def ser : JV → List Byte
  | .str s => serStr s
  | .num s => s
  | .bool true => b#"true"
  | .bool false => b#"false"
  | .null => b#"null"
  | .arr .nil => b#"[]"
  | .arr (.cons v vs) => b#'[' :: (ser v ++ serElems vs ++ [b#']'])
  | .obj .nil => b#"{}"
  | .obj (.cons k v ms) => b#'{' :: (serStr k ++ b#':' :: (ser v ++ serMembs ms) ++ [b#'}'])
/-- The elements behind the first one. -/
def serElems : JVs → List Byte
  | .nil => []
  | .cons v vs => b#',' :: (ser v ++ serElems vs)
/-- The members behind the first one. -/
def serMembs : JMs → List Byte
  | .nil => []
  | .cons k v ms => b#',' :: (serStr k ++ b#':' :: (ser v ++ serMembs ms))
end

/-! ### It is a text of the value -/

theorem ws_nil (b : Bool) : JsonWsN b [] := ⟨by simp, by simp⟩

theorem jsonString_name {k : List Byte} (h : NameKey k) : (∀ c ∈ k, JsonByte c) ∧ k.flatMap cEsc = k ∧ ValidUtf8 k ∧ k ≠ b#"_" := by
  have hb : ∀ c, JNameByte c → JsonByte c ∧ cEsc c = [c] ∧ c < 128 := fun c =>
    forall_byte (P := fun c => JNameByte c → JsonByte c ∧ cEsc c = [c] ∧ c < 128) (by decide +kernel) c
  obtain ⟨c, t, rfl, hc, ht⟩ := h
  have hall : ∀ x ∈ c :: t, JNameByte x := by
    intro x hx
    rcases List.mem_cons.1 hx with rfl | hx
    · exact .inl hc
    · exact ht x hx
  refine ⟨fun x hx => (hb x (hall x hx)).1, ?_, ?_, ?_⟩
  · generalize c :: t = l at hall
    induction l with
    | nil => rfl
    | cons a l ih =>
      rw [List.flatMap_cons, (hb a (hall a List.mem_cons_self)).2.1, ih fun x hx => hall x (List.mem_cons_of_mem _ hx)]
      rfl
  · generalize c :: t = l at hall
    induction l with
    | nil => exact .nil
    | cons a l ih =>
      have h1 := (hb a (hall a List.mem_cons_self)).2.2
      have hc : a.toNat < 128 := by rwa [UInt8.lt_iff_toNat_lt] at h1
      have e : (rfc3629 a.toNat).map UInt8.ofNat = [a] := by unfold rfc3629; rw [if_pos hc]; simp
      have := ValidUtf8.cons a.toNat (by omega) l (ih fun x hx => hall x (List.mem_cons_of_mem _ hx))
      rwa [e] at this
  · intro e
    cases e
    revert hc
    decide

theorem memberOk_bytes {k : List Byte} {v : JV} (h : MemberOk k v) : ∀ c ∈ k, JsonByte c := by
  rcases h with h | ⟨_, h, _⟩
  · exact (jsonString_name h).1
  · exact h.2

mutual
theorem ser_text_of : (v : JV) → v.Ok JsonNumber (fun s => ∀ c ∈ s, JsonByte c) (fun k _ => ∀ c ∈ k, JsonByte c) (fun _ => True) → JText false JsonWsN v (ser v)
  | .str s, h => by rw [JV.Ok] at h; rw [ser]; exact .str _ _ (jsonString_cEsc _ s h)
  | .num s, h => by rw [JV.Ok] at h; rw [ser]; exact .num _ h
  | .bool true, _ => by rw [ser]; exact .true
  | .bool false, _ => by rw [ser]; exact .false
  | .null, _ => by rw [ser]; exact .null
  | .arr .nil, _ => by rw [ser]; exact .arr _ [] (.nil _ (ws_nil _))
  | .arr (.cons v vs), h => by
    rw [JV.Ok, JVs.Ok] at h
    rw [ser]
    exact .arr _ _ (serElems_text vs h.2 v _ (ser_text_of v h.1))
  | .obj .nil, _ => by rw [ser]; exact .obj _ [] (.nil _ (ws_nil _))
  | .obj (.cons k v ms), h => by
    rw [JV.Ok, JMs.Ok] at h
    rw [ser]
    exact .obj _ _ (serMembs_text ms h.2.2.2 k v _ h.2.1 (ser_text_of v h.2.2.1))
theorem serElems_text : (vs : JVs) → vs.Ok JsonNumber (fun s => ∀ c ∈ s, JsonByte c) (fun k _ => ∀ c ∈ k, JsonByte c) (fun _ => True) →
    (v : JV) → (t : List Byte) → JText false JsonWsN v t → JElems false JsonWsN (.cons v vs) (t ++ serElems vs)
  | .nil, _ => fun v t ht => by
    rw [serElems]
    have := JElems.one v [] t [] (ws_nil _) ht (ws_nil _)
    simpa using this
  | .cons v' vs, h => fun v t ht => by
    rw [JVs.Ok] at h
    rw [serElems]
    have := JElems.cons v v' vs [] t [] _ (ws_nil _) ht (ws_nil _) (serElems_text vs h.2 v' _ (ser_text_of v' h.1))
    simpa using this
theorem serMembs_text : (ms : JMs) → ms.Ok JsonNumber (fun s => ∀ c ∈ s, JsonByte c) (fun k _ => ∀ c ∈ k, JsonByte c) (fun _ => True) →
    (k : List Byte) → (v : JV) → (t : List Byte) → (∀ c ∈ k, JsonByte c) → JText false JsonWsN v t →
      JMembers false JsonWsN (.cons k v ms) (serStr k ++ b#':' :: (t ++ serMembs ms))
  | .nil, _ => fun k v t hk ht => by
    rw [serMembs]
    have := JMembers.one k _ v [] [] [] t [] (ws_nil _) (jsonString_cEsc _ k hk) (ws_nil _) (ws_nil _) ht (ws_nil _)
    simpa [serStr] using this
  | .cons k' v' ms, h => fun k v t hk ht => by
    rw [JMs.Ok] at h
    rw [serMembs]
    have := JMembers.cons k _ k' v v' ms [] [] [] t [] _ (ws_nil _) (jsonString_cEsc _ k hk) (ws_nil _) (ws_nil _) ht (ws_nil _)
      (serMembs_text ms h.2.2 k' v' _ h.1 (ser_text_of v' h.2.1))
    simpa [serStr] using this
end

theorem ser_text (v : JV) (h : v.Ok (fun s => JsonNumber s ∧ NoZeroE s) StrOk MemberOk (fun ms => ms.keys.Nodup)) : JText false JsonWsN v (ser v) :=
  ser_text_of v (JV.Ok.imp (fun _ h => h.1) (fun _ h => h.2) (fun _ _ h => memberOk_bytes h) (fun _ _ => True.intro) v h)

/-! ### Writing -/

/-- Characters behind which no comma is written. -/
def JSep (c : Byte) : Prop := c = 0 ∨ c = b#'{' ∨ c = b#'[' ∨ c = b#','

instance (c : Byte) : Decidable (JSep c) := inferInstanceAs (Decidable (_ ∨ _))

theorem comma_of_sep (ps : JP) (h : JSep ps.last) : ps.comma = ps := by
  unfold JP.comma
  rcases h with h | h | h | h <;> simp [h]

theorem comma_of_not (ps : JP) (h : ¬ JSep ps.last) : ps.comma = ⟨ps.out ++ b#",", b#','⟩ := by
  unfold JP.comma
  unfold JSep at h
  simp only [not_or] at h
  rw [if_neg (by simpa using h.1), if_pos (by simp [h.2])]

theorem comma_sep (ps : JP) : JSep ps.comma.last := by
  by_cases h : JSep ps.last
  · rw [comma_of_sep ps h]; exact h
  · rw [comma_of_not ps h]; simp [JSep]

theorem print_out (ps : JP) (s : List Byte) : (ps.print s).out = ps.out ++ s := by
  unfold JP.print
  cases s with
  | nil => simp
  | cons c t => rw [List.getLast?_cons]

theorem attributes_keyAttr (ps : JP) (key : Option (List Byte)) : ps.attributes (keyAttrL key) = some ps := by
  unfold JP.attributes keyAttrL
  split <;> rfl

/-- A key as it is written. -/
def serKey : Option (List Byte) → List Byte
  | none => []
  | some k => serStr k ++ [b#':']

theorem value_string (ps : JP) (s : List Byte) (h : StrOk s) (force : Bool) (hf : force = false → s = [] ∨ (jsonIsNumber s || jsonIsKeyword s) = false) :
    ps.value s force = some ⟨ps.out ++ serStr s, b#'"'⟩ := by
  unfold JP.value
  have h0 : jsonIsNumber [] = false ∧ jsonIsKeyword [] = false := by decide
  rw [if_neg (by
    cases force with
    | true => simp
    | false =>
      rcases hf rfl with rfl | e
      · simp [h0]
      · simp [e])]
  cases s with
  | nil => rfl
  | cons c t =>
    rw [if_neg (by simp), quoteAsC_eq _ h.1 (by
      intro x hx e
      have := h.2 x hx
      revert this
      rw [e]
      decide)]
    simp [print_out, serStr]

theorem value_plain (ps : JP) (s : List Byte) (h : (jsonIsNumber s || jsonIsKeyword s) = true) :
    ps.value s false = some ⟨ps.out ++ s, (s.getLast?).getD 0⟩ := by
  unfold JP.value
  rw [if_pos (by simp [h])]

theorem digits_last {s : List Byte} (h : JDigits s) (l : List Byte) : ¬ JSep (((l ++ s).getLast?).getD 0) := by
  rw [List.getLast?_append]
  cases hl : s.getLast? with
  | none => exact absurd (List.getLast?_eq_none_iff.1 hl) h.1
  | some c =>
    have := h.2 c (List.mem_of_getLast? hl)
    show ¬ JSep c
    revert this
    exact forall_byte (P := fun c => JDigit c → ¬ JSep c) (by decide +kernel) c

theorem number_is {s : List Byte} (h : JsonNumber s ∧ NoZeroE s) : jsonIsNumber s = true ∧ ¬ JSep ((s.getLast?).getD 0) := by
  constructor
  · have := isJnumber_of s [] h.1 h.2 (.inl rfl)
    rw [List.append_nil] at this
    simp [jsonIsNumber, this]
  · obtain ⟨minus, int, frac, exp, rfl, _, hi, hf, he⟩ := h.1
    have hdig : JDigits int := by
      rcases hi with rfl | ⟨hi, _⟩
      · exact ⟨by simp, by simp [JDigit]⟩
      · exact hi
    rcases he with rfl | ⟨e, sign, ds, rfl, _, _, hd⟩
    · rw [List.append_nil]
      rcases hf with rfl | ⟨ds, rfl, hd⟩
      · rw [List.append_nil]
        exact digits_last hdig _
      · have := digits_last hd (minus ++ int ++ [b#'.'])
        simpa using this
    · have := digits_last hd (minus ++ int ++ frac ++ e :: sign)
      simpa using this

/-- What is needed to write a key. -/
structure KeyWrite (key : Option (List Byte)) (v : JV) : Prop where
  name : ∀ (ps : JP) (extra : List Attr), (∀ a ∈ extra, a.name ≠ b#"_") → key.isSome = true →
    ps.elementName (keyInfo key).name (keyAttrL key ++ extra) 1 0 = some ⟨ps.out ++ serStr (key.getD []), b#'"'⟩
  leaf : key.isSome = true → v = .arr .nil ∨ v = .obj .nil → (keyInfo key).name ≠ b#"_" ∧ keyAttrL key = []

theorem keyWrite_none (v : JV) : KeyWrite none v := ⟨by intros; contradiction, by intro h; contradiction⟩

theorem keyWrite_some {k : List Byte} {v : JV} (h : MemberOk k v) : KeyWrite (some k) v := by
  rcases h with h | ⟨h, hs, h1, h2⟩
  · have hi := nameKey_info h
    obtain ⟨_, he, _, hu⟩ := jsonString_name h
    refine ⟨?_, ?_⟩
    · intro ps extra _ _
      unfold JP.elementName
      rw [hi]
      dsimp only
      rw [if_pos (by simpa using hu)]
      simp [print_out, indexSuffix, serStr, he]
    · intro _ _
      rw [hi]
      refine ⟨hu, ?_⟩
      unfold keyAttrL
      rw [hi]
  · have hi := otherKey_info h
    refine ⟨?_, ?_⟩
    · intro ps extra hex _
      unfold JP.elementName keyAttrL
      rw [hi]
      dsimp only
      rw [if_neg (by decide)]
      have hno : attrOf extra b#"_" = none := by
        unfold attrOf
        rw [List.find?_eq_none]
        intro a ha
        simpa using hex a ha
      by_cases hk : k = []
      · subst hk
        simp only [if_true, List.nil_append, hno]
        simp [print_out, indexSuffix, serStr]
      · simp only [if_neg hk]
        have : attrOf ([⟨b#"_", [.text k]⟩] ++ extra) b#"_" = some ⟨b#"_", [.text k]⟩ := rfl
        rw [this]
        have h0 : ∀ c ∈ k, c ≠ 0 := by
          intro x hx e
          have := hs.2 x hx
          revert this
          rw [e]
          decide
        simp [print_out, indexSuffix, serStr, attrString, quoteAsC_eq k hs.1 h0]
    · intro _ hv
      rcases hv with rfl | rfl
      · exact absurd rfl h1
      · exact absurd rfl h2

/-- The start of `json_print_key_node`, and of the printing of arrays and objects. -/
theorem write_key {key : Option (List Byte)} {v : JV} (hk : KeyWrite key v) (ps : JP) (extra : List Attr) (he : ∀ a ∈ extra, a.name ≠ b#"_") :
    ∃ l, (if key.isSome = true then (ps.comma.elementName (keyInfo key).name (keyAttrL key ++ extra) 1 0).map (·.print b#":") else some ps.comma) =
      some ⟨ps.comma.out ++ serKey key, l⟩ := by
  cases key with
  | none => exact ⟨ps.comma.last, by simp [serKey]⟩
  | some k =>
    refine ⟨b#':', ?_⟩
    rw [if_pos (show (some k).isSome = true from rfl), hk.name ps.comma extra he rfl]
    simp [JP.print, serKey]

/-- A text element. -/
theorem write_leafText {key : Option (List Byte)} {v : JV} (hk : KeyWrite key v) (ps : JP) (extra : List Attr)
    (he : extra = [] ∨ extra = [⟨b#"S", []⟩]) (s out : List Byte) (l : Byte)
    (hv : ∀ ps : JP, ps.value s (!extra.isEmpty) = some ⟨ps.out ++ out, l⟩) :
    JP.node ps key.isSome 1 0 (.element (keyInfo key).name (keyAttrL key ++ extra) [.text s]) = some ⟨ps.comma.out ++ serKey key ++ out, l⟩ := by
  rw [JP.node, if_neg (by simp), if_pos]
  · unfold JP.keyNode
    dsimp only
    have he' : ∀ a ∈ extra, a.name ≠ b#"_" := by rcases he with rfl | rfl <;> simp
    obtain ⟨l', h⟩ := write_key hk ps extra he'
    rw [h, Option.bind_some]
    have : (attrOf (keyAttrL key ++ extra) b#"S").isSome = !extra.isEmpty := by
      unfold keyAttrL
      split <;> rcases he with rfl | rfl <;> rfl
    rw [this, hv]
  · have : hasAttrOtherThanAS (keyAttrL key ++ extra) = false := by
      unfold keyAttrL
      split <;> rcases he with rfl | rfl <;> rfl
    rw [this]
    simp [keyValues, Node.val?]

theorem names_count (ms : JMs) (hv : ms.Ok (fun s => JsonNumber s ∧ NoZeroE s) StrOk MemberOk (fun ms => ms.keys.Nodup)) (k : List Byte)
    (hk : NameKey k) : ((membNodes ms).map jsonNodeName).count k = ms.keys.count k := by
  match ms, hv with
  | .nil, _ => rfl
  | .cons k' v ms, hv =>
    rw [JMs.Ok] at hv
    rw [membNodes, JMs.keys, List.map_cons, List.count_cons, List.count_cons, names_count ms hv.2.2 k hk]
    have hn : jsonNodeName (toNode (some k') v) = (keyInfo (some k')).name := by
      cases v with
      | bool b => cases b <;> simp [toNode, jsonNodeName]
      | _ => simp [toNode, jsonNodeName]
    rw [hn]
    rcases hv.1 with h | ⟨h, _⟩
    · rw [nameKey_info h]
    · rw [otherKey_info h]
      have h1 : (b#"_" == k) = false := by
        rw [beq_eq_false_iff_ne]
        exact fun e => (jsonString_name hk).2.2.2 e.symm
      have h2 : (k' == k) = false := by
        rw [beq_eq_false_iff_ne]
        rintro rfl
        obtain ⟨c, t, rfl, hc, ht⟩ := hk
        rcases h.1 with e | ⟨c', t', e, h1, h2⟩
        · cases e
        · cases e
          rcases h2 with h2 | ⟨x, hx, h2, _⟩
          · exact h2 hc
          · exact h2 (ht x hx)
      simp only [h1, h2]

theorem node_name (key : Option (List Byte)) (v : JV) : jsonNodeName (toNode key v) = (keyInfo key).name := by
  cases v with
  | bool b => cases b <;> simp [toNode, jsonNodeName]
  | _ => simp [toNode, jsonNodeName]

/-- A block. -/
theorem hasAttr_key (key : Option (List Byte)) : attrOf (keyAttrL key) b#"A" = none ∧ attrOf (keyAttrL key) b#"S" = none ∧
    (attrOf (keyAttrL key ++ [⟨b#"A", []⟩]) b#"A").isSome = true ∧ hasAttrOtherThanAS (keyAttrL key) = false := by
  unfold keyAttrL
  split <;> exact ⟨rfl, rfl, rfl, rfl⟩

theorem keyValues_elem (n : Node) (t : List Node) (h : n.val? = none) : keyValues (n :: t) = none := by
  unfold keyValues
  rw [if_neg (by simp)]
  simp [List.mapM_cons, h]

theorem toNode_val (key : Option (List Byte)) (v : JV) : (toNode key v).val? = none := by
  cases v with
  | bool b => cases b <;> simp [toNode, Node.val?]
  | _ => simp [toNode, Node.val?]

theorem toNode_elem (key : Option (List Byte)) (v : JV) : ∃ attrs kids, toNode key v = .element (keyInfo key).name attrs kids := by
  cases v with
  | bool b => cases b <;> exact ⟨_, _, by rw [toNode]⟩
  | _ => exact ⟨_, _, by rw [toNode]⟩

theorem toNode_noS (key : Option (List Byte)) (v : JV) (h : ∀ s, v = .str s → strAttrL s = []) :
    ∃ attrs kids, toNode key v = .element (keyInfo key).name attrs kids ∧ attrOf attrs b#"S" = none := by
  have h0 : ∀ key, attrOf (keyAttrL key) b#"S" = none ∧ attrOf (keyAttrL key ++ [⟨b#"A", []⟩]) b#"S" = none := by
    intro key
    unfold keyAttrL
    split <;> exact ⟨rfl, rfl⟩
  cases v with
  | bool b => cases b <;> exact ⟨_, _, by rw [toNode], (h0 key).1⟩
  | str s => exact ⟨_, _, by rw [toNode], by rw [h s rfl, List.append_nil]; exact (h0 key).1⟩
  | arr vs => exact ⟨_, _, by rw [toNode], (h0 key).2⟩
  | _ => exact ⟨_, _, by rw [toNode], (h0 key).1⟩

theorem write_element (v : JV) (hv : v.Ok (fun s => JsonNumber s ∧ NoZeroE s) StrOk MemberOk (fun ms => ms.keys.Nodup))
    (hw : ∀ ps : JP, ∃ l, ¬ JSep l ∧ JP.node ps false 1 0 (toNode none v) = some ⟨ps.comma.out ++ ser v, l⟩) (ps : JP) (t : List Node) :
    ∃ l, ¬ JSep l ∧ JP.arrayNodes ps (toNode none v :: t) = JP.arrayNodes ⟨ps.comma.out ++ ser v, l⟩ t := by
  have hplain : (∀ s, v = .str s → strAttrL s = []) →
      ∃ l, ¬ JSep l ∧ JP.arrayNodes ps (toNode none v :: t) = JP.arrayNodes ⟨ps.comma.out ++ ser v, l⟩ t := by
    intro h
    obtain ⟨attrs, kids, e, hS⟩ := toNode_noS none v h
    obtain ⟨l, hl, h⟩ := hw ps.comma
    refine ⟨l, hl, ?_⟩
    rw [comma_of_sep _ (comma_sep ps)] at h
    rw [e] at h ⊢
    rw [JP.arrayNodes.eq_def]
    dsimp only
    rw [hS, if_neg (by simp), h, Option.bind_some]
  by_cases hs : ∀ s, v = .str s → strAttrL s = []
  · exact hplain hs
  · simp only [Classical.not_forall] at hs
    obtain ⟨s, rfl, hs⟩ := hs
    rw [JV.Ok] at hv
    refine ⟨b#'"', by decide, ?_⟩
    have : strAttrL s = [⟨b#"S", []⟩] := by
      unfold strAttrL at hs ⊢
      split
      · rfl
      · rename_i h; rw [if_neg h] at hs; exact absurd rfl hs
    rw [toNode, this, JP.arrayNodes]
    rw [if_pos (by rfl), value_string _ s hv true (by simp), Option.bind_some, ser]

theorem memberOk_name_ne {k k' : List Byte} {v : JV} (hm : MemberOk k v) (hn : NameKey k') (h : k ≠ k') : (keyInfo (some k)).name ≠ k' := by
  rcases hm with hm | ⟨hm, _⟩
  · rw [nameKey_info hm]; exact h
  · rw [otherKey_info hm]; exact fun e => (jsonString_name hn).2.2.2 e.symm

theorem objectNodes_step (ps : JP) {k : List Byte} {v : JV} (hm : MemberOk k v) (names done : List (List Byte))
    (hc : NameKey k → nameCount names k = 1 ∧ nameCount done k = 0) (t : List Node) :
    JP.objectNodes ps true names done (toNode (some k) v :: t) =
      (JP.node ps true 1 0 (toNode (some k) v)).bind fun ps => JP.objectNodes ps true names (jsonNodeName (toNode (some k) v) :: done) t := by
  rw [JP.objectNodes]
  rw [node_name]
  rcases hm with hm | ⟨hm, _⟩
  · rw [nameKey_info hm]
    dsimp only
    rw [if_neg (by simpa using (jsonString_name hm).2.2.2), (hc hm).1, (hc hm).2]
  · rw [otherKey_info hm]
    dsimp only
    rw [if_pos (by decide)]

mutual
theorem write_value (v : JV) (hv : v.Ok (fun s => JsonNumber s ∧ NoZeroE s) StrOk MemberOk (fun ms => ms.keys.Nodup))
    (key : Option (List Byte)) (hk : KeyWrite key v) (ps : JP) :
    ∃ l, ¬ JSep l ∧ JP.node ps key.isSome 1 0 (toNode key v) = some ⟨ps.comma.out ++ serKey key ++ ser v, l⟩ := by
  match v, hv with
  | .str s, hv =>
    rw [JV.Ok] at hv
    rw [toNode, ser]
    refine ⟨b#'"', by decide, ?_⟩
    unfold strAttrL
    by_cases h : (!s.isEmpty && (jsonIsKeyword s || jsonIsNumber s)) = true
    · rw [if_pos h]
      exact write_leafText hk ps _ (.inr rfl) s _ _ fun ps => value_string ps s hv true (by simp)
    · rw [if_neg h]
      refine write_leafText hk ps _ (.inl rfl) s _ _ fun ps => value_string ps s hv false (fun _ => ?_)
      cases s with
      | nil => exact .inl rfl
      | cons c t =>
        right
        rw [Bool.or_comm]
        simpa using h
  | .num s, hv =>
    rw [JV.Ok] at hv
    obtain ⟨h1, h2⟩ := number_is hv
    rw [toNode, ser]
    refine ⟨_, h2, ?_⟩
    have := write_leafText hk ps [] (.inl rfl) s _ _ fun ps => value_plain ps s (by simp [h1])
    rwa [List.append_nil] at this
  | .bool true, _ =>
    rw [toNode, ser]
    refine ⟨b#'e', by decide, ?_⟩
    have := write_leafText hk ps [] (.inl rfl) b#"true" _ _ fun ps => value_plain ps b#"true" (by decide)
    rwa [List.append_nil] at this
  | .bool false, _ =>
    rw [toNode, ser]
    refine ⟨b#'e', by decide, ?_⟩
    have := write_leafText hk ps [] (.inl rfl) b#"false" _ _ fun ps => value_plain ps b#"false" (by decide)
    rwa [List.append_nil] at this
  | .null, _ =>
    rw [toNode, ser]
    refine ⟨b#'l', by decide, ?_⟩
    have := write_leafText hk ps [] (.inl rfl) b#"null" _ _ fun ps => value_plain ps b#"null" (by decide)
    rwa [List.append_nil] at this
  | .arr .nil, _ =>
    rw [toNode, elemNodes, ser, JP.node]
    refine ⟨b#']', by decide, ?_⟩
    cases key with
    | some k =>
      obtain ⟨h1, h2⟩ := hk.leaf rfl (.inl rfl)
      rw [if_pos (by simp)]
      unfold JP.leaf
      dsimp only
      rw [if_pos (by simpa using h1), hk.name ps.comma [⟨b#"A", []⟩] (by simp) rfl]
      simp only [Option.map_some, Option.bind_some]
      rw [if_pos (hasAttr_key (some k)).2.2.1]
      simp [JP.write, serKey]
    | none =>
      rw [if_neg (by simp), if_neg (by simp [keyValues]), if_pos (hasAttr_key none).2.2.1]
      simp [JP.arrayNodes, serKey]
  | .arr (.cons v vs), hv =>
    rw [JV.Ok, JVs.Ok] at hv
    rw [toNode, elemNodes, ser, JP.node, if_neg (by simp), if_neg (by simp [keyValues_elem _ _ (toNode_val none v)]),
      if_pos (hasAttr_key key).2.2.1]
    refine ⟨b#']', by decide, ?_⟩
    obtain ⟨l, h⟩ := write_key hk ps [⟨b#"A", []⟩] (by simp)
    dsimp only
    rw [h, Option.bind_some]
    obtain ⟨l1, h1, e1⟩ := write_element v hv.1 (fun ps => by
      obtain ⟨l, h, e⟩ := write_value v hv.1 none (keyWrite_none v) ps
      rw [serKey, List.append_nil] at e
      exact ⟨l, h, e⟩) ⟨ps.comma.out ++ serKey key ++ b#"[", b#'['⟩ (elemNodes vs)
    obtain ⟨l2, e2⟩ := write_elems vs hv.2 ⟨ps.comma.out ++ serKey key ++ b#"[" ++ ser v, l1⟩ h1
    dsimp only
    rw [e1, comma_of_sep _ (by simp [JSep]), e2]
    simp
  | .obj .nil, _ =>
    rw [toNode, membNodes, ser, JP.node]
    refine ⟨b#'}', by decide, ?_⟩
    cases key with
    | some k =>
      obtain ⟨h1, h2⟩ := hk.leaf rfl (.inr rfl)
      rw [if_pos (by simp)]
      unfold JP.leaf
      dsimp only
      have := hk.name ps.comma [] (by simp) rfl
      rw [List.append_nil] at this
      rw [if_pos (by simpa using h1), this]
      simp only [Option.map_some, Option.bind_some]
      rw [h2]
      simp [JP.write, serKey, attrOf]
    | none =>
      rw [if_neg (by simp), if_neg (by simp [keyValues])]
      simp [JP.objectNodes, serKey, keyAttrL, keyInfo, attrOf, JP.attributes]
  | .obj (.cons k v ms), hv =>
    rw [JV.Ok, JMs.Ok] at hv
    obtain ⟨hnd, hm, hv, hms⟩ := hv
    rw [toNode, membNodes, ser, JP.node, if_neg (by simp), if_neg (by simp [keyValues_elem _ _ (toNode_val (some k) v)]),
      if_neg (by rw [(hasAttr_key key).1]; simp)]
    refine ⟨b#'}', by decide, ?_⟩
    obtain ⟨l, h⟩ := write_key hk ps [] (by simp)
    rw [List.append_nil] at h
    dsimp only
    rw [h, Option.bind_some]
    rw [if_neg (by
      cases key with
      | none => decide
      | some _ => simp), Option.bind_some, attributes_keyAttr, Option.bind_some]
    obtain ⟨l1, h1, e1⟩ := write_value v hv (some k) (keyWrite_some hm) ⟨ps.comma.out ++ serKey key ++ b#"{", b#'{'⟩
    have hall : (JMs.cons k v ms).Ok (fun s => JsonNumber s ∧ NoZeroE s) StrOk MemberOk (fun ms => ms.keys.Nodup) := by
      rw [JMs.Ok]; exact ⟨hm, hv, hms⟩
    rw [JMs.keys, List.nodup_cons] at hnd
    have hc : ∀ k' ∈ (JMs.cons k v ms).keys, NameKey k' → nameCount ((toNode (some k) v :: membNodes ms).map jsonNodeName) k' = 1 := by
      intro k' hk' hn
      have := names_count _ hall k' hn
      rw [membNodes] at this
      unfold nameCount
      rw [this]
      rw [List.Nodup.count (by rw [JMs.keys, List.nodup_cons]; exact hnd), if_pos hk']
    rw [objectNodes_step _ hm _ _ (fun hn => ⟨hc k (by simp [JMs.keys]) hn, rfl⟩)]
    rw [show (some k).isSome = true from rfl] at e1
    rw [e1, Option.bind_some]
    obtain ⟨l2, e2⟩ := write_membs ms hms hnd.2 _ [jsonNodeName (toNode (some k) v)] (fun k' hk' hn =>
      ⟨hc k' (List.mem_cons_of_mem _ hk') hn, by
        rw [node_name]
        unfold nameCount
        rw [List.count_singleton, if_neg]
        rw [beq_iff_eq]
        exact memberOk_name_ne hm hn (fun e => hnd.1 (e ▸ hk'))⟩) ⟨_, l1⟩ h1
    rw [e2]
    rw [comma_of_sep _ (by simp [JSep])]
    simp [serKey]
theorem write_elems (vs : JVs) (hv : vs.Ok (fun s => JsonNumber s ∧ NoZeroE s) StrOk MemberOk (fun ms => ms.keys.Nodup)) (ps : JP)
    (hp : ¬ JSep ps.last) : ∃ l, JP.arrayNodes ps (elemNodes vs) = some ⟨ps.out ++ serElems vs, l⟩ := by
  match vs, hv with
  | .nil, _ => exact ⟨ps.last, by rw [elemNodes, JP.arrayNodes, serElems, List.append_nil]⟩
  | .cons v vs, hv =>
    rw [JVs.Ok] at hv
    obtain ⟨l1, h1, e1⟩ := write_element v hv.1 (fun ps => by
      obtain ⟨l, h, e⟩ := write_value v hv.1 none (keyWrite_none v) ps
      rw [serKey, List.append_nil] at e
      exact ⟨l, h, e⟩) ps (elemNodes vs)
    obtain ⟨l2, e2⟩ := write_elems vs hv.2 ⟨ps.comma.out ++ ser v, l1⟩ h1
    refine ⟨l2, ?_⟩
    rw [elemNodes, e1, e2, serElems, comma_of_not ps hp]
    simp
theorem write_membs (ms : JMs) (hv : ms.Ok (fun s => JsonNumber s ∧ NoZeroE s) StrOk MemberOk (fun ms => ms.keys.Nodup))
    (hnd : ms.keys.Nodup) (names done : List (List Byte)) (hc : ∀ k ∈ ms.keys, NameKey k → nameCount names k = 1 ∧ nameCount done k = 0)
    (ps : JP) (hp : ¬ JSep ps.last) : ∃ l, JP.objectNodes ps true names done (membNodes ms) = some ⟨ps.out ++ serMembs ms, l⟩ := by
  match ms, hv with
  | .nil, _ => exact ⟨ps.last, by rw [membNodes, JP.objectNodes, serMembs, List.append_nil]⟩
  | .cons k v ms, hv =>
    rw [JMs.Ok] at hv
    obtain ⟨hm, hv, hms⟩ := hv
    rw [JMs.keys] at hc
    rw [JMs.keys, List.nodup_cons] at hnd
    rw [membNodes, objectNodes_step _ hm _ _ (hc k List.mem_cons_self)]
    obtain ⟨l1, h1, e1⟩ := write_value v hv (some k) (keyWrite_some hm) ps
    rw [show (some k).isSome = true from rfl] at e1
    rw [e1, Option.bind_some]
    obtain ⟨l2, e2⟩ := write_membs ms hms hnd.2 names (jsonNodeName (toNode (some k) v) :: done) (fun k' hk' hn =>
      ⟨(hc k' (List.mem_cons_of_mem _ hk') hn).1, by
        have := (hc k' (List.mem_cons_of_mem _ hk') hn).2
        rw [node_name]
        unfold nameCount at this ⊢
        rw [List.count_cons, this, if_neg]
        rw [beq_iff_eq]
        exact memberOk_name_ne hm hn (fun e => hnd.1 (e ▸ hk'))⟩) ⟨_, l1⟩ h1
    refine ⟨l2, ?_⟩
    rw [e2, comma_of_not ps hp, serMembs]
    simp [serKey]
end

end Xmq
