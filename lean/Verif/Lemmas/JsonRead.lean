import Verif.Lemmas.JsonParse
import Verif.Props.JsonKeys
/-!
# The JSON parser accepts the texts of RFC 8259
-/
namespace Xmq
open Spec

/-- What `parse_json_quote` reports, unless the key is `!DOCTYPE`. -/
def strToks (key : Option (List Byte)) (content : List Byte) : List JTok :=
  let k := key.map trimIndexSuffix
  if k = some b#"|" then [.tok .quote content]
  else if k = some b#"//" then [.tok .comment content]
  else if k = some b#"_//" then [.rootComment content]
  else if k = some b#"_" ∧ isXmqElementName content then
    [if content.any (· == b#':') then .tok .element_ns content else .rename content]
  else quoteToks key content

mutual
/-- What is reported for a value. -/
def valToks (key : Option (List Byte)) : JV → List JTok
  | .str s => strToks key s
  | .num s => literalToks key s
  | .bool true => literalToks key b#"true"
  | .bool false => literalToks key b#"false"
  | .null => nullToks key
  | .arr vs => arrayToks key ++ elemToks vs ++ [.tok .brace_right b#"}"]
  | .obj ms => objectToks key ++ membToks ms ++ [.tok .brace_right b#"}"]
/-- What is reported for the elements of an array. -/
def elemToks : JVs → List JTok
  | .nil => []
  | .cons v vs => valToks none v ++ elemToks vs
/-- What is reported for the members of an object. -/
def membToks : JMs → List JTok
  | .nil => []
  | .cons k v ms => valToks (some k) v ++ membToks ms
end

/-- The key is not taken for a doctype. -/
def NoDoctype (k : List Byte) : Prop := k.take 8 ≠ b#"!DOCTYPE"

theorem trimIndexSuffix_prefix (k : List Byte) : trimIndexSuffix k <+: k := by
  by_cases h : trimIndexSuffix k = k
  · rw [h]; exact List.prefix_refl k
  · obtain ⟨k', ds, _, _, e, e'⟩ := Props.C34_nothing_else_removed k h
    rw [e', e, List.append_assoc, List.append_assoc]
    exact List.prefix_append _ _

theorem noDoctype_trim (k : List Byte) (h : NoDoctype k) : trimIndexSuffix k ≠ b#"!DOCTYPE" := by
  intro e
  obtain ⟨t, ht⟩ := trimIndexSuffix_prefix k
  rw [e] at ht
  exact h (by rw [← ht]; rfl)

theorem parseJsonQuote_eq (dtdOk : List Byte → Bool) (key : Option (List Byte)) (content : List Byte) (st : JSt)
    (h : ∀ k, key = some k → NoDoctype k) : parseJsonQuote dtdOk key content st = .ok (st.emit (strToks key content)) := by
  have hk : key.map trimIndexSuffix ≠ some b#"!DOCTYPE" := by
    cases key with
    | none => simp
    | some k => simpa using noDoctype_trim k (h k rfl)
  unfold parseJsonQuote strToks
  dsimp only
  simp only [hk, false_and, if_false]
  repeat' split
  all_goals rfl

/-- The byte is one of those at which the parser stops skipping whitespace. -/
theorem countWs_zero {c : Byte} {t : List Byte} (h : c ∈ b#"\"-0123456789tfn[]{},:") : countWhitespace (c :: t) = 0 := by
  have : ∀ c ∈ b#"\"-0123456789tfn[]{},:", isXmlWhitespace c = false ∧ c ≠ 0xc2 ∧ c ≠ 0xe2 := by decide
  obtain ⟨h1, h2, h3⟩ := this c h
  exact countWhitespace_of_head h1 h2 h3

theorem skipWs_to (w rest : List Byte) (hw : JsonWs false w) (h : rest = [] ∨ ∃ c t, rest = c :: t ∧ c ∈ b#"\"-0123456789tfn[]{},:")
    (out : List JTok) (d : Bool) : (JSt.mk (w ++ rest) out d).skipWs = ⟨rest, out, d⟩ := by
  have key : ∀ (w : List Byte) (k : Nat), JsonWs false w → w.length ≤ k → skipJsonWs k (w ++ rest) = rest := by
    intro w
    induction w with
    | nil =>
      intro k _ _
      cases k with
      | zero => rfl
      | succ k =>
        rw [List.nil_append, skipJsonWs]
        rcases h with rfl | ⟨c, t, rfl, hc⟩
        · rfl
        · rw [if_neg (by simp)]
          simp only [countWs_zero hc, beq_self_eq_true, if_true]
    | cons c t ih =>
      intro k hw hk
      cases k with
      | zero => simp at hk
      | succ k =>
        have hc : countWhitespace (c :: (t ++ rest)) = 1 := by
          unfold countWhitespace
          rcases hw c List.mem_cons_self with rfl | rfl | rfl | rfl <;> simp
        rw [List.cons_append, skipJsonWs, if_neg (by simp)]
        simp only [hc]
        rw [if_neg (by decide), List.drop_succ_cons, List.drop_zero]
        exact ih k (fun x hx => hw x (List.mem_cons_of_mem _ hx)) (by simpa using hk)
  unfold JSt.skipWs
  rw [key w _ hw (by simp)]

/-- The first byte of a value. -/
theorem jtext_head {full : Bool} {W : Bool → List Byte → Prop} {v : JV} {t : List Byte} (h : JText full W v t) :
    ∃ c r, t = c :: r ∧ c ∈ b#"\"-0123456789tfn[{" := by
  cases h with
  | str l s _ => exact ⟨_, _, rfl, by decide⟩
  | num s h =>
    obtain ⟨minus, int, frac, exp, rfl, hm, hi, _, _⟩ := h
    rcases hm with rfl | rfl
    · have : ∃ c t, int = c :: t ∧ JDigit c := by
        rcases hi with rfl | ⟨hi, _⟩
        · exact ⟨_, _, rfl, by simp [JDigit]⟩
        · match int, hi with
          | c :: t, hi => exact ⟨c, t, rfl, hi.2 c List.mem_cons_self⟩
          | [], hi => exact absurd rfl hi.1
      obtain ⟨c, t, rfl, hc⟩ := this
      refine ⟨c, _, rfl, ?_⟩
      revert hc
      rw [← isDigit_iff]
      exact forall_byte (P := fun c => isDigit c = true → c ∈ b#"\"-0123456789tfn[{") (by decide +kernel) c
    · exact ⟨_, _, rfl, by decide⟩
  | true => exact ⟨_, _, rfl, by decide⟩
  | false => exact ⟨_, _, rfl, by decide⟩
  | null => exact ⟨_, _, rfl, by decide⟩
  | arr vs t _ => exact ⟨_, _, rfl, by decide⟩
  | obj ms t _ => exact ⟨_, _, rfl, by decide⟩

/-- The first byte of a number. -/
theorem jnumber_head {s : List Byte} (h : JsonNumber s) : ∃ c r, s = c :: r ∧ c ∈ b#"-0123456789" := by
  obtain ⟨c, r, e, hc⟩ := jtext_head (full := true) (W := JsonWs) (.num s h)
  obtain ⟨minus, int, frac, exp, rfl, hm, hi, _, _⟩ := h
  rcases hm with rfl | rfl
  · have : ∃ c t, int = c :: t ∧ JDigit c := by
      rcases hi with rfl | ⟨hi, _⟩
      · exact ⟨_, _, rfl, by simp [JDigit]⟩
      · match int, hi with
        | c :: t, hi => exact ⟨c, t, rfl, hi.2 c List.mem_cons_self⟩
        | [], hi => exact absurd rfl hi.1
    obtain ⟨c, t, rfl, hc⟩ := this
    refine ⟨c, _, rfl, ?_⟩
    revert hc
    rw [← isDigit_iff]
    exact forall_byte (P := fun c => isDigit c = true → c ∈ b#"-0123456789") (by decide +kernel) c
  · exact ⟨_, _, rfl, by decide⟩

/-- What may follow a value and its whitespace. -/
def Follows (rest : List Byte) : Prop := rest = [] ∨ ∃ c t, rest = c :: t ∧ c ∈ b#",]}"

theorem Follows.stop {rest : List Byte} (h : Follows rest) : rest = [] ∨ ∃ c t, rest = c :: t ∧ c ∈ b#"\"-0123456789tfn[]{},:" := by
  rcases h with h | ⟨c, t, rfl, hc⟩
  · exact .inl h
  · have : ∀ c ∈ b#",]}", c ∈ b#"\"-0123456789tfn[]{},:" := by decide
    exact .inr ⟨c, t, rfl, this c hc⟩

theorem numEnd_of {w rest : List Byte} (hw : JsonWsN true w) (hr : Follows rest) : NumEnd (w ++ rest) := by
  cases w with
  | nil =>
    rcases hr with rfl | ⟨c, t, rfl, hc⟩
    · exact .inl rfl
    · right
      have : ∀ c ∈ b#",]}", hasNumberEnded c = true := by decide
      exact this c hc
  | cons c t =>
    right
    have h1 := hw.1 c List.mem_cons_self
    have h2 := hw.2 rfl
    simp only [List.head?_cons, ne_eq, Option.some.injEq] at h2
    simp only [List.cons_append, peek_cons]
    rcases h1 with rfl | rfl | rfl | rfl
    · rfl
    · exact absurd rfl h2.1
    · rfl
    · exact absurd rfl h2.2

/-- The guard under which acceptance is shown. -/
def Acc (v : JV) : Prop := v.Ok NoZeroE (fun _ => True) (fun k _ => NoDoctype k) (fun _ => True)

mutual
theorem parse_value (dtdOk : List Byte → Bool) (v : JV) (t : List Byte) (h : JText false JsonWsN v t)
    (ha : v.Ok NoZeroE (fun _ => True) (fun k _ => NoDoctype k) (fun _ => True))
    (key : Option (List Byte)) (hk : ∀ k, key = some k → NoDoctype k) :
    ∃ N, ∀ fuel, N ≤ fuel → ∀ (w w' rest : List Byte) (out : List JTok) (d : Bool), JsonWsN false w → JsonWsN v.isNum w' → Follows rest →
      parseJson dtdOk fuel key ⟨w ++ t ++ w' ++ rest, out, d⟩ = .ok ⟨rest, (valToks key v).reverse ++ out, d⟩ := by
  -- the whitespace around the value
  have around : ∀ N, (∀ fuel, N ≤ fuel → ∀ (x : List Byte) (out : List JTok) (d : Bool),
        (v.isNum = true → NumEnd x) →
        parseJsonValue dtdOk (jsonObjectLoop (parseJson dtdOk fuel) fuel) (jsonArrayLoop (parseJson dtdOk fuel none) fuel) key
          ⟨t ++ x, out, d⟩ = .ok ⟨x, (valToks key v).reverse ++ out, d⟩) →
      ∃ N, ∀ fuel, N ≤ fuel → ∀ (w w' rest : List Byte) (out : List JTok) (d : Bool), JsonWsN false w → JsonWsN v.isNum w' → Follows rest →
        parseJson dtdOk fuel key ⟨w ++ t ++ w' ++ rest, out, d⟩ = .ok ⟨rest, (valToks key v).reverse ++ out, d⟩ := by
    intro N hN
    refine ⟨N + 1, ?_⟩
    intro fuel hf w w' rest out d hw hw' hr
    match fuel, hf with
    | fuel + 1, hf =>
      rw [parseJson]
      obtain ⟨c, r, e, hc⟩ := jtext_head h
      have hc' : c ∈ b#"\"-0123456789tfn[]{},:" := by
        have : ∀ c ∈ b#"\"-0123456789tfn[{", c ∈ b#"\"-0123456789tfn[]{},:" := by decide
        exact this c hc
      rw [show w ++ t ++ w' ++ rest = w ++ (t ++ (w' ++ rest)) by simp,
        skipWs_to w _ hw.1 (.inr ⟨c, r ++ (w' ++ rest), congrArg (· ++ (w' ++ rest)) e, hc'⟩),
        hN fuel (by omega) _ out d (fun hn => by rw [hn] at hw'; exact numEnd_of hw' hr), JRes.bind_ok,
        skipWs_to w' rest hw'.1 hr.stop]
  cases h with
  | str l s hs =>
    apply around 0
    intro fuel _ x out d _
    unfold parseJsonValue
    rw [if_pos (by simp)]
    have : ((b#'"' :: (l ++ [b#'"'])) ++ x).drop 1 = l ++ b#'"' :: x := by simp
    simp only [this, eat_jsonString l s hs x]
    rw [parseJsonQuote_eq _ _ _ _ hk]
    simp only [valToks]
    rfl
  | num _ hs =>
    apply around 0
    intro fuel _ x out d hx
    obtain ⟨c, r, e, hc⟩ := jnumber_head hs
    unfold parseJsonValue
    have hc2 : c ≠ b#'"' ∧ c ≠ b#'t' ∧ c ≠ b#'f' ∧ c ≠ b#'n' := by
      have : ∀ c ∈ b#"-0123456789", c ≠ b#'"' ∧ c ≠ b#'t' ∧ c ≠ b#'f' ∧ c ≠ b#'n' := by decide
      exact this c hc
    have hx' := isJnumber_of t x hs ha (hx rfl)
    have hp : peek (t ++ x) = c := by rw [e]; rfl
    have ht : ∀ n (a : Byte) (b : List Byte), c ≠ a → ((t ++ x).take (n + 1) == a :: b) = false := by
      intro n a b hne
      rw [e, beq_eq_false_iff_ne]
      simp [hne]
    simp only [hp]
    rw [if_neg (by simpa using hc2.1), if_neg (by rw [ht 3 b#'t' _ hc2.2.1]; simp), if_neg (by rw [ht 4 b#'f' _ hc2.2.2.1]; simp),
      if_neg (by rw [ht 3 b#'n' _ hc2.2.2.2]; simp), hx']
    simp only [JSt.drop, JSt.emit, List.drop_left, List.take_left, valToks]
  | true => apply around 0; intro fuel _ x out d _; rfl
  | false => apply around 0; intro fuel _ x out d _; rfl
  | null => apply around 0; intro fuel _ x out d _; rfl
  | arr vs t hv =>
    rw [JV.Ok] at ha
    obtain ⟨N, hN⟩ := parse_elems dtdOk vs t hv ha
    apply around N
    intro fuel hf x out d _
    have e : parseJsonValue dtdOk (jsonObjectLoop (parseJson dtdOk fuel) fuel) (jsonArrayLoop (parseJson dtdOk fuel none) fuel) key
        ⟨b#'[' :: (t ++ [b#']']) ++ x, out, d⟩ =
        jsonArrayLoop (parseJson dtdOk fuel none) fuel ⟨t ++ b#']' :: x, (arrayToks key).reverse ++ out, d⟩ := by
      unfold parseJsonValue
      simp [isJnumber, isDigit, JSt.drop, JSt.emit]
    rw [e, hN fuel fuel hf hf]
    simp [valToks]
  | obj ms t hm =>
    rw [JV.Ok] at ha
    obtain ⟨N, hN⟩ := parse_membs dtdOk ms t hm ha.2
    apply around N
    intro fuel hf x out d _
    have e : parseJsonValue dtdOk (jsonObjectLoop (parseJson dtdOk fuel) fuel) (jsonArrayLoop (parseJson dtdOk fuel none) fuel) key
        ⟨b#'{' :: (t ++ [b#'}']) ++ x, out, d⟩ =
        jsonObjectLoop (parseJson dtdOk fuel) fuel ⟨t ++ b#'}' :: x, (objectToks key).reverse ++ out, d⟩ := by
      unfold parseJsonValue
      simp [isJnumber, isDigit, JSt.drop, JSt.emit]
    rw [e, hN fuel fuel hf hf]
    simp [valToks]
theorem parse_elems (dtdOk : List Byte → Bool) (vs : JVs) (t : List Byte) (h : JElems false JsonWsN vs t)
    (ha : vs.Ok NoZeroE (fun _ => True) (fun k _ => NoDoctype k) (fun _ => True)) :
    ∃ N, ∀ fuel k, N ≤ fuel → N ≤ k → ∀ (x : List Byte) (out : List JTok) (d : Bool),
      jsonArrayLoop (parseJson dtdOk fuel none) k ⟨t ++ b#']' :: x, out, d⟩ =
        .ok ⟨x, JTok.tok .brace_right b#"}" :: ((elemToks vs).reverse ++ out), d⟩ := by
  cases vs with
  | nil =>
    cases h with
    | nil w hw =>
      refine ⟨1, ?_⟩
      intro fuel k _ hk x out d
      match k, hk with
      | k + 1, _ =>
        rw [jsonArrayLoop, if_neg (by simp), skipWs_to _ _ hw.1 (.inr ⟨_, _, rfl, by decide⟩)]
        rfl
  | cons v vs =>
    rw [JVs.Ok] at ha
    -- entering the loop at a value
    have enter : ∀ (w t y : List Byte) (fuel k : Nat) (out : List JTok) (d : Bool), JsonWsN false w → JText false JsonWsN v t →
        (parseJson dtdOk fuel none ⟨w ++ t ++ y, out, d⟩ = parseJson dtdOk fuel none ⟨t ++ y, out, d⟩) →
        jsonArrayLoop (parseJson dtdOk fuel none) (k + 1) ⟨w ++ t ++ y, out, d⟩ =
          (parseJson dtdOk fuel none ⟨w ++ t ++ y, out, d⟩).bind fun st =>
            if peek st.rest == b#',' then jsonArrayLoop (parseJson dtdOk fuel none) k (st.drop 1)
            else if peek st.rest == b#']' then .ok ((st.drop 1).emit [.tok .brace_right b#"}"])
            else .abort := by
      intro w t y fuel k out d hw ht he
      obtain ⟨c, r, e, hc⟩ := jtext_head ht
      have hc' : c ∈ b#"\"-0123456789tfn[]{},:" ∧ (c == b#']') = false := by
        have : ∀ c ∈ b#"\"-0123456789tfn[{", c ∈ b#"\"-0123456789tfn[]{},:" ∧ (c == b#']') = false := by decide
        exact this c hc
      have hs := skipWs_to w (t ++ y) hw.1 (.inr ⟨c, r ++ y, by rw [e]; rfl, hc'.1⟩) out d
      rw [← List.append_assoc] at hs
      rw [jsonArrayLoop, if_neg (by simp [e]), hs, he]
      have hp : peek (t ++ y) = c := by rw [e]; rfl
      simp only [hp]
      rw [hc'.2]
      rfl
    cases h with
    | one v w t w' hw ht hw' =>
      obtain ⟨N, hN⟩ := parse_value dtdOk v t ht ha.1 none (by simp)
      refine ⟨N + 1, ?_⟩
      intro fuel k hf hk x out d
      match k, hk with
      | k + 1, _ =>
        have hr : Follows (b#']' :: x) := .inr ⟨_, _, rfl, by decide⟩
        have e1 := hN fuel (by omega) w w' (b#']' :: x) out d hw hw' hr
        have e2 := hN fuel (by omega) [] w' (b#']' :: x) out d ⟨by simp, by simp⟩ hw' hr
        rw [List.append_assoc (w ++ t)] at e1 ⊢
        rw [List.nil_append, List.append_assoc] at e2
        rw [enter w t _ fuel k out d hw ht (e1.trans e2.symm), e1, JRes.bind_ok]
        simp [JSt.drop, JSt.emit, elemToks]
    | cons v v' vs w t w' r hw ht hw' hrec =>
      obtain ⟨N, hN⟩ := parse_value dtdOk v t ht ha.1 none (by simp)
      obtain ⟨M, hM⟩ := parse_elems dtdOk (.cons v' vs) r hrec ha.2
      refine ⟨N + M + 1, ?_⟩
      intro fuel k hf hk x out d
      match k, hk with
      | k + 1, hk =>
        have hr : Follows (b#',' :: (r ++ b#']' :: x)) := .inr ⟨_, _, rfl, by decide⟩
        have e1 := hN fuel (by omega) w w' _ out d hw hw' hr
        have e2 := hN fuel (by omega) [] w' _ out d ⟨by simp, by simp⟩ hw' hr
        rw [show w ++ t ++ w' ++ b#',' :: r ++ b#']' :: x = w ++ t ++ (w' ++ b#',' :: (r ++ b#']' :: x)) by simp]
        rw [List.append_assoc (w ++ t)] at e1
        rw [List.nil_append, List.append_assoc] at e2
        rw [enter w t _ fuel k out d hw ht (e1.trans e2.symm), e1, JRes.bind_ok]
        simp only [peek_cons, beq_self_eq_true, if_true]
        rw [show JSt.drop ⟨b#',' :: (r ++ b#']' :: x), (valToks none v).reverse ++ out, d⟩ 1 =
          ⟨r ++ b#']' :: x, (valToks none v).reverse ++ out, d⟩ from rfl, hM fuel k (by omega) (by omega)]
        simp [elemToks]
theorem parse_membs (dtdOk : List Byte → Bool) (ms : JMs) (t : List Byte) (h : JMembers false JsonWsN ms t)
    (ha : ms.Ok NoZeroE (fun _ => True) (fun k _ => NoDoctype k) (fun _ => True)) :
    ∃ N, ∀ fuel k, N ≤ fuel → N ≤ k → ∀ (x : List Byte) (out : List JTok) (d : Bool),
      jsonObjectLoop (parseJson dtdOk fuel) k ⟨t ++ b#'}' :: x, out, d⟩ =
        .ok ⟨x, JTok.tok .brace_right b#"}" :: ((membToks ms).reverse ++ out), d⟩ := by
  cases ms with
  | nil =>
    cases h with
    | nil w hw =>
      refine ⟨1, ?_⟩
      intro fuel k _ hk x out d
      match k, hk with
      | k + 1, _ =>
        rw [jsonObjectLoop, if_neg (by simp), skipWs_to _ _ hw.1 (.inr ⟨_, _, rfl, by decide⟩)]
        rfl
  | cons key v ms =>
    rw [JMs.Ok] at ha
    obtain ⟨hkey, hv, hms⟩ := ha
    -- entering the loop at a key
    have enter : ∀ (w l w' y : List Byte) (fuel k : Nat) (out : List JTok) (d : Bool), JsonWsN false w → JsonString false l key →
        JsonWsN false w' →
        jsonObjectLoop (parseJson dtdOk fuel) (k + 1) ⟨w ++ b#'"' :: (l ++ b#'"' :: (w' ++ b#':' :: y)), out, d⟩ =
          (parseJson dtdOk fuel (some key) ⟨y, out, d⟩).bind fun st =>
            if peek st.rest == b#',' then jsonObjectLoop (parseJson dtdOk fuel) k (st.drop 1)
            else if peek st.rest == b#'}' then .ok ((st.drop 1).emit [.tok .brace_right b#"}"])
            else .abort := by
      intro w l w' y fuel k out d hw hl hw'
      rw [jsonObjectLoop, if_neg (by simp), skipWs_to w _ hw.1 (.inr ⟨_, _, rfl, by decide⟩)]
      simp only [peek_cons, List.drop_succ_cons, List.drop_zero, eat_jsonString l key hl]
      rw [if_neg (by decide), if_neg (by decide), skipWs_to w' _ hw'.1 (.inr ⟨_, _, rfl, by decide⟩)]
      simp only [peek_cons]
      rfl
    cases h with
    | one _ l _ w w' w'' t w''' hw hl hw' hw'' ht hw3 =>
      obtain ⟨N, hN⟩ := parse_value dtdOk v t ht hv (some key) (by rintro k ⟨⟩; exact hkey)
      refine ⟨N + 1, ?_⟩
      intro fuel k hf hk x out d
      match k, hk with
      | k + 1, _ =>
        have hr : Follows (b#'}' :: x) := .inr ⟨_, _, rfl, by decide⟩
        have e1 := hN fuel (by omega) w'' w''' (b#'}' :: x) out d hw'' hw3 hr
        rw [show w ++ b#'"' :: (l ++ b#'"' :: (w' ++ b#':' :: (w'' ++ t ++ w'''))) ++ b#'}' :: x =
          w ++ b#'"' :: (l ++ b#'"' :: (w' ++ b#':' :: (w'' ++ t ++ w''' ++ b#'}' :: x))) by simp,
          enter w l w' _ fuel k out d hw hl hw', e1, JRes.bind_ok]
        simp [JSt.drop, JSt.emit, membToks]
    | cons _ l k' _ v' ms w w' w'' t w''' r hw hl hw' hw'' ht hw3 hrec =>
      obtain ⟨N, hN⟩ := parse_value dtdOk v t ht hv (some key) (by rintro k ⟨⟩; exact hkey)
      obtain ⟨M, hM⟩ := parse_membs dtdOk (.cons k' v' ms) r hrec hms
      refine ⟨N + M + 1, ?_⟩
      intro fuel k hf hk x out d
      match k, hk with
      | k + 1, hk =>
        have hr : Follows (b#',' :: (r ++ b#'}' :: x)) := .inr ⟨_, _, rfl, by decide⟩
        have e1 := hN fuel (by omega) w'' w''' _ out d hw'' hw3 hr
        rw [show w ++ b#'"' :: (l ++ b#'"' :: (w' ++ b#':' :: (w'' ++ t ++ w''' ++ b#',' :: r))) ++ b#'}' :: x =
          w ++ b#'"' :: (l ++ b#'"' :: (w' ++ b#':' :: (w'' ++ t ++ w''' ++ b#',' :: (r ++ b#'}' :: x)))) by simp,
          enter w l w' _ fuel k out d hw hl hw', e1, JRes.bind_ok]
        simp only [peek_cons, beq_self_eq_true, if_true]
        rw [show JSt.drop ⟨b#',' :: (r ++ b#'}' :: x), (valToks (some key) v).reverse ++ out, d⟩ 1 =
          ⟨r ++ b#'}' :: x, (valToks (some key) v).reverse ++ out, d⟩ from rfl, hM fuel k (by omega) (by omega)]
        simp [membToks]
end

/-- Every JSON text (with the exceptions in the guard) is accepted, and reported as `valToks` says. -/
theorem parse_doc (dtdOk : List Byte → Bool) (v : JV) (t : List Byte) (h : JDoc false JsonWsN v t)
    (ha : v.Ok NoZeroE (fun _ => True) (fun k _ => NoDoctype k) (fun _ => True)) :
    ∃ N, ∀ fuel, N ≤ fuel → parseJsonBuffer dtdOk fuel t = .ok ⟨[], (valToks none v).reverse, false⟩ := by
  obtain ⟨w, t', w', hw, ht, hw', rfl⟩ := h
  obtain ⟨N, hN⟩ := parse_value dtdOk v t' ht ha none (by simp)
  refine ⟨N, fun fuel hf => ?_⟩
  have := hN fuel hf w w' [] [] false hw hw' (.inl rfl)
  rw [List.append_nil] at this
  rw [parseJsonBuffer, this]
  simp

end Xmq
