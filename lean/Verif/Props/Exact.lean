import Verif.Props.TextOut
import Verif.Props.JsonStrings
/-!
# Exact conditions for C25, C26 and C67: when C quoted strings, JSON strings and texts are recovered
-/
namespace Xmq.Spec

/-- What is left of a byte of a text that is C quoted and unquoted again: nothing of a backslash, the two hexadecimal digits of a
    control character without a letter of its own. -/
def cRecovered (c : Byte) : List Byte :=
  if c = b#'\\' then []
  else if c < 7 ∨ (13 < c ∧ c < 32) ∨ c = 127 then
    [b#"0123456789ABCDEF".getD (c.toNat / 16) 0, b#"0123456789ABCDEF".getD (c.toNat % 16) 0]
  else [c]

/-- An entity reference. -/
def isEntityNode : Node → Bool
  | .entity _ => true
  | _ => false

end Xmq.Spec

namespace Xmq
open Spec

theorem cEsc_all (c : Byte) :
    (cEsc c = [c] ∧ cRecovered c = [c] ∧ c ≠ b#'"' ∧ c ≠ b#'\\') ∨
    (cEsc c = [b#'\\', (cEsc c).getD 1 0] ∧ unescapeC ((cEsc c).getD 1 0) = cRecovered c) ∨
    (cEsc c = [b#'\\', b#'x', (cEsc c).getD 2 0, (cEsc c).getD 3 0] ∧ cRecovered c = [(cEsc c).getD 2 0, (cEsc c).getD 3 0] ∧
      (cEsc c).getD 2 0 ≠ b#'"' ∧ (cEsc c).getD 2 0 ≠ b#'\\' ∧ (cEsc c).getD 3 0 ≠ b#'"' ∧ (cEsc c).getD 3 0 ≠ b#'\\') :=
  forall_byte (P := fun c => (cEsc c = [c] ∧ cRecovered c = [c] ∧ c ≠ b#'"' ∧ c ≠ b#'\\') ∨
    (cEsc c = [b#'\\', (cEsc c).getD 1 0] ∧ unescapeC ((cEsc c).getD 1 0) = cRecovered c) ∨
    (cEsc c = [b#'\\', b#'x', (cEsc c).getD 2 0, (cEsc c).getD 3 0] ∧ cRecovered c = [(cEsc c).getD 2 0, (cEsc c).getD 3 0] ∧
      (cEsc c).getD 2 0 ≠ b#'"' ∧ (cEsc c).getD 2 0 ≠ b#'\\' ∧ (cEsc c).getD 3 0 ≠ b#'"' ∧ (cEsc c).getD 3 0 ≠ b#'\\'))
    (by decide +kernel) c

/-- Unquoting what was quoted, for any text. -/
theorem unquote_all (rq : Bool) (s tail : List Byte) :
    unquoteAsCLoop rq (s.flatMap cEsc ++ tail) = (s.flatMap cRecovered ++ (unquoteAsCLoop rq tail).1, (unquoteAsCLoop rq tail).2) := by
  induction s with
  | nil => rfl
  | cons c t ih =>
    rw [List.flatMap_cons, List.flatMap_cons]
    rcases cEsc_all c with ⟨e, e', h1, h2⟩ | ⟨e, he⟩ | ⟨e, e', h1, h2, h3, h4⟩
    · rw [e, e', List.append_assoc, List.singleton_append, unquote_raw rq c _ h1 h2, ih]; rfl
    · rw [e, List.append_assoc]
      simp only [List.cons_append, List.nil_append]
      rw [unquote_esc, he, ih]; simp only [List.append_assoc]
    · rw [e, e', List.append_assoc]
      simp only [List.cons_append, List.nil_append]
      rw [unquote_esc, unquote_raw rq _ _ h1 h2, unquote_raw rq _ _ h3 h4, ih]; rfl

/-- No backslash is recovered. -/
theorem cRecovered_no_backslash (c : Byte) : b#'\\' ∉ cRecovered c :=
  forall_byte (P := fun c => b#'\\' ∉ cRecovered c) (by decide +kernel) c

theorem cRecovered_cases (c : Byte) : (CByte c ∧ cRecovered c = [c]) ∨ (¬ CByte c ∧ c = b#'\\') ∨
    (¬ CByte c ∧ ∃ y ∈ b#"0123456789ABCDEF", y ≠ c ∧ (cRecovered c).head? = some y) :=
  forall_byte (P := fun c => (CByte c ∧ cRecovered c = [c]) ∨ (¬ CByte c ∧ c = b#'\\') ∨
    (¬ CByte c ∧ ∃ y ∈ b#"0123456789ABCDEF", y ≠ c ∧ (cRecovered c).head? = some y)) (by decide +kernel) c

theorem cRecovered_same (s : List Byte) : s.flatMap cRecovered = s ↔ ∀ c ∈ s, CByte c := by
  induction s with
  | nil => simp
  | cons c t ih =>
    rw [List.flatMap_cons]
    rcases cRecovered_cases c with ⟨h, e⟩ | ⟨h, rfl⟩ | ⟨h, y, _, hy, e⟩
    · rw [e]
      simp [ih, h]
    · constructor
      · intro e
        exfalso
        have : b#'\\' ∈ (b#'\\' :: t).flatMap cRecovered := by rw [List.flatMap_cons, e]; exact List.mem_cons_self
        obtain ⟨x, _, hx⟩ := List.mem_flatMap.1 this
        exact cRecovered_no_backslash x hx
      · intro a; exact absurd (a _ List.mem_cons_self) h
    · constructor
      · intro e'
        exfalso
        cases hr : cRecovered c with
        | nil => rw [hr] at e; cases e
        | cons z r =>
          rw [hr] at e e'
          cases e
          exact hy (List.cons.inj e').1
      · intro a; exact absurd (a _ List.mem_cons_self) h

theorem cEsc_kinds (c : Byte) : (JsonByte c ∧ cEsc c = [c] ∧ c ≠ b#'\\') ∨
    (JsonByte c ∧ cEsc c = [b#'\\', (cEsc c).getD 1 0] ∧ (cEsc c).getD 1 0 ≠ b#'u') ∨
    (¬ JsonByte c ∧ cEsc c = b#'\\' :: (cEsc c).getD 1 0 :: (cEsc c).drop 2 ∧ (cEsc c).getD 1 0 ∉ b#"\"\\/bfnrtu") :=
  forall_byte (P := fun c => (JsonByte c ∧ cEsc c = [c] ∧ c ≠ b#'\\') ∨
    (JsonByte c ∧ cEsc c = [b#'\\', (cEsc c).getD 1 0] ∧ (cEsc c).getD 1 0 ≠ b#'u') ∨
    (¬ JsonByte c ∧ cEsc c = b#'\\' :: (cEsc c).getD 1 0 :: (cEsc c).drop 2 ∧ (cEsc c).getD 1 0 ∉ b#"\"\\/bfnrtu")) (by decide +kernel) c

theorem jsonString_raw_inv (c : Byte) (r x : List Byte) (hc : c ≠ b#'\\') (h : JsonString true (c :: r) x) : ∃ y, JsonString true r y := by
  generalize he : c :: r = l at h
  cases h with
  | nil => cases he
  | raw _ _ s _ _ _ h => cases he; exact ⟨s, h⟩
  | short => cases he; exact absurd rfl hc
  | unicode e v l s hu =>
    obtain ⟨a, b, c', d, _, _, _, _, rfl, _⟩ := hu
    cases he; exact absurd rfl hc
  | pair e1 e2 v1 v2 l s _ hu =>
    obtain ⟨a, b, c', d, _, _, _, _, rfl, _⟩ := hu
    cases he; exact absurd rfl hc

theorem jsonString_short_inv (e : Byte) (r x : List Byte) (hc : e ≠ b#'u') (h : JsonString true (b#'\\' :: e :: r) x) : ∃ y, JsonString true r y := by
  generalize he : b#'\\' :: e :: r = l at h
  cases h with
  | nil => cases he
  | raw _ _ s _ _ hn => cases he; exact absurd rfl hn
  | short _ _ _ s _ _ h => cases he; exact ⟨s, h⟩
  | unicode e v l s hu =>
    obtain ⟨a, b, c', d, _, _, _, _, rfl, _⟩ := hu
    cases he; exact absurd rfl hc
  | pair e1 e2 v1 v2 l s _ hu =>
    obtain ⟨a, b, c', d, _, _, _, _, rfl, _⟩ := hu
    cases he; exact absurd rfl hc

theorem jsonString_only (s : List Byte) : ∀ x, JsonString true (s.flatMap cEsc) x → ∀ c ∈ s, JsonByte c := by
  induction s with
  | nil => intro _ _ c hc; cases hc
  | cons c t ih =>
    intro x h d hd
    rw [List.flatMap_cons] at h
    have key : JsonByte c ∧ ∃ y, JsonString true (t.flatMap cEsc) y := by
      rcases cEsc_kinds c with ⟨k, e, hc⟩ | ⟨k, e, hc⟩ | ⟨k, e, hc⟩
      · rw [e] at h; exact ⟨k, jsonString_raw_inv c _ x hc h⟩
      · rw [e] at h; exact ⟨k, jsonString_short_inv _ _ x hc h⟩
      · exfalso
        rw [e] at h
        exact hc (Props.jsonString_second _ _ _ h _ _ rfl)
    rcases List.mem_cons.1 hd with rfl | hd
    · exact key.1
    · obtain ⟨y, hy⟩ := key.2
      exact ih y hy d hd

mutual
theorem textNode_length : ∀ (n : Node), ((descendants n).flatMap fun n => match n with | .text s => s | _ => []).length
    + (descendants n).countP isEntityNode ≤ (textNode n).length
  | .text s => by simp [textNode, descendants, isEntityNode]
  | .entity s => by simp [textNode, descendants, isEntityNode]
  | .comment s => by simp [textNode, descendants, isEntityNode]
  | .element n as ks => by
    have := textNodes_length ks
    rw [textNode, descendants, List.flatMap_cons, List.countP_cons]
    simpa [isEntityNode] using this
theorem textNodes_length : ∀ (ns : List Node), ((allDescendants ns).flatMap fun n => match n with | .text s => s | _ => []).length
    + (allDescendants ns).countP isEntityNode ≤ (textNodes ns).length
  | [] => by simp [textNodes, allDescendants]
  | n :: t => by
    have h1 := textNode_length n
    have h2 := textNodes_length t
    rw [textNodes, allDescendants, List.flatMap_append, List.countP_append, List.length_append, List.length_append]
    omega
end

namespace Props

/-- What remains of a text that is C quoted and unquoted again, whatever characters it has. -/
theorem C25_exact (s : List Byte) (h : ValidUtf8 s) (h0 : (0 : Byte) ∉ s) (quotes : Bool) :
    ∃ q, quoteAsC s quotes = some q ∧ unquoteAsC q quotes = s.flatMap cRecovered := by
  have hq := quoteAsC_eq s h fun c hc e => h0 (e ▸ hc)
  cases quotes with
  | true =>
    refine ⟨_, quoteAsC_quotes s _ hq, ?_⟩
    unfold unquoteAsC
    rw [if_neg (by simp), if_pos rfl]
    have : (b#'"' :: (s.flatMap cEsc ++ [b#'"'])).dropWhile isXmlWhitespace = b#'"' :: (s.flatMap cEsc ++ [b#'"']) := by
      rw [List.dropWhile_cons, if_neg (by decide)]
    simp only [this, peek_cons, List.drop_succ_cons, List.drop_zero]
    rw [if_neg (by decide), unquote_all true s [b#'"']]
    have : unquoteAsCLoop true [b#'"'] = ([], [b#'"']) := by decide +kernel
    rw [this]
    simp
  | false =>
    refine ⟨_, hq, ?_⟩
    unfold unquoteAsC
    by_cases he : (s.flatMap cEsc).isEmpty
    · rw [if_pos he]
      cases s with
      | nil => rfl
      | cons c t =>
        exfalso
        rw [List.isEmpty_iff, List.flatMap_cons] at he
        have := (List.append_eq_nil_iff.1 he).1
        revert this
        exact forall_byte (P := fun c => cEsc c = [] → False) (by decide +kernel) c
    · rw [if_neg he, if_neg (by simp)]
      have := unquote_all false s []
      rw [List.append_nil] at this
      rw [this]
      have : unquoteAsCLoop false [] = ([], []) := by decide +kernel
      rw [this]
      simp

/-- A text is recovered exactly if it has no backslash and no control characters but the seven with a letter. -/
theorem C25_iff (s : List Byte) (h : ValidUtf8 s) (h0 : (0 : Byte) ∉ s) (quotes : Bool) :
    (∃ q, quoteAsC s quotes = some q ∧ unquoteAsC q quotes = s) ↔
      ∀ c ∈ s, c ≠ b#'\\' ∧ (128 ≤ c ∨ (0x20 ≤ c ∧ c ≤ 0x7e) ∨ (7 ≤ c ∧ c ≤ 13)) := by
  obtain ⟨q, h1, h2⟩ := C25_exact s h h0 quotes
  refine Iff.trans ?_ (cRecovered_same s)
  rw [h1]
  constructor
  · rintro ⟨q', e, e'⟩
    cases e
    rw [← h2, e']
  · intro e
    exact ⟨q, rfl, h2.trans e⟩

/-- `a\b` and a byte 27: the backslash is lost, the byte becomes two digits. -/
example : (∃ q, quoteAsC [b#'a', b#'\\', b#'b', 27] true = some q ∧ unquoteAsC q true = b#"ab1B") ∧
    ([b#'a', b#'\\', b#'b', 27] : List Byte).flatMap cRecovered = b#"ab1B" := by
  refine ⟨⟨b#"\"a\\\\b\\x1B\"", by decide +kernel, by decide +kernel⟩, by decide +kernel⟩

/-- What is written for a text is a JSON string, of whatever text, exactly if the control characters are those with a JSON escape;
    then it is one of this text. -/
theorem C26_write_iff (s : List Byte) (h : ValidUtf8 s) (h0 : (0 : Byte) ∉ s) :
    ∃ q, quoteAsC s false = some q ∧ (JsonString true q s ↔ ∀ c ∈ s, JsonByte c) ∧ ((∃ x, JsonString true q x) ↔ ∀ c ∈ s, JsonByte c) := by
  refine ⟨_, quoteAsC_eq s h fun c hc e => h0 (e ▸ hc), ⟨jsonString_only s s, jsonString_cEsc true s⟩, ?_⟩
  exact ⟨fun ⟨x, hx⟩ => jsonString_only s x hx, fun g => ⟨s, jsonString_cEsc true s g⟩⟩

/-- A byte 11 and a byte 127 are written as `\v` and `\x7F`. -/
example : quoteAsC [11] false = some b#"\\v" ∧ quoteAsC [b#'a', 127] false = some b#"a\\x7F" ∧ ¬ JsonByte 11 ∧ ¬ JsonByte 127 := by decide +kernel

/-- The text output is the text content exactly for the documents without entity references. -/
theorem C67_iff (doc : List Node) : printText doc = textContent doc ↔ ∀ e, Node.entity e ∉ allDescendants doc := by
  refine ⟨fun h e he => ?_, C67_text_partial doc⟩
  have h1 : (textContent doc).length + (allDescendants doc).countP isEntityNode ≤ (printText doc).length := textNodes_length doc
  have h2 : 0 < (allDescendants doc).countP isEntityNode := List.countP_pos_iff.2 ⟨_, he, rfl⟩
  have h3 : (printText doc).length = (textContent doc).length := by rw [h]
  omega

/-- A text is printed as it was read exactly if it has no NUL byte. -/
theorem C67_round_trip_iff (s : List Byte) (root : Option (List Byte)) : printText (parseText s root) = s ↔ (0 : Byte) ∉ s := by
  refine ⟨fun h hs => ?_, C67_round_trip_partial s root⟩
  obtain ⟨a, b, e, ha⟩ := List.eq_append_cons_of_mem hs
  rw [e, C67_false_nul a b ha root] at h
  have := congrArg List.length h
  simp at this

/-- A comment inside of an element is no obstacle. -/
example : (∀ e, Node.entity e ∉ allDescendants [.element b#"a" [] [.comment b#"c", .text b#"t"]]) ∧
    ¬ ∀ e, Node.entity e ∉ allDescendants [.element b#"a" [] [.element b#"b" [] [.entity b#"lt"]]] := by
  refine ⟨by simp [allDescendants, descendants], fun h => h b#"lt" (by simp [allDescendants, descendants])⟩

end Props

end Xmq
