import Verif.Model.QuoteCmd
import Verif.Props.Exact
import Verif.Props.JsonStrings
/-!
# C103: unquote-c gives back what quote-c was given
-/
namespace Xmq.Props

open Xmq Xmq.Spec

theorem unquoteLoop_more : ∀ (a x : List Byte), peek (unquoteAsCLoop true a).2 = b#'"' →
    unquoteAsCLoop true (a ++ x) = ((unquoteAsCLoop true a).1, (unquoteAsCLoop true a).2 ++ x)
  | [], x, h => by
    exact absurd h (by decide)
  | [c], x, h => by
    by_cases h1 : c = b#'"'
    · subst h1
      cases x <;> simp [unquoteAsCLoop]
    · exfalso
      revert h h1
      exact forall_byte (P := fun c => peek (unquoteAsCLoop true [c]).2 = b#'"' → ¬ c = b#'"' → False) (by decide +kernel) c
  | c :: d :: t, x, h => by
    by_cases h1 : c = b#'"'
    · subst h1; simp [unquoteAsCLoop]
    · by_cases h2 : c = b#'\\'
      · subst h2
        rw [unquoteAsCLoop] at h
        simp only [List.cons_append]
        rw [unquoteAsCLoop, unquoteAsCLoop]
        simp at h
        have ih := unquoteLoop_more t x (by simpa using h)
        simp [ih]
      · rw [unquoteAsCLoop] at h
        simp only [List.cons_append]
        rw [unquoteAsCLoop, unquoteAsCLoop]
        simp [h1, h2] at h
        have ih := unquoteLoop_more (d :: t) x (by simpa using h)
        rw [List.cons_append] at ih
        simp [h1, h2, ih]

/-- What stands behind the closing quote does not matter. -/
theorem unquote_more (q x : List Byte) (i : List Byte) (hq : q = b#'"' :: i) (h : peek (unquoteAsCLoop true i).2 = b#'"') :
    unquoteAsC (q ++ x) true = unquoteAsC q true := by
  subst hq
  have hw : isXmlWhitespace b#'"' = false := by decide
  have e1 : ∀ y : List Byte, (b#'"' :: y).dropWhile isXmlWhitespace = b#'"' :: y := fun y => by rw [List.dropWhile_cons]; simp [hw]
  have m := unquoteLoop_more i x h
  have hp : peek ((unquoteAsCLoop true i).2 ++ x) = b#'"' := by
    revert h
    cases (unquoteAsCLoop true i).2 with
    | nil => intro h; exact absurd h (by decide)
    | cons a t => intro h; exact h
  have hp2 : ∀ y : List Byte, peek (b#'"' :: y) = b#'"' := fun y => rfl
  simp only [unquoteAsC, List.cons_append, List.isEmpty_cons, e1, hp2, List.drop_one, List.tail_cons, m, hp, h]
  rfl

theorem quote_closed (s : List Byte) (h : ValidUtf8 s) (h0 : (0 : Byte) ∉ s) :
    ∃ i, quoteAsC s true = some (b#'"' :: i) ∧ peek (unquoteAsCLoop true i).2 = b#'"' := by
  have hq := quoteAsC_eq s h fun c hc e => h0 (e ▸ hc)
  refine ⟨_, quoteAsC_quotes s _ hq, ?_⟩
  rw [unquote_all true s [b#'"']]
  have : unquoteAsCLoop true [b#'"'] = ([], [b#'"']) := by decide +kernel
  rw [this]
  rfl

/-- The full claim: for the text of a document, unquote-c gives what quote-c was given, with or without a line break at the end. -/
def C103_Round (ok : List Byte → Prop) : Prop :=
  ∀ nl doc s, topText doc = some s → ValidUtf8 s → (0 : Byte) ∉ s → ok s →
    ∃ q, quoteCmd nl doc = some q ∧ unquoteCmd q = some [.text s]

/-- What comes back for any text is what comes back for the quoting of C25. -/
theorem C103_back (nl : Bool) (doc : List Node) (s : List Byte) (hs : topText doc = some s) (h : ValidUtf8 s) (h0 : (0 : Byte) ∉ s) :
    ∃ q, quoteCmd nl doc = some q ∧ unquoteCmd q = some [.text (s.flatMap cRecovered)] := by
  obtain ⟨q, h1, h2⟩ := C25_exact s h h0 true
  obtain ⟨i, h3, h4⟩ := quote_closed s h h0
  rw [h1] at h3
  cases h3
  refine ⟨[.text (if nl then (b#'"' :: i) ++ b#"\n" else b#'"' :: i)], by simp only [quoteCmd, hs, h1, Option.map_some], ?_⟩
  simp only [unquoteCmd, topText, Option.getD_none, List.append_nil]
  cases nl with
  | false => simp [h2]
  | true => rw [if_pos rfl, unquote_more _ _ i rfl h4, h2]

theorem C103_round_partial : C103_Round fun s => ∀ c ∈ s, c ≠ b#'\\' ∧ (128 ≤ c ∨ (0x20 ≤ c ∧ c ≤ 0x7e) ∨ (7 ≤ c ∧ c ≤ 13)) := by
  intro nl doc s hs h h0 hc
  obtain ⟨q, h1, h2⟩ := C103_back nl doc s hs h h0
  rw [(cRecovered_same s).mpr hc] at h2
  exact ⟨q, h1, h2⟩

/-- The condition is exact. -/
theorem C103_iff (nl : Bool) (doc : List Node) (s : List Byte) (hs : topText doc = some s) (h : ValidUtf8 s) (h0 : (0 : Byte) ∉ s) :
    (∃ q, quoteCmd nl doc = some q ∧ unquoteCmd q = some [.text s]) ↔
      ∀ c ∈ s, c ≠ b#'\\' ∧ (128 ≤ c ∨ (0x20 ≤ c ∧ c ≤ 0x7e) ∨ (7 ≤ c ∧ c ≤ 13)) := by
  constructor
  · rintro ⟨q, h1, h2⟩
    obtain ⟨q', h3, h4⟩ := C103_back nl doc s hs h h0
    rw [h1] at h3
    cases h3
    rw [h2] at h4
    apply (cRecovered_same s).mp
    simp only [Option.some.injEq, List.cons.injEq, Node.text.injEq, and_true] at h4
    exact h4.symm
  · exact C103_round_partial nl doc s hs h h0

/-- The document after quoting is one text in ASCII quotes on one line, whatever the text was. -/
theorem C103_line (doc : List Node) (s : List Byte) (hs : topText doc = some s) (h : ValidUtf8 s) (h0 : (0 : Byte) ∉ s) :
    ∃ m, quoteCmd false doc = some [.text (b#'"' :: m ++ [b#'"'])] ∧ (∀ c ∈ m, 32 ≤ c) := by
  have hq := quoteAsC_eq s h fun c hc e => h0 (e ▸ hc)
  refine ⟨s.flatMap cEsc, by simp [quoteCmd, hs, quoteAsC_quotes s _ hq], ?_⟩
  intro c hc
  obtain ⟨d, -, hd⟩ := List.mem_flatMap.mp hc
  have : ∀ c ∈ cEsc d, 32 ≤ c := forall_byte (P := fun d => ∀ c ∈ cEsc d, 32 ≤ c) (by decide +kernel) d
  exact this c hd

example : topText [.comment b#"x", .text b#"a\"", .text b#"\n"] = some b#"a\"\n" := by decide +kernel
example : (quoteCmd true [.text b#"a\"\n"]).bind unquoteCmd = some [.text b#"a\"\n"] := by rfl

/-- Not for all: a backslash is lost. -/
theorem C103_false : ¬ C103_Round fun _ => True := fun h => by
  obtain ⟨q, h1, h2⟩ := h false [.text [b#'a', b#'\\']] [b#'a', b#'\\'] rfl (validUtf8_ascii _ (by decide)) (by decide) trivial
  have e : quoteCmd false [.text [b#'a', b#'\\']] = some [.text b#"\"a\\\\\""] := by rfl
  rw [e] at h1
  cases h1
  have e2 : unquoteCmd [.text b#"\"a\\\\\""] = some [.text b#"a"] := by rfl
  rw [e2] at h2
  simp at h2

/-- Not for all: a document without text at the top, that is nearly every document of XMQ, leads to a null pointer. -/
theorem C103_null_false (nl : Bool) (nm : List Byte) (as : _) (ks : List Node) :
    quoteCmd nl [.element nm as ks] = none ∧ unquoteCmd [.element nm as ks] = none := ⟨rfl, rfl⟩

/-- Not for all: elements beside the text are lost without a word. -/
theorem C103_lost_false (nl : Bool) (s nm : List Byte) (as : _) (ks : List Node) :
    quoteCmd nl [.text s, .element nm as ks] = quoteCmd nl [.text s] := rfl

end Xmq.Props
