import Verif.Lemmas.Reads
/-!
# C41, C42: reads outside the buffer, incomplete entities
-/
namespace Xmq.Props
open Xmq Xmq.Spec

/-- The claim of C41: no buffer makes the parser read outside the buffer and its terminating NUL. -/
def C41_full : Prop := ∀ fuel input, parseBuffer fuel input ≠ .ub

/-- **C41** is false: a document ending with an equals sign makes the parser read the byte behind the terminating NUL;
    a document starting with an equals sign, brace or parenthesis makes it read the byte before the buffer. -/
theorem C41_false : ¬ C41_full := by
  intro h
  exact h 10 b#"a=" (by decide +kernel)

theorem C41_witnesses : parseBuffer 10 b#"a= \n" = .ub ∧ parseBuffer 10 b#"a(b=" = .ub ∧ parseBuffer 10 b#"=a" = .ub ∧
    parseBuffer 10 b#"{" = .ub ∧ parseBuffer 10 b#"(" = .ub := by decide +kernel

/-- **C41, partial.**  These are the only cases: if the document does not end with an equals sign and whitespace,
    and does not start with one of `=({`, then the parser stays inside the buffer and its terminating NUL. -/
theorem C41_reads_inside_partial (fuel : Nat) (input : List Byte)
    (h1 : ∀ p w, input = p ++ 61 :: w → ¬ WhitespaceText w)
    (h2 : input.head? ≠ some 61 ∧ input.head? ≠ some 40 ∧ input.head? ≠ some 123) :
    parseBuffer fuel input ≠ .ub := by
  intro h
  unfold parseBuffer at h
  rcases Res.bind_ub_iff.1 h with h | ⟨s, -, h⟩
  · rcases xmq_ub fuel _ h with ⟨p, w, hr, hw⟩ | ⟨-, hp⟩
    · exact h1 p w hr hw
    · have hp : peek input = 123 ∨ peek input = 40 ∨ peek input = 61 := hp
      cases input with
      | nil => simp at hp
      | cons c t =>
        simp at hp h2
        rcases hp with hp | hp | hp
        · exact h2.2.2 hp
        · exact h2.2.1 hp
        · exact h2.1 hp
  · split at h <;> cases h

-- a document that meets the hypotheses
example : (∀ p w, b#"a=b" = p ++ 61 :: w → ¬ WhitespaceText w) ∧ (b#"a=b").head? ≠ some 61 := by
  refine ⟨?_, by decide⟩
  intro p w h hw
  have hl : w = [98] := by
    match p, h with
    | [], h => simp at h
    | [_], h => simp at h; exact h.2.symm
    | [_, _], h => simp at h
    | _ :: _ :: _ :: _, h => simp at h
  subst hl
  cases hw with
  | one _ _ h _ => revert h; decide

/-- The kinds of the tokens that are entity references. -/
def IsEntityKind (k : Kind) : Prop :=
  k = .entity ∨ k = .element_value_entity ∨ k = .element_value_compound_entity ∨ k = .attr_value_entity ∨
    k = .attr_value_compound_entity

/-- The claim of C42: every entity reference of an accepted document ends with a semicolon. -/
def C42_full : Prop :=
  ∀ input toks, Tokenizes input toks → ∀ t ∈ toks, IsEntityKind t.kind → t.text.getLast? = some 59

/-- **C42** is false: `a=&abc` is accepted. -/
theorem C42_false : ¬ C42_full := by
  intro h
  have ht : Tokenizes b#"a=&abc" [⟨.element_key, 1, 1, b#"a"⟩, ⟨.equals, 1, 2, b#"="⟩, ⟨.element_value_entity, 1, 3, b#"&abc"⟩] :=
    ⟨10, ⟨b#"cba&=a", [], 1, 7, [⟨.element_value_entity, 1, 3, b#"&abc"⟩, ⟨.equals, 1, 2, b#"="⟩, ⟨.element_key, 1, 1, b#"a"⟩]⟩,
      by decide +kernel, by decide⟩
  have := h _ _ ht ⟨.element_value_entity, 1, 3, b#"&abc"⟩ (by simp) (by simp [IsEntityKind])
  revert this; decide

/-- **C42, partial.**  An entity reference of an accepted document consists of `&`, a name and `;`; only when the name
    has nothing but lower case hexadecimal digits the semicolon may be missing. -/
theorem C42_entities_complete_partial (input : List Byte) (toks : List Tok) (h : Tokenizes input toks) (t : Tok) (ht : t ∈ toks)
    (hk : IsEntityKind t.kind) (hx : ∃ b ∈ t.text.tail, ¬ LowerHexByte b) :
    ∃ name, t.text = 38 :: (name ++ [59]) ∧ ∀ b ∈ name, NameByte b := by
  obtain ⟨fuel, st, hp, rfl⟩ := h
  have hg := good_xmq fuel (initSt input)
  unfold parseBuffer at hp
  cases hr : parseXmq fuel (initSt input) with
  | ok s =>
    rw [hr] at hp hg
    obtain ⟨toks, hs, -⟩ := hg
    simp only [Res.bind_ok] at hp
    split at hp
    · cases hp
      have hout : st.out.reverse = toks := by rw [hs.out]; simp [initSt]
      rw [hout] at ht
      have hsh := hs.shape t ht
      have he : EntityText t.text := by
        rcases hk with hk | hk | hk | hk | hk <;> rw [hk] at hsh <;> exact hsh
      generalize t.text = x at he hx
      cases he with
      | closed name hn => exact ⟨name, rfl, hn⟩
      | bare name hn =>
        obtain ⟨b, hb, hnb⟩ := hx
        exact absurd (hn b hb) hnb
    · cases hp
  | err e s => rw [hr] at hp; cases hp
  | ub => rw [hr] at hp; cases hp
  | outOfFuel => rw [hr] at hp; cases hp

example : ∃ b ∈ (b#"&lt;").tail, ¬ LowerHexByte b := ⟨108, by decide, by decide⟩

end Xmq.Props
