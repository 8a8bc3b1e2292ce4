import Verif.Lemmas.CrlfBuild
import Verif.Props.Document
/-!
# C50: Windows line endings
-/
namespace Xmq.Props
open Xmq Xmq.Spec

theorem revSlash_crlf : ∀ {s t : List Byte}, Crlf s t → s.reverse.takeWhile (· == b#'/') = t.reverse.takeWhile (· == b#'/')
  | s, t, h => by
    by_cases hl : s.getLast? = some b#'/'
    · obtain ⟨m, hm⟩ := List.getLast?_eq_some_iff.1 hl
      have hlt : m.length < s.length := by rw [hm]; simp
      rw [hm] at h ⊢
      obtain ⟨m', rfl, h'⟩ := h.snoc (by decide) (by decide)
      have := revSlash_crlf h'
      simp only [List.reverse_append, List.reverse_cons, List.reverse_nil, List.nil_append, List.cons_append, List.takeWhile_cons, this]
    · have hl' : ¬ t.getLast? = some b#'/' := fun e => hl ((h.last (by decide) (by decide)).2 e)
      have e : ∀ l : List Byte, ¬ l.getLast? = some b#'/' → l.reverse.takeWhile (· == b#'/') = [] := by
        intro l hl
        rw [List.getLast?_eq_head?_reverse] at hl
        cases hr : l.reverse with
        | nil => rfl
        | cons c r =>
          rw [hr] at hl
          simp only [List.head?_cons, Option.some.injEq] at hl
          rw [List.takeWhile_cons_of_neg (by simpa using hl)]
      rw [e s hl, e t hl']
termination_by s => s.length

theorem nameByte_ne {b : Byte} (h : NameByte b) : b ≠ 10 := by
  intro e; subst e; revert h; simp [NameByte]

theorem noNl_name {s : List Byte} (h : ∀ b ∈ s, NameByte b) : (10 : Byte) ∉ s := fun hm => nameByte_ne (h 10 hm) rfl

theorem noNl_entity {s : List Byte} (h : EntityText s) : (10 : Byte) ∉ s := by
  cases h with
  | closed name hn =>
    intro hm
    simp only [List.mem_cons, List.mem_append, List.not_mem_nil, or_false] at hm
    rcases hm with hm | hm | hm
    · cases hm
    · exact noNl_name hn hm
    · cases hm
  | bare name hn =>
    intro hm
    simp only [List.mem_cons] at hm
    rcases hm with hm | hm
    · cases hm
    · exact absurd (hn 10 hm) (by simp [LowerHexByte])

theorem noNl_elemName {s : List Byte} (h : (∀ b ∈ s, NameByte b) ∨ ∃ t, (s = 33 :: t ∨ s = 63 :: t) ∧ ∀ b ∈ t, NameByte b) : (10 : Byte) ∉ s := by
  rcases h with h | ⟨t, e, ht⟩
  · exact noNl_name h
  · intro hm
    rcases e with rfl | rfl
    · simp only [List.mem_cons] at hm
      rcases hm with hm | hm
      · cases hm
      · exact noNl_name ht hm
    · simp only [List.mem_cons] at hm
      rcases hm with hm | hm
      · cases hm
      · exact noNl_name ht hm

/-- Corresponding tokens have the same effect. -/
theorem buildStep_crlf {a b : Tok} (h : TokSim a b) (ha : TokenText a.kind a.text) (st : List Open) : buildStep st a = buildStep st b := by
  obtain ⟨ka, la, ca, ta⟩ := a
  obtain ⟨kb, lb, cb, tb⟩ := b
  obtain ⟨hk, h⟩ := h
  dsimp only at hk h ha
  subst hk
  rcases h with h | ⟨rfl, rfl, ht⟩
  · subst h; rfl
  · cases ka with
    | whitespace => rfl
    | equals => rfl
    | ns_colon => rfl
    | brace_left => rfl
    | brace_right => rfl
    | apar_left => rfl
    | apar_right => rfl
    | cpar_left => rfl
    | cpar_right => rfl
    | element_ns => rfl
    | attr_ns => rfl
    | ns_declaration => rfl
    | quote => unfold buildStep; dsimp only; rw [quoteVal_crlf ht]
    | element_value_compound_quote => unfold buildStep; dsimp only; rw [quoteVal_crlf ht]
    | attr_value_compound_quote => unfold buildStep; dsimp only; rw [quoteVal_crlf ht]
    | element_value_quote => unfold buildStep; dsimp only; rw [quoteVal_crlf ht]
    | attr_value_quote => unfold buildStep; dsimp only; rw [quoteVal_crlf ht]
    | entity => rw [ht.eq_of_noNl (noNl_entity ha)]
    | element_value_compound_entity => rw [ht.eq_of_noNl (noNl_entity ha)]
    | attr_value_compound_entity => rw [ht.eq_of_noNl (noNl_entity ha)]
    | element_value_entity => rw [ht.eq_of_noNl (noNl_entity ha)]
    | attr_value_entity => rw [ht.eq_of_noNl (noNl_entity ha)]
    | comment => unfold buildStep; dsimp only; rw [unComment_crlf ht]
    | comment_continuation =>
      unfold buildStep; dsimp only
      cases ha with
      | mk n body hn hb =>
        obtain ⟨t', e', ht'⟩ := ht.left (by decide)
        subst e'
        have e := revSlash_crlf ht'
        simp only [List.drop_succ_cons, List.drop_zero]
        rw [← e]
        have hno : (13 : Byte) ∉ ((body ++ 42 :: List.replicate n 47).reverse.takeWhile (· == b#'/')) := by
          intro hm
          have := List.all_takeWhile (p := (· == b#'/')) (l := (body ++ 42 :: List.replicate n 47).reverse)
          rw [List.all_eq_true] at this
          exact absurd (this 13 hm) (by decide)
        rw [unComment_crlf ((Crlf.refl hno).append ht)]
    | element_name => rw [ht.eq_of_noNl (noNl_elemName ha)]
    | element_key => rw [ht.eq_of_noNl (noNl_elemName ha)]
    | element_value_text => rw [ht.eq_of_noNl (fun hm => (ha 10 hm).2.1 rfl)]
    | attr_value_text => rw [ht.eq_of_noNl (fun hm => (ha 10 hm).2.1 rfl)]
    | attr_key => rw [ht.eq_of_noNl (noNl_name ha)]

theorem foldlM_crlf {s t : List Tok} (h : ToksSim s t) : (∀ a ∈ s, TokenText a.kind a.text) → ∀ st, s.foldlM buildStep st = t.foldlM buildStep st := by
  induction h with
  | nil => intro _ st; rfl
  | @cons a b s t hab _ ih =>
    intro hs st
    rw [List.foldlM_cons, List.foldlM_cons, buildStep_crlf hab (hs a (by simp))]
    congr 1; funext x
    exact ih (fun c hc => hs c (by simp [hc])) x

theorem ToksSim.append {a b c d : List Tok} (h : ToksSim a b) (h' : ToksSim c d) : ToksSim (a ++ c) (b ++ d) := by
  induction h with
  | nil => exact h'
  | cons x _ ih => exact .cons x ih

theorem ToksSim.reverse {s t : List Tok} (h : ToksSim s t) : ToksSim s.reverse t.reverse := by
  induction h with
  | nil => exact .nil
  | cons x _ ih => rw [List.reverse_cons, List.reverse_cons]; exact ToksSim.append ih (.cons x .nil)

/-- Two texts that differ in their line endings only are tokenized alike. -/
theorem tokenizes_crlf {s t : List Byte} (h : Crlf s t) :
    (∀ toks, Tokenizes s toks → ∃ toks', Tokenizes t toks' ∧ ToksSim toks toks') ∧
    (∀ toks', Tokenizes t toks' → ∃ toks, Tokenizes s toks ∧ ToksSim toks toks') := by
  constructor
  · rintro toks ⟨fuel, st, hp, rfl⟩
    rcases parseBuffer_crlf fuel h with ⟨x, y, hx, hy, hxy⟩ | ⟨h1, -⟩
    · rw [hx] at hp; cases hp
      exact ⟨_, ⟨fuel, y, hy, rfl⟩, ToksSim.reverse hxy.out⟩
    · exact absurd hp (h1 _)
  · rintro toks ⟨fuel, st, hp, rfl⟩
    rcases parseBuffer_crlf fuel h with ⟨x, y, hx, hy, hxy⟩ | ⟨-, h1⟩
    · rw [hy] at hp; cases hp
      exact ⟨_, ⟨fuel, x, hx, rfl⟩, ToksSim.reverse hxy.out⟩
    · exact absurd hp (h1 _)

theorem reads_crlf {s t : List Byte} (h : Crlf s t) (doc : List Node) : Reads s doc ↔ Reads t doc := by
  have key : ∀ toks toks', Tokenizes s toks → ToksSim toks toks' → buildTree toks = buildTree toks' := by
    intro toks toks' ht hs
    obtain ⟨st, hst, _, _⟩ := stepBy_of_tokenizes ht
    rw [buildTree, buildTree, foldlM_crlf hs hst.shape]
  constructor
  · rintro ⟨toks, ht, hb⟩
    obtain ⟨toks', ht', hs⟩ := (tokenizes_crlf h).1 toks ht
    exact ⟨toks', ht', by rw [← key toks toks' ht hs]; exact hb⟩
  · rintro ⟨toks', ht', hb⟩
    obtain ⟨toks, ht, hs⟩ := (tokenizes_crlf h).2 toks' ht'
    exact ⟨toks, ht, by rw [key toks toks' ht hs]; exact hb⟩

/-- **C50.**  Line endings do not matter: a text whose carriage returns all stand before a line feed is read as exactly the
    document that it is read as with plain line feeds.  This includes the contents of quotes and comments, and texts that
    are not accepted. -/
theorem C50_line_endings (s : List Byte) (h : NoLoneCr s) (doc : List Node) : Reads s doc ↔ Reads (lfOnly s) doc :=
  reads_crlf (crlf_of h) doc

/-- **C50**, acceptance: the same texts are accepted, also those using what `Reads` does not model. -/
theorem C50_accepted_alike (s : List Byte) (h : NoLoneCr s) : (∃ toks, Tokenizes s toks) ↔ ∃ toks, Tokenizes (lfOnly s) toks :=
  ⟨fun ⟨toks, ht⟩ => let ⟨t, h1, _⟩ := (tokenizes_crlf (crlf_of h)).1 toks ht; ⟨t, h1⟩,
   fun ⟨toks, ht⟩ => let ⟨t, h1, _⟩ := (tokenizes_crlf (crlf_of h)).2 toks ht; ⟨t, h1⟩⟩

/-- A text saved with Windows line endings. -/
def withCrlf : List Byte → List Byte
  | [] => []
  | c :: t => if c = 10 then 13 :: 10 :: withCrlf t else c :: withCrlf t

theorem withCrlf_crlf {s : List Byte} (h : (13 : Byte) ∉ s) : Crlf (withCrlf s) s := by
  induction s with
  | nil => exact .nil
  | cons c s ih =>
    simp only [List.mem_cons, not_or] at h
    rw [withCrlf]
    split
    · rename_i hc; subst hc; exact .crlf (ih h.2)
    · exact .char (fun e => h.1 e.symm) (ih h.2)

/-- **C50**, the other way round: saving a text without carriage returns with Windows line endings does not change the
    document. -/
theorem C50_saved_with_crlf (s : List Byte) (h : (13 : Byte) ∉ s) (doc : List Node) : Reads (withCrlf s) doc ↔ Reads s doc :=
  reads_crlf (withCrlf_crlf h) doc

/-- **C43** for a whole quote: `d` quotes, a content of several lines and `d` quotes, found at column `col`, stand for the
    content with the common indentation removed, where the first line of the content starts behind the opening quotes. -/
theorem C43_quote_token (col d : Nat) (body : List Byte) (hb : body ≠ []) (hq : body.head? ≠ some 39) (h10 : (10 : Byte) ∈ body) (hc : NoLoneCr body) :
    quoteVal col (List.replicate d 39 ++ (body ++ List.replicate d 39)) =
      some (.text (dedent [32] (col - 1 + d) (splitLines (lfOnly body)))) := by
  rw [quoteVal, unQuote, if_pos rfl]
  dsimp only
  rw [stripDelims_full 39 d body hb hq]
  dsimp only
  rw [C43_any_line_ending _ _ _ body h10 hc, startColumn, if_neg (c := col - 1 + d = 0 ∧ b#' ' = 0) (by simp)]
  rfl

example : quoteVal 5 b#"''' a\r\n         b'''" = some (.text b#" a\n  b") := by decide +kernel

/-- A file with Windows line endings holding a comment, a quote of two lines and a value. -/
def windowsFile : List Byte := b#"// hej\r\na {\r\n  b = 'x\r\n       y'\r\n  c = 1\r\n}\r\n"

example : NoLoneCr windowsFile ∧ Reads windowsFile
    [.comment b#"hej", .element b#"a" [] [.element b#"b" [] [.text b#"x\ny"], .element b#"c" [] [.text b#"1"]]] := by
  have hw : windowsFile = withCrlf b#"// hej\na {\n  b = 'x\n       y'\n  c = 1\n}\n" := by decide +kernel
  constructor
  · have noLone : ∀ {s t : List Byte}, Crlf s t → NoLoneCr s := by
      intro s t h
      induction h with
      | nil => intro p t e; simp at e
      | @crlf s t _ ih =>
        intro p u e
        match p with
        | [] => cases e; rfl
        | [x] => simp at e
        | x :: y :: p => simp only [List.cons_append, List.cons.injEq] at e; exact ih p u e.2.2
      | @char c s t hc _ ih =>
        intro p u e
        match p with
        | [] => cases e; exact absurd rfl hc
        | x :: p => simp only [List.cons_append, List.cons.injEq] at e; exact ih p u e.2
    rw [hw]
    exact noLone (withCrlf_crlf (by decide))
  · exact (reads_iff _ _).2 (by decide +kernel)

/-- A carriage return that is not followed by a line feed is not a line ending for everyone: at the end of the text it
    becomes a line feed in the comment that it ends. -/
theorem C50_lone_cr_counts : Reads b#"a // hej\r" [.element b#"a" [] [], .comment b#"hej\n"] ∧
    Reads b#"a // hej\n" [.element b#"a" [] [], .comment b#"hej"] :=
  ⟨(reads_iff _ _).2 (by decide +kernel), (reads_iff _ _).2 (by decide +kernel)⟩

end Xmq.Props
