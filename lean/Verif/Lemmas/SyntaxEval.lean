import Verif.Spec.Syntax
import Verif.Props.Crlf
import Verif.Props.CharRef
/-!
# The texts of all tokens can be computed
-/
namespace Xmq
open Spec

namespace Spec
/-- A reference by number is a decimal or hexadecimal number of a character other than 0. -/
def RefOk (s : List Byte) : Prop :=
  (s.drop 1).head? = some 35 → ∃ base pre ds n, ((base = 10 ∧ pre = []) ∨ (base = 16 ∧ pre = [120])) ∧ Spells base ds n ∧ n ≠ 0 ∧
    n ≤ 0x10ffff ∧ s = 38 :: 35 :: (pre ++ (ds ++ [59]))

/-- The references by number of the tokens are numbers of characters. -/
def RefsOk (toks : List Tok) : Prop :=
  ∀ t ∈ toks, (t.kind = .entity ∨ t.kind = .element_value_entity ∨ t.kind = .element_value_compound_entity ∨
    t.kind = .attr_value_entity ∨ t.kind = .attr_value_compound_entity) → RefOk t.text
end Spec

theorem entityVal_ok {s : List Byte} (h : RefOk s) : (entityVal s).isSome := by
  unfold entityVal
  split
  · rename_i hp
    have hp : peek (s.drop 1) = 35 := by simpa using hp
    have hh : (s.drop 1).head? = some 35 := by
      cases hd : s.drop 1 with
      | nil => rw [hd] at hp; cases hp
      | cons c u => rw [hd] at hp; simp at hp; rw [hp]; rfl
    obtain ⟨base, pre, ds, n, hb, hs, h0, hn, rfl⟩ := h hh
    have := Props.charEntityText_spells hs (by rcases hb with ⟨rfl, -⟩ | ⟨rfl, -⟩ <;> decide) pre hb h0 (by omega)
    simp [this]
  · rfl

theorem noLone_of {s : List Byte} (h : (13 : Byte) ∉ s) : NoLoneCr s := fun p t e => absurd (by rw [e]; simp) h

theorem trimQuote_ok {s : List Byte} (h : (13 : Byte) ∉ s) (indent : Nat) (space next : Byte) : (trimQuote indent space next s).isSome := by
  obtain ⟨o, ho⟩ := Props.C15_memory_safe_partial indent space next s (noLone_of h)
  rw [ho]; rfl

theorem quoteVal_ok {s : List Byte} (h : (13 : Byte) ∉ s) (col : Nat) : (quoteVal col s).isSome := by
  unfold quoteVal unQuote
  rw [if_pos rfl, Option.isSome_map]
  refine trimQuote_ok ?_ _ _ _
  unfold stripDelims
  exact fun hm => h (List.mem_of_mem_drop (List.mem_of_mem_take hm))

theorem mem_of_mem_dropWhile {p : Byte → Bool} {x : Byte} {l : List Byte} (h : x ∈ l.dropWhile p) : x ∈ l :=
  (List.dropWhile_sublist p).subset h

/-- A comment to the end of the line. -/
theorem unComment_line_ok {s : List Byte} (h : (13 : Byte) ∉ s) (h0 : s ≠ []) (hstar : (s.dropWhile (· == b#'/')).head? ≠ some 42)
    (indent : Nat) : (unComment indent b#' ' 0 s).isSome := by
  unfold unComment
  rw [if_neg (by simpa using h0)]
  dsimp only
  split
  · exact trimQuote_ok (fun hm => h (List.mem_of_mem_drop hm)) _ _ _
  · rename_i hi
    have hp : (peek (s.dropWhile (· == b#'/')) != b#'*') = true := by
      cases hd : s.dropWhile (· == b#'/') with
      | nil => rw [hd] at hi; exact absurd rfl hi
      | cons c u => rw [hd] at hstar; simpa using hstar
    rw [if_pos hp]
    refine trimQuote_ok ?_ _ _ _
    intro hm
    have h1 := mem_of_mem_dropWhile (List.mem_reverse.1 hm)
    rw [List.mem_reverse] at h1
    split at h1
    · exact h (mem_of_mem_dropWhile (List.mem_of_mem_drop h1))
    · exact h (mem_of_mem_dropWhile h1)

/-- A comment between slashes and asterisks. -/
theorem unComment_block_ok {n : Nat} {body : List Byte} (hn : 0 < n) (h : (13 : Byte) ∉ body) (indent : Nat) :
    (unComment indent b#' ' 0 (List.replicate n 47 ++ 42 :: (body ++ 42 :: List.replicate n 47))).isSome := by
  have hd : (List.replicate n 47 ++ 42 :: (body ++ 42 :: List.replicate n 47) : List Byte).dropWhile (· == b#'/') =
      42 :: (body ++ 42 :: List.replicate n 47) := by
    rw [List.dropWhile_append_of_pos (by intro a ha; rw [List.eq_of_mem_replicate ha]; rfl)]
    rfl
  have hs : stripDelims b#'/' (List.replicate n 47 ++ 42 :: (body ++ 42 :: List.replicate n 47)) = (n, 42 :: (body ++ [42])) := by
    have := stripDelims_full 47 n (42 :: (body ++ [42])) (by simp) (by simp)
    simpa using this
  unfold unComment
  rw [if_neg (by simp)]
  dsimp only
  rw [hd, hs]
  dsimp only
  rw [if_neg (by simp), if_neg (by simp [peek])]
  have e1 : (peek (42 :: (body ++ [42])) != b#'*' || (42 :: (body ++ [42]) : List Byte).getLast? != some b#'*') = false := by
    have : (42 :: (body ++ [42]) : List Byte).getLast? = some 42 := by
      rw [← List.cons_append, List.getLast?_append]; rfl
    rw [this]; rfl
  have e2 : ((42 :: (body ++ [42]) : List Byte).drop 1).take ((42 :: (body ++ [42]) : List Byte).length - 2) = body := by
    simp
  rw [e1, if_neg (by simp), if_neg (by simp), e2]
  refine trimQuote_ok ?_ _ _ _
  intro hm
  split at hm <;> split at hm
  · exact h (List.mem_of_mem_drop (List.mem_of_mem_take hm))
  · exact h (List.mem_of_mem_drop hm)
  · exact h (List.mem_of_mem_take hm)
  · exact h hm

theorem takeWhile_end {n : Nat} (body : List Byte) :
    (((42 :: (body ++ 42 :: List.replicate n 47) : List Byte).drop 1).reverse.takeWhile (· == b#'/')) = List.replicate n 47 := by
  simp only [List.drop_succ_cons, List.drop_zero, List.reverse_append, List.reverse_cons, List.reverse_replicate, List.append_assoc]
  rw [List.takeWhile_append_of_pos (by intro a ha; rw [List.eq_of_mem_replicate ha]; rfl)]
  simp

/-- A token without carriage returns. -/
theorem evaluates_of {t : Tok} (ht : TokenText t.kind t.text) (h13 : (13 : Byte) ∉ t.text)
    (hr : (t.kind = .entity ∨ t.kind = .element_value_entity ∨ t.kind = .element_value_compound_entity ∨
      t.kind = .attr_value_entity ∨ t.kind = .attr_value_compound_entity) → RefOk t.text) : Evaluates t := by
  obtain ⟨kind, line, col, text⟩ := t
  dsimp only at ht h13 hr
  cases kind
  case comment =>
    show (commentVal _).isSome
    cases ht with
    | line body h10 hs =>
      exact unComment_line_ok h13 (by simp) (by simpa [List.dropWhile_cons] using hs) _
    | lineNl body h10 hs =>
      refine unComment_line_ok h13 (by simp) ?_ _
      simp only [List.dropWhile_cons, beq_self_eq_true, if_true]
      intro e
      rw [List.dropWhile_append] at e
      split at e
      · cases e
      · rename_i hx
        rw [List.head?_append] at e
        cases hd : body.dropWhile (· == b#'/') with
        | nil => rw [hd] at hx; exact absurd rfl hx
        | cons c u =>
          rw [hd] at e
          apply hs
          have : (body.dropWhile (· == 47)) = c :: u := hd
          rw [this]
          simpa using e
    | block n body hn hb =>
      exact unComment_block_ok hn (fun hm => h13 (by simp [hm])) _
  case comment_continuation =>
    show (continuationVal _).isSome
    cases ht with
    | mk n body hn hb =>
      unfold continuationVal
      dsimp only
      rw [takeWhile_end]
      exact unComment_block_ok hn (fun hm => h13 (by simp [hm])) _
  all_goals first
    | exact quoteVal_ok h13 _
    | exact entityVal_ok (hr (by simp))
    | trivial

theorem refOk_crlf {s t : List Byte} (h : Crlf s t) (hs : EntityText s) (hr : RefOk s) : RefOk t := by
  rw [← h.eq_of_noNl (Props.noNl_entity hs)]; exact hr

/-- All tokens of a text without lone carriage returns and without bad references. -/
theorem tokenizes_evaluates {input : List Byte} {toks : List Tok} (h : Tokenizes input toks) (hc : NoLoneCr input) (hr : RefsOk toks) :
    ∀ t ∈ toks, Evaluates t := by
  obtain ⟨toks', h', hs⟩ := (Props.tokenizes_crlf (crlf_of hc)).1 toks h
  have t1 := Props.C12_tokens_complete _ _ h
  have t2 := Props.C12_tokens_complete _ _ h'
  clear h h'
  induction hs with
  | nil => intro t ht; cases ht
  | @cons a b s t hab _ ih =>
    intro x hx
    rcases List.mem_cons.1 hx with rfl | hx
    · obtain ⟨hk, hw⟩ := hab
      rcases hw with hw | ⟨-, hcol, hcr⟩
      · unfold Evaluates; rw [hw]; trivial
      · have ha := t1 x (by simp)
        have hb := t2 b (by simp)
        obtain ⟨ka, la, ca, ta⟩ := x
        obtain ⟨kb, lb, cb, tb⟩ := b
        dsimp only at hk hcol hcr ha hb
        subst hk hcol
        have hrx := hr _ (List.mem_cons_self ..)
        have hev : Evaluates ⟨ka, lb, ca, tb⟩ := evaluates_of hb hcr.noCr (fun hk => by
          refine refOk_crlf hcr ?_ (hrx hk)
          rcases hk with hk | hk | hk | hk | hk <;> (dsimp only at hk; subst hk; exact ha))
        cases ka
        case comment =>
          have hev : (unComment (ca - 1) b#' ' 0 tb).isSome := hev
          rw [← unComment_crlf hcr] at hev
          exact hev
        case comment_continuation =>
          cases ha with
          | mk n body hn hbd =>
            cases hb with
            | mk m bd hm hbd' =>
              have e : (List.replicate n 47 : List Byte) = List.replicate m 47 := by
                have h1 := takeWhile_end (n := n) body
                have h2 := takeWhile_end (n := m) bd
                obtain ⟨t', e', ht'⟩ := hcr.left (by decide)
                cases e'
                rw [← h1, ← h2]
                exact Props.revSlash_crlf ht'
              have hno : (13 : Byte) ∉ (List.replicate n 47 : List Byte) := by
                intro hm; have := List.eq_of_mem_replicate hm; cases this
              have hev : (unComment (ca - 1) b#' ' 0 ((((42 :: (bd ++ 42 :: List.replicate m 47) : List Byte).drop 1).reverse.takeWhile
                (· == b#'/')) ++ (42 :: (bd ++ 42 :: List.replicate m 47)))).isSome := hev
              show (unComment (ca - 1) b#' ' 0 ((((42 :: (body ++ 42 :: List.replicate n 47) : List Byte).drop 1).reverse.takeWhile
                (· == b#'/')) ++ (42 :: (body ++ 42 :: List.replicate n 47)))).isSome
              rw [takeWhile_end] at hev ⊢
              rw [unComment_crlf ((Crlf.refl hno).append hcr), e]
              exact hev
        all_goals first
          | trivial
          | (have hev : (quoteVal ca tb).isSome := hev
             rw [← quoteVal_crlf hcr] at hev
             exact hev)
          | exact entityVal_ok (hrx (by simp))
    · exact ih (fun y hy => hr y (by simp [hy])) (fun y hy => t1 y (by simp [hy])) (fun y hy => t2 y (by simp [hy])) x hx

end Xmq
