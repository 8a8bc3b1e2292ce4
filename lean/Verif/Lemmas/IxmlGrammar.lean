import Verif.Lemmas.IxmlRun
/-!
# The rules of an ixml grammar are read
-/
namespace Xmq.Ixml
open Xmq.Spec Xmq.Spec.Ixml

/-- The rules for the rules of a grammar, with the counter and the mark before them; the sets. -/
def compRules : List GRule → Nat → Byte → List Rule × List CSet
  | [], _, _ => ([], [])
  | r :: rs, g, m =>
    let c := comp r.name r.mark r.body g m
    let d := compRules rs c.gen c.mark
    (⟨r.name, r.alias, r.mark, c.ts⟩ :: (c.new ++ d.1), c.sets ++ d.2)

theorem wnaming_head {m : Byte} {n : List Byte} {al : Option (List Byte)} {t : List Byte} (h : WNaming true m n al t) (x : List Byte) :
    isNaming (peek (t ++ x)) = true ∧ isWs (peek (t ++ x)) = false := by
  obtain ⟨tm, s, ta, hm, hnn, hs, ha⟩ := h
  cases hm with
  | none =>
    obtain ⟨c, u, rfl, hc⟩ := isName_head hnn
    exact ⟨(letter_class hc).2.2.2.2.2.2.1, (letter_class hc).2.2.2.1⟩
  | mk m s hm hg => rcases hm with rfl | rfl | rfl <;> exact ⟨rfl, rfl⟩

theorem wrules_head {g : List GRule} {t : List Byte} (h : WRules true g t) (x : List Byte) : isNaming (peek (t ++ x)) = true ∧ isWs (peek (t ++ x)) = false := by
  have h1 : ∀ {r : GRule} {t : List Byte}, WRule true r t → ∀ x, isNaming (peek (t ++ x)) = true ∧ isWs (peek (t ++ x)) = false := by
    intro r t h x
    obtain ⟨tn, c, s1, t, s2, hn, -⟩ := h
    rw [List.append_assoc]
    exact wnaming_head hn _
  cases h with
  | one r t h => exact h1 h x
  | cons r rs t u h _ => rw [List.append_assoc]; exact h1 h _

theorem alts_ws {b : Rx} {u tail : List Byte} (h : W true .alts b u) (ht : isWs (peek tail) = false) : isWs (peek (u ++ tail)) = false := by
  cases h with
  | alone r t h =>
    rcases seq_head h tail with ⟨-, rfl⟩ | ⟨-, h⟩
    · exact ht
    · exact (altStart_class h).1
  | alt a b d t s u h hd _ _ _ =>
    rw [List.append_assoc]
    rcases seq_head h (d :: (s ++ u) ++ tail) with ⟨-, rfl⟩ | ⟨-, h⟩
    · rcases hd with rfl | rfl <;> rfl
    · exact (altStart_class h).1

theorem rule_read {r : GRule} {t : List Byte} (h : WRule true r t) (n : Nat) (R : List Rule) (cur g : Nat) (m : Byte) (cs : List CSet) (tail : List Byte)
    (hn : 5 * t.length + 5 ≤ n) (ht : isWs (peek tail) = false) :
    ∃ cur', rule n ⟨t ++ tail, R, cur, g, m, cs⟩ = .ok ⟨tail, R ++ ⟨r.name, r.alias, r.mark, (comp r.name r.mark r.body g m).ts⟩ :: (comp r.name r.mark r.body g m).new, cur',
      (comp r.name r.mark r.body g m).gen, (comp r.name r.mark r.body g m).mark, cs ++ (comp r.name r.mark r.body g m).sets⟩ := by
  obtain ⟨tn, c, s1, t, s2, hN, hc, h1, hW, h2⟩ := h
  simp only [List.length_append, List.length_cons] at hn
  have hcc : isWs c = false ∧ isNameFollower c = false ∧ c ≠ b#'>' := by rcases hc with rfl | rfl <;> decide
  obtain ⟨cur', e, -⟩ := run_reads hW n ⟨t ++ b#'.' :: (s2 ++ tail), R ++ [⟨r.name, r.alias, r.mark, []⟩], R.length, g, m, cs⟩ (b#'.' :: (s2 ++ tail))
    ⟨r.name, r.alias, r.mark, []⟩ (by simp only [need]; omega) (by simp [stops]) (by simp) rfl (by simp)
  refine ⟨cur', ?_⟩
  unfold rule
  simp only [List.append_assoc, List.cons_append]
  rw [naming_read hN (by exact hcc.1) (by exact hcc.2.1) (by exact hcc.2.2)]
  simp only [ok_bind]
  rw [ws_none (by exact hcc.1)]
  simp only [ok_bind, peek_cons, hc, if_true, List.drop_one, List.tail_cons]
  rw [ws_S h1 (alts_ws hW (by rfl))]
  simp only [ok_bind]
  simp only [job] at e
  rw [e]
  simp only [ok_bind, after, peek_cons, if_true, List.drop_one, List.tail_cons]
  rw [ws_S h2 ht, addTerms_last]
  simp

theorem rulesLoop_read {g : List GRule} {t : List Byte} (h : WRules true g t) : ∀ (n k : Nat) (R : List Rule) (cur gen : Nat) (m : Byte) (cs : List CSet),
    5 * t.length + 5 ≤ n → t.length < k →
    ∃ cur' gen' m', rulesLoop n k ⟨t, R, cur, gen, m, cs⟩ = .ok ⟨[], R ++ (compRules g gen m).1, cur', gen', m', cs ++ (compRules g gen m).2⟩ := by
  induction h with
  | one r t h =>
    intro n k R cur gen m cs hn hk
    have hp := wrules_head (.one r t h) []
    obtain ⟨k, rfl⟩ : ∃ k', k = k' + 1 := ⟨k - 1, by omega⟩
    obtain ⟨cur', e⟩ := rule_read h n R cur gen m cs [] hn rfl
    rw [List.append_nil] at e hp
    have hl : 0 < t.length := by
      cases t with
      | nil => exact absurd hp.1 (by decide)
      | cons => simp
    obtain ⟨k, rfl⟩ : ∃ k', k = k' + 1 := ⟨k - 1, by omega⟩
    refine ⟨cur', (comp r.name r.mark r.body gen m).gen, (comp r.name r.mark r.body gen m).mark, ?_⟩
    rw [rulesLoop]
    simp only [hp.1, if_true, e, ok_bind]
    rw [rulesLoop]
    simp only [show isNaming (peek []) = false from rfl, Bool.false_eq_true, if_false]
    simp [compRules]
  | cons r rs t u h hrs ih =>
    intro n k R cur gen m cs hn hk
    have hp := wrules_head (.cons r rs t u h hrs) []
    have hp2 := wrules_head hrs []
    have hp3 := wrules_head (.one r t h) []
    obtain ⟨k, rfl⟩ : ∃ k', k = k' + 1 := ⟨k - 1, by omega⟩
    simp only [List.length_append] at hn hk
    obtain ⟨cur', e⟩ := rule_read h n R cur gen m cs u (by omega) (by simpa using hp2.2)
    rw [List.append_nil] at hp hp3
    have hl : 0 < t.length := by
      cases t with
      | nil => exact absurd hp3.1 (by decide)
      | cons => simp
    obtain ⟨c2, g2, m2, e2⟩ := ih n k (R ++ ⟨r.name, r.alias, r.mark, (comp r.name r.mark r.body gen m).ts⟩ :: (comp r.name r.mark r.body gen m).new) cur'
      (comp r.name r.mark r.body gen m).gen (comp r.name r.mark r.body gen m).mark (cs ++ (comp r.name r.mark r.body gen m).sets) (by omega) (by omega)
    refine ⟨c2, g2, m2, ?_⟩
    rw [rulesLoop]
    simp only [hp.1, if_true, e, ok_bind, e2]
    simp [compRules]

theorem prolog_read {v s1 s2 t s3 : List Byte} {cs : List Nat} (h1 : S true s1) (h2 : S true s2) (hn2 : s2 ≠ []) (hq : Quoted cs t) (h3 : S true s3) (hv : v = b#"ixml")
    (x : List Byte) : prolog (v ++ (s1 ++ (b#"version" ++ (s2 ++ (t ++ (s3 ++ b#'.' :: x)))))) = .ok x := by
  subst hv
  obtain ⟨q, u, e, hiq⟩ := quoted_head hq
  have hqc := quote_class hiq
  have hp : peek (t ++ (s3 ++ b#'.' :: x)) = q := by rw [e]; rfl
  have hw : isWs (peek (s2 ++ (t ++ (s3 ++ b#'.' :: x)))) = true := by
    rcases peek_S h2 (t ++ (s3 ++ b#'.' :: x)) with rfl | h
    · exact absurd rfl hn2
    · exact h
  unfold prolog
  have e1 : (b#"ixml" ++ (s1 ++ (b#"version" ++ (s2 ++ (t ++ (s3 ++ b#'.' :: x)))))).drop 4 = s1 ++ (b#"version" ++ (s2 ++ (t ++ (s3 ++ b#'.' :: x)))) := rfl
  have e2 : (b#"version" ++ (s2 ++ (t ++ (s3 ++ b#'.' :: x)))).take 7 = b#"version" := rfl
  have e3 : (b#"version" ++ (s2 ++ (t ++ (s3 ++ b#'.' :: x)))).drop 7 = s2 ++ (t ++ (s3 ++ b#'.' :: x)) := rfl
  rw [e1, ws_S h1 (by rfl)]
  simp only [ok_bind]
  rw [e2, e3]
  simp only [if_true, hw]
  rw [ws_S h2 (by rw [hp]; exact hqc.1)]
  simp only [ok_bind, hp, hiq, if_true]
  rw [string_quoted hq (peek_S_not h3 _ isQuote ws_not_quote (by rfl))]
  simp only [ok_bind]
  rw [ws_S h3 (by rfl)]
  rfl

/-- A grammar that is written as ixml prescribes, without what the reader does not understand, is read, and the rules are those of `compRules`. -/
theorem readGrammar_read {g : List GRule} {text : List Byte} (h : WGrammar true g text) :
    ∃ cur gen m, readGrammar text = .ok ⟨[], (compRules g 0 0).1, cur, gen, m, (compRules g 0 0).2⟩ := by
  obtain ⟨s, p, t, hs, hp, ht, hx⟩ := h
  have hh := wrules_head ht []
  rw [List.append_nil] at hh
  generalize hN : 8 * (s ++ (p ++ t)).length + 8 = N
  have hlen : 5 * t.length + 5 ≤ N ∧ t.length < N := by
    simp only [List.length_append] at hN
    omega
  obtain ⟨cur, gen, m, e⟩ := rulesLoop_read ht N N [] 0 0 0 [] hlen.1 hlen.2
  refine ⟨cur, gen, m, ?_⟩
  unfold readGrammar
  rw [hN]
  cases hp with
  | none =>
    rw [List.nil_append, ws_S hs hh.2]
    have h1 : isPrologStart t = false := by
      unfold isPrologStart
      by_cases h4 : t.take 4 = b#"ixml"
      · have h5 : t = b#"ixml" ++ t.drop 4 := by rw [← h4]; exact (List.take_append_drop 4 t).symm
        generalize t.drop 4 = u at h5
        subst h5
        cases u with
        | nil => rfl
        | cons c u =>
          have := hx rfl rfl c u rfl
          have h6 : isWs c = false := by
            revert this
            exact forall_byte (P := fun c => ¬ (Blank c ∨ c = b#'{' ∨ c = b#'}') → isWs c = false) (by unfold Blank; decide +kernel) c
          exact (Bool.and_eq_false_iff).2 (.inr h6)
      · simp [h4]
    simp only [ok_bind, h1, Bool.false_eq_true, if_false, hh.1, if_true, e]
    rfl
  | mk v s1 s2 tq s3 s4 cs hv h1 hn1 h2 hn2 hq h3 h4 =>
    have hP : isPrologStart (v ++ (s1 ++ (b#"version" ++ (s2 ++ (tq ++ (s3 ++ b#'.' :: (s4 ++ t))))))) = true := by
      subst hv
      have hw : isWs (peek (s1 ++ (b#"version" ++ (s2 ++ (tq ++ (s3 ++ b#'.' :: (s4 ++ t))))))) = true := by
        rcases peek_S h1 (b#"version" ++ (s2 ++ (tq ++ (s3 ++ b#'.' :: (s4 ++ t))))) with rfl | h
        · exact absurd rfl hn1
        · exact h
      unfold isPrologStart
      exact Bool.and_eq_true_iff.2 ⟨rfl, hw⟩
    have hE : v ++ (s1 ++ (b#"version" ++ (s2 ++ (tq ++ (s3 ++ b#'.' :: s4))))) ++ t = v ++ (s1 ++ (b#"version" ++ (s2 ++ (tq ++ (s3 ++ b#'.' :: (s4 ++ t)))))) := by
      simp
    rw [hE, ws_S hs (by rw [hv]; rfl)]
    simp only [ok_bind, hP, if_true]
    have := prolog_read (x := s4 ++ t) h1 h2 hn2 hq h3 hv
    rw [this]
    simp only [ok_bind]
    rw [ws_S h4 hh.2]
    simp only [ok_bind, hh.1, if_true, e]
    rfl

end Xmq.Ixml
