import Verif.Lemmas.IxmlLex
/-!
# What the reader of ixml grammars builds for an expression
-/
namespace Xmq.Ixml
open Xmq.Spec Xmq.Spec.Ixml

/-- What reading an expression adds: symbols of the current rule, new rules, the counter, the mark left behind, sets. -/
structure Cmp where
  ts : List Term
  new : List Rule
  gen : Nat
  mark : Byte
  sets : List CSet

/-- The only symbol of a list. -/
def symOf : List Term → Sym
  | [t] => t.sym
  | _ => .n []

/-- The UTF-8 bytes of an insertion. -/
def insBytes (cs : List Nat) : List Byte := cs.flatMap utf8

/-- The set in the rules of the reader. -/
def csetOf (m : Byte) (ex : Bool) (ms : List Member) : CSet := ⟨m, ex, ms.flatMap parts⟩

/-- The result of reading an expression in a rule with name `nm` and mark `mk`. -/
def comp (nm : List Byte) (mk : Byte) : Rx → Nat → Byte → Cmp
  | .lit m cs, g, _ =>
    match cs with
    | [] => ⟨[], [], g, m, []⟩
    | [c] => ⟨[⟨m, .t c⟩], [], g, m, []⟩
    | cs => ⟨[⟨b#'-', .n (genName g)⟩], [hidden (genName g) (cs.map fun (c : Nat) => ⟨m, .t c⟩)], g + 1, m, []⟩
  | .set m ex ms, g, mark => ⟨[⟨m, .n (setName (csetOf m ex ms))⟩], [], g, if ms.any numeric then 0 else mark, [csetOf m ex ms]⟩
  | .ref m n _, g, _ => ⟨[⟨m, .n n⟩], [], g, m, []⟩
  | .ins cs, g, mark => ⟨[⟨0, .n (b#"|+" ++ insBytes cs)⟩], [⟨b#"|+" ++ insBytes cs, none, b#' ', []⟩], g, mark, []⟩
  | .group .eps, g, mark => ⟨[], [], g, mark, []⟩
  | .group r, g, mark =>
    let c := comp (genName g) b#'-' r (g + 1) mark
    ⟨[⟨b#'-', .n (genName g)⟩], hidden (genName g) c.ts :: c.new, c.gen, c.mark, c.sets⟩
  | .opt f, g, mark =>
    let c := comp nm mk f g mark
    let n := genName c.gen
    ⟨[⟨b#'-', .n n⟩], c.new ++ [hidden n [⟨c.mark, symOf c.ts⟩], hidden n []], c.gen + 1, c.mark, c.sets⟩
  | .plus f, g, mark =>
    let c := comp nm mk f g mark
    let n := genName c.gen
    ⟨[⟨b#'-', .n n⟩], c.new ++ [hidden n [⟨c.mark, symOf c.ts⟩], hidden n [⟨b#'-', .n n⟩, ⟨c.mark, symOf c.ts⟩]], c.gen + 1, c.mark, c.sets⟩
  | .star f, g, mark =>
    let c := comp nm mk f g mark
    let n := genName c.gen
    ⟨[⟨b#'-', .n n⟩], c.new ++ [hidden n [], hidden n [⟨b#'-', .n n⟩, ⟨c.mark, symOf c.ts⟩]], c.gen + 1, c.mark, c.sets⟩
  | .plusSep f s, g, mark =>
    let c := comp nm mk f g mark
    let d := comp nm mk s c.gen c.mark
    let n := genName d.gen
    ⟨[⟨b#'-', .n n⟩], c.new ++ d.new ++ [hidden n [⟨c.mark, symOf c.ts⟩], hidden n [⟨b#'-', .n n⟩, ⟨d.mark, symOf d.ts⟩, ⟨c.mark, symOf c.ts⟩]],
      d.gen + 1, d.mark, c.sets ++ d.sets⟩
  | .starSep f s, g, mark =>
    let c := comp nm mk f g mark
    let d := comp nm mk s c.gen c.mark
    let n := genName d.gen
    let o := genName (d.gen + 1)
    ⟨[⟨b#'-', .n o⟩], c.new ++ d.new ++ [hidden n [⟨c.mark, symOf c.ts⟩], hidden n [⟨b#'-', .n n⟩, ⟨d.mark, symOf d.ts⟩, ⟨c.mark, symOf c.ts⟩]] ++
      [hidden o [⟨b#'-', .n n⟩], hidden o []], d.gen + 2, b#'-', c.sets ++ d.sets⟩
  | .eps, g, mark => ⟨[], [], g, mark, []⟩
  | .seq a b, g, mark =>
    let c := comp nm mk a g mark
    let d := comp nm mk b c.gen c.mark
    ⟨c.ts ++ d.ts, c.new ++ d.new, d.gen, d.mark, c.sets ++ d.sets⟩
  | .alt a b, g, mark =>
    let c := comp nm mk a g mark
    let d := comp nm mk b c.gen c.mark
    ⟨c.ts, c.new ++ ⟨nm, none, mk, d.ts⟩ :: d.new, d.gen, d.mark, c.sets ++ d.sets⟩

/-! ## Rules in the list -/

theorem addTerms_nil (i : Nat) (R : List Rule) : addTerms i [] R = R := by
  unfold addTerms
  apply List.ext_getElem?
  intro j
  rw [List.getElem?_modify]
  cases R[j]? <;> simp

theorem addTerms_addTerms (i : Nat) (a b : List Term) (R : List Rule) : addTerms i b (addTerms i a R) = addTerms i (a ++ b) R := by
  unfold addTerms
  apply List.ext_getElem?
  intro j
  simp only [List.getElem?_modify]
  cases R[j]? <;> by_cases h : i = j <;> simp [h]

theorem length_addTerms (i : Nat) (a : List Term) (R : List Rule) : (addTerms i a R).length = R.length := by
  unfold addTerms; simp

theorem modify_append_left {α : Type} (f : α → α) (R N : List α) (i : Nat) (h : i < R.length) : (R ++ N).modify i f = R.modify i f ++ N := by
  apply List.ext_getElem?
  intro j
  simp only [List.getElem?_modify, List.getElem?_append, List.length_modify]
  by_cases hj : j < R.length
  · simp [hj]
  · simp only [hj, if_false]
    have : i ≠ j := by omega
    simp [this]

theorem addTerms_append (i : Nat) (a : List Term) (R N : List Rule) (h : i < R.length) : addTerms i a (R ++ N) = addTerms i a R ++ N :=
  modify_append_left _ R N i h

theorem addTerms_last (a : List Term) (R : List Rule) (r : Rule) : addTerms R.length a (R ++ [r]) = R ++ [{ r with rhs := r.rhs ++ a }] := by
  unfold addTerms
  apply List.ext_getElem?
  intro j
  simp only [List.getElem?_modify, List.getElem?_append]
  by_cases hj : j < R.length
  · have : R.length ≠ j := by omega
    simp [hj, this]
  · simp only [hj, if_false]
    by_cases h : R.length = j
    · subst h; simp
    · have : j - R.length ≠ 0 := by omega
      obtain ⟨k, hk⟩ : ∃ k, j - R.length = k + 1 := ⟨j - R.length - 1, by omega⟩
      simp [hk]

theorem addTerms_get {i : Nat} {a : List Term} {R N : List Rule} {ρ : Rule} (h : R[i]? = some ρ) : (addTerms i a R ++ N)[i]? = some { ρ with rhs := ρ.rhs ++ a } := by
  obtain ⟨hi, e⟩ := List.getElem?_eq_some_iff.1 h
  unfold addTerms
  rw [List.getElem?_append_left (by simpa using hi), List.getElem?_modify, h]
  simp

theorem lt_of_get {R : List Rule} {i : Nat} {ρ : Rule} (h : R[i]? = some ρ) : i < R.length := (List.getElem?_eq_some_iff.1 h).1

/-- Taking away the symbol added last. -/
theorem pop_add {R N : List Rule} {i : Nat} {ρ : Rule} (h : R[i]? = some ρ) (ts : List Term) (t : Term) (s : List Byte) (g : Nat) (m : Byte) (cs : List CSet) :
    St.pop ⟨s, addTerms i (ts ++ [t]) R ++ N, i, g, m, cs⟩ = .ok (t.sym, ⟨s, addTerms i ts R ++ N, i, g, m, cs⟩) := by
  have hi := lt_of_get h
  unfold St.pop
  rw [addTerms_get h]
  simp only
  rw [← List.append_assoc, List.getLast?_concat]
  simp only
  congr 3
  rw [modify_append_left _ _ _ _ (by rw [length_addTerms]; exact hi)]
  congr 1
  unfold addTerms
  apply List.ext_getElem?
  intro j
  simp only [List.getElem?_modify]
  by_cases hj : i = j
  · subst hj
    simp [h]
  · cases R[j]? <;> simp [hj]

/-! ## What may follow -/

/-- The bytes that may follow an expression of each class. -/
def stops : Cls → List Byte
  | .fac => b#"?*+,;|.)"
  | .term => b#",;|.)"
  | .seq => b#";|.)"
  | .alts => b#".)"

theorem stop_class {cls : Cls} {c : Byte} (h : c ∈ stops cls) : isWs c = false ∧ isNameFollower c = false ∧ isHex c = false ∧ c ≠ b#'>' ∧ isQuote c = false ∧ c ≠ 0 := by
  have h1 : c ∈ stops .fac := by
    revert h
    cases cls <;> simp only [stops] <;> grind
  revert h1
  exact forall_byte (P := fun c => c ∈ stops .fac → isWs c = false ∧ isNameFollower c = false ∧ isHex c = false ∧ c ≠ b#'>' ∧ isQuote c = false ∧ c ≠ 0)
    (by decide +kernel) c

theorem altStart_class {c : Byte} (h : isAltStart c = true) : isWs c = false ∧ c ≠ 0 ∧ c ≠ b#'.' ∧ c ≠ b#')' ∧ c ≠ b#'|' ∧ c ≠ b#';' := by
  revert h
  exact forall_byte (P := fun c => isAltStart c = true → isWs c = false ∧ c ≠ 0 ∧ c ≠ b#'.' ∧ c ≠ b#')' ∧ c ≠ b#'|' ∧ c ≠ b#';') (by decide +kernel) c

/-! ## The first bytes of an expression -/

theorem wtmark_altStart {m : Byte} {tm : List Byte} (h : WTmark true m tm) (x : List Byte) (hx : isAltStart (peek x) = true) : isAltStart (peek (tm ++ x)) = true := by
  cases h with
  | none => exact hx
  | mk m s hm hg => rcases hm with rfl | rfl <;> rfl

/-- How a terminal begins. -/
theorem fac_terminal {f : Rx} {t : List Byte} (h : W true .fac f t) (x : List Byte) :
    isAltStart (peek (t ++ x)) = true ∧ isFactorStart (t ++ x) = true ∧
    (isTerminalStart (t ++ x) = match f with | .lit .. => true | .set .. => true | _ => false) := by
  have lt : ∀ {s : List Byte}, isTerminalStart s = true → isFactorStart s = true := by
    intro s h; unfold isFactorStart; simp [h]
  cases h with
  | lit m cs tm t s hm hq hs =>
    obtain ⟨q, u, e, hiq⟩ := quoted_head hq
    have hqc := quote_class hiq
    rw [List.append_assoc, List.append_assoc]
    have hp : peek (t ++ (s ++ x)) = q := by rw [e]; rfl
    have h1 : isTerminalStart (tm ++ (t ++ (s ++ x))) = true := by
      unfold isTerminalStart isLiteralStart isQuotedStart
      rw [skipTmark_mk hm (by rw [hp]; exact hqc.2.2.1) (by rw [hp]; exact hqc.1), hp, hiq]
      simp
    exact ⟨wtmark_altStart hm _ (by rw [hp]; exact hqc.2.2.2.2.2.1), lt h1, h1⟩
  | enc m c tm t s hm hq hs =>
    rw [List.append_assoc, List.append_assoc]
    have hp : peek (t ++ (s ++ x)) = b#'#' := by
      obtain ⟨ds, rfl, -⟩ := encoded_head hq
      rfl
    have h1 : isTerminalStart (tm ++ (t ++ (s ++ x))) = true := by
      unfold isTerminalStart isEncodedStart
      rw [skipTmark_mk hm (by rw [hp]; rfl) (by rw [hp]; rfl), hp]
      simp
    exact ⟨wtmark_altStart hm _ (by rw [hp]; rfl), lt h1, h1⟩
  | incl m ms tm s1 t s2 hm h1 hms h2 _ =>
    simp only [List.append_assoc, List.cons_append]
    have h1 : isTerminalStart (tm ++ b#'[' :: (s1 ++ (t ++ b#']' :: (s2 ++ x)))) = true := by
      unfold isTerminalStart isCharsetStart
      rw [skipTmark_mk hm (by rfl) (by rfl)]
      simp [isWs]
    exact ⟨wtmark_altStart hm _ (by rfl), lt h1, h1⟩
  | excl m ms tm gap s1 t s2 hm hg h1 hms h2 _ =>
    simp only [List.append_assoc, List.cons_append]
    have h1 : isTerminalStart (tm ++ b#'~' :: (gap ++ b#'[' :: (s1 ++ (t ++ b#']' :: (s2 ++ x))))) = true := by
      unfold isTerminalStart isCharsetStart
      rw [skipTmark_mk hm (by rfl) (by rfl)]
      simp only [peek_cons, if_true, List.drop_one, List.tail_cons]
      rw [dropWhile_all_append _ _ _ (gap_ws hg)]
      simp [isWs]
    exact ⟨wtmark_altStart hm _ (by rfl), lt h1, h1⟩
  | ref m n al t hn =>
    obtain ⟨tm, s, ta, hm, hn, hs, ha⟩ := hn
    obtain ⟨c, u, hcu, hc⟩ := isName_head hn
    have hl := letter_class hc
    simp only [List.append_assoc]
    generalize hX : n ++ (s ++ (ta ++ x)) = X
    have hp : peek X = c := by rw [← hX, hcu]; rfl
    have h1 : isNaming (peek (tm ++ X)) = true ∧ isAltStart (peek (tm ++ X)) = true := by
      cases hm with
      | none => rw [List.nil_append, hp]; exact ⟨hl.2.2.2.2.2.2.1, hl.2.2.2.2.2.2.2.1⟩
      | mk m s hm hg => rcases hm with rfl | rfl | rfl <;> exact ⟨rfl, rfl⟩
    refine ⟨h1.2, by unfold isFactorStart; simp [h1.1], ?_⟩
    have hw : X.dropWhile isWs = X := (takeWhile_stop isWs X (by rw [hp]; exact hl.2.2.2.1)).2
    unfold isTerminalStart isEncodedStart isLiteralStart isQuotedStart isEncodedStart isCharsetStart
    rcases skipTmark_mark hm (t := X) (by rw [hp]; exact hl.2.2.2.2.2.1) (by rw [hp]; exact hl.2.2.2.1) with e | ⟨e1, e2⟩
    · rw [e]
      simp only [hp, hl.2.2.2.2.1, hl.2.2.2.2.2.2.2.2.2.2.1, if_false, hw]
      have a1 := hl.2.2.2.2.2.2.2.2.2.1
      have a2 := hl.2.2.2.2.2.2.2.2.2.2.2.1
      simp [a1, a2]
    · rw [e2]
      have hw2 : (tm ++ X).dropWhile isWs = tm ++ X := (takeWhile_stop isWs _ (by rw [e1]; rfl)).2
      simp only [e1, show ¬ ((b#'@' : Byte) = b#'~') by decide, if_false, hw2]
      rfl
  | ins cs s1 t s2 h1 hq h2 => exact ⟨rfl, rfl, rfl⟩
  | insEnc c s1 t s2 h1 hq h2 h => cases h1
  | group r s1 t s2 h1 hr h2 _ => exact ⟨rfl, rfl, rfl⟩

theorem term_head {f : Rx} {t : List Byte} (h : W true .term f t) (x : List Byte) : isAltStart (peek (t ++ x)) = true ∧ isFactorStart (t ++ x) = true := by
  cases h with
  | one f t h => exact ⟨(fac_terminal h x).1, (fac_terminal h x).2.1⟩
  | opt f t s h => rw [List.append_assoc]; exact ⟨(fac_terminal h _).1, (fac_terminal h _).2.1⟩
  | plus f t s h => rw [List.append_assoc]; exact ⟨(fac_terminal h _).1, (fac_terminal h _).2.1⟩
  | star f t s h => rw [List.append_assoc]; exact ⟨(fac_terminal h _).1, (fac_terminal h _).2.1⟩
  | plusSep f g t s u h => rw [List.append_assoc]; exact ⟨(fac_terminal h _).1, (fac_terminal h _).2.1⟩
  | starSep f g t s u h => rw [List.append_assoc]; exact ⟨(fac_terminal h _).1, (fac_terminal h _).2.1⟩

theorem seq_head {f : Rx} {t : List Byte} (h : W true .seq f t) (x : List Byte) : (f = .eps ∧ t = []) ∨ (f ≠ .eps ∧ isAltStart (peek (t ++ x)) = true) := by
  cases h with
  | eps => exact .inl ⟨rfl, rfl⟩
  | last r t h =>
    refine .inr ⟨?_, (term_head h x).1⟩
    rintro rfl
    cases h with | one _ _ h => cases h
  | seq a b t s u h => rw [List.append_assoc]; exact .inr ⟨by simp, (term_head h _).1⟩

/-- The first byte of the alternatives in a group. -/
theorem alts_head {r : Rx} {t : List Byte} (h : W true .alts r t) (hn : ∀ b, r ≠ .alt .eps b) (x : List Byte) :
    (r = .eps ∧ t = []) ∨ (r ≠ .eps ∧ isAltStart (peek (t ++ x)) = true) := by
  cases h with
  | alone r t h => exact seq_head h x
  | alt a b c t s u h =>
    rw [List.append_assoc]
    rcases seq_head h (c :: (s ++ u) ++ x) with ⟨rfl, -⟩ | ⟨-, h⟩
    · exact absurd rfl (hn b)
    · exact .inr ⟨by simp, h⟩

theorem comp_group {r : Rx} (h : r ≠ .eps) (nm : List Byte) (mk : Byte) (g : Nat) (mark : Byte) : comp nm mk (.group r) g mark =
    ⟨[⟨b#'-', .n (genName g)⟩], hidden (genName g) (comp (genName g) b#'-' r (g + 1) mark).ts :: (comp (genName g) b#'-' r (g + 1) mark).new,
      (comp (genName g) b#'-' r (g + 1) mark).gen, (comp (genName g) b#'-' r (g + 1) mark).mark, (comp (genName g) b#'-' r (g + 1) mark).sets⟩ := by
  cases r <;> first | rfl | exact absurd rfl h

/-- An expression that may be repeated is one symbol. -/
theorem comp_one {f : Rx} {t : List Byte} (h : W true .fac f t) (he : ¬ Empty f) (nm : List Byte) (mk : Byte) (g : Nat) (mark : Byte) :
    ∃ x, (comp nm mk f g mark).ts = [x] := by
  cases h with
  | lit m cs tm t s hm hq hs =>
    match cs with
    | [] => exact absurd trivial he
    | [c] => exact ⟨_, rfl⟩
    | c :: d :: cs => exact ⟨_, rfl⟩
  | enc m c tm t s hm hq hs => exact ⟨_, rfl⟩
  | incl m ms tm s1 t s2 hm h1 hms h2 _ => exact ⟨_, rfl⟩
  | excl m ms tm gap s1 t s2 hm hg h1 hms h2 _ => exact ⟨_, rfl⟩
  | ref m n al t hn => exact ⟨_, rfl⟩
  | ins cs s1 t s2 h1 hq h2 => exact ⟨_, rfl⟩
  | insEnc c s1 t s2 h1 hq h2 h => cases h1
  | group r s1 t s2 h1 hr h2 _ =>
    by_cases hr : r = .eps
    · subst hr; exact absurd trivial he
    · rw [comp_group hr]; exact ⟨_, rfl⟩

/-- The state after an expression has been read. -/
def after (st : St) (c : Cmp) (tail : List Byte) (cur : Nat) : St :=
  ⟨tail, addTerms st.cur c.ts st.rules ++ c.new, cur, c.gen, c.mark, st.sets ++ c.sets⟩

def job : Cls → Job
  | .fac => .factor
  | .term => .term
  | .seq => .alt
  | .alts => .alts

def need : Cls → Nat → Nat
  | .fac, k => 5 * k + 2
  | .term, k => 5 * k + 3
  | .seq, k => 5 * k + 4
  | .alts, k => 5 * k + 5

/-- The reader builds `comp` for the expression. -/
def Reads (cls : Cls) (r : Rx) (text : List Byte) : Prop :=
  ∀ (n : Nat) (st : St) (tail : List Byte) (ρ : Rule), need cls text.length ≤ n → peek tail ∈ stops cls → (cls = .seq → r ≠ .eps) → st.rest = text ++ tail →
    st.rules[st.cur]? = some ρ → ∃ cur, run n (job cls) st = .ok (after st (comp ρ.name ρ.mark r st.gen st.mark) tail cur) ∧ (cls ≠ .alts → cur = st.cur)

theorem encodeAll_eq : ∀ {cs : List Nat}, (∀ c ∈ cs, 0 < c ∧ c < 0x110000) → encodeAll cs = some (insBytes cs)
  | [], _ => rfl
  | c :: cs, h => by
    have h1 := h c (by simp)
    rw [encodeAll, encodeAll_eq fun d hd => h d (by simp [hd]), encodeUtf8_rfc3629 c (by omega)]
    rfl

theorem terminal_read {f : Rx} {t : List Byte} (h : W true .fac f t) (hf : match f with | .lit .. => True | .set .. => True | _ => False)
    (st : St) (tail : List Byte) (ρ : Rule) (ht : peek tail ∈ stops .fac) (hr : st.rest = t ++ tail) (hc : st.rules[st.cur]? = some ρ) :
    ∃ s, terminal st = .ok (after st (comp ρ.name ρ.mark f st.gen st.mark) s st.cur) ∧ ws s = .ok tail := by
  have hs := stop_class ht
  unfold terminal
  cases h with
  | lit m cs tm t s hm hq hs1 =>
    obtain ⟨q, u, e, hiq⟩ := quoted_head hq
    have hqc := quote_class hiq
    rw [List.append_assoc, List.append_assoc] at hr
    have hp : peek (t ++ (s ++ tail)) = q := by rw [e]; rfl
    have h1 : isQuotedStart (tm ++ (t ++ (s ++ tail))) = true := by
      unfold isQuotedStart
      rw [skipTmark_mk hm (by rw [hp]; exact hqc.2.2.1) (by rw [hp]; exact hqc.1), hp, hiq]
    have h2 : wsAfter (isTmark (peek (tm ++ (t ++ (s ++ tail))))) (tm ++ (t ++ (s ++ tail))) = .ok (t ++ (s ++ tail)) ∧
        (if isTmark (peek (tm ++ (t ++ (s ++ tail)))) then peek (tm ++ (t ++ (s ++ tail))) else 0) = m := by
      cases hm with
      | none => rw [List.nil_append, hp, hqc.2.2.1]; exact ⟨rfl, rfl⟩
      | mk m g hm hg =>
        have hmk : isTmark m = true := by rcases hm with rfl | rfl <;> decide
        unfold wsAfter
        simp only [List.cons_append, peek_cons, hmk, if_true, List.drop_one, List.tail_cons]
        exact ⟨ws_S hg.1 (by rw [hp]; exact hqc.1), trivial⟩
    rw [hr]
    simp only [isLiteralStart, h1, Bool.true_or, if_true, h2.1, h2.2, ok_bind]
    rw [string_quoted hq (peek_S_not hs1 tail isQuote ws_not_quote hs.2.2.2.2.1)]
    simp only [ok_bind]
    rw [ws_S hs1 hs.1]
    refine ⟨tail, ?_, ws_none hs.1⟩
    simp only [ok_bind]
    match cs with
    | [] => simp [addLiteral, after, comp, addTerms_nil]
    | [c] => simp [addLiteral, after, comp, St.add]
    | c :: d :: cs => simp [addLiteral, after, comp, St.add, St.push, Function.comp_def]
  | enc m c tm t s hm hq hs1 =>
    rw [List.append_assoc, List.append_assoc] at hr
    have hp : peek (t ++ (s ++ tail)) = b#'#' := by
      obtain ⟨ds, rfl, -⟩ := encoded_head hq
      rfl
    have h1 : isQuotedStart (tm ++ (t ++ (s ++ tail))) = false ∧ isEncodedStart (tm ++ (t ++ (s ++ tail))) = true := by
      unfold isQuotedStart isEncodedStart
      rw [skipTmark_mk hm (by rw [hp]; rfl) (by rw [hp]; rfl), hp]
      exact ⟨rfl, rfl⟩
    rw [hr]
    simp only [isLiteralStart, h1.1, h1.2, Bool.or_true, if_true, Bool.false_eq_true, if_false]
    rw [encoded_read hm hq hs1 hs.1 hs.2.2.1]
    refine ⟨tail, ?_, ws_none hs.1⟩
    simp [addLiteral, after, comp, St.add]
  | incl m ms tm s1 t s2 hm h1 hms h2 _ =>
    simp only [List.append_assoc, List.cons_append] at hr
    have h3 : isLiteralStart (tm ++ b#'[' :: (s1 ++ (t ++ b#']' :: (s2 ++ tail)))) = false := by
      unfold isLiteralStart isQuotedStart isEncodedStart
      rw [skipTmark_mk hm (by rfl) (by rfl)]
      rfl
    rw [hr]
    simp only [h3, Bool.false_eq_true, if_false]
    rw [charset_read_incl hm h1 hms]
    refine ⟨s2 ++ tail, ?_, ws_S h2 hs.1⟩
    simp [after, comp, St.add, csetOf]
  | excl m ms tm gap s1 t s2 hm hg h1 hms h2 _ =>
    simp only [List.append_assoc, List.cons_append] at hr
    have h3 : isLiteralStart (tm ++ b#'~' :: (gap ++ b#'[' :: (s1 ++ (t ++ b#']' :: (s2 ++ tail))))) = false := by
      unfold isLiteralStart isQuotedStart isEncodedStart
      rw [skipTmark_mk hm (by rfl) (by rfl)]
      rfl
    rw [hr]
    simp only [h3, Bool.false_eq_true, if_false]
    rw [charset_read_excl hm hg h1 hms]
    refine ⟨s2 ++ tail, ?_, ws_S h2 hs.1⟩
    simp [after, comp, St.add, csetOf]
  | ref m n al t hn => exact absurd hf (by simp)
  | ins cs s1 t s2 h1 hq h2 => exact absurd hf (by simp)
  | insEnc c s1 t s2 h1 hq h2 h => exact absurd hf (by simp)
  | group r s1 t s2 h1 hr h2 _ => exact absurd hf (by simp)

end Xmq.Ixml
