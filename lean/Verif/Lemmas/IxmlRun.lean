import Verif.Lemmas.IxmlRead
/-!
# The reader of ixml grammars builds what was written
-/
namespace Xmq.Ixml
open Xmq.Spec Xmq.Spec.Ixml

theorem quoted_codes {cs : List Nat} {t : List Byte} (h : Quoted cs t) : ∀ c ∈ cs, 0 < c ∧ c < 0x110000 := by
  obtain ⟨q, cs, t, hq, hs⟩ := h
  induction hs with
  | nil => intro c hc; cases hc
  | char c cs t h0 h1 _ _ ih =>
    intro d hd
    rcases List.mem_cons.1 hd with rfl | hd
    · exact ⟨h0, h1⟩
    · exact ih d hd
  | quote cs t _ ih =>
    intro d hd
    rcases List.mem_cons.1 hd with rfl | hd
    · rcases hq with rfl | rfl <;> decide
    · exact ih d hd

theorem reads_terminal {f : Rx} {t : List Byte} (h : W true .fac f t) (hf : match f with | .lit .. => True | .set .. => True | _ => False) : Reads .fac f t := by
  intro n st tail ρ hn ht _ hr hc
  obtain ⟨k, rfl⟩ : ∃ k, n = k + 1 := ⟨n - 1, by simp only [need] at hn; omega⟩
  obtain ⟨_, h2, h3⟩ := fac_terminal h tail
  have h4 : isTerminalStart (t ++ tail) = true := by
    rw [h3]; revert hf; cases f <;> simp
  obtain ⟨s, e1, e2⟩ := terminal_read h hf st tail ρ ht hr hc
  refine ⟨st.cur, ?_, fun _ => rfl⟩
  simp only [job, run, hr, h2, h4, if_true, e1, ok_bind]
  simp only [after, e2, ok_bind]

theorem reads_ref {m : Byte} {n : List Byte} {al : Option (List Byte)} {t : List Byte} (h : WNaming true m n al t) : Reads .fac (.ref m n al) t := by
  intro k st tail ρ hn ht _ hr hc
  obtain ⟨k, rfl⟩ : ∃ k', k = k' + 1 := ⟨k - 1, by simp only [need] at hn; omega⟩
  obtain ⟨_, h2, h3⟩ := fac_terminal (W.ref m n al t h) tail
  have hs := stop_class ht
  have h4 : isNaming (peek (t ++ tail)) = true := by
    obtain ⟨tm, s, ta, hm, hnn, hs, ha⟩ := h
    cases hm with
    | none =>
      obtain ⟨c, u, rfl, hc⟩ := isName_head hnn
      exact (letter_class hc).2.2.2.2.2.2.1
    | mk m s hm hg => rcases hm with rfl | rfl | rfl <;> rfl
  refine ⟨st.cur, ?_, fun _ => rfl⟩
  simp only [job, run, hr, h2, h3, h4, if_true, Bool.false_eq_true, if_false]
  rw [naming_read h hs.1 hs.2.1 hs.2.2.2.1]
  simp only [ok_bind]
  rw [ws_none hs.1]
  simp [after, comp, St.add]

theorem reads_ins {cs : List Nat} {s1 t s2 : List Byte} (h1 : S true s1) (hq : Quoted cs t) (h2 : S true s2) : Reads .fac (.ins cs) (b#'+' :: (s1 ++ (t ++ s2))) := by
  intro k st tail ρ hn ht _ hr hc
  obtain ⟨k, rfl⟩ : ∃ k', k = k' + 1 := ⟨k - 1, by simp only [need] at hn; omega⟩
  have hs := stop_class ht
  obtain ⟨q, u, e, hiq⟩ := quoted_head hq
  have hqc := quote_class hiq
  have hp : peek (t ++ (s2 ++ tail)) = q := by rw [e]; rfl
  simp only [List.cons_append, List.append_assoc] at hr
  have f1 : isFactorStart (b#'+' :: (s1 ++ (t ++ (s2 ++ tail)))) = true := rfl
  have f2 : isTerminalStart (b#'+' :: (s1 ++ (t ++ (s2 ++ tail)))) = false := rfl
  have hI : insertion st = .ok (after st (comp ρ.name ρ.mark (.ins cs) st.gen st.mark) (s2 ++ tail) st.cur) := by
    unfold insertion
    rw [hr]
    simp only [List.drop_one, List.tail_cons]
    rw [ws_S h1 (by rw [hp]; exact hqc.1)]
    simp only [ok_bind, hp, hiq, if_true]
    rw [string_quoted hq (peek_S_not h2 tail isQuote ws_not_quote hs.2.2.2.2.1)]
    simp only [ok_bind]
    rw [encodeAll_eq (quoted_codes hq)]
    simp [after, comp, St.add, St.push, addInsertion, addTerms_append _ _ _ _ (lt_of_get hc)]
  refine ⟨st.cur, ?_, fun _ => rfl⟩
  simp only [job, run, hr, f1, f2, peek_cons, if_true, Bool.false_eq_true, if_false, show isNaming b#'+' = false from rfl, hI, ok_bind]
  simp only [after]
  rw [ws_S h2 hs.1]
  rfl

theorem reads_group {r : Rx} {s1 t s2 : List Byte} (h1 : S true s1) (hW : W true .alts r t) (h2 : S true s2) (hne : ∀ b, r ≠ .alt .eps b)
    (ih : Reads .alts r t) : Reads .fac (.group r) (b#'(' :: (s1 ++ (t ++ b#')' :: s2))) := by
  intro k st tail ρ hn ht _ hr hc
  simp only [need, List.length_cons, List.length_append] at hn
  obtain ⟨k, rfl⟩ : ∃ k', k = k' + 2 := ⟨k - 2, by omega⟩
  have hs := stop_class ht
  have hi := lt_of_get hc
  simp only [List.cons_append, List.append_assoc] at hr
  have f1 : isFactorStart (b#'(' :: (s1 ++ (t ++ b#')' :: (s2 ++ tail)))) = true := rfl
  have f2 : isTerminalStart (b#'(' :: (s1 ++ (t ++ b#')' :: (s2 ++ tail)))) = false := rfl
  have hG : run (k + 1) .group st = .ok (after st (comp ρ.name ρ.mark (.group r) st.gen st.mark) tail st.cur) := by
    rw [run, hr]
    simp only [List.drop_one, List.tail_cons]
    rcases alts_head hW hne (b#')' :: (s2 ++ tail)) with ⟨rfl, rfl⟩ | ⟨hre, hA⟩
    · rw [List.nil_append, ws_S h1 (by rfl)]
      simp only [ok_bind, peek_cons, show isAltStart b#')' = false from rfl, Bool.false_eq_true, if_false, if_true, List.drop_one, List.tail_cons]
      rw [ws_S h2 hs.1]
      simp [after, comp, addTerms_nil]
    · rw [ws_S h1 (altStart_class hA).1]
      simp only [ok_bind, hA, if_true]
      obtain ⟨cur, e, -⟩ := ih k { (st.add [⟨b#'-', .n (genName st.gen)⟩]).push [hidden (genName st.gen) []] with
        gen := st.gen + 1, cur := st.rules.length, rest := t ++ b#')' :: (s2 ++ tail) } (b#')' :: (s2 ++ tail)) (hidden (genName st.gen) [])
        (by simp only [need]; omega) (by simp [stops]) (by simp) rfl (by simp [St.add, St.push, length_addTerms])
      simp only [job] at e
      rw [e]
      simp only [ok_bind, after, peek_cons, if_true, List.drop_one, List.tail_cons]
      rw [ws_S h2 hs.1]
      simp only [ok_bind, comp_group hre]
      simp only [St.add, St.push, hidden]
      have := addTerms_last (comp (genName st.gen) b#'-' r (st.gen + 1) st.mark).ts (addTerms st.cur [⟨b#'-', .n (genName st.gen)⟩] st.rules) ⟨genName st.gen, none, b#'-', []⟩
      rw [length_addTerms] at this
      rw [this]
      simp
  refine ⟨st.cur, ?_, fun _ => rfl⟩
  simp only [job]
  rw [run]
  simp only [hr, f1, f2, peek_cons, if_true, Bool.false_eq_true, if_false, show isNaming b#'(' = false from rfl, show ¬ ((b#'(' : Byte) = b#'+') by decide, hG, ok_bind]
  simp only [after]
  rw [ws_none hs.1]
  rfl

/-! ## Terms -/

theorem reads_one {f : Rx} {t : List Byte} (hW : W true .fac f t) (ih : Reads .fac f t) : Reads .term f t := by
  intro k st tail ρ hn ht _ hr hc
  simp only [need] at hn
  obtain ⟨k, rfl⟩ : ∃ k', k = k' + 1 := ⟨k - 1, by omega⟩
  have hs := stop_class ht
  have hf : peek tail ∈ stops .fac ∧ peek tail ≠ b#'?' ∧ ¬ (peek tail = b#'*' ∨ peek tail = b#'+') := by
    revert ht
    exact forall_byte (P := fun c => c ∈ stops .term → c ∈ stops .fac ∧ c ≠ b#'?' ∧ ¬ (c = b#'*' ∨ c = b#'+')) (by decide +kernel) (peek tail)
  obtain ⟨cur, e, hcur⟩ := ih k st tail ρ (by simp only [need]; omega) hf.1 (by simp) hr hc
  obtain rfl := hcur (by simp)
  refine ⟨st.cur, ?_, fun _ => rfl⟩
  have h2 := (fac_terminal hW tail).2.1
  simp only [job] at e ⊢
  rw [run]
  simp only [hr, h2, if_true, e, ok_bind, after, hf.2.1, hf.2.2, if_false]
  rw [ws_none hs.1]
  rfl

theorem reads_opt {f : Rx} {t s : List Byte} (hW : W true .fac f t) (ih : Reads .fac f t) (hs1 : S true s) (he : ¬ Empty f) : Reads .term (.opt f) (t ++ b#'?' :: s) := by
  intro k st tail ρ hn ht _ hr hc
  simp only [need, List.length_append, List.length_cons] at hn
  obtain ⟨k, rfl⟩ : ∃ k', k = k' + 1 := ⟨k - 1, by omega⟩
  have hs := stop_class ht
  rw [List.append_assoc, List.cons_append] at hr
  obtain ⟨cur, e, hcur⟩ := ih k st (b#'?' :: (s ++ tail)) ρ (by simp only [need]; omega) (by simp [stops]) (by simp) hr hc
  obtain rfl := hcur (by simp)
  refine ⟨st.cur, ?_, fun _ => rfl⟩
  have h2 := (fac_terminal hW (b#'?' :: (s ++ tail))).2.1
  simp only [job] at e ⊢
  obtain ⟨x, hx⟩ := comp_one hW he ρ.name ρ.mark st.gen st.mark
  rw [run]
  simp only [hr, h2, if_true, e, ok_bind, after, peek_cons, List.drop_one, List.tail_cons]
  rw [ws_S hs1 hs.1]
  simp only [ok_bind, makeOptional, hx]
  have := pop_add (N := (comp ρ.name ρ.mark f st.gen st.mark).new) hc [] x tail (comp ρ.name ρ.mark f st.gen st.mark).gen
    (comp ρ.name ρ.mark f st.gen st.mark).mark (st.sets ++ (comp ρ.name ρ.mark f st.gen st.mark).sets)
  rw [List.nil_append] at this
  rw [this]
  simp only [ok_bind, St.add, St.push, addTerms_nil, addTerms_append _ _ _ _ (lt_of_get hc)]
  simp [comp, hx, symOf]

theorem reads_plus {f : Rx} {t s : List Byte} (hW : W true .fac f t) (ih : Reads .fac f t) (hs1 : S true s) (he : ¬ Empty f) : Reads .term (.plus f) (t ++ b#'+' :: s) := by
  intro k st tail ρ hn ht _ hr hc
  simp only [need, List.length_append, List.length_cons] at hn
  obtain ⟨k, rfl⟩ : ∃ k', k = k' + 1 := ⟨k - 1, by omega⟩
  have hs := stop_class ht
  rw [List.append_assoc, List.cons_append] at hr
  obtain ⟨cur, e, hcur⟩ := ih k st (b#'+' :: (s ++ tail)) ρ (by simp only [need]; omega) (by simp [stops]) (by simp) hr hc
  obtain rfl := hcur (by simp)
  refine ⟨st.cur, ?_, fun _ => rfl⟩
  have h2 := (fac_terminal hW (b#'+' :: (s ++ tail))).2.1
  have h3 : peek (s ++ tail) ≠ b#'+' := by
    have := peek_S_not hs1 tail (fun c => c == b#'+') (fun c => forall_byte (P := fun c => isWs c = true → (c == b#'+') = false) (by decide +kernel) c) (by
      revert ht
      exact forall_byte (P := fun c => c ∈ stops .term → (c == b#'+') = false) (by decide +kernel) (peek tail))
    simpa using this
  simp only [job] at e ⊢
  obtain ⟨x, hx⟩ := comp_one hW he ρ.name ρ.mark st.gen st.mark
  rw [run]
  simp only [hr, h2, if_true, e, ok_bind, after, peek_cons, List.drop_one, List.tail_cons, show ¬ ((b#'+' : Byte) = b#'?') by decide, if_false, or_true, h3]
  simp only [makeRepeat, hx]
  have := pop_add (N := (comp ρ.name ρ.mark f st.gen st.mark).new) hc [] x (s ++ tail) (comp ρ.name ρ.mark f st.gen st.mark).gen
    (comp ρ.name ρ.mark f st.gen st.mark).mark (st.sets ++ (comp ρ.name ρ.mark f st.gen st.mark).sets)
  rw [List.nil_append] at this
  rw [this]
  simp only [ok_bind, St.add, St.push, addTerms_nil, addTerms_append _ _ _ _ (lt_of_get hc)]
  rw [ws_S hs1 hs.1]
  simp [comp, hx, symOf]

theorem reads_star {f : Rx} {t s : List Byte} (hW : W true .fac f t) (ih : Reads .fac f t) (hs1 : S true s) (he : ¬ Empty f) : Reads .term (.star f) (t ++ b#'*' :: s) := by
  intro k st tail ρ hn ht _ hr hc
  simp only [need, List.length_append, List.length_cons] at hn
  obtain ⟨k, rfl⟩ : ∃ k', k = k' + 1 := ⟨k - 1, by omega⟩
  have hs := stop_class ht
  rw [List.append_assoc, List.cons_append] at hr
  obtain ⟨cur, e, hcur⟩ := ih k st (b#'*' :: (s ++ tail)) ρ (by simp only [need]; omega) (by simp [stops]) (by simp) hr hc
  obtain rfl := hcur (by simp)
  refine ⟨st.cur, ?_, fun _ => rfl⟩
  have h2 := (fac_terminal hW (b#'*' :: (s ++ tail))).2.1
  have h3 : peek (s ++ tail) ≠ b#'*' := by
    have := peek_S_not hs1 tail (fun c => c == b#'*') (fun c => forall_byte (P := fun c => isWs c = true → (c == b#'*') = false) (by decide +kernel) c) (by
      revert ht
      exact forall_byte (P := fun c => c ∈ stops .term → (c == b#'*') = false) (by decide +kernel) (peek tail))
    simpa using this
  simp only [job] at e ⊢
  obtain ⟨x, hx⟩ := comp_one hW he ρ.name ρ.mark st.gen st.mark
  rw [run]
  simp only [hr, h2, if_true, e, ok_bind, after, peek_cons, List.drop_one, List.tail_cons, show ¬ ((b#'*' : Byte) = b#'?') by decide,
    show ¬ ((b#'*' : Byte) = b#'+') by decide, if_false, true_or, h3]
  simp only [makeRepeatZero, hx]
  have := pop_add (N := (comp ρ.name ρ.mark f st.gen st.mark).new) hc [] x (s ++ tail) (comp ρ.name ρ.mark f st.gen st.mark).gen
    (comp ρ.name ρ.mark f st.gen st.mark).mark (st.sets ++ (comp ρ.name ρ.mark f st.gen st.mark).sets)
  rw [List.nil_append] at this
  rw [this]
  simp only [ok_bind, St.add, St.push, addTerms_nil, addTerms_append _ _ _ _ (lt_of_get hc)]
  rw [ws_S hs1 hs.1]
  simp [comp, hx, symOf]

/-- Both factors of a repetition with separators are read, and their symbols taken away again. -/
theorem infix_pop {f g : Rx} {t u : List Byte} (hWf : W true .fac f t) (hWg : W true .fac g u) (hef : ¬ Empty f) (heg : ¬ Empty g) (st : St) (ρ : Rule) (tail : List Byte)
    (hc : st.rules[st.cur]? = some ρ) (c d : Cmp) (hcd : c = comp ρ.name ρ.mark f st.gen st.mark) (hdd : d = comp ρ.name ρ.mark g c.gen c.mark) (fm im : Byte) :
    makeRepeatInfix (after (after st c tail st.cur) d tail st.cur) fm im =
      .ok ⟨tail, addTerms st.cur [⟨b#'-', .n (genName d.gen)⟩] st.rules ++ (c.new ++ d.new ++
        [hidden (genName d.gen) [⟨fm, symOf c.ts⟩], hidden (genName d.gen) [⟨b#'-', .n (genName d.gen)⟩, ⟨im, symOf d.ts⟩, ⟨fm, symOf c.ts⟩]]),
        st.cur, d.gen + 1, d.mark, st.sets ++ (c.sets ++ d.sets)⟩ := by
  have hi := lt_of_get hc
  obtain ⟨x, hx⟩ := comp_one hWf hef ρ.name ρ.mark st.gen st.mark
  obtain ⟨y, hy⟩ := comp_one hWg heg ρ.name ρ.mark c.gen c.mark
  rw [← hcd] at hx
  rw [← hdd] at hy
  unfold makeRepeatInfix
  simp only [after, hx, hy, symOf, addTerms_append _ _ _ _ (show st.cur < (addTerms st.cur [x] st.rules).length by rw [length_addTerms]; exact hi),
    addTerms_addTerms, List.append_assoc]
  rw [pop_add hc [x] y]
  simp only [ok_bind]
  have := pop_add (N := c.new ++ d.new) hc [] x tail d.gen d.mark (st.sets ++ (c.sets ++ d.sets))
  rw [List.nil_append] at this
  rw [this]
  simp only [ok_bind, St.add, St.push, addTerms_nil, addTerms_append _ _ _ _ hi, List.append_assoc]

theorem reads_plusSep {f g : Rx} {t s u : List Byte} (hWf : W true .fac f t) (ihf : Reads .fac f t) (hs1 : S true s) (hWg : W true .fac g u) (ihg : Reads .fac g u)
    (hef : ¬ Empty f) (heg : ¬ Empty g) : Reads .term (.plusSep f g) (t ++ b#'+' :: b#'+' :: (s ++ u)) := by
  intro k st tail ρ hn ht _ hr hc
  simp only [need, List.length_append, List.length_cons] at hn
  obtain ⟨k, rfl⟩ : ∃ k', k = k' + 1 := ⟨k - 1, by omega⟩
  have hs := stop_class ht
  have hf : peek tail ∈ stops .fac := by
    revert ht
    exact forall_byte (P := fun c => c ∈ stops .term → c ∈ stops .fac) (by decide +kernel) (peek tail)
  simp only [List.append_assoc, List.cons_append] at hr
  obtain ⟨cur, e, hcur⟩ := ihf k st (b#'+' :: b#'+' :: (s ++ (u ++ tail))) ρ (by simp only [need]; omega) (by simp [stops]) (by simp) hr hc
  obtain rfl := hcur (by simp)
  refine ⟨st.cur, ?_, fun _ => rfl⟩
  have h2 := (fac_terminal hWf (b#'+' :: b#'+' :: (s ++ (u ++ tail)))).2.1
  simp only [job] at e ⊢
  rw [run]
  simp only [hr, h2, if_true, e, ok_bind]
  generalize hcd : comp ρ.name ρ.mark f st.gen st.mark = c
  obtain ⟨cur2, e2, hcur2⟩ := ihg k (after st c (u ++ tail) st.cur) tail { ρ with rhs := ρ.rhs ++ c.ts } (by simp only [need]; omega) hf (by simp) rfl
    (addTerms_get hc)
  obtain rfl := hcur2 (by simp)
  simp only [job] at e2
  simp only [after] at e2
  simp only [after, peek_cons, List.drop_one, List.tail_cons, show ¬ ((b#'+' : Byte) = b#'?') by decide, if_false, or_true, if_true]
  rw [ws_S hs1 (altStart_class (fac_terminal hWg tail).1).1]
  simp only [ok_bind]
  rw [e2]
  simp only [ok_bind]
  have := infix_pop hWf hWg hef heg st ρ tail hc c _ hcd.symm rfl c.mark (comp ρ.name ρ.mark g c.gen c.mark).mark
  simp only [after] at this
  rw [this]
  simp only [ok_bind]
  rw [ws_none hs.1]
  simp [comp, hcd]

theorem reads_starSep {f g : Rx} {t s u : List Byte} (hWf : W true .fac f t) (ihf : Reads .fac f t) (hs1 : S true s) (hWg : W true .fac g u) (ihg : Reads .fac g u)
    (hef : ¬ Empty f) (heg : ¬ Empty g) : Reads .term (.starSep f g) (t ++ b#'*' :: b#'*' :: (s ++ u)) := by
  intro k st tail ρ hn ht _ hr hc
  simp only [need, List.length_append, List.length_cons] at hn
  obtain ⟨k, rfl⟩ : ∃ k', k = k' + 1 := ⟨k - 1, by omega⟩
  have hs := stop_class ht
  have hi := lt_of_get hc
  have hf : peek tail ∈ stops .fac := by
    revert ht
    exact forall_byte (P := fun c => c ∈ stops .term → c ∈ stops .fac) (by decide +kernel) (peek tail)
  simp only [List.append_assoc, List.cons_append] at hr
  obtain ⟨cur, e, hcur⟩ := ihf k st (b#'*' :: b#'*' :: (s ++ (u ++ tail))) ρ (by simp only [need]; omega) (by simp [stops]) (by simp) hr hc
  obtain rfl := hcur (by simp)
  refine ⟨st.cur, ?_, fun _ => rfl⟩
  have h2 := (fac_terminal hWf (b#'*' :: b#'*' :: (s ++ (u ++ tail)))).2.1
  simp only [job] at e ⊢
  rw [run]
  simp only [hr, h2, if_true, e, ok_bind]
  generalize hcd : comp ρ.name ρ.mark f st.gen st.mark = c
  obtain ⟨cur2, e2, hcur2⟩ := ihg k (after st c (u ++ tail) st.cur) tail { ρ with rhs := ρ.rhs ++ c.ts } (by simp only [need]; omega) hf (by simp) rfl
    (addTerms_get hc)
  obtain rfl := hcur2 (by simp)
  simp only [job] at e2
  simp only [after] at e2
  simp only [after, peek_cons, List.drop_one, List.tail_cons, show ¬ ((b#'*' : Byte) = b#'?') by decide, show ¬ ((b#'*' : Byte) = b#'+') by decide,
    if_false, true_or, if_true]
  rw [ws_S hs1 (altStart_class (fac_terminal hWg tail).1).1]
  simp only [ok_bind]
  rw [e2]
  simp only [ok_bind, makeRepeatZeroInfix]
  have := infix_pop hWf hWg hef heg st ρ tail hc c _ hcd.symm rfl c.mark (comp ρ.name ρ.mark g c.gen c.mark).mark
  simp only [after] at this
  rw [this]
  simp only [ok_bind, makeOptional]
  generalize hdd : comp ρ.name ρ.mark g c.gen c.mark = d
  have := pop_add (N := c.new ++ d.new ++ [hidden (genName d.gen) [⟨c.mark, symOf c.ts⟩], hidden (genName d.gen) [⟨b#'-', .n (genName d.gen)⟩, ⟨d.mark, symOf d.ts⟩, ⟨c.mark, symOf c.ts⟩]])
    hc [] ⟨b#'-', .n (genName d.gen)⟩ tail (d.gen + 1) b#'-' (st.sets ++ (c.sets ++ d.sets))
  rw [List.nil_append] at this
  rw [this]
  simp only [ok_bind, St.add, St.push, addTerms_nil, addTerms_append _ _ _ _ hi]
  rw [ws_none hs.1]
  simp [comp, hcd, hdd]

/-! ## Alternatives -/

theorem reads_last {r : Rx} {t : List Byte} (hW : W true .term r t) (ih : Reads .term r t) : Reads .seq r t := by
  intro k st tail ρ hn ht _ hr hc
  simp only [need] at hn
  obtain ⟨k, rfl⟩ : ∃ k', k = k' + 1 := ⟨k - 1, by omega⟩
  have hs := stop_class ht
  have hf : peek tail ∈ stops .term ∧ (peek tail = b#';' ∨ peek tail = b#'|' ∨ peek tail = b#')' ∨ peek tail = b#'.') := by
    revert ht
    exact forall_byte (P := fun c => c ∈ stops .seq → c ∈ stops .term ∧ (c = b#';' ∨ c = b#'|' ∨ c = b#')' ∨ c = b#'.')) (by decide +kernel) (peek tail)
  obtain ⟨cur, e, hcur⟩ := ih k st tail ρ (by simp only [need]; omega) hf.1 (by simp) hr hc
  obtain rfl := hcur (by simp)
  refine ⟨st.cur, ?_, fun _ => rfl⟩
  have h2 := (term_head hW tail).1
  simp only [job] at e ⊢
  rw [run]
  simp only [hr, h2, if_true, e, ok_bind, after]
  rw [ws_none hs.1]
  simp only [ok_bind, hf.2, if_true]

theorem reads_seq {a b : Rx} {t s u : List Byte} (hW : W true .term a t) (iha : Reads .term a t) (hs1 : S true s) (hWb : W true .seq b u) (ihb : Reads .seq b u)
    (hb : b ≠ .eps) : Reads .seq (.seq a b) (t ++ b#',' :: (s ++ u)) := by
  intro k st tail ρ hn ht _ hr hc
  simp only [need, List.length_append, List.length_cons] at hn
  obtain ⟨k, rfl⟩ : ∃ k', k = k' + 1 := ⟨k - 1, by omega⟩
  have hs := stop_class ht
  have hi := lt_of_get hc
  simp only [List.append_assoc, List.cons_append] at hr
  obtain ⟨cur, e, hcur⟩ := iha k st (b#',' :: (s ++ (u ++ tail))) ρ (by simp only [need]; omega) (by simp [stops]) (by simp) hr hc
  obtain rfl := hcur (by simp)
  generalize hcd : comp ρ.name ρ.mark a st.gen st.mark = c at e
  obtain ⟨cur2, e2, hcur2⟩ := ihb k (after st c (u ++ tail) st.cur) tail { ρ with rhs := ρ.rhs ++ c.ts } (by simp only [need]; omega) ht (fun _ => hb) rfl
    (addTerms_get hc)
  obtain rfl := hcur2 (by simp)
  have h3 : isAltStart (peek (u ++ tail)) = true := by
    rcases seq_head hWb tail with ⟨h, -⟩ | ⟨-, h⟩
    · exact absurd h hb
    · exact h
  refine ⟨st.cur, ?_, fun _ => rfl⟩
  have h2 := (term_head hW (b#',' :: (s ++ (u ++ tail)))).1
  simp only [job] at e e2 ⊢
  simp only [after] at e2
  rw [run]
  simp only [hr, h2, if_true, e, ok_bind, after]
  rw [ws_none (by rfl)]
  simp only [ok_bind, peek_cons, show ¬ ((b#',' : Byte) = b#';' ∨ (b#',' : Byte) = b#'|' ∨ (b#',' : Byte) = b#')' ∨ (b#',' : Byte) = b#'.') by decide, if_false, if_true,
    List.drop_one, List.tail_cons]
  rw [ws_S hs1 (altStart_class h3).1]
  simp only [ok_bind]
  rw [e2]
  simp [comp, hcd, addTerms_append _ _ _ _ (show st.cur < (addTerms st.cur c.ts st.rules).length by rw [length_addTerms]; exact hi), addTerms_addTerms]

theorem reads_alone {r : Rx} {t : List Byte} (hW : W true .seq r t) (ih : Reads .seq r t) : Reads .alts r t := by
  intro k st tail ρ hn ht _ hr hc
  simp only [need] at hn
  obtain ⟨k, rfl⟩ : ∃ k', k = k' + 1 := ⟨k - 1, by omega⟩
  have hs := stop_class ht
  have hf : peek tail ∈ stops .seq ∧ (peek tail = b#'.' ∨ peek tail = b#')') := by
    revert ht
    exact forall_byte (P := fun c => c ∈ stops .alts → c ∈ stops .seq ∧ (c = b#'.' ∨ c = b#')')) (by decide +kernel) (peek tail)
  refine ⟨st.cur, ?_, fun _ => rfl⟩
  simp only [job] at ih ⊢
  rw [run, hr]
  rcases seq_head hW tail with ⟨rfl, rfl⟩ | ⟨h1, h2⟩
  · rw [List.nil_append, ws_none hs.1]
    simp only [ok_bind, hf.2, or_true, if_true]
    simp [after, comp, addTerms_nil]
  · have hA := altStart_class h2
    obtain ⟨cur, e, hcur⟩ := ih k { st with rest := t ++ tail } tail ρ (by simp only [need]; omega) hf.1 (fun _ => h1) rfl hc
    obtain rfl := hcur (by simp)
    rw [ws_none hA.1]
    simp only [job] at e
    simp only [ok_bind, hA.2.1, hA.2.2.1, hA.2.2.2.1, hA.2.2.2.2.1, or_self, if_false, h2, if_true, e]
    simp only [after, ws_none hs.1, ok_bind, hf.2, if_true]

theorem reads_alt {a b : Rx} {c : Byte} {t s u : List Byte} (hW : W true .seq a t) (iha : Reads .seq a t) (hc1 : c = b#';' ∨ c = b#'|') (hs1 : S true s)
    (hWb : W true .alts b u) (ihb : Reads .alts b u) (he : a = .eps → c = b#'|') : Reads .alts (.alt a b) (t ++ c :: (s ++ u)) := by
  intro k st tail ρ hn ht _ hr hc
  simp only [need, List.length_append, List.length_cons] at hn
  obtain ⟨k, rfl⟩ : ∃ k', k = k' + 1 := ⟨k - 1, by omega⟩
  have hs := stop_class ht
  simp only [List.append_assoc, List.cons_append] at hr
  have hcs : isWs c = false ∧ c ∈ stops .seq ∧ ¬ (c = b#'.' ∨ c = b#')') ∧ (c = b#'|' ∨ c = b#';') := by
    rcases hc1 with rfl | rfl <;> exact ⟨rfl, by simp [stops], by decide, by decide⟩
  -- behind the first alternative
  have key : ∀ (c1 : Cmp), c1 = comp ρ.name ρ.mark a st.gen st.mark → ∃ cur,
      ((do
        let s ← ws ((after st c1 (c :: (s ++ (u ++ tail))) st.cur).rest.drop 1)
        match (after st c1 (c :: (s ++ (u ++ tail))) st.cur).rules[st.cur]? with
        | none => .abort
        | some r => run k .alts { after st c1 (c :: (s ++ (u ++ tail))) st.cur with
            rest := s, rules := (after st c1 (c :: (s ++ (u ++ tail))) st.cur).rules ++ [⟨r.name, none, r.mark, []⟩],
            cur := (after st c1 (c :: (s ++ (u ++ tail))) st.cur).rules.length }) : Res St) =
      .ok (after st (comp ρ.name ρ.mark (.alt a b) st.gen st.mark) tail cur) := by
    intro c1 hc1'
    have hws : isWs (peek (u ++ tail)) = false := by
      cases hWb with
      | alone r t h =>
        rcases seq_head h tail with ⟨-, rfl⟩ | ⟨-, h⟩
        · exact hs.1
        · exact (altStart_class h).1
      | alt a b d t s u h hd _ _ _ =>
        rw [List.append_assoc]
        rcases seq_head h (d :: (s ++ u) ++ tail) with ⟨-, rfl⟩ | ⟨-, h⟩
        · rcases hd with rfl | rfl <;> rfl
        · exact (altStart_class h).1
    obtain ⟨cur, e, -⟩ := ihb k { after st c1 (u ++ tail) st.cur with
            rules := (after st c1 (c :: (s ++ (u ++ tail))) st.cur).rules ++ [⟨ρ.name, none, ρ.mark, []⟩],
            cur := (after st c1 (c :: (s ++ (u ++ tail))) st.cur).rules.length } tail ⟨ρ.name, none, ρ.mark, []⟩ (by simp only [need]; omega) ht (by simp) rfl
            (by simp)
    refine ⟨cur, ?_⟩
    simp only [after, List.drop_one, List.tail_cons]
    rw [ws_S hs1 hws]
    simp only [ok_bind]
    rw [addTerms_get hc]
    simp only [job, after] at e
    simp only
    rw [e, addTerms_last]
    simp [comp, ← hc1']
  simp only [job] at *
  rw [run, hr]
  rcases seq_head hW (c :: (s ++ (u ++ tail))) with ⟨rfl, rfl⟩ | ⟨h1, h2⟩
  · obtain rfl := he rfl
    obtain ⟨cur, e⟩ := key _ rfl
    refine ⟨cur, ?_, by simp⟩
    rw [List.nil_append, ws_none (by rfl)]
    simp only [ok_bind, peek_cons, show ¬ ((b#'|' : Byte) = 0) by decide, show ¬ ((b#'|' : Byte) = b#'.') by decide, show ¬ ((b#'|' : Byte) = b#')') by decide,
      or_self, if_false, if_true, true_or]
    simp only [after, comp, addTerms_nil, List.append_nil] at e ⊢
    exact e
  · have hA := altStart_class h2
    obtain ⟨cur, e, hcur⟩ := iha k { st with rest := t ++ c :: (s ++ (u ++ tail)) } (c :: (s ++ (u ++ tail))) ρ (by simp only [need]; omega) hcs.2.1 (fun _ => h1) rfl hc
    obtain rfl := hcur (by simp)
    obtain ⟨cur, e3⟩ := key _ rfl
    refine ⟨cur, ?_, by simp⟩
    rw [ws_none hA.1]
    simp only [job] at e
    simp only [ok_bind, hA.2.1, hA.2.2.1, hA.2.2.2.1, hA.2.2.2.2.1, or_self, if_false, h2, if_true, e]
    simp only [after]
    rw [ws_none (by exact hcs.1)]
    simp only [after] at e3
    simp only [ok_bind, peek_cons, hcs.2.2.1, hcs.2.2.2, if_false, if_true]
    exact e3

/-- The reader builds `comp` for every expression. -/
theorem run_reads {cls : Cls} {r : Rx} {text : List Byte} (h : W true cls r text) : Reads cls r text := by
  induction h with
  | lit m cs tm t s hm hq hs => exact reads_terminal (.lit m cs tm t s hm hq hs) trivial
  | enc m c tm t s hm hq hs => exact reads_terminal (.enc m c tm t s hm hq hs) trivial
  | incl m ms tm s1 t s2 hm h1 hms h2 h => exact reads_terminal (.incl m ms tm s1 t s2 hm h1 hms h2 h) trivial
  | excl m ms tm gap s1 t s2 hm hg h1 hms h2 h => exact reads_terminal (.excl m ms tm gap s1 t s2 hm hg h1 hms h2 h) trivial
  | ref m n al t hn => exact reads_ref hn
  | ins cs s1 t s2 h1 hq h2 => exact reads_ins h1 hq h2
  | insEnc c s1 t s2 h => cases h
  | group r s1 t s2 h1 hW h2 hne ih => exact reads_group h1 hW h2 (hne rfl) ih
  | one f t hW ih => exact reads_one hW ih
  | opt f t s hW hs he ih => exact reads_opt hW ih hs (he rfl)
  | plus f t s hW hs he ih => exact reads_plus hW ih hs (he rfl)
  | star f t s hW hs he ih => exact reads_star hW ih hs (he rfl)
  | plusSep f g t s u hWf hs hWg he ihf ihg => exact reads_plusSep hWf ihf hs hWg ihg (he rfl).1 (he rfl).2
  | starSep f g t s u hWf hs hWg he ihf ihg => exact reads_starSep hWf ihf hs hWg ihg (he rfl).1 (he rfl).2
  | eps => exact fun _ _ _ _ _ _ h => absurd rfl (h rfl)
  | last r t hW ih => exact reads_last hW ih
  | seq a b t s u hWa hs hWb hb iha ihb => exact reads_seq hWa iha hs hWb ihb hb
  | alone r t hW ih => exact reads_alone hW ih
  | alt a b c t s u hWa hc hs hWb he iha ihb => exact reads_alt hWa iha hc hs hWb ihb (he rfl)

end Xmq.Ixml
