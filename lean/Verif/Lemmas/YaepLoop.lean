import Verif.Lemmas.YaepFlags
/-!
# Loops in the grammar
-/
namespace Xmq.Yaep
open Xmq.Ixml (Sym)
open Xmq.Spec Xmq.Cfg

theorem mem_soles {fl : List Flag} {rhs : List Sym} {a : List Byte} :
    a ∈ soles fl rhs ↔ ∃ u v, rhs = u ++ .n a :: v ∧ (∀ z ∈ u, isEmpty fl z = true) ∧ ∀ z ∈ v, isEmpty fl z = true := by
  unfold soles
  simp only [List.mem_filterMap, List.mem_range]
  constructor
  · rintro ⟨i, hi, h⟩
    split at h
    · next b hb =>
      split at h
      · next hall =>
        cases h
        have hsplit : rhs = rhs.take i ++ .n a :: rhs.drop (i + 1) := by
          have e : rhs[i] = .n a := by
            rw [List.getElem?_eq_getElem hi] at hb
            exact Option.some.inj hb
          rw [← e, List.getElem_cons_drop, List.take_append_drop]
        rw [List.eraseIdx_eq_take_drop_succ, List.all_append, Bool.and_eq_true, List.all_eq_true, List.all_eq_true] at hall
        exact ⟨_, _, hsplit, hall.1, hall.2⟩
      · cases h
    · cases h
  · rintro ⟨u, v, rfl, hu, hv⟩
    refine ⟨u.length, by simp, ?_⟩
    have h1 : (u ++ Sym.n a :: v)[u.length]? = some (.n a) := by simp
    have h2 : ((u ++ Sym.n a :: v).eraseIdx u.length).all (isEmpty fl) = true := by
      rw [List.eraseIdx_eq_take_drop_succ]
      simp only [List.all_append, Bool.and_eq_true, List.all_eq_true]
      constructor
      · simpa using hu
      · have : List.drop (u.length + 1) (u ++ Sym.n a :: v) = v := by simp
        rw [this]
        exact hv
    rw [h1]
    simp only [h2, if_true]

/-- The step that `set_loop_p` looks at. -/
theorem soles_sole {R : List Rule} {fl : List Flag} (he : ∀ x, .empty x ∈ fl ↔ Nullable (Prods R) x) {n a : List Byte} :
    (∃ r ∈ R, r.lhs = n ∧ a ∈ soles fl r.rhs) ↔ Sole (Prods R) (.n n) (.n a) := by
  constructor
  · rintro ⟨r, hr, rfl, h⟩
    obtain ⟨u, v, e, hu, hv⟩ := mem_soles.1 h
    exact ⟨u, v, ⟨r, hr, rfl, e.symm⟩, fun z hz => (he z).1 (of_decide_eq_true (hu z hz)), fun z hz => (he z).1 (of_decide_eq_true (hv z hz))⟩
  · rintro ⟨u, v, ⟨r, hr, h1, h2⟩, hu, hv⟩
    cases h1
    exact ⟨r, hr, rfl, mem_soles.2 ⟨u, v, h2.symm, fun z hz => decide_eq_true ((he z).2 (hu z hz)), fun z hz => decide_eq_true ((he z).2 (hv z hz))⟩⟩

/-! ## The major cycle -/

section
variable {R : List Rule} {fl : List Flag}

/-- A nonterminal stays because of one of the others. -/
def Stays (R : List Rule) (fl : List Flag) (l : List (List Byte)) (n : List Byte) : Prop := ∃ r ∈ R, r.lhs = n ∧ ∃ a ∈ soles fl r.rhs, a ∈ l

theorem stays_any {l : List (List Byte)} {n : List Byte} :
    ((rulesOf R n).any fun r => (soles fl r.rhs).any fun a => a ∈ l) = true ↔ Stays R fl l n := by
  simp only [List.any_eq_true, mem_rulesOf, decide_eq_true_eq]
  constructor
  · rintro ⟨r, ⟨h1, h2⟩, h3⟩; exact ⟨r, h1, h2, h3⟩
  · rintro ⟨r, h1, h2, h3⟩; exact ⟨r, ⟨h1, h2⟩, h3⟩

theorem visitLoop_cases (s : List (List Byte) × Bool) (n : List Byte) :
    (visitLoop R fl s n = s ∧ (n ∈ s.1 → Stays R fl s.1 n)) ∨
      (visitLoop R fl s n = (s.1.filter fun a => a ≠ n, true) ∧ n ∈ s.1 ∧ ¬ Stays R fl s.1 n) := by
  unfold visitLoop
  split
  · next h =>
    split
    · next h2 => exact .inl ⟨rfl, fun _ => stays_any.1 h2⟩
    · next h2 => exact .inr ⟨rfl, h, fun h3 => h2 (stays_any.2 h3)⟩
  · next h => exact .inl ⟨rfl, fun h' => absurd h' h⟩

theorem visitLoop_flag (s : List (List Byte) × Bool) (n : List Byte) :
    ((visitLoop R fl s n).2 = false → visitLoop R fl s n = s) ∧ (visitLoop R fl s n).1.length ≤ s.1.length ∧
      ((visitLoop R fl s n).2 = true → s.2 = true ∨ (visitLoop R fl s n).1.length < s.1.length) := by
  rcases visitLoop_cases (R := R) (fl := fl) s n with ⟨e, _⟩ | ⟨e, hn, _⟩
  · rw [e]; exact ⟨fun _ => rfl, Nat.le_refl _, fun h => .inl h⟩
  · rw [e]
    have : (s.1.filter fun a => a ≠ n).length < s.1.length := by
      have := List.length_filter_lt_length_iff_exists (l := s.1) (p := fun a => a ≠ n)
      exact this.2 ⟨n, hn, by simp⟩
    exact ⟨fun h => by simp at h, Nat.le_of_lt this, fun _ => .inr this⟩

theorem loopFold_flag : ∀ (l : List (List Byte)) (s : List (List Byte) × Bool),
    ((l.foldl (visitLoop R fl) s).2 = false → l.foldl (visitLoop R fl) s = s ∧ ∀ n ∈ l, visitLoop R fl s n = s) ∧
      (l.foldl (visitLoop R fl) s).1.length ≤ s.1.length ∧
      ((l.foldl (visitLoop R fl) s).2 = true → s.2 = true ∨ (l.foldl (visitLoop R fl) s).1.length < s.1.length)
  | [], s => ⟨fun _ => ⟨rfl, by simp⟩, Nat.le_refl _, fun h => .inl h⟩
  | n :: l, s => by
    have h1 := visitLoop_flag (R := R) (fl := fl) s n
    have h2 := loopFold_flag l (visitLoop R fl s n)
    rw [List.foldl_cons]
    refine ⟨fun h => ?_, by omega, fun h => ?_⟩
    · obtain ⟨e1, e2⟩ := h2.1 h
      rw [e1] at h
      have e3 := h1.1 h
      rw [e3] at e1 e2
      rw [e3]
      exact ⟨e1, fun m hm => (List.mem_cons.1 hm).elim (fun e => e ▸ e3) (e2 m)⟩
    · rcases h2.2.2 h with h3 | h3
      · rcases h1.2.2 h3 with h4 | h4
        · exact .inl h4
        · exact .inr (by omega)
      · exact .inr (by omega)

theorem visitLoop_sub (s : List (List Byte) × Bool) (n : List Byte) : ∀ a ∈ (visitLoop R fl s n).1, a ∈ s.1 := by
  rcases visitLoop_cases (R := R) (fl := fl) s n with ⟨e, _⟩ | ⟨e, _, _⟩
  · rw [e]; exact fun _ h => h
  · rw [e]; exact fun a h => (List.mem_filter.1 h).1

theorem loopFold_sub : ∀ (l : List (List Byte)) (s : List (List Byte) × Bool), ∀ a ∈ (l.foldl (visitLoop R fl) s).1, a ∈ s.1
  | [], s => fun _ h => h
  | n :: l, s => fun a h => visitLoop_sub s n a (loopFold_sub l (visitLoop R fl s n) a h)

/-- What has one of its kind to follow is never taken away. -/
theorem loopFold_keep {C : List Byte → Prop} (hC : ∀ n, C n → ∃ r ∈ R, r.lhs = n ∧ ∃ a ∈ soles fl r.rhs, C a) :
    ∀ (l : List (List Byte)) (s : List (List Byte) × Bool), (∀ n, C n → n ∈ s.1) → ∀ n, C n → n ∈ (l.foldl (visitLoop R fl) s).1
  | [], s, h => h
  | m :: l, s, h => by
    refine loopFold_keep hC l _ fun n hn => ?_
    rcases visitLoop_cases (R := R) (fl := fl) s m with ⟨e, _⟩ | ⟨e, _, h3⟩
    · rw [e]; exact h n hn
    · rw [e]
      refine List.mem_filter.2 ⟨h n hn, decide_eq_true fun e => h3 ?_⟩
      subst e
      obtain ⟨r, hr, h4, a, h5, h6⟩ := hC n hn
      exact ⟨r, hr, h4, a, h5, h a h6⟩

theorem loop_repeat {C : List Byte → Prop} (hC : ∀ n, C n → ∃ r ∈ R, r.lhs = n ∧ ∃ a ∈ soles fl r.rhs, C a) :
    ∀ (k : Nat) (s : List (List Byte)), s.length < k → (∀ n, C n → n ∈ s) →
      ∃ t, repeatUntil (fun st => (nonterms R).foldl (visitLoop R fl) st) k s = some t ∧ (∀ n ∈ t, n ∈ s) ∧ (∀ n, C n → n ∈ t) ∧
        ∀ n ∈ nonterms R, n ∈ t → Stays R fl t n
  | 0, s, h, _ => by omega
  | k + 1, s, h, hs => by
    unfold repeatUntil
    have hf := loopFold_flag (R := R) (fl := fl) (nonterms R) (s, false)
    have hk := loopFold_keep hC (nonterms R) (s, false) hs
    have hsub := loopFold_sub (R := R) (fl := fl) (nonterms R) (s, false)
    cases hb : ((nonterms R).foldl (visitLoop R fl) (s, false)).2 with
    | false =>
      simp only [Bool.false_eq_true, if_false]
      obtain ⟨e1, e2⟩ := hf.1 hb
      refine ⟨_, rfl, hsub, hk, fun n hn ht => ?_⟩
      rw [e1] at ht ⊢
      rcases visitLoop_cases (R := R) (fl := fl) (s, false) n with ⟨_, h3⟩ | ⟨e, _, _⟩
      · exact h3 ht
      · have e4 := e2 n hn
        rw [e] at e4
        have := congrArg Prod.snd e4
        simp at this
    | true =>
      rw [if_pos rfl]
      have := hf.2.2 hb
      simp at this
      obtain ⟨t, h1, h2, h3, h4⟩ := loop_repeat hC k ((nonterms R).foldl (visitLoop R fl) (s, false)).1 (by omega) hk
      exact ⟨t, h1, fun n hn => hsub n (h2 n hn), h3, h4⟩

end

/-! ## Loops are found -/

theorem chain_step {σ : Type} {P : σ → List σ → Prop} {x : σ} (h : Chain P x x) : ∃ y, Sole P x y ∧ Chain P y y := by
  have : ∀ z, Chain P x z → z = x → ∃ y, Sole P x y ∧ Chain P y y := by
    intro z h e
    cases h with
    | one h => subst e; exact ⟨_, h, .one h⟩
    | cons h h2 => subst e; exact ⟨_, h, h2.trans (.one h)⟩
  exact this x h rfl

theorem chain_last {σ : Type} {P : σ → List σ → Prop} {x z : σ} (h : Chain P x z) : ∃ y, Sole P y z := by
  induction h with
  | one h => exact ⟨_, h⟩
  | cons _ _ ih => exact ih

theorem chain_cycle {σ : Type} {P : σ → List σ → Prop} : ∀ (k : Nat) (l : List σ), l.length ≤ k → l ≠ [] → (∀ x ∈ l, ∃ y ∈ l, Chain P x y) → ∃ x, Chain P x x
  | 0, l, hl, hne, _ => by cases l <;> simp_all
  | k + 1, [], _, hne, _ => absurd rfl hne
  | k + 1, x :: l, hl, _, h => by
    classical
    by_cases hx : Chain P x x
    · exact ⟨x, hx⟩
    · obtain ⟨y, hy, hxy⟩ := h x (by simp)
      have sub : ∀ z, z ∈ x :: l → Chain P x z → z ∈ l.filter fun z => Chain P x z := by
        intro z hz hc
        rcases List.mem_cons.1 hz with rfl | hz
        · exact absurd hc hx
        · exact List.mem_filter.2 ⟨hz, decide_eq_true hc⟩
      refine chain_cycle k (l.filter fun z => Chain P x z) ?_ ?_ ?_
      · have := List.length_filter_le (fun z => decide (Chain P x z)) l
        simp only [List.length_cons] at hl
        omega
      · exact List.ne_nil_of_mem (sub y hy hxy)
      · intro z hz
        obtain ⟨hz1, hz2⟩ := List.mem_filter.1 hz
        obtain ⟨w, hw, hzw⟩ := h z (by simp [hz1])
        exact ⟨w, sub w hw ((of_decide_eq_true hz2 : Chain P x z).trans hzw), hzw⟩

theorem chain_nonterm {R : List Rule} {x z : Sym} (h : Chain (Prods R) x z) : ∃ n, x = .n n := by
  have : ∀ y, Sole (Prods R) x y → ∃ n, x = .n n := by
    rintro y ⟨u, v, ⟨r, _, e, _⟩, _⟩
    exact ⟨_, e⟩
  cases h with
  | one h => exact this _ h
  | cons h _ => exact this _ h

theorem setLoop_some {R : List Rule} {fl : List Flag} (he : ∀ x, .empty x ∈ fl ↔ Nullable (Prods R) x) :
    ∃ l, setLoop R fl = some l ∧ (∀ n ∈ l, n ∈ nonterms R) ∧ (∀ n, Loops (Prods R) (.n n) → n ∈ l) ∧
      (∀ n ∈ l, ∃ a ∈ l, Sole (Prods R) (.n n) (.n a)) := by
  have hstep : ∀ n, Loops (Prods R) (.n n) → ∃ r ∈ R, r.lhs = n ∧ ∃ a ∈ soles fl r.rhs, Loops (Prods R) (.n a) := by
    intro n h
    obtain ⟨y, h1, h2⟩ := chain_step (loops_iff.1 h)
    obtain ⟨a, rfl⟩ := chain_nonterm h2
    obtain ⟨r, hr, e, ha⟩ := (soles_sole he).2 h1
    exact ⟨r, hr, e, a, ha, loops_iff.2 h2⟩
  have h0 : ∀ n, Loops (Prods R) (.n n) → n ∈ R.flatMap fun r => soles fl r.rhs := by
    intro n h
    obtain ⟨y, h1⟩ := chain_last (loops_iff.1 h)
    have : ∃ m, y = .n m := by
      obtain ⟨u, v, ⟨r, _, e, _⟩, _⟩ := h1
      exact ⟨_, e⟩
    obtain ⟨m, rfl⟩ := this
    obtain ⟨r, hr, _, ha⟩ := (soles_sole he).2 h1
    exact List.mem_flatMap.2 ⟨r, hr, ha⟩
  obtain ⟨l, h1, h2, h3, h4⟩ := loop_repeat hstep ((R.flatMap fun r => soles fl r.rhs).length + 1) _ (Nat.lt_succ_self _) h0
  have hn : ∀ n ∈ l, n ∈ nonterms R := by
    intro n hn
    obtain ⟨r, hr, ha⟩ := List.mem_flatMap.1 (h2 n hn)
    obtain ⟨u, v, e, _⟩ := mem_soles.1 ha
    exact mem_nonterms.2 ⟨r, hr, .inr (by rw [e]; simp)⟩
  refine ⟨l, h1, hn, h3, fun n hl => ?_⟩
  obtain ⟨r, hr, e, a, ha, hal⟩ := h4 n (hn n hl) hl
  exact ⟨a, hal, (soles_sole he).1 ⟨r, hr, e, ha⟩⟩

/-- A nonterminal is left in the end exactly if one derives itself. -/
theorem setLoop_exact {R : List Rule} {fl : List Flag} (he : ∀ x, .empty x ∈ fl ↔ Nullable (Prods R) x) :
    ∃ l, setLoop R fl = some l ∧ ((∃ n ∈ nonterms R, n ∈ l) ↔ ∃ x, Loops (Prods R) x) := by
  obtain ⟨l, h1, h2, h3, h4⟩ := setLoop_some he
  refine ⟨l, h1, ?_, ?_⟩
  · rintro ⟨n, _, hl⟩
    have := chain_cycle (P := Prods R) (l.map Sym.n).length (l.map .n) (Nat.le_refl _) (List.ne_nil_of_mem (List.mem_map.2 ⟨n, hl, rfl⟩)) (by
      intro x hx
      obtain ⟨m, hm, rfl⟩ := List.mem_map.1 hx
      obtain ⟨a, ha, hs⟩ := h4 m hm
      exact ⟨.n a, List.mem_map.2 ⟨a, ha, rfl⟩, .one hs⟩)
    obtain ⟨x, hx⟩ := this
    exact ⟨x, loops_iff.2 hx⟩
  · rintro ⟨x, hx⟩
    obtain ⟨n, rfl⟩ := chain_nonterm (loops_iff.1 hx)
    exact ⟨n, h2 n (h3 n hx), h3 n hx⟩

end Xmq.Yaep
