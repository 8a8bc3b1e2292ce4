import Verif.Lemmas.EarleySound
/-!
# Nothing is missing in a set of the Earley parser

unless a dotted rule without a length is lost because the same dotted rule is there with one.
-/
namespace Xmq.Yaep
open Xmq.Ixml (Sym)
open Xmq.Spec Xmq.Cfg

variable {g : Gram} {w : List Int} {start : List Byte} {sets : List SSet}

/-- No dotted rule can be lost: there is no rule which is expected at two places, the first of which lies back as far as the beginning of its right side
derives, with an empty beginning that goes further. -/
def Lossless (g : Gram) (w : List Int) : Prop :=
  ∀ r i k j j', Asked g w r i → Asked g w r k → i < k → j' < j → j ≤ (g.rhs r).length → (∀ x ∈ (g.rhs r).take j, Nullable (Prods g.rules) x) → ¬ Span g w ((g.rhs r).take j') i k

/-- A symbol that can follow. -/
def Fol (g : Gram) (w : List Int) (lhs : List Byte) (k : Nat) : Prop := ∀ c, w[k]? = some c → Follows (Prods g.rules) (.n lhs) (.t c)

theorem admits_of (hg : Proper g start) {d : Dotted} {k k' : Nat} (h : Span g w (g.tail d) k k') (hf : Fol g w (g.lhs d.rule) k') : admits g w[k]? d = true := by
  cases hw : w[k]? with
  | none => rfl
  | some c =>
    unfold admits
    dsimp only
    rw [Bool.or_eq_true]
    refine .inl (decide_eq_true ((hg.look _ _ _).2 ?_))
    rcases Nat.lt_or_ge k k' with hk | hk
    · left
      have := h.yields
      rw [part_cons hw hk] at this
      exact ⟨_, this⟩
    · right
      obtain rfl : k = k' := by have := h.le; omega
      exact ⟨yields_nulls h.nulls, hf c hw⟩

theorem fol_of {r : Nat} (hr : r < g.rules.length) {α β : List Sym} {a : List Byte} (e : g.rhs r = α ++ .n a :: β) {k k' : Nat} (h : Span g w β k k')
    (hf : Fol g w (g.lhs r) k') : Fol g w a k := by
  intro c hc
  rcases Nat.lt_or_ge k k' with hk | hk
  · refine ⟨.n (g.lhs r), α, part w (k + 1) k', ?_⟩
    have h1 : Yields (Prods g.rules) [.n (g.lhs r)] (α ++ .n a :: β) := by
      rw [← e]
      exact Yields.rule (prods_rule hr)
    have h2 := h.yields
    rw [part_cons hc hk] at h2
    refine Yields.trans h1 ?_
    have := Yields.ctx h2 (α ++ [.n a]) []
    simpa using this
  · obtain rfl : k = k' := by have := h.le; omega
    obtain ⟨b, u, v, hy⟩ := hf c hc
    refine ⟨b, u ++ α, v, ?_⟩
    have h1 := Yields.step u (.n (g.lhs r)) (.t c :: v) (g.rhs r) hy (prods_rule hr)
    rw [e] at h1
    have h2 := Yields.ctx (yields_nulls h.nulls) (u ++ α ++ [.n a]) (.t c :: v)
    have e1 : u ++ (α ++ .n a :: β ++ .t c :: v) = u ++ α ++ [.n a] ++ (β ++ .t c :: v) := by simp
    rw [e1] at h1
    have := Yields.trans h1 h2
    simpa using this

/-- The rules of a symbol behind the dot are there. -/
theorem in_rule (hc : Chart g w sets) {k : Nat} {p : Item} (hp : In sets k p) {r : Nat} (hr : r < g.rules.length) (hn : g.next p.1 = some (.n (g.lhs r))) :
    In sets k (⟨r, 0⟩, 0) := by
  obtain ⟨s, hs, hp⟩ := hp
  have hso := hc.ok k s hs
  exact ⟨s, hs, hso.mem_items.2 (.inr (.inr ⟨rfl, hso.rules p hp _ hn r (mem_ruleIds.2 ⟨hr, rfl⟩)⟩))⟩

theorem skipped_next {d : Dotted} {x : Sym} (hx : g.next d = some x) (he : g.empty x = true) : Skipped g d d.succ := by
  refine ⟨rfl, Nat.lt_succ_self _, next_valid hx, ?_⟩
  rw [next_tail hx]
  have : d.succ.dot - d.dot = 1 := by unfold Dotted.succ; simp
  rw [this]
  simpa using he

theorem Skipped.next {d0 d : Dotted} (h : Skipped g d0 d) {x : Sym} (hx : g.next d = some x) (he : g.empty x = true) : Skipped g d0 d.succ := by
  obtain ⟨h1, h2, h3, h4⟩ := h
  refine ⟨h1, Nat.lt_succ_of_lt h2, next_valid hx, ?_⟩
  have e : d.succ.dot - d0.dot = (d.dot - d0.dot) + 1 := by
    unfold Dotted.succ
    simp only
    omega
  rw [e, List.take_add_one]
  intro y hy
  rcases List.mem_append.1 hy with hy | hy
  · exact h4 y hy
  · have : (g.tail d0)[d.dot - d0.dot]? = some x := by
      unfold Gram.tail
      rw [List.getElem?_drop, show d0.dot + (d.dot - d0.dot) = d.dot by omega, ← h1]
      exact hx
    rw [this] at hy
    simp only [Option.toList_some, List.mem_singleton] at hy
    rw [hy]
    exact he

/-- The dot moves over empty symbols. -/
theorem in_skip (hg : Proper g start) (hc : Chart g w sets) (hL : Lossless g w) {k : Nat} {d : Dotted} {m : Nat} (hp : In sets k (d, m)) {x : Sym} (hx : g.next d = some x)
    (he : g.empty x = true) : In sets k (d.succ, m) := by
  have hsnd := sound hg hc k _ hp
  obtain ⟨s, hs, hp⟩ := hp
  have hso := hc.ok k s hs
  rcases hso.mem_items.1 hp with h | ⟨d0, h1, h2⟩ | ⟨rfl, h⟩
  · exact ⟨s, hs, hso.mem_items.2 (.inr (.inl ⟨d, h, skipped_next hx he⟩))⟩
  · exact ⟨s, hs, hso.mem_items.2 (.inr (.inl ⟨d0, h1, h2.next hx he⟩))⟩
  · rcases hso.skip d h x hx he with h | ⟨p, hp', hsk⟩
    · exact ⟨s, hs, hso.mem_items.2 (.inr (.inr ⟨rfl, h⟩))⟩
    · by_cases h0 : p.2 = 0
      · refine ⟨s, hs, hso.mem_items.2 (.inr (.inl ⟨p.1, ?_, hsk⟩))⟩
        rw [← h0]
        exact hp'
      · exfalso
        have hps := sound hg hc k p ⟨s, hs, hso.mem_started hp'⟩
        have hle := hps.le
        have hr : p.1.rule = d.rule := hsk.1.symm
        refine hL d.rule (k - p.2) k (d.dot + 1) p.1.dot ?_ hsnd.asked (by omega) hsk.2.1 hsk.2.2.1.2 ?_ ?_
        · rw [← hr]
          exact hps.asked
        · rw [take_succ_next hx]
          intro y hy
          rcases List.mem_append.1 hy with hy | hy
          · exact hsnd.span.nulls y hy
          · rw [List.mem_singleton] at hy
            rw [hy]
            exact (hg.empty x).1 he
        · rw [← hr]
          exact hps.span

/-- A started dotted rule and those it grows to. -/
theorem begun_in (hc : Chart g w sets) {k : Nat} {p : Item} (h : Begun sets k p) : In sets k p := by
  obtain ⟨s, hs, hp⟩ := h
  exact ⟨s, hs, (hc.ok k s hs).mem_started hp⟩

theorem drop_next {r dot : Nat} {x : Sym} {α : List Sym} (h : (g.rhs r).drop dot = x :: α) : g.next ⟨r, dot⟩ = some x ∧ (g.rhs r).drop (dot + 1) = α := by
  have hx : g.next ⟨r, dot⟩ = some x := tail_next (d := ⟨r, dot⟩) h
  refine ⟨hx, ?_⟩
  have := next_tail hx
  unfold Gram.tail at this
  simp only at this
  rw [h] at this
  injection this with _ h2
  exact h2.symm

theorem in_valid (hg : Proper g start) (hc : Chart g w sets) {k : Nat} {p : Item} (h : In sets k p) : p.1.rule < g.rules.length := (sound hg hc k p h).valid.1

/-- The dot moves along a derivation; over tokens this is seen among the started dotted rules. -/
theorem walk (hg : Proper g start) (hc : Chart g w sets) (hL : Lossless g w) {α : List Sym} {k k' : Nat} (hs : Span g w α k k') : ∀ (r dot m : Nat) (rest : List Sym) (k'' : Nat),
    In sets k (⟨r, dot⟩, m) → (g.rhs r).drop dot = α ++ rest → Span g w rest k' k'' → Fol g w (g.lhs r) k'' → k' < sets.length →
    In sets k' (⟨r, dot + α.length⟩, m + (k' - k)) ∧
      (k < k' → ∃ e, dot < e ∧ e ≤ dot + α.length ∧ Begun sets k' (⟨r, e⟩, m + (k' - k)) ∧ Span g w (((g.rhs r).drop e).take (dot + α.length - e)) k' k') := by
  induction hs with
  | nil i =>
    intro r dot m rest k'' hin _ _ _ _
    refine ⟨?_, fun h => absurd h (Nat.lt_irrefl _)⟩
    simpa using hin
  | term c α i j hw hs ih =>
    intro r dot m rest k'' hin hd hr hf hk
    obtain ⟨hx, hd'⟩ := drop_next (x := .t c) (α := α ++ rest) hd
    have hle := hs.le
    have hadm : admits g w[i + 1]? ⟨r, dot + 1⟩ = true := admits_of hg (d := ⟨r, dot + 1⟩) (by unfold Gram.tail; simp only; rw [hd']; exact hs.append hr) hf
    have hb : Begun sets (i + 1) (⟨r, dot + 1⟩, m + 1) := hc.scan i (⟨r, dot⟩, m) c (by omega) hin hw hx hadm
    obtain ⟨h1, h2⟩ := ih r (dot + 1) (m + 1) rest k'' (begun_in hc hb) hd' hr hf hk
    have e1 : dot + (Sym.t c :: α).length = dot + 1 + α.length := by simp; omega
    have e2 : m + (j - i) = m + 1 + (j - (i + 1)) := by omega
    rw [e1, e2]
    refine ⟨h1, fun _ => ?_⟩
    rcases Nat.lt_or_ge (i + 1) j with hij | hij
    · obtain ⟨e, h3, h4, h5, h6⟩ := h2 hij
      exact ⟨e, by omega, h4, h5, h6⟩
    · obtain rfl : j = i + 1 := by omega
      refine ⟨dot + 1, by omega, by omega, by simpa using hb, ?_⟩
      rw [show dot + 1 + α.length - (dot + 1) = α.length by omega, hd', List.take_left]
      exact hs
  | node r1 α i j k' hr1 hs1 hs2 ih1 ih2 =>
    intro r dot m rest k'' hin hd hr hf hk
    obtain ⟨hx, hd'⟩ := drop_next (x := .n (g.lhs r1)) (α := α ++ rest) hd
    have hle1 := hs1.le
    have hle2 := hs2.le
    have hrest := hs2.append hr
    have hrv := in_valid hg hc hin
    have hadm : admits g w[j]? ⟨r, dot + 1⟩ = true := admits_of hg (d := ⟨r, dot + 1⟩) (by unfold Gram.tail; simp only; rw [hd']; exact hrest) hf
    have hfol : Fol g w (g.lhs r1) j := fol_of hrv (α := (g.rhs r).take dot) (a := g.lhs r1) (β := α ++ rest) (by
      have := rhs_split hx
      unfold Gram.tail Dotted.succ at this
      simp only at this
      rwa [hd'] at this) hrest hf
    obtain ⟨h1, h2⟩ := ih1 r1 0 0 [] j (in_rule hc hin hr1 hx) (by simp) (.nil j) hfol (by omega)
    have e1 : dot + (Sym.n (g.lhs r1) :: α).length = dot + 1 + α.length := by simp; omega
    rw [e1]
    rcases Nat.lt_or_ge i j with hij | hij
    · obtain ⟨e, h3, h4, h5, h6⟩ := h2 hij
      have he : g.emptyTail ⟨r1, e⟩ = true := (emptyTail_iff hg).2 (by
        intro x hx
        refine h6.nulls x ?_
        rw [List.take_of_length_le (by simp)]
        exact hx)
      have hb : Begun sets j (⟨r, dot + 1⟩, m + (j - i)) := by
        obtain ⟨j', rfl⟩ : ∃ j', j = j' + 1 := ⟨j - 1, by omega⟩
        have := (hc.comp j' _ (⟨r, dot⟩, m) h5 he).2.2
        simp only [Nat.zero_add] at this
        rw [show j' + 1 - (j' + 1 - i) = i by omega] at this
        exact this hin hx hadm
      obtain ⟨h7, h8⟩ := ih2 r (dot + 1) (m + (j - i)) rest k'' (begun_in hc hb) hd' hr hf hk
      have e2 : m + (k' - i) = m + (j - i) + (k' - j) := by omega
      rw [e2]
      refine ⟨h7, fun _ => ?_⟩
      rcases Nat.lt_or_ge j k' with hjk | hjk
      · obtain ⟨e, h3, h4, h5, h6⟩ := h8 hjk
        exact ⟨e, by omega, h4, h5, h6⟩
      · obtain rfl : j = k' := by omega
        refine ⟨dot + 1, by omega, by omega, by simpa using hb, ?_⟩
        rw [show dot + 1 + α.length - (dot + 1) = α.length by omega, hd', List.take_left]
        exact hs2
    · obtain rfl : i = j := by omega
      have hem : g.empty (.n (g.lhs r1)) = true := by
        refine (hg.empty _).2 ?_
        have := (Span.node r1 [] i i i hr1 hs1 (.nil i)).nulls
        exact this _ (by simp)
      have hin' : In sets i (⟨r, dot + 1⟩, m) := in_skip hg hc hL hin hx hem
      obtain ⟨h7, h8⟩ := ih2 r (dot + 1) m rest k'' hin' hd' hr hf hk
      refine ⟨h7, fun h => ?_⟩
      obtain ⟨e, h3, h4, h5, h6⟩ := h8 h
      exact ⟨e, by omega, h4, h5, h6⟩

/-- In a derivation of the whole, the next token is expected. -/
theorem expected (hg : Proper g start) (hc : Chart g w sets) (hL : Lossless g w) {K : Nat} (hK : K < sets.length) {α : List Sym} {k k' : Nat} (hs : Span g w α k k') :
    ∀ (r dot m : Nat) (rest : List Sym) (k'' : Nat), k ≤ K → K < k' →
    In sets k (⟨r, dot⟩, m) → (g.rhs r).drop dot = α ++ rest → Span g w rest k' k'' → Fol g w (g.lhs r) k'' → ∃ p c, w[K]? = some c ∧ In sets K p ∧ g.next p.1 = some (.t c) := by
  induction hs with
  | nil i => intros; omega
  | term c α i j hw hs ih =>
    intro r dot m rest k'' hk1 hk2 hin hd hr hf
    obtain ⟨hx, hd'⟩ := drop_next (x := .t c) (α := α ++ rest) hd
    rcases Nat.lt_or_ge i K with hi | hi
    · have hadm : admits g w[i + 1]? ⟨r, dot + 1⟩ = true := admits_of hg (d := ⟨r, dot + 1⟩) (by unfold Gram.tail; simp only; rw [hd']; exact hs.append hr) hf
      have hb : Begun sets (i + 1) (⟨r, dot + 1⟩, m + 1) := hc.scan i (⟨r, dot⟩, m) c (by omega) hin hw hx hadm
      exact ih r (dot + 1) (m + 1) rest k'' hi hk2 (begun_in hc hb) hd' hr hf
    · obtain rfl : i = K := by omega
      exact ⟨_, c, hw, hin, hx⟩
  | node r1 α i j k' hr1 hs1 hs2 ih1 ih2 =>
    intro r dot m rest k'' hk1 hk2 hin hd hr hf
    obtain ⟨hx, hd'⟩ := drop_next (x := .n (g.lhs r1)) (α := α ++ rest) hd
    have hrest := hs2.append hr
    rcases Nat.lt_or_ge K j with hj | hj
    · have hfol : Fol g w (g.lhs r1) j := fol_of (in_valid hg hc hin) (α := (g.rhs r).take dot) (a := g.lhs r1) (β := α ++ rest) (by
        have := rhs_split hx
        unfold Gram.tail Dotted.succ at this
        simp only at this
        rwa [hd'] at this) hrest hf
      exact ih1 r1 0 0 [] j hk1 hj (in_rule hc hin hr1 hx) (by simp) (.nil j) hfol
    · obtain ⟨h1, _⟩ := walk hg hc hL (Span.node r1 [] i j j hr1 hs1 (.nil j)) r dot m (α ++ rest) k'' hin hd hrest hf (by omega)
      exact ih2 r (dot + 1) _ rest k'' hj hk2 h1 hd' hr hf

end Xmq.Yaep
