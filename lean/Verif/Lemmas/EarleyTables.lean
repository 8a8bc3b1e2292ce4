import Verif.Model.EarleyTables
import Verif.Lemmas.EarleySet
/-!
# The tables of the Earley parser do not show
-/
namespace Xmq.Yaep
open Xmq.Ixml (Sym)

variable {g : Gram}

/-! ## The loop over the items of the new set -/

theorem shift_begins (la : Option Int) (m : Nat) (l : List Item) (p : Item) : l <+: shift g la m l p := by
  unfold shift
  split
  · split
    · exact List.prefix_refl _
    · exact List.prefix_append _ _
  · exact List.prefix_refl _

theorem foldl_shift_begins (la : Option Int) (m : Nat) (ps : List Item) (l : List Item) : l <+: ps.foldl (shift g la m) l := by
  induction ps generalizing l with
  | nil => exact List.prefix_refl _
  | cons p t ih => exact (shift_begins la m l p).trans (ih _)

theorem completeLoop_begins (la : Option Int) (sets : List SSet) (n i : Nat) (l out : List Item) (h : completeLoop g la sets n i l = .ok out) : l <+: out := by
  induction n generalizing i l with
  | zero => cases h
  | succ n ih =>
    rw [completeLoop] at h
    split at h
    · cases h; exact List.prefix_refl _
    split at h
    · split at h
      · cases h
      split at h
      · cases h
      split at h
      · split at h
        · exact ih _ _ h
        · cases h
      · exact (foldl_shift_begins la _ _ l).trans (ih _ _ h)
    · exact ih _ _ h

/-- The loop only looks at the sets where the items begin. -/
theorem completeLoop_congr (la : Option Int) (sets sets' : List SSet) (hl : sets.length ≤ sets'.length) (n n' i : Nat) (hn : n ≤ n') (l out : List Item)
    (h : completeLoop g la sets n i l = .ok out) (hs : ∀ p ∈ out, 1 ≤ p.2 → p.2 ≤ sets.length → sets'[sets'.length - p.2]? = sets[sets.length - p.2]?) :
    completeLoop g la sets' n' i l = .ok out := by
  induction n generalizing n' i l with
  | zero => cases h
  | succ n ih =>
    obtain ⟨k, rfl⟩ : ∃ k, n' = k + 1 := ⟨n' - 1, by omega⟩
    have hp := completeLoop_begins la sets _ _ _ _ h
    rw [completeLoop] at h ⊢
    cases hi : l[i]? with
    | none => rw [hi] at h; exact h
    | some p =>
      obtain ⟨d, m⟩ := p
      rw [hi] at h
      simp only at h ⊢
      by_cases he : g.emptyTail d = true
      · rw [if_pos he] at h ⊢
        by_cases hm : m = 0 ∨ sets.length < m
        · rw [if_pos hm] at h; cases h
        · rw [if_neg hm] at h
          have hmem : (d, m) ∈ out := hp.subset (List.mem_of_getElem? hi)
          rw [if_neg (by omega), hs _ hmem (by show 1 ≤ m; omega) (by show m ≤ _; omega)]
          cases hx : sets[sets.length - m]? with
          | none => rw [hx] at h; cases h
          | some prev =>
            rw [hx] at h
            simp only at h ⊢
            split at h
            · rename_i h1
              rw [if_pos h1]
              split at h
              · rename_i h2
                rw [if_pos h2]
                exact ih k (i + 1) (by omega) l h
              · cases h
            · rename_i h1
              rw [if_neg h1]
              exact ih k (i + 1) (by omega) _ h
      · rw [if_neg he] at h ⊢
        exact ih k (i + 1) (by omega) l h

/-! ## Lengths -/

/-- No dotted rule begins before the text. -/
def LensOk (sets : List SSet) : Prop := ∀ (k : Nat) (s : SSet), sets[k]? = some s → ∀ m ∈ s.lens, m ≤ k

theorem items_le {s : SSet} {k : Nat} (h : ∀ m ∈ s.lens, m ≤ k) {p : Item} (hp : p ∈ s.items) : p.2 ≤ k := by
  unfold SSet.items at hp
  simp only [List.mem_append, List.mem_map] at hp
  rcases hp with (hp | ⟨q, hq, rfl⟩) | ⟨d, hd, rfl⟩
  · exact h _ (List.of_mem_zip hp).2
  · cases hx : s.lens[q.2]? with
    | none => simp
    | some m => simpa using h m (List.mem_of_getElem? hx)
  · exact Nat.zero_le _

theorem foldl_shift_le (la : Option Int) (m k : Nat) (ps l : List Item) (hl : ∀ p ∈ l, p.2 ≤ k) (hp : ∀ p ∈ ps, p.2 + m ≤ k) : ∀ p ∈ ps.foldl (shift g la m) l, p.2 ≤ k := by
  induction ps generalizing l with
  | nil => exact hl
  | cons q t ih =>
    refine ih _ ?_ fun p h => hp p (by simp [h])
    intro p h
    unfold shift at h
    split at h
    · split at h
      · exact hl p h
      · rcases List.mem_append.1 h with h | h
        · exact hl p h
        · rw [List.mem_singleton.1 h]; exact hp q (by simp)
    · exact hl p h

theorem completeLoop_le (la : Option Int) (sets : List SSet) (hs : LensOk sets) (n i : Nat) (l out : List Item) (hl : ∀ p ∈ l, p.2 ≤ sets.length)
    (h : completeLoop g la sets n i l = .ok out) : ∀ p ∈ out, p.2 ≤ sets.length := by
  induction n generalizing i l with
  | zero => cases h
  | succ n ih =>
    rw [completeLoop] at h
    split at h
    · cases h; exact hl
    split at h
    · split at h
      · cases h
      rename_i d m hi he hm
      split at h
      · cases h
      rename_i prev hx
      split at h
      · split at h
        · exact ih _ _ hl h
        · cases h
      · refine ih _ _ (foldl_shift_le la m _ _ l hl ?_) h
        intro p hp
        have := items_le (hs _ _ hx) (List.mem_filter.1 hp).1
        omega
    · exact ih _ _ hl h

theorem makeSet_lens {l : List Item} {s : SSet} (h : makeSet g l = .ok s) : s.lens = l.map Prod.snd ∧ expand g (l.map Prod.fst) = some s.core := by
  unfold makeSet at h
  split at h
  · cases h
  · rename_i c hc; cases h; exact ⟨rfl, hc⟩

theorem nextSet_le (la : Option Int) (sets : List SSet) (hs : LensOk sets) (set : SSet) (hl : sets.getLast? = some set) (c : Int) (s : SSet)
    (h : nextSet g la sets set c = .ok s) : ∀ m ∈ s.lens, m ≤ sets.length := by
  unfold nextSet at h
  split at h
  · cases h
  rename_i l hc
  have hlast : sets[sets.length - 1]? = some set := by rw [← hl, List.getLast?_eq_getElem?]
  have h0 : 0 < sets.length := by
    cases sets with
    | nil => cases hl
    | cons _ _ => simp
  have := completeLoop_le la sets hs _ _ _ _ (foldl_shift_le la 1 _ _ [] (by simp) fun p hp => by
    have := items_le (hs _ _ hlast) (List.mem_filter.1 hp).1
    omega) hc
  rw [(makeSet_lens h).1]
  intro m hm
  obtain ⟨p, hp, rfl⟩ := List.mem_map.1 hm
  exact this p hp

theorem LensOk.append {sets : List SSet} (h : LensOk sets) {s : SSet} (hs : ∀ m ∈ s.lens, m ≤ sets.length) : LensOk (sets ++ [s]) := by
  intro k t hk
  by_cases h1 : k < sets.length
  · rw [List.getElem?_append_left h1] at hk; exact h k t hk
  · rw [List.getElem?_append_right (by omega)] at hk
    have : k - sets.length = 0 := by
      rcases Nat.eq_zero_or_pos (k - sets.length) with e | e
      · exact e
      · rw [List.getElem?_eq_none (by simp; omega)] at hk; cases hk
    have e : k = sets.length := by omega
    subst e
    simp at hk
    rw [← hk]; exact hs

/-! ## A remembered set -/

/-- What the check tells. -/
theorem sameOrigins_true {ids : List Nat} {place : Nat} {ms : List Nat} (h : sameOrigins ids place ms = some true) :
    ∀ m ∈ ms, 1 < m → m ≤ ids.length ∧ m ≤ place + 1 ∧ ids[ids.length - m]? = ids[place + 1 - m]? := by
  induction ms with
  | nil => simp
  | cons m t ih =>
    rw [sameOrigins] at h
    intro x hx h1
    split at h
    · rcases List.mem_cons.1 hx with rfl | hx
      · omega
      · exact ih h x hx h1
    split at h
    · cases h
    split at h
    · rcases List.mem_cons.1 hx with rfl | hx
      · rename_i h2 h3 h4
        exact ⟨by omega, by omega, h4⟩
      · exact ih h x hx h1
    · cases h

/-- The check stays in the array. -/
theorem sameOrigins_some {ids : List Nat} {place : Nat} {ms : List Nat} (hp : place + 1 ≤ ids.length) (h : ∀ m ∈ ms, m ≤ place + 1) :
    ∃ b, sameOrigins ids place ms = some b := by
  induction ms with
  | nil => exact ⟨true, rfl⟩
  | cons m t ih =>
    rw [sameOrigins]
    have hm := h m (by simp)
    obtain ⟨b, hb⟩ := ih fun m hm => h m (by simp [hm])
    split
    · exact ⟨b, hb⟩
    · rw [if_neg (by omega)]
      split
      · exact ⟨b, hb⟩
      · exact ⟨false, rfl⟩

/-- A set that came out at an earlier place comes out again if the items began in the same sets. -/
theorem nextSet_again (la : Option Int) (sets : List SSet) (place : Nat) (hp : place < sets.length) (set s : SSet) (c : Int)
    (h1 : sets[place]? = some set) (h2 : sets.getLast? = some set) (h : nextSet g la (sets.take (place + 1)) set c = .ok s)
    (hs : ∀ m ∈ s.lens, 1 < m → m ≤ place + 1 → sets[sets.length - m]? = sets[place + 1 - m]?) : nextSet g la sets set c = .ok s := by
  have hlen : (sets.take (place + 1)).length = place + 1 := by rw [List.length_take]; omega
  unfold nextSet at h ⊢
  split at h
  · cases h
  rename_i l hc
  have := completeLoop_congr la _ sets (by omega) _ (g.size * (sets.length + 1) + 1) 0
    (by rw [hlen]; exact Nat.succ_le_succ (Nat.mul_le_mul_left _ (by omega))) _ _ hc (by
      intro p hp1 hp2 hp3
      rw [hlen] at hp3 ⊢
      rw [List.getElem?_take_of_lt (by omega)]
      by_cases e : p.2 = 1
      · rw [e, ← List.getLast?_eq_getElem?, h2, show place + 1 - 1 = place by omega, h1]
      · exact hs p.2 (by rw [(makeSet_lens h).1]; exact List.mem_map_of_mem hp1) (by omega) hp3)
  rw [this]
  exact h

/-! ## The pool -/

/-- Each set in the pool is expanded as its started dotted rules demand. -/
def PoolOk (g : Gram) (pool : List SSet) : Prop := ∀ s ∈ pool, expand g s.core.started = some s.core

theorem addInitial_started (c : Core) (d : Dotted) : (addInitial c d).started = c.started := by
  unfold addInitial
  split <;> rfl

theorem expandStep_started (c : Core) (i : Nat) (d : Dotted) : (expandStep g c i d).started = c.started := by
  have hp : ∀ x, (predict g c i x).started = c.started := by
    intro x
    cases x with
    | t _ => rfl
    | n a =>
      have hf : ∀ (rs : List Nat) (c : Core), (rs.foldl (fun c r => addInitial c ⟨r, 0⟩) c).started = c.started := by
        intro rs
        induction rs with
        | nil => intro c; rfl
        | cons r t ih => intro c; rw [List.foldl_cons, ih, addInitial_started]
      show (if _ then c else _).started = c.started
      split
      · rfl
      · exact hf _ _
  unfold expandStep
  split
  · rfl
  · split
    · rw [addInitial_started, hp]
    · exact hp _

theorem expand_started {l : List Dotted} {c : Core} (h : expand g l = some c) : c.started = l := by
  have key : ∀ n i (c0 c : Core), expandLoop g n i c0 = some c → c.started = c0.started := by
    intro n
    induction n with
    | zero => intro i c0 c h; cases h
    | succ n ih =>
      intro i c0 c h
      rw [expandLoop] at h
      split at h
      · cases h; rfl
      · rw [ih _ _ _ h, expandStep_started]
  exact key _ _ _ _ h

/-- The pool answers with the set that `makeSet` makes, and keeps what it has. -/
theorem intern_makeSet (pool : List SSet) (hp : PoolOk g pool) (l : List Item) :
    (∃ e, intern g pool l = .error e ∧ makeSet g l = .error e) ∨
      ∃ more r s, intern g pool l = .ok (pool ++ more, r) ∧ makeSet g l = .ok s ∧ (pool ++ more)[r]? = some s ∧ PoolOk g (pool ++ more) := by
  unfold intern
  cases hf : pool.find? fun s => s.core.started = l.map Prod.fst with
  | none =>
    simp only
    unfold makeSet
    cases he : expand g (l.map Prod.fst) with
    | none => exact .inl ⟨_, rfl, rfl⟩
    | some c =>
      refine .inr ⟨[⟨c, l.map Prod.snd⟩], pool.length, ⟨c, l.map Prod.snd⟩, rfl, rfl, by simp, ?_⟩
      intro s hs
      rcases List.mem_append.1 hs with hs | hs
      · exact hp s hs
      · rw [List.mem_singleton.1 hs]
        show expand g c.started = some c
        rw [expand_started he, he]
  | some s =>
    have h1 : s.core.started = l.map Prod.fst := by simpa using List.find?_some hf
    have h2 : expand g (l.map Prod.fst) = some s.core := by rw [← h1]; exact hp s (List.mem_of_find?_eq_some hf)
    have h3 : makeSet g l = .ok ⟨s.core, l.map Prod.snd⟩ := by unfold makeSet; rw [h2]
    simp only
    cases hi : pool.findIdx? fun t => t.core = s.core ∧ t.lens = l.map Prod.snd with
    | some i =>
      rw [List.findIdx?_eq_some_iff_getElem] at hi
      obtain ⟨hlt, hx, -⟩ := hi
      have hx : pool[i].core = s.core ∧ pool[i].lens = l.map Prod.snd := by simpa using hx
      refine .inr ⟨[], i, ⟨s.core, l.map Prod.snd⟩, by simp, h3, ?_, by simpa using hp⟩
      rw [List.append_nil, List.getElem?_eq_getElem hlt, ← hx.1, ← hx.2]
    | none =>
      refine .inr ⟨[⟨s.core, l.map Prod.snd⟩], pool.length, ⟨s.core, l.map Prod.snd⟩, rfl, h3, by simp, ?_⟩
      intro t ht
      rcases List.mem_append.1 ht with ht | ht
      · exact hp t ht
      · rw [List.mem_singleton.1 ht]
        exact hp s (List.mem_of_find?_eq_some hf)

/-! ## The loop with tables -/

/-- The sets behind addresses. -/
def deref (pool : List SSet) (ids : List Nat) : List SSet := ids.filterMap fun j => pool[j]?

/-- What a result in the table means. -/
structure ResultOk (g : Gram) (pool : List SSet) (ids : List Nat) (e : Goto) (r place : Nat) : Prop where
  placed : place < ids.length
  set : ids[place]? = some e.set
  result : ∃ s t, pool[e.set]? = some s ∧ pool[r]? = some t ∧ predictions g s (.t e.term) ≠ [] ∧ nextSet g e.look (deref pool (ids.take (place + 1))) s e.term = .ok t

/-- The state of the parser. -/
structure TablesOk (g : Gram) (table : List Goto) (pool : List SSet) (ids : List Nat) (set : Nat) : Prop where
  poolOk : PoolOk g pool
  idsOk : ∀ j ∈ ids, j < pool.length
  last : ids.getLast? = some set
  lens : LensOk (deref pool ids)
  tableOk : ∀ e ∈ table, ∀ q ∈ e.results, ResultOk g pool ids e q.1 q.2

theorem deref_getElem? {pool : List SSet} {ids : List Nat} (h : ∀ j ∈ ids, j < pool.length) (k : Nat) : (deref pool ids)[k]? = (ids[k]?).bind fun j => pool[j]? := by
  induction ids generalizing k with
  | nil => rfl
  | cons j t ih =>
    obtain ⟨x, hj⟩ : ∃ x, pool[j]? = some x := ⟨_, List.getElem?_eq_getElem (h j (by simp))⟩
    have e : deref pool (j :: t) = x :: deref pool t := by unfold deref; rw [List.filterMap_cons, hj]
    rw [e]
    cases k with
    | zero => simp [hj]
    | succ k => simpa using ih (fun j hj => h j (by simp [hj])) k

theorem deref_length {pool : List SSet} {ids : List Nat} (h : ∀ j ∈ ids, j < pool.length) : (deref pool ids).length = ids.length := by
  induction ids with
  | nil => rfl
  | cons j t ih =>
    obtain ⟨x, hj⟩ : ∃ x, pool[j]? = some x := ⟨_, List.getElem?_eq_getElem (h j (by simp))⟩
    have e : deref pool (j :: t) = x :: deref pool t := by unfold deref; rw [List.filterMap_cons, hj]
    rw [e, List.length_cons, List.length_cons, ih fun j hj => h j (by simp [hj])]

theorem deref_append {pool more : List SSet} {ids : List Nat} (h : ∀ j ∈ ids, j < pool.length) : deref (pool ++ more) ids = deref pool ids := by
  apply List.ext_getElem?
  intro k
  rw [deref_getElem? fun j hj => by have := h j hj; rw [List.length_append]; omega, deref_getElem? h]
  cases hk : ids[k]? with
  | none => rfl
  | some j => exact List.getElem?_append_left (h j (List.mem_of_getElem? hk))

theorem deref_take {pool : List SSet} {ids : List Nat} (h : ∀ j ∈ ids, j < pool.length) (n : Nat) : deref pool (ids.take n) = (deref pool ids).take n := by
  apply List.ext_getElem?
  intro k
  rw [deref_getElem? fun j hj => h j (List.mem_of_mem_take hj), List.getElem?_take, List.getElem?_take, deref_getElem? h]
  split <;> rfl

theorem deref_snoc {pool : List SSet} {ids : List Nat} {r : Nat} {s : SSet} (h : pool[r]? = some s) : deref pool (ids ++ [r]) = deref pool ids ++ [s] := by
  unfold deref
  rw [List.filterMap_append]
  simp [h]

theorem ResultOk.mono {pool more : List SSet} {ids more' : List Nat} {e : Goto} {r place : Nat} (hi : ∀ j ∈ ids, j < pool.length) (h : ResultOk g pool ids e r place) :
    ResultOk g (pool ++ more) (ids ++ more') e r place := by
  obtain ⟨h1, h2, s, t, h3, h4, h5, h6⟩ := h
  have hget : ∀ {j : Nat} {s : SSet}, pool[j]? = some s → (pool ++ more)[j]? = some s := by
    intro j s h
    rw [List.getElem?_append_left (List.getElem?_eq_some_iff.1 h).1, h]
  refine ⟨by simp; omega, by rw [List.getElem?_append_left h1, h2], s, t, hget h3, hget h4, h5, ?_⟩
  rw [List.take_append_of_le_length (by omega), deref_append fun j hj => hi j (List.mem_of_mem_take hj)]
  exact h6

/-- Looking through the results gives nothing or the right set. -/
theorem tryResults_spec {table : List Goto} {pool : List SSet} {ids : List Nat} {set : Nat} (h : TablesOk g table pool ids set) {e : Goto} (he : e ∈ table) (hset : e.set = set) {s : SSet}
    (hs : pool[set]? = some s) (rs : List (Nat × Nat)) (hr : rs ⊆ e.results) :
    tryResults pool ids rs = .ok none ∨
      ∃ r t, tryResults pool ids rs = .ok (some r) ∧ pool[r]? = some t ∧ predictions g s (.t e.term) ≠ [] ∧ nextSet g e.look (deref pool ids) s e.term = .ok t := by
  induction rs with
  | nil => exact .inl rfl
  | cons q rest ih =>
    obtain ⟨r, place⟩ := q
    obtain ⟨h1, h2, s', t, h3, h4, h5, h6⟩ := h.tableOk e he (r, place) (hr (by simp))
    simp only at h1 h2 h4 h6
    rw [hset, hs] at h3
    cases h3
    rw [tryResults, h4]
    simp only
    have hlen := deref_length h.idsOk
    have hlast : (deref pool ids).getLast? = some s := by
      rw [List.getLast?_eq_getElem?, deref_getElem? h.idsOk, hlen, ← List.getLast?_eq_getElem?, h.last]
      exact hs
    have hplace : (deref pool ids)[place]? = some s := by
      rw [deref_getElem? h.idsOk, h2, hset]; exact hs
    rw [deref_take h.idsOk] at h6
    have hle : ∀ m ∈ t.lens, m ≤ place + 1 := by
      have := nextSet_le e.look ((deref pool ids).take (place + 1)) (by
        intro k s' hk
        rw [List.getElem?_take] at hk
        split at hk
        · exact h.lens k s' hk
        · cases hk) s (by
          rw [List.getLast?_eq_getElem?, List.length_take, hlen, Nat.min_eq_left (by omega), List.getElem?_take, if_pos (by omega), ← hplace]
          rfl) e.term t h6
      rw [List.length_take, hlen, Nat.min_eq_left (by omega)] at this
      exact this
    obtain ⟨b, hb⟩ := sameOrigins_some (ids := ids) (place := place) (ms := t.lens.reverse) (by omega) (fun m hm => hle m (List.mem_reverse.1 hm))
    rw [hb]
    cases b with
    | false => exact ih fun x hx => hr (by simp [hx])
    | true =>
      refine .inr ⟨r, t, rfl, h4, h5, nextSet_again e.look _ place (by omega) s t e.term hplace hlast h6 ?_⟩
      intro m hm h7 h8
      obtain ⟨h9, -, h10⟩ := sameOrigins_true hb m (List.mem_reverse.2 hm) h7
      rw [deref_getElem? h.idsOk, deref_getElem? h.idsOk, hlen, h10]

theorem save_results (e : Goto) (r place : Nat) {q : Nat × Nat} (h : q ∈ (e.save r place).results) : q ∈ e.results ∨ q = (r, place) := by
  unfold Goto.save at h
  simp only at h
  split at h
  · exact List.mem_or_eq_of_mem_set h
  · simpa using h

/-- With tables or without: the same sets, the same answer. -/
theorem tableLoop_eq (cs : List Int) (table : List Goto) (pool : List SSet) (ids : List Nat) (set : Nat) (h : TablesOk g table pool ids set) (s : SSet) (hs : pool[set]? = some s) :
    (tableLoop g table pool ids set cs).map (fun x => (deref x.1 x.2.1, x.2.2)) = parseLoop g (deref pool ids) s cs := by
  induction cs generalizing table pool ids set s with
  | nil => rfl
  | cons c cs ih =>
    rw [tableLoop, parseLoop]
    generalize hi : (findGoto table set c cs.head?).getD table.length = i
    -- the entry of the table
    obtain ⟨table', e, ht, he1, he2, he3, he4, he5, htab⟩ : ∃ table' e, (if i < table.length then table else table ++ [⟨set, c, cs.head?, [], 0⟩]) = table' ∧
        table'[i]? = some e ∧ e ∈ table' ∧ e.set = set ∧ e.term = c ∧ e.look = cs.head? ∧ TablesOk g table' pool ids set := by
      by_cases hlt : i < table.length
      · rw [if_pos hlt]
        refine ⟨table, table[i], rfl, List.getElem?_eq_getElem hlt, List.getElem_mem hlt, ?_⟩
        unfold findGoto at hi
        cases hf : table.findIdx? fun e => e.set = set ∧ e.term = c ∧ e.look = cs.head? with
        | none => rw [hf] at hi; simp only [Option.getD_none] at hi; omega
        | some j =>
          rw [hf] at hi
          simp only [Option.getD_some] at hi
          subst hi
          obtain ⟨hjl, hx, _⟩ := List.findIdx?_eq_some_iff_getElem.1 hf
          have hx : table[j].set = set ∧ table[j].term = c ∧ table[j].look = cs.head? := by simpa using hx
          exact ⟨hx.1, hx.2.1, hx.2.2, h⟩
      · rw [if_neg hlt]
        have hie : i = table.length := by
          unfold findGoto at hi
          cases hf : table.findIdx? fun e => e.set = set ∧ e.term = c ∧ e.look = cs.head? with
          | none => rw [hf] at hi; exact hi.symm
          | some j =>
            rw [hf] at hi
            simp only [Option.getD_some] at hi
            subst hi
            exact absurd (List.findIdx?_eq_some_iff_getElem.1 hf).1 hlt
        refine ⟨_, ⟨set, c, cs.head?, [], 0⟩, rfl, by rw [hie]; simp, by simp, rfl, rfl, rfl, h.poolOk, h.idsOk, h.last, h.lens, ?_⟩
        intro e he q hq
        rcases List.mem_append.1 he with he | he
        · exact h.tableOk e he q hq
        · rw [List.mem_singleton.1 he] at hq; cases hq
    simp only [ht]
    clear ht hi h table
    rw [he1]
    simp only [Option.map_some, Option.getD_some]
    have hlen := deref_length htab.idsOk
    have hlast : (deref pool ids).getLast? = some s := by
      rw [List.getLast?_eq_getElem?, deref_getElem? htab.idsOk, hlen, ← List.getLast?_eq_getElem?, htab.last]
      exact hs
    rcases tryResults_spec htab he2 he3 hs e.results (fun _ h => h) with h1 | ⟨r, t, h1, h2, h3, h4⟩
    · rw [h1]
      simp only [hs]
      by_cases hp : predictions g s (.t c) = []
      · rw [if_pos hp, if_pos hp]; rfl
      · rw [if_neg hp, if_neg hp]
        unfold nextSet
        rw [hlen]
        show Except.map _ (match completeLoop g cs.head? (deref pool ids) (g.size * (ids.length + 1) + 1) 0 _ with | .error e => _ | .ok l => _) = _
        cases hc : completeLoop g cs.head? (deref pool ids) (g.size * (ids.length + 1) + 1) 0 ((predictions g s (.t c)).foldl (shift g cs.head? 1) []) with
        | error e => rfl
        | ok l =>
          simp only
          rcases intern_makeSet pool htab.poolOk l with ⟨e, h5, h6⟩ | ⟨more, r, t, h5, h6, h7, h8⟩
          · rw [h5, h6]; rfl
          · rw [h5, h6]
            simp only
            have hnext : nextSet g cs.head? (deref pool ids) s c = .ok t := by
              unfold nextSet; rw [hlen, hc]; exact h6
            have hr : r < (pool ++ more).length := (List.getElem?_eq_some_iff.1 h7).1
            have hids : ∀ j ∈ ids ++ [r], j < (pool ++ more).length := by
              intro j hj
              rcases List.mem_append.1 hj with hj | hj
              · have := htab.idsOk j hj; simp; omega
              · rw [List.mem_singleton.1 hj]; exact hr
            have hd : deref (pool ++ more) (ids ++ [r]) = deref pool ids ++ [t] := by rw [deref_snoc h7, deref_append htab.idsOk]
            have hok : TablesOk g (table'.modify i fun e => e.save r (ids.length - 1)) (pool ++ more) (ids ++ [r]) r := by
              refine ⟨h8, hids, by simp, ?_, ?_⟩
              · rw [hd]
                refine htab.lens.append ?_
                exact nextSet_le cs.head? _ htab.lens s hlast c t hnext
              · intro e' he' q hq
                rw [List.mem_iff_getElem?] at he'
                obtain ⟨k, hk⟩ := he'
                rw [List.getElem?_modify] at hk
                cases hx : table'[k]? with
                | none => rw [hx] at hk; cases hk
                | some e0 =>
                  rw [hx] at hk
                  have hmem : e0 ∈ table' := List.mem_of_getElem? hx
                  by_cases hik : i = k
                  · subst hik
                    rw [he1] at hx
                    cases hx
                    simp at hk
                    subst hk
                    rcases save_results _ _ _ hq with hq | rfl
                    · obtain ⟨a1, a2, a3⟩ := (htab.tableOk e he2 q hq).mono (more := more) (more' := [r]) htab.idsOk
                      exact ⟨a1, a2, a3⟩
                    · have hpos : 0 < ids.length := by
                        cases ids with
                        | nil => have := htab.last; cases this
                        | cons _ _ => simp
                      refine ⟨by simp; omega, ?_, s, t, ?_, h7, ?_, ?_⟩
                      · show (ids ++ [r])[ids.length - 1]? = some e.set
                        rw [List.getElem?_append_left (by omega), ← List.getLast?_eq_getElem?, htab.last, he3]
                      · show (pool ++ more)[e.set]? = some s
                        rw [he3, List.getElem?_append_left (List.getElem?_eq_some_iff.1 hs).1, hs]
                      · show predictions g s (.t e.term) ≠ []
                        rw [he4]; exact hp
                      · show nextSet g e.look (deref (pool ++ more) ((ids ++ [r]).take (ids.length - 1 + 1))) s e.term = .ok t
                        rw [show ids.length - 1 + 1 = ids.length by omega, List.take_left, deref_append htab.idsOk, he4, he5]
                        exact hnext
                  · simp [hik] at hk
                    subst hk
                    exact (htab.tableOk e0 hmem q hq).mono htab.idsOk
            have := ih _ _ _ _ hok t h7
            rw [hd] at this
            exact this
    · rw [h1]
      simp only
      rw [he4] at h3 h4
      rw [he5] at h4
      rw [if_neg h3, h4]
      simp only
      have hok : TablesOk g table' pool (ids ++ [r]) r := by
        refine ⟨htab.poolOk, ?_, by simp, ?_, ?_⟩
        · intro j hj
          rcases List.mem_append.1 hj with hj | hj
          · exact htab.idsOk j hj
          · rw [List.mem_singleton.1 hj]; exact (List.getElem?_eq_some_iff.1 h2).1
        · rw [deref_snoc h2]
          exact htab.lens.append (nextSet_le cs.head? _ htab.lens s hlast c t h4)
        · intro e he q hq
          have := (htab.tableOk e he q hq).mono (more := []) (more' := [r]) htab.idsOk
          rwa [List.append_nil] at this
      have := ih _ _ _ _ hok t h2
      rw [deref_snoc h2] at this
      exact this

/-- `perform_parse` with its tables does what it does without. -/
theorem performTables_eq (g : Gram) (tokens : List Int) : performTables g tokens = performParse g tokens := by
  unfold performTables performParse startSet
  rcases intern_makeSet (g := g) [] (by intro s hs; cases hs) ((g.ruleIds axiomName).map fun r => (⟨r, 0⟩, 0)) with ⟨e, h1, h2⟩ | ⟨more, r, s, h1, h2, h3, h4⟩
  · rw [h1, h2]
  · rw [h1, h2]
    simp only [List.nil_append] at h3 h4 ⊢
    have hr : r < more.length := (List.getElem?_eq_some_iff.1 h3).1
    have hd : deref more [r] = [s] := by simp [deref, h3]
    have hok : TablesOk g [] more [r] r := by
      refine ⟨h4, by simpa using hr, rfl, ?_, by simp⟩
      rw [hd]
      intro k t hk
      cases k with
      | zero =>
        simp at hk
        subst hk
        rw [(makeSet_lens h2).1]
        simp
      | succ k => simp at hk
    have := tableLoop_eq tokens [] more [r] r hok s h3
    rw [hd] at this
    rw [← this]
    cases tableLoop g [] more [r] r tokens with
    | error e => rfl
    | ok x => rfl

end Xmq.Yaep
