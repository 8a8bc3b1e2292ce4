import Verif.Model.HashMap
import Verif.Props.Sort
/-!
# C20 hash map
-/
namespace Xmq.Props
open Xmq

/-- The value of the last put of a key. -/
def lastPut {α : Type} (key : List Byte) (puts : List (List Byte × α)) : Option α :=
  (puts.reverse.find? (fun kv => kv.1 = key)).map Prod.snd

theorem strcmp_zero (a b : List Byte) (ha : 0 ∉ a) (hb : 0 ∉ b) : strcmp a b = 0 ↔ a = b := by
  induction a generalizing b with
  | nil =>
    cases b with
    | nil => simp [strcmp]
    | cons d t =>
      have : d.toNat ≠ 0 := fun h => hb (by simp [show d = 0 from UInt8.toNat.inj h])
      simp [strcmp]; omega
  | cons c s ih =>
    cases b with
    | nil =>
      have : c.toNat ≠ 0 := fun h => ha (by simp [show c = 0 from UInt8.toNat.inj h])
      simp [strcmp]; omega
    | cons d t =>
      rw [strcmp]
      by_cases h : c = d
      · subst h
        rw [if_pos rfl, ih t (fun h => ha (by simp [h])) (fun h => hb (by simp [h]))]
        simp
      · rw [if_neg h]
        have : c.toNat ≠ d.toNat := fun e => h (UInt8.toNat.inj e)
        simp only [List.cons.injEq, h, false_and, iff_false]
        omega

/-- A chain: keys without NUL, no key twice. -/
structure ChainOk {α : Type} (l : List (List Byte × α)) : Prop where
  nz : ∀ kv ∈ l, 0 ∉ kv.1
  nodup : (l.map Prod.fst).Nodup

theorem chainGet_mem {α : Type} {l : List (List Byte × α)} (h : ChainOk l) {key : List Byte} (hk : 0 ∉ key) (v : α) :
    chainGet key l = some v ↔ (key, v) ∈ l := by
  induction l with
  | nil => simp [chainGet]
  | cons q t ih =>
    obtain ⟨k, w⟩ := q
    have hkz : 0 ∉ k := h.nz (k, w) (by simp)
    have ht : ChainOk t := ⟨fun kv hm => h.nz kv (by simp [hm]), (List.nodup_cons.1 (by simpa using h.nodup)).2⟩
    have hn : k ∉ t.map Prod.fst := (List.nodup_cons.1 (by simpa using h.nodup)).1
    rw [chainGet]
    simp only [strcmp_zero k key hkz hk]
    by_cases e : k = key
    · subst e
      rw [if_pos rfl]
      simp only [Option.some.injEq, List.mem_cons, Prod.mk.injEq, true_and]
      constructor
      · intro e; exact .inl e.symm
      · rintro (e | hm)
        · exact e.symm
        · exact absurd (List.mem_map.2 ⟨(k, v), hm, rfl⟩) hn
    · rw [if_neg e, ih ht]
      simp only [List.mem_cons, Prod.mk.injEq]
      constructor
      · exact .inr
      · rintro (⟨e', -⟩ | hm)
        · exact absurd e'.symm e
        · exact hm

theorem chainPut_spec {α : Type} {l : List (List Byte × α)} (h : ChainOk l) {key : List Byte} (hk : 0 ∉ key) (v : α) :
    ChainOk (chainPut key v l).1 ∧
    (∀ k w, (k, w) ∈ (chainPut key v l).1 ↔ if k = key then w = v else (k, w) ∈ l) ∧
    (∀ k, k ∈ (chainPut key v l).1.map Prod.fst ↔ k = key ∨ k ∈ l.map Prod.fst) ∧
    (chainPut key v l).1.length = l.length + (if (chainPut key v l).2 then 1 else 0) := by
  induction l with
  | nil =>
    simp only [chainPut]
    refine ⟨⟨by simp [hk], by simp⟩, ?_, by simp, by simp⟩
    intro k w
    by_cases e : k = key <;> simp [e]
  | cons q t ih =>
    obtain ⟨k0, w0⟩ := q
    have hkz : 0 ∉ k0 := h.nz (k0, w0) (by simp)
    have ht : ChainOk t := ⟨fun kv hm => h.nz kv (by simp [hm]), (List.nodup_cons.1 (by simpa using h.nodup)).2⟩
    have hn : k0 ∉ t.map Prod.fst := (List.nodup_cons.1 (by simpa using h.nodup)).1
    by_cases e : k0 = key
    · subst e
      rw [chainPut, if_pos ((strcmp_zero _ _ hkz hk).2 rfl)]
      refine ⟨⟨?_, by simpa using h.nodup⟩, ?_, ?_, by simp⟩
      · intro kv hm
        rcases List.mem_cons.1 hm with rfl | hm
        · exact hk
        · exact ht.nz kv hm
      · intro k w
        by_cases e : k = k0
        · subst e
          simp only [List.mem_cons, Prod.mk.injEq, true_and, if_true]
          constructor
          · rintro (e | hm)
            · exact e
            · exact absurd (List.mem_map.2 ⟨_, hm, rfl⟩) hn
          · exact .inl
        · simp [e]
      · intro k; simp
    · rw [chainPut, if_neg (fun x => e ((strcmp_zero _ _ hkz hk).1 x))]
      obtain ⟨i1, i2, i3, i4⟩ := ih ht
      refine ⟨⟨?_, ?_⟩, ?_, ?_, ?_⟩
      · intro kv hm
        rcases List.mem_cons.1 hm with rfl | hm
        · exact hkz
        · exact i1.nz kv hm
      · simp only [List.map_cons, List.nodup_cons]
        exact ⟨fun hm => (((i3 k0).1 hm).elim e hn), i1.nodup⟩
      · intro k w
        simp only [List.mem_cons, i2]
        by_cases e' : k = key
        · subst e'
          have : ¬ k = k0 := fun x => e x.symm
          simp [this]
        · simp [e']
      · intro k
        simp only [List.map_cons, List.mem_cons, i3]
        grind
      · simp only [List.length_cons, i4]; omega

/-- The slot of a key. -/
def slotOf (n : Nat) (key : List Byte) : Nat := (hashCode key).toNat % n

/-- Invariant of the table; `l` lists what it should contain. -/
structure MapOk {α : Type} (m : HashMap α) : Prop where
  pos : 0 < m.maxSize
  len : m.nodes.length = m.maxSize
  chains : ∀ c ∈ m.nodes, ChainOk c
  slots : ∀ i (h : i < m.nodes.length), ∀ kv ∈ m.nodes[i], slotOf m.maxSize kv.1 = i
  size : m.size = m.nodes.flatten.length

theorem slotOf_lt {n : Nat} (h : 0 < n) (k : List Byte) : slotOf n k < n := Nat.mod_lt _ h

theorem mapOk_create {α : Type} {n : Nat} (h : 0 < n) : MapOk (hashmapCreate α n) := by
  refine ⟨h, by simp [hashmapCreate], ?_, ?_, ?_⟩
  · intro c hc
    rw [(List.mem_replicate.1 hc).2]
    exact ⟨by simp, by simp⟩
  · intro i hi kv hm
    simp [hashmapCreate] at hm
  · simp [hashmapCreate]

theorem get_iff {α : Type} {m : HashMap α} (h : MapOk m) {key : List Byte} (hk : 0 ∉ key) :
    ∃ r, hashmapGet m key = some r ∧ ∀ v, r = some v ↔ (key, v) ∈ m.nodes.flatten := by
  have hlt : slotOf m.maxSize key < m.nodes.length := by rw [h.len]; exact slotOf_lt h.pos key
  refine ⟨chainGet key (m.nodes[slotOf m.maxSize key]), ?_, ?_⟩
  · have h0 : m.maxSize ≠ 0 := by have := h.pos; omega
    rw [hashmapGet, if_neg h0]
    have : m.nodes[(hashCode key).toNat % m.maxSize]? = some m.nodes[slotOf m.maxSize key] := List.getElem?_eq_getElem hlt
    rw [this]; rfl
  · intro v
    rw [chainGet_mem (h.chains _ (List.getElem_mem hlt)) hk, List.mem_flatten]
    constructor
    · intro hm; exact ⟨_, List.getElem_mem hlt, hm⟩
    · rintro ⟨c, hc, hm⟩
      obtain ⟨i, hi, rfl⟩ := List.getElem_of_mem hc
      have := h.slots i hi _ hm
      simp only at this
      subst this; exact hm

theorem flatten_set_length {β : Type} (L : List (List β)) (i : Nat) (hi : i < L.length) (c : List β) (k : Nat)
    (h : c.length = L[i].length + k) : (L.set i c).flatten.length = L.flatten.length + k := by
  induction L generalizing i with
  | nil => simp at hi
  | cons a t ih =>
    cases i with
    | zero => simp at h ⊢; omega
    | succ i =>
      have := ih i (by simpa using hi) (by simpa using h)
      simp only [List.set_cons_succ, List.flatten_cons, List.length_append]; omega

theorem put_ok {α : Type} {m : HashMap α} (h : MapOk m) {key : List Byte} (hk : 0 ∉ key) (v : α) :
    ∃ m', hashmapPut m key v = some m' ∧ MapOk m' ∧
      ∀ k w, (k, w) ∈ m'.nodes.flatten ↔ if k = key then w = v else (k, w) ∈ m.nodes.flatten := by
  have hlt : slotOf m.maxSize key < m.nodes.length := by rw [h.len]; exact slotOf_lt h.pos key
  have hc := h.chains _ (List.getElem_mem hlt)
  obtain ⟨p1, p2, p3, p4⟩ := chainPut_spec hc hk v
  generalize hr : chainPut key v (m.nodes[slotOf m.maxSize key]) = r at p1 p2 p3 p4
  have h0 : m.maxSize ≠ 0 := by have := h.pos; omega
  refine ⟨⟨if r.2 then m.size + 1 else m.size, m.maxSize, m.nodes.set (slotOf m.maxSize key) r.1⟩, ?_, ⟨h.pos, by simp [h.len], ?_, ?_, ?_⟩, ?_⟩
  · rw [hashmapPut, if_neg h0]
    have : m.nodes[(hashCode key).toNat % m.maxSize]? = some m.nodes[slotOf m.maxSize key] := List.getElem?_eq_getElem hlt
    simp only [this, Option.map_some, hr]; rfl
  · intro c hm
    rcases List.mem_or_eq_of_mem_set hm with hm | rfl
    · exact h.chains c hm
    · exact p1
  · intro i hi kv hm
    simp only [List.length_set] at hi
    simp only [List.getElem_set] at hm
    by_cases e : slotOf m.maxSize key = i
    · rw [if_pos e] at hm
      have := (p3 kv.1).1 (List.mem_map.2 ⟨kv, hm, rfl⟩)
      rcases this with e' | hm'
      · simp only [e', e]
      · obtain ⟨q, hq, hq'⟩ := List.mem_map.1 hm'
        have := h.slots _ hlt q hq
        simp only; rw [← hq', this, e]
    · rw [if_neg e] at hm
      exact h.slots i hi kv hm
  · simp only
    rw [flatten_set_length _ _ hlt _ _ p4, h.size]
    by_cases e : r.2 = true <;> simp [e]
  · intro k w
    simp only [List.mem_flatten]
    by_cases e : k = key
    · subst e
      rw [if_pos rfl]
      constructor
      · rintro ⟨c, hc', hm⟩
        obtain ⟨i, hi, rfl⟩ := List.getElem_of_mem hc'
        simp only [List.length_set] at hi
        rw [List.getElem_set] at hm
        by_cases e : slotOf m.maxSize k = i
        · rw [if_pos e] at hm
          have := (p2 k w).1 hm
          simpa using this
        · rw [if_neg e] at hm
          exact absurd (h.slots i hi _ hm) e
      · rintro rfl
        exact ⟨r.1, List.mem_set hlt _, (p2 k w).2 (by simp)⟩
    · rw [if_neg e]
      constructor
      · rintro ⟨c, hc', hm⟩
        rcases List.mem_or_eq_of_mem_set hc' with hc' | rfl
        · exact ⟨c, hc', hm⟩
        · have := (p2 k w).1 hm
          rw [if_neg e] at this
          exact ⟨_, List.getElem_mem hlt, this⟩
      · rintro ⟨c, hc', hm⟩
        obtain ⟨i, hi, rfl⟩ := List.getElem_of_mem hc'
        by_cases e' : slotOf m.maxSize key = i
        · subst e'
          exact ⟨r.1, List.mem_set hlt _, (p2 k w).2 (by rw [if_neg e]; exact hm)⟩
        · refine ⟨m.nodes[i], ?_, hm⟩
          have := List.getElem_mem (l := m.nodes.set (slotOf m.maxSize key) r.1) (n := i) (by simpa using hi)
          rwa [List.getElem_set, if_neg e'] at this

theorem puts_ok {α : Type} (puts : List (List Byte × α)) (hz : ∀ kv ∈ puts, 0 ∉ kv.1) (m : HashMap α) (h : MapOk m) :
    ∃ m', hashmapPuts m puts = some m' ∧ MapOk m' ∧
      ∀ k w, (k, w) ∈ m'.nodes.flatten ↔ lastPut k puts = some w ∨ (lastPut k puts = none ∧ (k, w) ∈ m.nodes.flatten) := by
  induction puts generalizing m with
  | nil => exact ⟨m, rfl, h, fun k w => by simp [lastPut]⟩
  | cons q t ih =>
    obtain ⟨key, v⟩ := q
    obtain ⟨m1, h1, h2, h3⟩ := put_ok h (hz (key, v) (by simp)) v
    obtain ⟨m2, h4, h5, h6⟩ := ih (fun kv hm => hz kv (by simp [hm])) m1 h2
    refine ⟨m2, by simp [hashmapPuts, h1, h4], h5, fun k w => ?_⟩
    rw [h6, h3]
    have hl : lastPut k ((key, v) :: t) = (lastPut k t).or (if key = k then some v else none) := by
      simp only [lastPut, List.reverse_cons, List.find?_append]
      cases hf : List.find? (fun kv => decide (kv.1 = k)) t.reverse with
      | some q => simp
      | none => by_cases e : key = k <;> simp [e]
    rw [hl]
    cases hf : lastPut k t with
    | some q => simp
    | none =>
      by_cases e : k = key
      · subst e; simp; exact eq_comm
      · have : ¬ key = k := fun x => e x.symm
        simp [e, this]

/-- **C20** (lookup).  In a map of any positive number of slots, after any sequence of puts, `hashmap_get` gives the
    value of the last put of that key and NULL for a key never put; collisions of the hash do not matter. -/
theorem C20_get_after_puts {α : Type} (n : Nat) (hn : 0 < n) (puts : List (List Byte × α)) (hz : ∀ kv ∈ puts, 0 ∉ kv.1)
    (key : List Byte) (hk : 0 ∉ key) :
    ∃ m, hashmapPuts (hashmapCreate α n) puts = some m ∧ hashmapGet m key = some (lastPut key puts) := by
  obtain ⟨m, h1, h2, h3⟩ := puts_ok puts hz _ (mapOk_create hn)
  obtain ⟨r, h4, h5⟩ := get_iff h2 hk
  refine ⟨m, h1, h4.trans (congrArg some ?_)⟩
  have h6 : ∀ w, r = some w ↔ lastPut key puts = some w := by
    intro w; rw [h5, h3]; simp [hashmapCreate]
  cases hr : r with
  | some w => exact ((h6 w).1 hr).symm
  | none =>
    cases hl : lastPut key puts with
    | none => rfl
    | some w => rw [(h6 w).2 hl] at hr; cases hr

/-! ## Iteration -/

/-- What an iterator still has to deliver. -/
def toDeliver {α : Type} (m : HashMap α) (i : HashMapIter α) : List (List Byte × α) :=
  i.node.tail ++ (m.nodes.drop i.next).flatten

theorem skipEmpty_spec {α : Type} (L : List (List (List Byte × α))) (o : Nat) :
    (skipEmpty o L).2.head? = L.flatten.head? ∧
    (skipEmpty o L).2 ++ (L.drop ((skipEmpty o L).1 + 1 - o)).flatten = L.flatten ∧ o ≤ (skipEmpty o L).1 := by
  induction L generalizing o with
  | nil => simp [skipEmpty]
  | cons c t ih =>
    cases c with
    | nil =>
      obtain ⟨h1, h2, h3⟩ := ih (o + 1)
      simp only [skipEmpty, List.flatten_cons, List.nil_append]
      refine ⟨h1, ?_, by omega⟩
      rw [show (skipEmpty (o + 1) t).1 + 1 - o = (skipEmpty (o + 1) t).1 + 1 - (o + 1) + 1 by omega, List.drop_succ_cons, h2]
    | cons n c => simp [skipEmpty]

theorem next_spec {α : Type} (m : HashMap α) (i : HashMapIter α) :
    (hashmapNext m i).2 = (toDeliver m i).head? ∧ toDeliver m (hashmapNext m i).1 = (toDeliver m i).tail := by
  rw [hashmapNext]
  cases ht : i.node.tail with
  | cons n c => simp [toDeliver, ht]
  | nil =>
    obtain ⟨h1, h2, h3⟩ := skipEmpty_spec (m.nodes.drop i.next) i.next
    simp only [toDeliver, ht, List.nil_append]
    refine ⟨h1, ?_⟩
    generalize skipEmpty i.next (m.nodes.drop i.next) = r at h1 h2 h3
    rw [List.drop_drop, show i.next + (r.1 + 1 - i.next) = r.1 + 1 by omega] at h2
    rw [← h2] at h1 ⊢
    cases hr : r.2 with
    | cons n c => simp
    | nil =>
      rw [hr] at h1
      simp only [List.nil_append, List.head?_nil] at h1
      have := List.head?_eq_none_iff.1 h1.symm
      simp [this]

theorem all_spec {α : Type} (m : HashMap α) (fuel : Nat) (i : HashMapIter α) (h : (toDeliver m i).length < fuel) :
    hashmapAll m fuel i = some (toDeliver m i) := by
  induction fuel generalizing i with
  | zero => omega
  | succ fuel ih =>
    obtain ⟨h1, h2⟩ := next_spec m i
    rw [hashmapAll]
    generalize hashmapNext m i = r at h1 h2
    obtain ⟨i', kv⟩ := r
    simp only at h1 h2
    cases hd : toDeliver m i with
    | nil => rw [hd] at h1; subst h1; rfl
    | cons a t =>
      rw [hd] at h1 h2 h
      subst h1
      simp only [List.head?_cons]
      rw [ih i' (by rw [h2]; simp at h ⊢; omega), h2]; rfl

/-- **C20** (iteration and size).  After any puts the iterator ends by itself after having delivered every key once
    with the value of its last put, and the size is the number of delivered pairs. -/
theorem C20_iterate {α : Type} (n : Nat) (hn : 0 < n) (puts : List (List Byte × α)) (hz : ∀ kv ∈ puts, 0 ∉ kv.1) :
    ∃ m fuel all, hashmapPuts (hashmapCreate α n) puts = some m ∧
      hashmapAll m fuel (hashmapIterate α) = some all ∧
      (all.map Prod.fst).Nodup ∧ m.size = all.length ∧
      (∀ k v, (k, v) ∈ all ↔ lastPut k puts = some v) ∧
      (∀ k, k ∈ all.map Prod.fst ↔ k ∈ puts.map Prod.fst) := by
  obtain ⟨m, h1, h2, h3⟩ := puts_ok puts hz _ (mapOk_create hn)
  have hd : toDeliver m (hashmapIterate α) = m.nodes.flatten := by simp [toDeliver, hashmapIterate]
  have hmem : ∀ k v, (k, v) ∈ m.nodes.flatten ↔ lastPut k puts = some v := by
    intro k w; rw [h3]; simp [hashmapCreate]
  refine ⟨m, m.nodes.flatten.length + 1, m.nodes.flatten, h1, ?_, ?_, h2.size, hmem, ?_⟩
  · rw [all_spec m _ _ (by rw [hd]; omega), hd]
  · have key : ∀ (L : List (List (List Byte × α))) (off : Nat), (∀ c ∈ L, ChainOk c) →
        (∀ i (h : i < L.length), ∀ kv ∈ L[i], slotOf m.maxSize kv.1 = off + i) → (L.flatten.map Prod.fst).Nodup := by
      intro L
      induction L with
      | nil => intros; simp
      | cons c t ih =>
        intro off hc hs
        rw [List.flatten_cons, List.map_append, List.nodup_append]
        refine ⟨(hc c (by simp)).nodup, ih (off + 1) (fun c hm => hc c (by simp [hm])) ?_, ?_⟩
        · intro i hi kv hm
          have := hs (i + 1) (by simpa using hi) kv (by simpa using hm)
          omega
        · intro a ha b hb hab
          subst hab
          obtain ⟨q, hq, rfl⟩ := List.mem_map.1 ha
          obtain ⟨q', hq', he⟩ := List.mem_map.1 hb
          obtain ⟨c', hc', hm'⟩ := List.mem_flatten.1 hq'
          obtain ⟨i, hi, rfl⟩ := List.getElem_of_mem hc'
          have e1 := hs 0 (by simp) q (by simpa using hq)
          have e2 := hs (i + 1) (by simpa using hi) q' (by simpa using hm')
          rw [he] at e2
          omega
    exact key m.nodes 0 h2.chains (by simpa using h2.slots)
  · intro k
    constructor
    · intro hk
      obtain ⟨⟨k', v⟩, hq, rfl⟩ := List.mem_map.1 hk
      have := (hmem _ _).1 hq
      simp only [lastPut, Option.map_eq_some_iff] at this
      obtain ⟨q, hf, -⟩ := this
      have e1 := List.mem_of_find?_eq_some hf
      have e2 := List.find?_some hf
      simp only [decide_eq_true_eq] at e2
      exact List.mem_map.2 ⟨q, by simpa using e1, e2⟩
    · intro hk
      obtain ⟨q, hq, rfl⟩ := List.mem_map.1 hk
      cases hl : lastPut q.1 puts with
      | some v => exact List.mem_map.2 ⟨(q.1, v), (hmem _ _).2 hl, rfl⟩
      | none =>
        simp only [lastPut, Option.map_eq_none_iff, List.find?_eq_none] at hl
        exact absurd (decide_eq_true rfl) (hl q (by simpa using hq))

/-- With one slot every key collides; the second put of `a` replaces the first. -/
example : (hashmapPuts (hashmapCreate Nat 1) [(b#"a", 1), (b#"b", 2), (b#"a", 3)]).bind
    (fun m => hashmapAll m 9 (hashmapIterate Nat)) = some [(b#"a", 3), (b#"b", 2)] := by decide +kernel

end Xmq.Props
