import Verif.Lemmas.YaepHash
import Verif.Props.HashMap
/-!
# C91: the tables of the Earley parser are sets

Whatever is looked up, inserted and removed in any order, the hash table of yaep.c answers like a list in which
the elements are searched one by one; it never searches without end and never expands twice.
-/
namespace Xmq.Props

open Xmq Xmq.Yaep Xmq.Spec

variable {α : Type}

theorem holds_clear {hash : α → UInt32} {eq : α → α → Bool} {t : HTable α} {s : List α} (H : Holds hash eq t s) :
    Holds hash eq (hclear t) [] := by
  have h3 := H.three
  refine ⟨by simpa [hclear] using H.prime, by simpa [hclear] using h3, ?_, List.Pairwise.nil, Nat.le_refl _, ?_,
    by simp [hclear]; omega, ?_⟩
  · have hel0 : ∀ m : Nat, (List.replicate m (HSlot.empty : HSlot α)).filterMap hel = [] := by
      intro m; induction m with
      | zero => rfl
      | succ m ih => rw [List.replicate_succ, List.filterMap_cons]; exact ih
    show ((List.replicate t.slots.length (HSlot.empty : HSlot α)).filterMap hel).Perm []
    rw [hel0]
  · show (List.replicate t.slots.length (HSlot.empty : HSlot α)).countP hused ≤ 0
    simp [List.countP_replicate, hused]
  · intro i a hi
    have := (List.mem_replicate.1 (List.mem_of_getElem? hi)).2
    cases this

theorem holds_remove {hash : α → UInt32} {eq : α → α → Bool} (F : HashesFit hash eq) {t : HTable α} {s : List α}
    (H : Holds hash eq t s) (i : Nat) (a x : α) (hi : t.slots[i]? = some (.el a)) (hax : eq a x = true) :
    Holds hash eq ⟨t.slots.set i .deleted, t.elements, t.deleted + 1⟩ (s.filter fun b => !eq b x) ∧
      (s.filter fun b => !eq b x).length + 1 = s.length := by
  have hlt : i < t.slots.length := (List.getElem?_eq_some_iff.1 hi).1
  have hp := live_remove t.slots i a .deleted hi rfl
  have has : a ∈ s := (H.mem a).2 ⟨i, hi⟩
  have hperm : s.Perm (a :: (t.slots.set i .deleted).filterMap hel) := H.live.symm.trans hp
  have hap := hperm.pairwise H.apart fun {u v} huv hvu => huv (F.symm _ _ hvu)
  have hap' := List.pairwise_cons.1 hap
  have hkeep : (a :: (t.slots.set i .deleted).filterMap hel).filter (fun b => !eq b x) =
      (t.slots.set i .deleted).filterMap hel := by
    rw [List.filter_cons]
    simp only [hax, Bool.not_true, Bool.false_eq_true, if_false]
    rw [List.filter_eq_self]
    intro b hb
    have hno : ¬ eq b x = true := fun hbx => hap'.1 b hb (F.trans _ _ _ hax (F.symm _ _ hbx))
    simpa using hno
  have hfp : (s.filter fun b => !eq b x).Perm ((t.slots.set i .deleted).filterMap hel) := by
    have := hperm.filter fun b => !eq b x
    rwa [hkeep] at this
  refine ⟨⟨by simpa using H.prime, by simpa using H.three, hfp.symm, H.apart.filter _, ?_, ?_, by simpa using H.room, ?_⟩,
    by rw [hfp.length_eq, hperm.length_eq, List.length_cons]⟩
  · have e1 := hperm.length_eq
    have e2 := hfp.length_eq
    have e3 := H.count
    rw [List.length_cons] at e1
    show (s.filter fun b => !eq b x).length + (t.deleted + 1) ≤ t.elements
    omega
  · exact Nat.le_trans (used_set_used t.slots i .deleted _ hi rfl) H.used
  · intro j b hj
    simp only [List.length_set]
    have keep : ∀ j : Nat, t.slots[j]? ≠ some .empty → (t.slots.set i .deleted)[j]? ≠ some .empty := by
      intro j hj
      rw [List.getElem?_set]
      split
      · intro h; cases h
      · exact hj
    simp only [List.getElem?_set] at hj
    split at hj
    · cases hj
    · obtain ⟨k, hk, hch⟩ := H.chain j b hj
      exact ⟨k, hk, fun m hm => keep _ (hch m hm)⟩

theorem hstep_holds {hash : α → UInt32} {eq : α → α → Bool} (F : HashesFit hash eq) {t : HTable α} {s : List α}
    (H : Holds hash eq t s) (op : HOp α) (hr : ∀ x, op = .remove x → ∃ a ∈ s, eq a x = true) :
    (∀ x, op = .reserve x → NoDel t) →
    ∃ t', hstep hash eq t op = some (t', setAnswer eq s op) ∧ Holds hash eq t' (setAfter eq s op) ∧
      ((∀ x, op ≠ .reserve x) → t.elements = s.length + t.deleted →
        t'.elements = (setAfter eq s op).length + t'.deleted) ∧
      ((∀ x, op ≠ .remove x) → NoDel t → NoDel t') := by
  intro hno
  obtain ⟨t1, H1, room, hex, hnd, hf⟩ := hfind_holds F H
  have absent_find : ∀ x, (∀ a ∈ s, ¬ eq a x = true) → s.find? (eq · x) = none := by
    intro x hx
    rw [List.find?_eq_none]
    exact hx
  cases op with
  | lookup x =>
    by_cases hx : ∃ a ∈ s, eq a x = true
    · obtain ⟨a, ha, hax⟩ := hx
      obtain ⟨i, h1, h2⟩ := hfindIn_found F H1 x a ha hax false
      refine ⟨t1, ?_, H1, fun _ => hex, fun _ => hnd⟩
      simp only [hstep, hlookup, hf, h1, hread, h2, setAnswer, find_of_apart F H.apart ha hax]
      rfl
    · have hx' : ∀ a ∈ s, ¬ eq a x = true := fun a ha hax => hx ⟨a, ha, hax⟩
      obtain ⟨i, h1, h2⟩ := hfindIn_absent F H1 x hx'
      refine ⟨t1, ?_, H1, fun _ => hex, fun _ => hnd⟩
      simp only [hstep, hlookup, hf, h1, hread, h2, setAnswer, absent_find x hx']
      rfl
  | insert x =>
    by_cases hx : ∃ a ∈ s, eq a x = true
    · obtain ⟨a, ha, hax⟩ := hx
      obtain ⟨i, h1, h2⟩ := hfindIn_found F H1 x a ha hax true
      have hany : s.any (eq · x) = true := List.any_eq_true.2 ⟨a, ha, hax⟩
      refine ⟨t1, ?_, ?_, ?_, fun _ => hnd⟩
      · simp only [hstep, hinsert, hf, h1, hread, h2, setAnswer, find_of_apart F H.apart ha hax]
      · simp only [setAfter, hany, if_true]; exact H1
      · simp only [setAfter, hany, if_true]; exact fun _ => hex
    · have hx' : ∀ a ∈ s, ¬ eq a x = true := fun a ha hax => hx ⟨a, ha, hax⟩
      obtain ⟨t2, i, h1, h2, _, h3, h4, h6, h5⟩ := hfindIn_reserve F H1 x hx' room
      have hany : s.any (eq · x) = false := by
        rw [List.any_eq_false]; exact hx'
      refine ⟨{ t2 with slots := t2.slots.set i (.el x) }, ?_, ?_, ?_, ?_⟩
      · simp only [hstep, hinsert, hf, h1, hread, h2, setAnswer, absent_find x hx']
      · simp only [setAfter, hany]; exact h5
      · intro _ he
        have := hex he
        simp only [setAfter, hany]
        show t2.elements = (x :: s).length + t2.deleted
        rw [List.length_cons]
        omega
      · intro _ hn
        refine noDel_set ?_ i (.el x) (by simp)
        rw [h6 (hnd hn)]
        exact hnd hn
  | remove x =>
    obtain ⟨a, ha, hax⟩ := hr x rfl
    obtain ⟨i, h1, h2⟩ := hfindIn_found F H1 x a ha hax false
    obtain ⟨h3, h4⟩ := holds_remove F H1 i a x h2 hax
    refine ⟨_, ?_, h3, ?_, fun hn => absurd rfl (hn x)⟩
    · simp only [hstep, hremove, hf, h1, h2, setAnswer]
      rfl
    · intro _ he
      have := hex he
      show t1.elements = (s.filter fun b => !eq b x).length + (t1.deleted + 1)
      omega
  | reserve x =>
    have hn := hno x rfl
    by_cases hx : ∃ a ∈ s, eq a x = true
    · obtain ⟨a, ha, hax⟩ := hx
      obtain ⟨i, h1, h2⟩ := hfindIn_found F H1 x a ha hax true
      refine ⟨t1, ?_, H1, fun h => absurd rfl (h x), fun _ => hnd⟩
      simp only [hstep, hf, h1, hread, h2, setAnswer, find_of_apart F H.apart ha hax]
      rfl
    · have hx' : ∀ a ∈ s, ¬ eq a x = true := fun a ha hax => hx ⟨a, ha, hax⟩
      obtain ⟨t2, i, h1, h2, _, h3, h4, h6, h5⟩ := hfindIn_reserve F H1 x hx' room
      have e := h6 (hnd hn)
      refine ⟨t2, ?_, ?_, fun h => absurd rfl (h x), fun _ _ => ?_⟩
      · simp only [hstep, hf, h1, hread, h2, setAnswer, absent_find x hx']
        rfl
      · rw [e]
        have hc := H1.count
        have hu := H1.used
        exact ⟨H1.prime, H1.three, H1.live, H1.apart, Nat.le_succ_of_le hc, Nat.le_succ_of_le hu, room, H1.chain⟩
      · rw [e]; exact hnd hn
  | clear =>
    refine ⟨hclear t, rfl, holds_clear H, fun _ _ => rfl, fun _ _ i hi => ?_⟩
    have := (List.mem_replicate.1 (List.mem_of_getElem? hi)).2
    cases this

theorem hrun_holds {hash : α → UInt32} {eq : α → α → Bool} (F : HashesFit hash eq) (ops : List (HOp α)) {t : HTable α}
    {s : List α} (H : Holds hash eq t s) (hr : RemovesPresent eq s ops) (hn : ∀ x, HOp.reserve x ∉ ops)
    (he : t.elements = s.length + t.deleted) : hrun hash eq t ops = some (setAnswers eq s ops) := by
  induction ops generalizing t s with
  | nil => rfl
  | cons op ops ih =>
    obtain ⟨h1, h2⟩ := hr
    have hop : ∀ x, op ≠ .reserve x := fun x e => hn x (by rw [e]; exact List.mem_cons_self)
    obtain ⟨t', hs, H', hex, _⟩ := hstep_holds F H op h1 (fun x e => absurd e (hop x))
    have he' := hex hop he
    have hc : hcount t' = (setAfter eq s op).length := by unfold hcount; omega
    unfold hrun
    rw [hs]
    simp only [ih H' h2 (fun x hx => hn x (List.mem_cons_of_mem _ hx)) he', hc, setAnswers]
    rfl

/-- **C91.** A table created with any size answers any sequence of searches, insertions, removals and clearings like
a list that is searched from its beginning, and counts its elements. -/
theorem C91_table (hash : α → UInt32) (eq : α → α → Bool) (F : HashesFit hash eq) (size : Nat) (ops : List (HOp α))
    (hr : RemovesPresent eq [] ops) (hn : ∀ x, HOp.reserve x ∉ ops) :
    ∃ t, hcreate α size = some t ∧ hrun hash eq t ops = some (setAnswers eq [] ops) := by
  obtain ⟨t, ht, _, H, h0, _⟩ := holds_create hash eq size
  refine ⟨t, ht, hrun_holds F ops H hr hn ?_⟩
  have := H.count
  omega

theorem hrun_reserve {hash : α → UInt32} {eq : α → α → Bool} (F : HashesFit hash eq) (ops : List (HOp α)) {t : HTable α}
    {s : List α} (H : Holds hash eq t s) (hn : ∀ x, HOp.remove x ∉ ops) (hd : NoDel t) :
    (hrun hash eq t ops).map (·.map (·.1)) = some ((setAnswers eq s ops).map (·.1)) := by
  induction ops generalizing t s with
  | nil => rfl
  | cons op ops ih =>
    have hop : ∀ x, op ≠ .remove x := fun x e => hn x (by rw [e]; exact List.mem_cons_self)
    obtain ⟨t', hs, H', _, hnd⟩ := hstep_holds F H op (fun x e => absurd e (hop x)) (fun _ _ => hd)
    have hi := ih H' (fun x hx => hn x (List.mem_cons_of_mem _ hx)) (hnd hop hd)
    unfold hrun
    rw [hs]
    simp only [setAnswers, List.map_cons]
    cases hc : hrun hash eq t' ops with
    | none => rw [hc] at hi; cases hi
    | some l =>
      rw [hc] at hi
      have e : l.map (·.1) = (setAnswers eq (setAfter eq s op) ops).map (·.1) := by simpa using hi
      simp [e]

/-- **C91.** Without removals, as in this program, entries that are reserved and left empty change no answer. -/
theorem C91_reserve (hash : α → UInt32) (eq : α → α → Bool) (F : HashesFit hash eq) (size : Nat) (ops : List (HOp α))
    (hn : ∀ x, HOp.remove x ∉ ops) :
    ∃ t, hcreate α size = some t ∧ (hrun hash eq t ops).map (·.map (·.1)) = some ((setAnswers eq [] ops).map (·.1)) := by
  obtain ⟨t, ht, _, H, _, hd⟩ := holds_create hash eq size
  exact ⟨t, ht, hrun_reserve F ops H hn hd⟩

/-- **C91.** The size of a new table is the smallest prime that is not below the size asked for, made odd, and two more. -/
theorem C91_size (n : Nat) : ∃ p, higherPrime n = some p ∧ p.Prime ∧ n < p ∧
    ∀ q, q.Prime → n / 2 * 2 + 3 ≤ q → p ≤ q := by
  obtain ⟨p, h1, h2, h3, h4⟩ := higherPrime_spec n
  exact ⟨p, h1, h2, by omega, h4⟩

/-- The comment of `higher_prime_number`: the nearest prime greater than the number. -/
def HigherPrimeNearest : Prop := ∀ n p q, higherPrime n = some p → q.Prime → n < q → p ≤ q

theorem C91_nearest_false : ¬ HigherPrimeNearest := by
  intro h
  have := h 4 7 5 (by simp [higherPrime, primeFrom, noDivisor]) (by decide) (by decide)
  omega

/-- It is the nearest exactly when the next number is no prime, and not for 0. -/
theorem C91_nearest_iff (n p : Nat) (h : higherPrime n = some p) :
    (∀ q, q.Prime → n < q → p ≤ q) ↔ n ≠ 0 ∧ ¬ (n + 1).Prime := by
  obtain ⟨p', h1, h2, h3, h4⟩ := higherPrime_spec n
  rw [h] at h1
  have e : p = p' := by simpa using h1
  subst e
  constructor
  · intro hq
    refine ⟨fun h0 => ?_, fun hp => ?_⟩
    · subst h0
      have := hq 2 Nat.prime_two (by omega)
      omega
    · have := hq (n + 1) hp (by omega)
      omega
  · rintro ⟨h0, hn⟩ q hq hlt
    refine h4 q hq ?_
    refine Classical.byContradiction fun hc => ?_
    by_cases e1 : q = n + 1
    · subst e1; exact hn hq
    · have e2 : q = n + 2 ∧ n % 2 = 0 := by omega
      have h2 : 2 ∣ q := Nat.dvd_of_mod_eq_zero (by omega)
      rcases (Nat.dvd_prime hq).1 h2 with h | h <;> omega

/-! Elements with the same hash, one of them removed, and more than fit into the first table. -/

example : HashesFit (fun n : Nat => (n % 2).toUInt32) (fun a b => a == b) :=
  ⟨by simp, by simp, by simp, by simp⟩

example : RemovesPresent (fun a b : Nat => a == b) [] [.insert 1, .insert 3, .remove 1, .lookup 3] := by
  refine ⟨(by simp), (by simp), ?_, (by simp), trivial⟩
  intro x hx
  cases hx
  exact ⟨1, by decide, by decide⟩

example : ((hcreate Nat 0).bind fun t => hrun (fun n => (n % 2).toUInt32) (fun a b => a == b) t
    [.insert 1, .insert 3, .insert 5, .insert 7, .remove 3, .lookup 7, .insert 9, .insert 7, .lookup 3]) =
    some [(none, 1), (none, 2), (none, 3), (none, 4), (none, 3), (some 7, 3), (none, 4), (some 7, 4), (none, 4)] := by
  decide +kernel

/-! ## Reserving without inserting

parts/yaep.c 6615-6620 ask for entries with reservation and leave them empty; the comment of `find_hash_table_entry`
(1752-1754) asks for the element to be inserted. -/

/-- Entries reserved and left empty change no answer, whatever else is done. -/
def ReserveHarmless (hash : α → UInt32) (eq : α → α → Bool) : Prop :=
  ∀ size t ops, RemovesPresent eq [] ops → hcreate α size = some t →
    (hrun hash eq t ops).map (·.map (·.1)) = some ((setAnswers eq [] ops).map (·.1))

/-- Not when elements were removed: the reservation makes the entry of a removed element empty, and what was placed
behind it is lost. -/
theorem C91_reserve_false : HashesFit (fun n : Nat => (n % 2).toUInt32) (fun a b => a == b) ∧
    ¬ ReserveHarmless (fun n : Nat => (n % 2).toUInt32) (fun a b => a == b) := by
  refine ⟨⟨by simp, by simp, by simp, by simp⟩, fun h => ?_⟩
  have hr : RemovesPresent (fun a b : Nat => a == b) [] [.insert 1, .insert 3, .remove 1, .reserve 5, .lookup 3] := by
    refine ⟨(by simp), (by simp), ?_, (by simp), (by simp), trivial⟩
    intro x hx
    cases hx
    exact ⟨1, by decide, by decide⟩
  have := h 9 ⟨List.replicate 11 .empty, 0, 0⟩ _ hr (by decide +kernel)
  exact absurd this (by decide +kernel)

/-- It also counts them. -/
def ReserveUncounted : Prop :=
  ∀ (x : Nat) (t t' : HTable Nat) (r : Option Nat), hcreate Nat 9 = some t →
    hstep (fun n => n.toUInt32) (fun a b => a == b) t (.reserve x) = some (t', r) → hcount t' = 0

theorem C91_reserve_count_false : ¬ ReserveUncounted := by
  intro h
  have := h 1 ⟨List.replicate 11 .empty, 0, 0⟩ ⟨List.replicate 11 .empty, 1, 0⟩ none (by decide +kernel) (by decide +kernel)
  exact absurd this (by decide)

/-! ## The tables of yaep.c -/

theorem sameIds_eq (v w : List UInt32) (h : v.length = w.length) : sameIds v w = true ↔ v = w := by
  induction v generalizing w with
  | nil => cases w with
    | nil => simp [sameIds]
    | cons b w => simp at h
  | cons a v ih => cases w with
    | nil => simp at h
    | cons b w =>
      have := ih w (by simpa using h)
      by_cases e : a = b <;> simp [sameIds, e, this]

theorem vectIdsEq_iff (v w : List UInt32) : vectIdsEq v w = true ↔ v = w := by
  unfold vectIdsEq
  by_cases h : v.length = w.length
  · simp [h, sameIds_eq v w h]
  · simp only [ne_eq, h, not_false_eq_true, if_true]
    exact ⟨fun h => (by cases h), fun e => absurd (congrArg List.length e) h⟩

/-- **C91.** The hashes and equalities that the tables of yaep.c are created with fit together. -/
theorem C91_tables_of_yaep (hashes : Nat → UInt32 × UInt32) :
    (∀ a b : { s : List Byte // (0 : Byte) ∉ s }, symbReprEq a.1 b.1 = true ↔ a = b) ∧
    HashesFit (fun a : { s : List Byte // (0 : Byte) ∉ s } => symbReprHash a.1) (fun a b => symbReprEq a.1 b.1) ∧
    (∀ v w, vectIdsEq v w = true ↔ v = w) ∧ HashesFit vectIdsHash vectIdsEq ∧
    (∀ a b, coreTermLookaheadEq a b = true ↔ a = b) ∧
    HashesFit (coreTermLookaheadHash hashes) coreTermLookaheadEq := by
  have fit : ∀ {β : Type} (h : β → UInt32) (e : β → β → Bool), (∀ a b, e a b = true ↔ a = b) → HashesFit h e :=
    fun h e he => ⟨fun a => (he a a).2 rfl, fun a b hab => (he b a).2 ((he a b).1 hab).symm,
      fun a b c hab hbc => (he a c).2 (((he a b).1 hab).trans ((he b c).1 hbc)), fun a b hab => by rw [(he a b).1 hab]⟩
  have h1 : ∀ a b : { s : List Byte // (0 : Byte) ∉ s }, symbReprEq a.1 b.1 = true ↔ a = b := by
    intro a b
    unfold symbReprEq
    rw [decide_eq_true_eq, strcmp_zero a.1 b.1 a.2 b.2]
    exact Subtype.ext_iff.symm
  have h3 : ∀ a b, coreTermLookaheadEq a b = true ↔ a = b := by
    intro a b
    cases a; cases b
    simp [coreTermLookaheadEq, and_assoc]
  exact ⟨h1, fit _ _ h1, vectIdsEq_iff, fit _ _ vectIdsEq_iff, h3, fit _ _ h3⟩

end Xmq.Props
