import Verif.Model.YaepStack
import Verif.Spec.YaepStack
/-!
# C98: objects of the Earley parser stay where and what they are
-/
namespace Xmq.Props

open Xmq Xmq.YaepStack Xmq.Spec

/-! ## Reading and writing -/

theorem readAt_length (m : Mem) (id off n : Nat) : (readAt m id off n).length = n := by simp [readAt]

theorem readAt_getElem? (m : Mem) (id off n i : Nat) :
    (readAt m id off n)[i]? = if i < n then some (m id (off + i)) else none := by
  by_cases h : i < n <;> simp [readAt, h]

theorem readAt_add (m : Mem) (id off a b : Nat) :
    readAt m id off (a + b) = readAt m id off a ++ readAt m id (off + a) b := by
  simp only [readAt, List.range_add, List.map_append, List.map_map]
  congr 1
  apply List.map_congr_left
  intro i _
  simp [Nat.add_assoc]

theorem readAt_congr (m m' : Mem) (id id' off off' n : Nat) (h : ∀ i, i < n → m id (off + i) = m' id' (off' + i)) :
    readAt m id off n = readAt m' id' off' n := by
  apply List.map_congr_left
  intro i hi
  exact h i (List.mem_range.1 hi)

theorem readAt_write_same (m : Mem) (id off : Nat) (bs : List Byte) :
    readAt (writeAt m id off bs) id off bs.length = bs := by
  apply List.ext_getElem?
  intro i
  rw [readAt_getElem?]
  by_cases h : i < bs.length
  · rw [if_pos h, List.getElem?_eq_getElem h]
    simp only [writeAt]
    rw [if_pos ⟨trivial, by omega, by omega⟩]
    have : off + i - off = i := by omega
    simp [this, List.getD, List.getElem?_eq_getElem h]
  · rw [if_neg h, List.getElem?_eq_none (by omega)]

theorem readAt_write_other (m : Mem) (id off : Nat) (bs : List Byte) (id' off' n : Nat)
    (h : id' ≠ id ∨ off' + n ≤ off ∨ off + bs.length ≤ off') :
    readAt (writeAt m id off bs) id' off' n = readAt m id' off' n := by
  apply readAt_congr
  intro i hi
  simp only [writeAt]
  rw [if_neg]
  rintro ⟨h1, h2, h3⟩
  rcases h with h | h | h
  · exact h h1
  · omega
  · omega

theorem readAt_take (m : Mem) (id off n k : Nat) (h : k ≤ n) : (readAt m id off n).take k = readAt m id off k := by
  have : n = k + (n - k) := by omega
  rw [this, readAt_add, List.take_append_of_le_length (by rw [readAt_length]; exact Nat.le_refl _),
    List.take_of_length_le (by rw [readAt_length]; exact Nat.le_refl _)]

/-! ## The invariant -/

/-- An object with at least one byte is in a block that was not freed, inside of it, and in front of the top object. -/
def Kept (os : OS) (h : Handle) : Prop :=
  h.len ≠ 0 → (∃ L, (h.id, L) ∈ os.segs ∧ h.off + h.len ≤ L) ∧
    (∀ s r, os.segs = s :: r → h.id = s.1 → h.off + h.len ≤ os.start)

/-- Objects do not overlap. -/
def Apart (h h' : Handle) : Prop := h.len ≠ 0 → h.id = h'.id → h.off + h.len ≤ h'.off

/-- The state between two uses. -/
structure Good (os : OS) (hs : List Handle) (o : Objects) : Prop where
  chain : ∃ cur clen rest, os.segs = (cur, clen) :: rest ∧ os.segStop ≤ clen ∧ (rest = [] → os.initial ≤ os.segStop) ∧
    readAt os.mem cur os.start (os.stop - os.start) = o.top
  ids : (os.segs.map Prod.fst).Nodup
  fresh : ∀ s ∈ os.segs, s.1 < os.next
  freshH : ∀ h ∈ hs, h.id < os.next
  bottom : ∀ s, os.segs.getLast? = some s → os.initial ≤ s.2
  order : os.start ≤ os.stop
  room : os.stop ≤ os.segStop ∨ os.stop = os.start
  align : os.start % 8 = 0
  kept : ∀ h ∈ hs, Kept os h
  alignH : ∀ h ∈ hs, h.off % 8 = 0
  apart : hs.Pairwise Apart
  bytes : hs.map (Handle.bytes os.mem) = o.done

theorem create_good (m : Mem) (n : Nat) : Good (create m n) [] ⟨[], []⟩ where
  chain := ⟨0, _, [], rfl, Nat.le_refl _, fun _ => Nat.le_refl _, rfl⟩
  ids := by simp [create]
  fresh := by intro s hs; simp [create] at hs ⊢; simp [hs]
  freshH := by simp
  bottom := by intro s hs; simp [create] at hs ⊢; simp [← hs]
  order := Nat.le_refl _
  room := .inr rfl
  align := rfl
  kept := by simp
  alignH := by simp
  apart := List.Pairwise.nil
  bytes := rfl

theorem expand_good {os hs o} (g : Good os hs o) (add : Nat) (hadd : os.segStop < os.stop + add) :
    ∃ os', expandMemory os add = some os' ∧ Good os' hs o ∧ os'.stop + add ≤ os'.segStop := by
  obtain ⟨cur, clen, rest, hseg, hclen, hinit, htop⟩ := g.chain
  have horder := g.order
  have hroom := g.room
  have hbot := g.bottom
  rw [hseg] at hbot
  let len := os.stop - os.start
  let l0 := len + add
  let l1 := l0 + (l0 / 2 + 1)
  let l := if l1 < 512 then 512 else l1
  have hl : len + add ≤ l := by
    show len + add ≤ if l1 < 512 then 512 else l1
    split <;> omega
  have hne : ¬ (len ≠ 0 ∧ os.start + len > clen) := by rintro ⟨h1, h2⟩; omega
  have hgt : ¬ len > l := by omega
  have heq : expandMemory os add = some { os with
      segs := (os.next, l) :: (if os.start = 0 then rest else (cur, clen) :: rest)
      next := os.next + 1, start := 0, stop := len, segStop := l,
      mem := writeAt os.mem os.next 0 (readAt os.mem cur os.start len) } := by
    unfold expandMemory
    rw [hseg]
    simp only
    rw [if_neg hne, if_neg hgt]
  refine ⟨_, heq, ?_, hl⟩
  have hfr : ∀ s ∈ (cur, clen) :: rest, s.1 < os.next := by rw [← hseg]; exact g.fresh
  have hsub : ∀ s, s ∈ (if os.start = 0 then rest else (cur, clen) :: rest) → s ∈ (cur, clen) :: rest := by
    intro s hs; split at hs
    · exact List.mem_cons_of_mem _ hs
    · exact hs
  have hreadH : ∀ h ∈ hs, Handle.bytes (writeAt os.mem os.next 0 (readAt os.mem cur os.start len)) h = Handle.bytes os.mem h := by
    intro h hh
    exact readAt_write_other _ _ _ _ _ _ _ (.inl (Nat.ne_of_lt (g.freshH h hh)))
  refine ⟨⟨os.next, l, _, rfl, Nat.le_refl _, ?_, ?_⟩, ?_, ?_, ?_, ?_, Nat.zero_le _, .inl (by show len ≤ l; omega), rfl, ?_, g.alignH, g.apart, ?_⟩
  · intro hr
    show os.initial ≤ l
    by_cases hs0 : os.start = 0
    · rw [if_pos hs0] at hr
      have := hinit hr
      omega
    · rw [if_neg hs0] at hr; cases hr
  · show readAt (writeAt os.mem os.next 0 (readAt os.mem cur os.start len)) os.next 0 (len - 0) = o.top
    have := readAt_write_same os.mem os.next 0 (readAt os.mem cur os.start len)
    rw [readAt_length] at this
    rw [Nat.sub_zero, this]; exact htop
  · show (((os.next, l) :: (if os.start = 0 then rest else (cur, clen) :: rest)).map Prod.fst).Nodup
    have hids := g.ids
    rw [hseg] at hids
    rw [List.map_cons, List.nodup_cons]
    constructor
    · intro hm
      obtain ⟨s, hs, e⟩ := List.mem_map.1 hm
      have := hfr s (hsub s hs)
      simp only at e
      omega
    · split
      · rw [List.map_cons, List.nodup_cons] at hids; exact hids.2
      · exact hids
  · intro s hs
    show s.1 < os.next + 1
    rcases List.mem_cons.1 hs with rfl | hs
    · exact Nat.lt_succ_self _
    · exact Nat.lt_succ_of_lt (hfr s (hsub s hs))
  · intro h hh; exact Nat.lt_succ_of_lt (g.freshH h hh)
  · intro s hs
    show os.initial ≤ s.2
    simp only at hs
    by_cases hs0 : os.start = 0
    · rw [if_pos hs0] at hs
      cases hr : rest with
      | nil =>
        rw [hr] at hs
        simp at hs
        have := hinit hr
        rw [← hs]; show os.initial ≤ l; omega
      | cons a r =>
        rw [hr, List.getLast?_cons_cons] at hs
        rw [hr, List.getLast?_cons_cons] at hbot
        exact hbot s hs
    · rw [if_neg hs0, List.getLast?_cons_cons] at hs
      exact hbot s hs
  · intro h hh hn
    obtain ⟨⟨L, hL, hle⟩, hcur⟩ := g.kept h hh hn
    constructor
    · refine ⟨L, ?_, hle⟩
      rw [hseg] at hL
      show (h.id, L) ∈ (os.next, l) :: (if os.start = 0 then rest else (cur, clen) :: rest)
      apply List.mem_cons_of_mem
      by_cases hs0 : os.start = 0
      · rw [if_pos hs0]
        rcases List.mem_cons.1 hL with e | hL
        · have hid : h.id = cur := congrArg Prod.fst e
          have := hcur (cur, clen) rest hseg hid
          omega
        · exact hL
      · rw [if_neg hs0]; exact hL
    · intro s r e hid
      have e := List.cons.inj e
      rw [← e.1] at hid
      have := g.freshH h hh
      simp only at hid
      omega
  · rw [← g.bytes]
    exact List.map_congr_left hreadH

theorem write_good {os hs o} (g : Good os hs o) (bs : List Byte) (hb : os.stop + bs.length ≤ os.segStop ∨ bs = []) :
    ∃ os', writeTop os bs = some os' ∧ Good os' hs { o with top := o.top ++ bs } := by
  obtain ⟨cur, clen, rest, hseg, hclen, hinit, htop⟩ := g.chain
  have horder := g.order
  have hroom := g.room
  have hneg : ¬ (bs ≠ [] ∧ os.stop + bs.length > clen) := by
    rintro ⟨h1, h2⟩
    rcases hb with hb | hb
    · omega
    · exact h1 hb
  have heq : writeTop os bs = some { os with stop := os.stop + bs.length, mem := writeAt os.mem cur os.stop bs } := by
    unfold writeTop; rw [hseg]; simp only; rw [if_neg hneg]
  have hreadH : ∀ h ∈ hs, Handle.bytes (writeAt os.mem cur os.stop bs) h = Handle.bytes os.mem h := by
    intro h hh
    by_cases hn : h.len = 0
    · simp [Handle.bytes, hn, readAt]
    · apply readAt_write_other
      by_cases hid : h.id = cur
      · have := (g.kept h hh hn).2 _ _ hseg hid
        exact .inr (.inl (by omega))
      · exact .inl hid
  refine ⟨_, heq, ⟨⟨cur, clen, rest, hseg, hclen, hinit, ?_⟩, g.ids, g.fresh, g.freshH, g.bottom, ?_, ?_, g.align, g.kept, g.alignH,
    g.apart, ?_⟩⟩
  · show readAt (writeAt os.mem cur os.stop bs) cur os.start (os.stop + bs.length - os.start) = o.top ++ bs
    have e1 : os.stop + bs.length - os.start = (os.stop - os.start) + bs.length := by omega
    have e2 : os.start + (os.stop - os.start) = os.stop := by omega
    rw [e1, readAt_add, e2, readAt_write_same, readAt_write_other _ _ _ _ _ _ _ (.inr (.inl (by omega))), htop]
  · show os.start ≤ os.stop + bs.length; omega
  · show os.stop + bs.length ≤ os.segStop ∨ os.stop + bs.length = os.start
    rcases hb with hb | hb
    · exact .inl hb
    · subst hb; simpa using hroom
  · rw [← g.bytes]; exact List.map_congr_left hreadH

theorem addMemory_good {os hs o} (g : Good os hs o) (bs : List Byte) :
    ∃ os', addMemory os bs = some os' ∧ Good os' hs { o with top := o.top ++ bs } := by
  unfold addMemory
  split
  · rename_i h
    obtain ⟨os1, e1, g1, h1⟩ := expand_good g bs.length (by omega)
    rw [e1]
    exact write_good g1 bs (.inl h1)
  · exact write_good g bs (.inl (by omega))

theorem addByte_good {os hs o} (g : Good os hs o) (b : Byte) :
    ∃ os', addByte os b = some os' ∧ Good os' hs { o with top := o.top ++ [b] } := by
  unfold addByte
  split
  · rename_i h
    obtain ⟨os1, e1, g1, h1⟩ := expand_good g 1 (by omega)
    rw [e1]
    exact write_good g1 [b] (.inl h1)
  · exact write_good g [b] (.inl (by simp only [List.length_cons, List.length_nil]; omega))

theorem top_length {os hs o} (g : Good os hs o) : o.top.length = os.stop - os.start := by
  obtain ⟨cur, clen, rest, _, _, _, htop⟩ := g.chain
  rw [← htop, readAt_length]

/-- The stop set back to `k` bytes. -/
theorem cut_good {os hs o} (g : Good os hs o) (k : Nat) (hk : k ≤ os.stop - os.start) :
    Good { os with stop := os.start + k } hs { o with top := o.top.take k } := by
  obtain ⟨cur, clen, rest, hseg, hclen, hinit, htop⟩ := g.chain
  have horder := g.order
  have hroom := g.room
  refine ⟨⟨cur, clen, rest, hseg, hclen, hinit, ?_⟩, g.ids, g.fresh, g.freshH, g.bottom, ?_, ?_, g.align, g.kept, g.alignH,
    g.apart, g.bytes⟩
  · show readAt os.mem cur os.start (os.start + k - os.start) = o.top.take k
    rw [← htop, readAt_take _ _ _ _ _ hk]
    congr 1; omega
  · show os.start ≤ os.start + k; omega
  · show os.start + k ≤ os.segStop ∨ os.start + k = os.start
    omega

theorem shorten_good {os hs o} (g : Good os hs o) (n : Nat) :
    Good (shorten os n) hs { o with top := o.top.take (o.top.length - n) } := by
  have hl := top_length g
  have horder := g.order
  unfold shorten
  split
  · have := cut_good g 0 (Nat.zero_le _)
    have e : o.top.length - n = 0 := by omega
    rw [e]; exact this
  · rename_i h
    have := cut_good g (os.stop - os.start - n) (by omega)
    have e : os.start + (os.stop - os.start - n) = os.stop - n := by omega
    rw [e] at this
    rw [hl]; exact this

theorem nullify_good {os hs o} (g : Good os hs o) : Good (nullify os) hs { o with top := [] } :=
  cut_good g 0 (Nat.zero_le _)

theorem addString_good {os hs o} (g : Good os hs o) (s : List Byte) :
    ∃ os', addString os s = some os' ∧ Good os' hs { o with top := o.top.dropLast ++ s ++ [0] } := by
  have hl := top_length g
  unfold addString
  have g1 : Good (if os.stop ≠ os.start then shorten os 1 else os) hs { o with top := o.top.dropLast } := by
    split
    · rw [List.dropLast_eq_take]; exact shorten_good g 1
    · rename_i h
      have : o.top = [] := List.eq_nil_of_length_eq_zero (by omega)
      rw [this]
      have e : o = { o with top := [] } := by rw [← this]
      rw [List.dropLast_nil, ← e]; exact g
  have := addMemory_good g1 (s ++ [0])
  simpa [List.append_assoc] using this

theorem aligned_ge (a : Nat) : a ≤ aligned a ∧ aligned a < a + 8 ∧ aligned a % 8 = 0 := by
  unfold aligned; omega

theorem finish_good {os hs o} (g : Good os hs o) :
    Good (finish os) (hs ++ [topHandle os]) ⟨o.done ++ [o.top], []⟩ := by
  obtain ⟨cur, clen, rest, hseg, hclen, hinit, htop⟩ := g.chain
  have horder := g.order
  have hroom := g.room
  obtain ⟨ha1, ha2, ha3⟩ := aligned_ge os.stop
  have hth : topHandle os = ⟨cur, os.start, os.stop - os.start⟩ := by unfold topHandle; rw [hseg]
  rw [hth]
  refine ⟨⟨cur, clen, rest, hseg, hclen, hinit, ?_⟩, g.ids, g.fresh, ?_, g.bottom, Nat.le_refl _, .inr rfl, ha3, ?_, ?_, ?_, ?_⟩
  · show readAt os.mem cur (aligned os.stop) (aligned os.stop - aligned os.stop) = []
    rw [Nat.sub_self]; rfl
  · intro h hh
    rcases List.mem_append.1 hh with hh | hh
    · exact g.freshH h hh
    · rw [List.mem_singleton.1 hh]
      exact g.fresh (cur, clen) (by rw [hseg]; exact List.mem_cons_self ..)
  · intro h hh hn
    rcases List.mem_append.1 hh with hh | hh
    · obtain ⟨h1, h2⟩ := g.kept h hh hn
      refine ⟨h1, fun s r e hid => ?_⟩
      have := h2 s r e hid
      show h.off + h.len ≤ aligned os.stop
      omega
    · rw [List.mem_singleton.1 hh] at hn ⊢
      simp only at hn ⊢
      refine ⟨⟨clen, by show (cur, clen) ∈ os.segs; rw [hseg]; exact List.mem_cons_self .., by omega⟩, fun s r e hid => ?_⟩
      show os.start + (os.stop - os.start) ≤ aligned os.stop
      omega
  · intro h hh
    rcases List.mem_append.1 hh with hh | hh
    · exact g.alignH h hh
    · rw [List.mem_singleton.1 hh]; exact g.align
  · rw [List.pairwise_append]
    refine ⟨g.apart, List.pairwise_singleton _ _, ?_⟩
    intro h hh h' hh' hn hid
    rw [List.mem_singleton.1 hh'] at hid ⊢
    exact (g.kept h hh hn).2 _ _ hseg hid
  · show (hs ++ [_]).map (Handle.bytes os.mem) = o.done ++ [o.top]
    rw [List.map_append, g.bytes]
    show o.done ++ [readAt os.mem cur os.start (os.stop - os.start)] = _
    rw [htop]

theorem empty_good {os hs o} (g : Good os hs o) : ∃ os', empty os = some os' ∧ Good os' [] ⟨[], []⟩ := by
  obtain ⟨cur, clen, rest, hseg, hclen, hinit, htop⟩ := g.chain
  have hbot := g.bottom
  cases hl : os.segs.getLast? with
  | none => rw [hseg] at hl; simp at hl
  | some s =>
    have hi := hbot s hl
    refine ⟨{ os with segs := [s], start := 0, stop := 0, segStop := os.initial }, by unfold empty; rw [hl], ?_⟩
    refine ⟨⟨s.1, s.2, [], rfl, hi, fun _ => Nat.le_refl _, rfl⟩, by simp, ?_, by simp, ?_, Nat.le_refl _, .inr rfl, rfl, by simp,
      by simp, List.Pairwise.nil, rfl⟩
    · intro x hx
      rw [List.mem_singleton.1 hx]
      exact g.fresh s (List.mem_of_getLast? hl)
    · intro x hx
      simp at hx
      rw [← hx]; exact hi

/-- What a use asks for. -/
def askOf : Op → Ask
  | .add bs => .add bs
  | .byte b => .add [b]
  | .str s => .string s
  | .shorten n => .remove n
  | .nullify => .clear
  | .finish => .finish
  | .empty => .empty

theorem step_good {os hs o} (g : Good os hs o) (op : Op) :
    ∃ os' hs', step (os, hs) op = some (os', hs') ∧ Good os' hs' (o.after (askOf op)) ∧
      (op ≠ .empty → ∃ l, hs' = hs ++ l) := by
  cases op with
  | add bs =>
    obtain ⟨os', e, g'⟩ := addMemory_good g bs
    exact ⟨os', hs, by simp [step, e], g', fun _ => ⟨[], by simp⟩⟩
  | byte b =>
    obtain ⟨os', e, g'⟩ := addByte_good g b
    exact ⟨os', hs, by simp [step, e], g', fun _ => ⟨[], by simp⟩⟩
  | str s =>
    obtain ⟨os', e, g'⟩ := addString_good g s
    exact ⟨os', hs, by simp [step, e], g', fun _ => ⟨[], by simp⟩⟩
  | shorten n => exact ⟨_, hs, rfl, shorten_good g n, fun _ => ⟨[], by simp⟩⟩
  | nullify => exact ⟨_, hs, rfl, nullify_good g, fun _ => ⟨[], by simp⟩⟩
  | finish => exact ⟨_, _, rfl, finish_good g, fun _ => ⟨_, rfl⟩⟩
  | empty =>
    obtain ⟨os', e, g'⟩ := empty_good g
    exact ⟨os', [], by simp [step, e], g', fun h => absurd rfl h⟩

theorem run_good {os hs o} (g : Good os hs o) (ops : List Op) :
    ∃ os' hs', run (os, hs) ops = some (os', hs') ∧ Good os' hs' (o.afterAll (ops.map askOf)) ∧
      ((∀ op ∈ ops, op ≠ .empty) → ∃ l, hs' = hs ++ l) := by
  induction ops generalizing os hs o with
  | nil => exact ⟨os, hs, rfl, g, fun _ => ⟨[], by simp⟩⟩
  | cons op r ih =>
    obtain ⟨os1, hs1, e1, g1, p1⟩ := step_good g op
    obtain ⟨os2, hs2, e2, g2, p2⟩ := ih g1
    refine ⟨os2, hs2, by simp only [run, e1]; exact e2, g2, ?_⟩
    intro h
    obtain ⟨l1, q1⟩ := p1 (h op (List.mem_cons_self ..))
    obtain ⟨l2, q2⟩ := p2 (fun op' hm => h op' (List.mem_cons_of_mem _ hm))
    exact ⟨l1 ++ l2, by rw [q2, q1, List.append_assoc]⟩

/-- Whatever memory contains at first, however large the first segment is and whatever is done: there is no read or write outside of
    memory or in memory that was freed, and the object being made and all objects finished contain what was asked for. -/
theorem C98_objects (m : Mem) (initial : Nat) (ops : List Op) :
    ∃ os hs, run (create m initial, []) ops = some (os, hs) ∧
      (topHandle os).bytes os.mem = (Objects.afterAll ⟨[], []⟩ (ops.map askOf)).top ∧
      hs.map (Handle.bytes os.mem) = (Objects.afterAll ⟨[], []⟩ (ops.map askOf)).done := by
  obtain ⟨os, hs, e, g, _⟩ := run_good (create_good m initial) ops
  refine ⟨os, hs, e, ?_, g.bytes⟩
  obtain ⟨cur, clen, rest, hseg, _, _, htop⟩ := g.chain
  rw [← htop]
  unfold topHandle
  rw [hseg]; rfl

/-- Objects finished are aligned, do not overlap with each other or the object being made, and are in memory that was not freed. -/
theorem C98_apart (m : Mem) (initial : Nat) (ops : List Op) (os : OS) (hs : List Handle)
    (h : run (create m initial, []) ops = some (os, hs)) :
    (∀ x ∈ hs, x.off % 8 = 0) ∧
    (∀ i j (hi : i < hs.length) (hj : j < hs.length), i < j → (hs[i]).len ≠ 0 → (hs[i]).id = (hs[j]).id →
      (hs[i]).off + (hs[i]).len ≤ (hs[j]).off) ∧
    (∀ x ∈ hs, x.len ≠ 0 → (x.id = (topHandle os).id → x.off + x.len ≤ (topHandle os).off) ∧
      ∃ L, (x.id, L) ∈ os.segs ∧ x.off + x.len ≤ L) := by
  obtain ⟨os', hs', e, g, _⟩ := run_good (create_good m initial) ops
  rw [h] at e
  cases e
  refine ⟨g.alignH, ?_, ?_⟩
  · intro i j hi hj hij hn hid
    exact (List.pairwise_iff_getElem.1 g.apart) i j hi hj hij hn hid
  · intro x hx hn
    obtain ⟨h1, h2⟩ := g.kept x hx hn
    refine ⟨fun hid => ?_, h1⟩
    obtain ⟨cur, clen, rest, hseg, _⟩ := g.chain
    have e : (topHandle os).id = cur := by unfold topHandle; rw [hseg]
    exact h2 _ _ hseg (by rw [hid, e])

theorem run_append (s : OS × List Handle) (a b : List Op) :
    run s (a ++ b) = match run s a with | some s' => run s' b | none => none := by
  induction a generalizing s with
  | nil => rfl
  | cons o r ih =>
    simp only [List.cons_append, run]
    cases step s o with
    | none => rfl
    | some s' => exact ih s'

/-- An object that is finished is never moved and never changed, whatever is done afterwards, until the stack is emptied. -/
theorem C98_stays (m : Mem) (initial : Nat) (ops more : List Op) (hmore : ∀ op ∈ more, op ≠ .empty) :
    ∃ os hs os' hs', run (create m initial, []) ops = some (os, hs) ∧ run (create m initial, []) (ops ++ more) = some (os', hs') ∧
      ∀ i (hi : i < hs.length), ∃ hi' : i < hs'.length, hs'[i] = hs[i] ∧
        (hs[i]).bytes os'.mem = (hs[i]).bytes os.mem := by
  obtain ⟨os, hs, e, g, _⟩ := run_good (create_good m initial) ops
  obtain ⟨os', hs', e', g', p⟩ := run_good g more
  obtain ⟨l, hl⟩ := p hmore
  refine ⟨os, hs, os', hs', e, by rw [run_append, e]; exact e', ?_⟩
  intro i hi
  subst hl
  have hi' : i < (hs ++ l).length := by rw [List.length_append]; omega
  refine ⟨hi', List.getElem_append_left hi, ?_⟩
  have hd : ∀ (q : List Op) (o : Objects), (∀ op ∈ q, op ≠ .empty) → ∃ r, (o.afterAll (q.map askOf)).done = o.done ++ r := by
    intro q
    induction q with
    | nil => intro o _; exact ⟨[], by simp [Objects.afterAll]⟩
    | cons op q ih =>
      intro o hq
      obtain ⟨r, hr⟩ := ih (o.after (askOf op)) (fun x hx => hq x (List.mem_cons_of_mem _ hx))
      have h1 : ∃ r1, (o.after (askOf op)).done = o.done ++ r1 := by
        cases op with
        | empty => exact absurd rfl (hq _ (List.mem_cons_self ..))
        | finish => exact ⟨_, rfl⟩
        | _ => exact ⟨[], by simp [askOf, Objects.after]⟩
      obtain ⟨r1, h1⟩ := h1
      refine ⟨r1 ++ r, ?_⟩
      show ((o.after (askOf op)).afterAll (q.map askOf)).done = _
      rw [hr, h1, List.append_assoc]
  obtain ⟨r, hr⟩ := hd more (Objects.afterAll ⟨[], []⟩ (ops.map askOf)) hmore
  have b1 := g.bytes
  have b2 := g'.bytes
  rw [hr, ← b1] at b2
  have b3 := congrArg (fun x => x[i]?) b2
  rw [List.map_append, List.getElem?_append_left (by simpa using hi), List.getElem?_append_left (by simpa using hi),
    List.getElem?_map, List.getElem?_map, List.getElem?_eq_getElem hi] at b3
  exact Option.some.inj b3

/-- A block has room for its segment, wherever it is: 8 bytes for the pointer and 8 of `os_segment_contest` are asked for in addition. -/
theorem C98_segment_fits (base len : Nat) :
    base + 8 ≤ aligned (base + 8) ∧ aligned (base + 8) + len ≤ base + (len + 16) := by
  unfold aligned; omega

example : ((run (create (fun _ _ => 7) 4, []) [.add [1, 2, 3], .finish, .str [5, 6], .str [8], .finish, .byte 9]).map fun s =>
    (s.2, s.2.map (Handle.bytes s.1.mem), (topHandle s.1).bytes s.1.mem)) =
    some ([⟨0, 0, 3⟩, ⟨1, 0, 4⟩], [[1, 2, 3], [5, 6, 8, 0]], [9]) := by decide +kernel

/-! ## Objects of variable length -/

/-- What a use of an object of variable length asks for; nothing, if memory is only given back. -/
def askOfV : VOp → List Ask
  | .add _ bs => [.add bs]
  | .byte _ b => [.add [b]]
  | .str _ s => [.string s]
  | .shorten n => [.remove n]
  | .nullify => [.clear]
  | .tailor _ => []

/-- The bytes of the object. -/
def vloBytes (v : VLO) : List Byte := (List.range v.len).map v.mem

/-- The state between two uses. -/
structure GoodV (v : VLO) (o : List Byte) : Prop where
  room : v.len ≤ v.cap
  some' : 0 < v.cap
  bytes : vloBytes v = o

theorem vloBytes_length (v : VLO) : (vloBytes v).length = v.len := by simp [vloBytes]

theorem vloRealloc_good {v o} (g : GoodV v o) (j : Nat → Byte) (cap : Nat) (h : v.len ≤ cap) (h0 : 0 < cap) :
    GoodV (vloRealloc v j cap) o := by
  refine ⟨h, h0, ?_⟩
  rw [← g.bytes]
  apply List.map_congr_left
  intro i hi
  have hi := List.mem_range.1 hi
  have := g.room
  have hi : i < v.len := hi
  show (if i < min v.cap cap then v.mem i else j i) = v.mem i
  rw [if_pos (by omega)]

theorem vloWrite_good {v o} (g : GoodV v o) (bs : List Byte) (h : v.len + bs.length ≤ v.cap) :
    ∃ v', vloWrite v bs = some v' ∧ GoodV v' (o ++ bs) := by
  have e : vloWrite v bs = some { v with
      mem := fun j => if v.len ≤ j ∧ j < v.len + bs.length then bs.getD (j - v.len) 0 else v.mem j
      len := v.len + bs.length } := by
    unfold vloWrite; rw [if_neg (by rintro ⟨_, h2⟩; omega)]
  refine ⟨_, e, ⟨h, g.some', ?_⟩⟩
  rw [← g.bytes]
  simp only [vloBytes, List.range_add, List.map_append, List.map_map]
  congr 1
  · apply List.map_congr_left
    intro i hi
    have hi := List.mem_range.1 hi
    rw [if_neg (by omega)]
  · apply List.ext_getElem?
    intro i
    by_cases hi : i < bs.length
    · simp [hi, List.getD]
    · simp [hi, Nat.le_of_not_lt hi]

theorem vloExpand_good {v o} (g : GoodV v o) (j : Nat → Byte) (n : Nat) :
    GoodV (vloExpand v j n) o ∧ (vloExpand v j n).len + n ≤ (vloExpand v j n).cap := by
  refine ⟨vloRealloc_good g j _ (by omega) (by omega), ?_⟩
  show v.len + n ≤ v.len + n + ((v.len + n) / 2 + 1)
  omega

theorem vloAdd_good {v o} (g : GoodV v o) (j : Nat → Byte) (bs : List Byte) :
    ∃ v', vloAdd v j bs = some v' ∧ GoodV v' (o ++ bs) := by
  unfold vloAdd
  split
  · obtain ⟨g1, h1⟩ := vloExpand_good g j bs.length
    exact vloWrite_good g1 bs h1
  · exact vloWrite_good g bs (by omega)

theorem vloByte_good {v o} (g : GoodV v o) (j : Nat → Byte) (b : Byte) :
    ∃ v', vloByte v j b = some v' ∧ GoodV v' (o ++ [b]) := by
  unfold vloByte
  split
  · obtain ⟨g1, h1⟩ := vloExpand_good g j 1
    exact vloWrite_good g1 [b] h1
  · exact vloWrite_good g [b] (by simp only [List.length_cons, List.length_nil]; omega)

theorem vloShorten_good {v o} (g : GoodV v o) (n : Nat) : GoodV (vloShorten v n) (o.take (o.length - n)) := by
  have hr := g.room
  have hb := g.bytes
  have hl : o.length = v.len := by rw [← hb, vloBytes_length]
  have key : ∀ k, k ≤ v.len → GoodV { v with len := k } (o.take k) := by
    intro k hk
    refine ⟨by show k ≤ v.cap; omega, g.some', ?_⟩
    rw [← hb]
    show (List.range k).map v.mem = ((List.range v.len).map v.mem).take k
    rw [← List.map_take, List.take_range, Nat.min_eq_left hk]
  unfold vloShorten
  split
  · have : o.length - n = 0 := by omega
    rw [this]; exact key 0 (Nat.zero_le _)
  · rw [hl]; exact key _ (by omega)

theorem vloStep_good {v o} (g : GoodV v o) (op : VOp) :
    ∃ v', vloStep v op = some v' ∧ GoodV v' (Objects.afterAll ⟨[], o⟩ (askOfV op)).top := by
  have hl : o.length = v.len := by rw [← g.bytes, vloBytes_length]
  cases op with
  | add j bs => exact vloAdd_good g j bs
  | byte j b => exact vloByte_good g j b
  | str j s =>
    have g1 : GoodV (if v.len ≠ 0 then vloShorten v 1 else v) o.dropLast := by
      split
      · rw [List.dropLast_eq_take]; exact vloShorten_good g 1
      · rename_i h
        have : o = [] := List.eq_nil_of_length_eq_zero (by omega)
        rw [this, List.dropLast_nil, ← this]; exact g
    have := vloAdd_good g1 j (s ++ [0])
    simpa [vloStep, vloString, askOfV, Objects.afterAll, Objects.after, List.append_assoc] using this
  | shorten n => exact ⟨_, rfl, vloShorten_good g n⟩
  | nullify =>
    refine ⟨_, rfl, ⟨Nat.zero_le _, g.some', rfl⟩⟩
  | tailor j =>
    refine ⟨_, rfl, vloRealloc_good g j _ ?_ ?_⟩
    · split <;> omega
    · split <;> omega

/-- Whatever memory contains and whatever is done: nothing is written outside of the memory of an object of variable length, and it
    contains what was asked for. -/
theorem C98_variable (m : Nat → Byte) (initial : Nat) (ops : List VOp) :
    ∃ v, vloRun (vloCreate m initial) ops = some v ∧ v.len ≤ v.cap ∧
      vloBytes v = (Objects.afterAll ⟨[], []⟩ (ops.flatMap askOfV)).top := by
  have key : ∀ (ops : List VOp) (v : VLO) (o : List Byte), GoodV v o → ∃ v', vloRun v ops = some v' ∧
      GoodV v' (Objects.afterAll ⟨[], o⟩ (ops.flatMap askOfV)).top := by
    intro ops
    induction ops with
    | nil => intro v o g; exact ⟨v, rfl, g⟩
    | cons op r ih =>
      intro v o g
      obtain ⟨v1, e1, g1⟩ := vloStep_good g op
      obtain ⟨v2, e2, g2⟩ := ih v1 _ g1
      refine ⟨v2, by simp only [vloRun, e1]; exact e2, ?_⟩
      rw [List.flatMap_cons]
      have : Objects.afterAll ⟨[], o⟩ (askOfV op ++ r.flatMap askOfV) =
          Objects.afterAll ⟨[], (Objects.afterAll ⟨[], o⟩ (askOfV op)).top⟩ (r.flatMap askOfV) := by
        rw [Objects.afterAll, List.foldl_append]
        congr 1
        cases op <;> rfl
      rw [this]; exact g2
  have g0 : GoodV (vloCreate m initial) [] := by
    refine ⟨Nat.zero_le _, ?_, rfl⟩
    unfold vloCreate
    simp only
    split <;> omega
  obtain ⟨v, e, g⟩ := key ops _ _ g0
  exact ⟨v, e, g.room, g.bytes⟩

example : ((vloRun (vloCreate (fun _ => 7) 2) [.str (fun _ => 1) [5, 6], .tailor (fun _ => 1), .str (fun _ => 2) [8], .byte (fun _ => 3) 9]).map
    vloBytes) = some [5, 6, 8, 0, 9] := by decide +kernel

end Xmq.Props
