import Verif.Model.Containers
/-!
# C22 vector, C23 memory buffer
-/
namespace Xmq.Props
open Xmq

/-- The abstract vector: a list. -/
def seqStep {α : Type} (l : List α) : VectorOp α → Option (List α × Option α)
  | .push x => some (l ++ [x], none)
  | .pop => match l.getLast? with | none => none | some x => some (l.dropLast, some x)
  | .get i => match l[i]? with | none => none | some x => some (l, some x)

/-- A sequence of calls on the abstract vector. -/
def seqRun {α : Type} (l : List α) : List (VectorOp α) → Option (List α × List (Option α))
  | [] => some (l, [])
  | op :: ops =>
    match seqStep l op with
    | none => none
    | some (l', r) => (seqRun l' ops).map fun q => (q.1, r :: q.2)

/-- The block starts with the elements of the list. -/
structure VRepr {α : Type} (v : Vector α) (l : List α) : Prop where
  size : v.size = l.length
  cap : v.elements.length = v.elementsSize
  pos : 0 < v.elementsSize
  le : v.size ≤ v.elementsSize
  content : v.elements.take v.size = l.map some

theorem vrepr_push {α : Type} {v : Vector α} {l : List α} (h : VRepr v l) (x : α) :
    ∃ v', vectorPushBack v x = some v' ∧ VRepr v' (l ++ [x]) := by
  obtain ⟨hs, hc, hp, hle, ht⟩ := h
  -- the block that is written to
  have key : ∀ (els : List (Option α)) (es : Nat), els.length = es → v.size < es → els.take v.size = l.map some →
      ∃ els', blockWrite els v.size (some x) = some els' ∧ VRepr ⟨els', v.size + 1, es⟩ (l ++ [x]) := by
    intro els es h1 h2 h3
    refine ⟨els.set v.size (some x), by simp [blockWrite, h1, h2], ?_, by simp [h1], by simp only; omega, by simp only; omega, ?_⟩
    · simp [hs]
    · simp only
      have h4 : v.size < (els.set v.size (some x)).length := by simp [h1, h2]
      rw [List.take_succ_eq_append_getElem h4, List.take_set_of_le (Nat.le_refl _), h3]
      simp
  by_cases hg : v.size + 1 > v.elementsSize
  · have hes : v.size = v.elementsSize := by omega
    have hbig : ∀ n, v.elementsSize < n → 
        ∃ els', blockWrite (blockRealloc v.elements n) v.size (some x) = some els' ∧ VRepr ⟨els', v.size + 1, n⟩ (l ++ [x]) := by
      intro n hn
      apply key
      · simp [blockRealloc, hc]; omega
      · omega
      · simp only [blockRealloc]
        rw [List.take_append_of_le_length (by simp [hc]; omega), List.take_take, Nat.min_eq_left (by omega), ht]
    unfold vectorPushBack
    simp only [hg, if_true, Nat.add_sub_cancel]
    by_cases h10 : v.elementsSize ≥ 1024
    · simp only [h10, if_true]
      obtain ⟨e, h1, h2⟩ := hbig (v.elementsSize + 1024) (by omega)
      exact ⟨_, by rw [h1]; rfl, h2⟩
    · simp only [h10, if_false]
      obtain ⟨e, h1, h2⟩ := hbig (v.elementsSize * 2) (by omega)
      exact ⟨_, by rw [h1]; rfl, h2⟩
  · unfold vectorPushBack
    simp only [hg, if_false, Nat.add_sub_cancel]
    obtain ⟨e, h1, h2⟩ := key v.elements v.elementsSize hc (by omega) ht
    exact ⟨_, by rw [h1]; rfl, h2⟩

theorem vrepr_get {α : Type} {v : Vector α} {l : List α} (h : VRepr v l) (i : Nat) (hi : i < v.size) :
    v.elements[i]? = some l[i]? := by
  have := congrArg (fun m => m[i]?) h.content
  simp only [List.getElem?_take, hi, if_true, List.getElem?_map] at this
  rw [this]
  have : i < l.length := by rw [← h.size]; exact hi
  simp [this]

theorem vrepr_pop {α : Type} {v : Vector α} {l : List α} {x : α} (h : VRepr v (l ++ [x])) :
    ∃ v', vectorPopBack v = some (x, v') ∧ VRepr v' l := by
  have hs : v.size = l.length + 1 := by simp [h.size]
  have hg := vrepr_get h (v.size - 1) (by omega)
  have hlt : v.size - 1 < v.elements.length := by have := h.cap; have := h.le; omega
  rw [hs] at hg
  simp at hg
  refine ⟨⟨v.elements.set (v.size - 1) none, v.size - 1, v.elementsSize⟩, ?_, ?_, by simp [h.cap], h.pos, ?_, ?_⟩
  · simp only [vectorPopBack, hs]
    simp [hg, blockWrite]
    rw [hs] at hlt; simpa using hlt
  · simp [hs]
  · have := h.le; simp only; omega
  · have := congrArg (List.take l.length) h.content
    rw [List.take_take, Nat.min_eq_left (by omega)] at this
    simp only
    rw [List.take_set_of_le (by omega), hs, Nat.add_sub_cancel, this]; simp

theorem vrefine {α : Type} (ops : List (VectorOp α)) (v : Vector α) (l : List α) (h : VRepr v l) :
    match seqRun l ops with
    | none => vectorRun v ops = none
    | some (m, outs) => ∃ v', vectorRun v ops = some (v', outs) ∧ VRepr v' m := by
  induction ops generalizing v l with
  | nil => exact ⟨v, rfl, h⟩
  | cons op ops ih =>
    have hstep : match seqStep l op with
        | none => vectorStep v op = none
        | some (m, r) => ∃ v', vectorStep v op = some (v', r) ∧ VRepr v' m := by
      cases op with
      | push x =>
        obtain ⟨v', h1, h2⟩ := vrepr_push h x
        exact ⟨v', by simp [vectorStep, h1], h2⟩
      | pop =>
        rcases List.eq_nil_or_concat l with rfl | ⟨pre, a, rfl⟩
        · have := h.size; simp at this
          simp [seqStep, vectorStep, vectorPopBack, this]
        · rw [List.concat_eq_append] at h ⊢
          obtain ⟨v', h1, h2⟩ := vrepr_pop h
          simp only [seqStep, List.getLast?_concat, List.dropLast_concat]
          exact ⟨v', by simp [vectorStep, h1], h2⟩
      | get i =>
        have hs := h.size
        by_cases hi : i < v.size
        · have hg := vrepr_get h i hi
          have hl : l[i]? = some (l[i]'(by omega)) := by simp
          simp only [seqStep, hl]
          exact ⟨v, by rw [vectorStep, vectorElementAt, if_pos hi, hg, hl]; simp, h⟩
        · have hl : l[i]? = none := by simp; omega
          simp only [seqStep, hl]
          simp [vectorStep, vectorElementAt, hi]
    simp only [seqRun]
    cases hs : seqStep l op with
    | none => rw [hs] at hstep; simp only at hstep ⊢; simp [vectorRun, hstep]
    | some q =>
      obtain ⟨m, r⟩ := q
      rw [hs] at hstep
      obtain ⟨v', h1, h2⟩ := hstep
      have := ih v' m h2
      simp only
      cases hr : seqRun m ops with
      | none => rw [hr] at this; simp only [Option.map_none]; simp [vectorRun, h1, this]
      | some q2 =>
        rw [hr] at this
        obtain ⟨v2, h4, h5⟩ := this
        simp only [Option.map_some]
        exact ⟨v2, by simp [vectorRun, h1, h4], h5⟩

/-- **C22**.  Any sequence of push_back, pop_back and element_at on a new vector gives exactly the results of the same
    sequence on a list; it aborts exactly when the list operation has no result, and never accesses memory
    outside the allocated block. -/
theorem C22_vector_is_list {α : Type} (ops : List (VectorOp α)) :
    (vectorRun (vectorCreate α) ops).map Prod.snd = (seqRun [] ops).map Prod.snd := by
  have := vrefine ops (vectorCreate α) [] ⟨rfl, by simp [vectorCreate], by simp [vectorCreate], by simp [vectorCreate], by simp [vectorCreate]⟩
  cases hr : seqRun ([] : List α) ops with
  | none => rw [hr] at this; simp only at this; simp [this]
  | some q =>
    obtain ⟨m, outs⟩ := q
    rw [hr] at this
    obtain ⟨v', h1, -⟩ := this
    simp [h1]

/-- **C22** (size).  After any sequence of calls the size is the length of the list and fits the allocated block. -/
theorem C22_vector_size {α : Type} (ops : List (VectorOp α)) (v : Vector α) (outs : List (Option α))
    (h : vectorRun (vectorCreate α) ops = some (v, outs)) :
    ∃ l, seqRun [] ops = some (l, outs) ∧ v.size = l.length ∧ v.size ≤ v.elementsSize ∧
      v.elements.length = v.elementsSize := by
  have := vrefine ops (vectorCreate α) [] ⟨rfl, by simp [vectorCreate], by simp [vectorCreate], by simp [vectorCreate], by simp [vectorCreate]⟩
  cases hr : seqRun ([] : List α) ops with
  | none => rw [hr] at this; simp only at this; rw [this] at h; cases h
  | some q =>
    obtain ⟨m, outs'⟩ := q
    rw [hr] at this
    obtain ⟨v', h1, h2⟩ := this
    rw [h1] at h; simp at h
    obtain ⟨rfl, rfl⟩ := h
    exact ⟨m, rfl, h2.size, h2.le, h2.cap⟩

/-- Seventeen pushes go beyond the initial block of 16. -/
example : ((seqRun ([] : List Nat) ((List.range 17).map VectorOp.push ++ [.get 16, .pop, .pop])).map Prod.snd).map (List.drop 17) =
    some [some 16, some 16, some 15] := by decide +kernel

/-! ## Memory buffer -/

/-- The abstract memory buffer: the bytes appended so far.  `dropNull` removes a trailing NUL.  An entity can only be
    made for space, line feed, tab and carriage return. -/
def bytesStep (l : List Byte) : MemOp → Option (List Byte)
  | .region s => some (l ++ s)
  | .str s => some (l ++ s)
  | .chr c => some (l ++ [c])
  | .null => some (l ++ [0])
  | .dropNull => some (if l.getLast? = some 0 then l.dropLast else l)
  | .entity c =>
    if c = 32 then some (l ++ b#"&#32;") else if c = 10 then some (l ++ b#"&#10;")
    else if c = 9 then some (l ++ b#"&#9;") else if c = 13 then some (l ++ b#"&#13;") else none

/-- A sequence of calls on the abstract buffer. -/
def bytesRun (l : List Byte) : List MemOp → Option (List Byte)
  | [] => some l
  | op :: ops => (bytesStep l op).bind fun l => bytesRun l ops

/-- The block starts with the bytes. -/
structure MRepr (mb : MemBuffer) (l : List Byte) : Prop where
  used : mb.used = l.length
  cap : mb.buffer.length = mb.max
  le : mb.used ≤ mb.max
  content : mb.buffer.take mb.used = l.map some

theorem blockWrite_take {b : List (Option Byte)} {i : Nat} {c : Byte} {l : List Byte} (hi : i < b.length)
    (h : b.take i = l.map some) :
    ∃ b', blockWrite b i (some c) = some b' ∧ b'.length = b.length ∧ b'.take (i + 1) = (l ++ [c]).map some := by
  refine ⟨b.set i (some c), by simp [blockWrite, hi], by simp, ?_⟩
  have h4 : i < (b.set i (some c)).length := by simp [hi]
  rw [List.take_succ_eq_append_getElem h4, List.take_set_of_le (Nat.le_refl _), h]
  simp

theorem blockCopy_take (s : List Byte) {b : List (Option Byte)} {i : Nat} {l : List Byte}
    (hi : i + s.length ≤ b.length) (h : b.take i = l.map some) :
    ∃ b', blockCopy b i s = some b' ∧ b'.length = b.length ∧ b'.take (i + s.length) = (l ++ s).map some := by
  induction s generalizing b i l with
  | nil => exact ⟨b, rfl, rfl, by simpa using h⟩
  | cons c t ih =>
    simp at hi
    obtain ⟨b1, h1, h2, h3⟩ := blockWrite_take (c := c) (by omega) h
    obtain ⟨b2, h4, h5, h6⟩ := ih (b := b1) (i := i + 1) (by omega) h3
    refine ⟨b2, by simp [blockCopy, h1, h4], by omega, ?_⟩
    rw [List.length_cons, show i + (t.length + 1) = i + 1 + t.length by omega, h6]; simp

theorem realloc_take {b : List (Option Byte)} {n i : Nat} {l : List Byte} (hn : b.length ≤ n) (hi : i ≤ b.length)
    (h : b.take i = l.map some) :
    (blockRealloc b n).length = n ∧ (blockRealloc b n).take i = l.map some := by
  refine ⟨by simp [blockRealloc]; omega, ?_⟩
  rw [blockRealloc, List.take_append_of_le_length (by simp; omega), List.take_take, Nat.min_eq_left (by omega), h]

theorem pick_spec {max used add : Nat} (h : used ≤ max) :
    ∃ m, pickBufferNewSize max used add = some m ∧ used + add ≤ m ∧ max ≤ m := by
  unfold pickBufferNewSize
  simp only [h, if_true]
  by_cases h1 : used + add > max
  · simp only [h1, if_true]
    by_cases h2 : used + add > max + 1024
    · simp only [h2, if_true]
      rw [if_pos (by omega)]; exact ⟨_, rfl, by omega, by omega⟩
    · simp only [h2, if_false]
      rw [if_pos (by omega)]; exact ⟨_, rfl, by omega, by omega⟩
  · simp only [h1, if_false]
    rw [if_pos (by omega)]; exact ⟨_, rfl, by omega, by omega⟩

theorem mrepr_region {mb : MemBuffer} {l : List Byte} (h : MRepr mb l) (s : List Byte) :
    ∃ mb', membufferAppendRegion mb s = some mb' ∧ MRepr mb' (l ++ s) := by
  obtain ⟨hu, hc, hle, ht⟩ := h
  obtain ⟨m, hm, h1, h2⟩ := pick_spec (add := s.length) hle
  unfold membufferAppendRegion
  rw [hm]
  simp only [Option.bind_some]
  by_cases hg : m > mb.max
  · simp only [hg, if_true]
    obtain ⟨r1, r2⟩ := realloc_take (n := m) (by omega) (by omega) ht
    obtain ⟨b, c1, c2, c3⟩ := blockCopy_take s (by omega) r2
    exact ⟨_, by rw [c1]; rfl, by simp [hu], by simp only; omega, by simp only; omega, c3⟩
  · simp only [hg, if_false]
    obtain ⟨b, c1, c2, c3⟩ := blockCopy_take s (by omega) ht
    exact ⟨_, by rw [c1]; rfl, by simp [hu], by simp only; omega, by simp only; omega, c3⟩

theorem mrepr_loop (s : List Byte) (mb : MemBuffer) (to : Nat) (l : List Byte) (hto : to = l.length)
    (hc : mb.buffer.length = mb.max) (hle : to ≤ mb.max) (ht : mb.buffer.take to = l.map some) :
    ∃ mb', membufferAppendLoop mb to s = some mb' ∧ MRepr mb' (l ++ s) := by
  induction s generalizing mb to l with
  | nil => exact ⟨_, rfl, by simp [hto], hc, hle, by simpa using ht⟩
  | cons c t ih =>
    rw [membufferAppendLoop]
    by_cases hg : to ≥ mb.max
    · obtain ⟨m, hm, h1, h2⟩ := pick_spec (add := 1) hle
      obtain ⟨r1, r2⟩ := realloc_take (n := m) (by omega) (by omega) ht
      obtain ⟨b, c1, c2, c3⟩ := blockWrite_take (c := c) (by omega) r2
      obtain ⟨mb', e1, e2⟩ := ih ⟨b, to, m⟩ (to + 1) (l ++ [c]) (by simp [hto]) (by simp only; omega) (by simp only; omega) c3
      refine ⟨mb', ?_, by simpa using e2⟩
      simp only [hg, if_true, hm, Option.bind_some, c1, e1]
    · obtain ⟨b, c1, c2, c3⟩ := blockWrite_take (c := c) (by omega) ht
      obtain ⟨mb', e1, e2⟩ := ih { mb with buffer := b } (to + 1) (l ++ [c]) (by simp [hto]) (by simp only; omega) (by simp only; omega) c3
      refine ⟨mb', ?_, by simpa using e2⟩
      simp only [hg, if_false, c1, Option.bind_some, e1]

theorem mrepr_append {mb : MemBuffer} {l : List Byte} (h : MRepr mb l) (s : List Byte) :
    ∃ mb', membufferAppend mb s = some mb' ∧ MRepr mb' (l ++ s) :=
  mrepr_loop s mb mb.used l h.used h.cap h.le h.content

theorem mrepr_last {mb : MemBuffer} {l : List Byte} {c : Byte} (h : MRepr mb (l ++ [c])) :
    mb.buffer[mb.used - 1]? = some (some c) := by
  have hs : mb.used = l.length + 1 := by simp [h.used]
  have := congrArg (fun m => m[mb.used - 1]?) h.content
  simp only [List.getElem?_take, hs] at this
  rw [hs]; simpa using this

theorem mrepr_step {mb : MemBuffer} {l : List Byte} (h : MRepr mb l) (op : MemOp) :
    match bytesStep l op with
    | none => membufferStep mb op = none
    | some m => ∃ mb', membufferStep mb op = some mb' ∧ MRepr mb' m := by
  cases op with
  | region s => exact mrepr_region h s
  | str s => exact mrepr_append h s
  | chr c => exact mrepr_region h [c]
  | null => exact mrepr_region h [0]
  | dropNull =>
    rcases List.eq_nil_or_concat l with rfl | ⟨pre, c, rfl⟩
    · have := h.used; simp at this
      exact ⟨mb, by simp [membufferStep, membufferDropLastNull, this], h⟩
    · rw [List.concat_eq_append] at h ⊢
      have hl := mrepr_last h
      have hs : mb.used = pre.length + 1 := by simp [h.used]
      simp only [bytesStep, List.getLast?_concat, List.dropLast_concat, membufferStep, membufferDropLastNull]
      rw [if_pos (by omega), hl]
      by_cases hc : c = 0
      · subst hc
        simp only [if_true, beq_self_eq_true]
        refine ⟨_, rfl, by simp [hs], h.cap, ?_, ?_⟩
        · have := h.le; simp only; omega
        · have := congrArg (List.take pre.length) h.content
          rw [List.take_take, Nat.min_eq_left (by omega)] at this
          simp only [hs, Nat.add_sub_cancel]; rw [this]; simp
      · have : ¬ (some c = some (0 : Byte)) := by simpa using hc
        simp only [this, if_false]
        exact ⟨mb, by simp [hc], h⟩
  | entity c =>
    simp only [bytesStep, membufferStep, membufferAppendEntity, beq_iff_eq]
    by_cases h1 : c = 32
    · simp only [h1, if_true]; exact mrepr_append h _
    by_cases h2 : c = 10
    · subst h2; exact mrepr_append h _
    by_cases h3 : c = 9
    · subst h3; exact mrepr_append h _
    by_cases h4 : c = 13
    · subst h4; exact mrepr_append h _
    simp [h1, h2, h3, h4]

theorem mrefine (ops : List MemOp) (mb : MemBuffer) (l : List Byte) (h : MRepr mb l) :
    match bytesRun l ops with
    | none => membufferRun mb ops = none
    | some m => ∃ mb', membufferRun mb ops = some mb' ∧ MRepr mb' m := by
  induction ops generalizing mb l with
  | nil => exact ⟨mb, rfl, h⟩
  | cons op ops ih =>
    have hstep := mrepr_step h op
    simp only [bytesRun, membufferRun]
    cases hs : bytesStep l op with
    | none => rw [hs] at hstep; simp only at hstep; simp [hstep]
    | some m =>
      rw [hs] at hstep
      obtain ⟨mb', h1, h2⟩ := hstep
      rw [h1]
      exact ih mb' m h2

/-- **C23**.  After any sequence of appends of any lengths, the returned content of the memory buffer is exactly the
    concatenation of what was appended (with a trailing NUL dropped where asked); no access leaves the
    allocated block, whose size is the recorded capacity; the only abort is an entity for an unsupported byte. -/
theorem C23_membuffer_is_append_only (ops : List MemOp) :
    match bytesRun [] ops with
    | none => membufferRun newMembuffer ops = none
    | some l => ∃ mb, membufferRun newMembuffer ops = some mb ∧ membufferContent mb = l.map some ∧
        mb.used = l.length ∧ mb.used ≤ mb.max ∧ mb.buffer.length = mb.max ∧
        membufferBack mb = some (l.getLast?.getD 0) := by
  have := mrefine ops newMembuffer [] ⟨rfl, rfl, Nat.le_refl _, rfl⟩
  cases hr : bytesRun [] ops with
  | none => rw [hr] at this; exact this
  | some l =>
    rw [hr] at this
    obtain ⟨mb, h1, h2⟩ := this
    refine ⟨mb, h1, ?_, h2.used, h2.le, h2.cap, ?_⟩
    · have := h2.cap; have := h2.le
      rw [membufferContent, blockRealloc, h2.content, show mb.used - mb.buffer.length = 0 by omega]; simp
    · rcases List.eq_nil_or_concat l with rfl | ⟨pre, c, rfl⟩
      · have := h2.used; simp at this; simp [membufferBack, this]
      · rw [List.concat_eq_append] at h2 ⊢
        have hs : mb.used = pre.length + 1 := by simp [h2.used]
        rw [membufferBack, if_neg (by omega), mrepr_last h2]; simp

example : bytesRun [] [.str b#"ab", .null, .dropNull, .entity 10, .chr b#'x'] = some b#"ab&#10;x" := by decide +kernel

/-- **C23** (no aborts).  Without entity calls every sequence succeeds. -/
theorem C23_never_aborts (ops : List MemOp) (h : ∀ c, MemOp.entity c ∉ ops) :
    ∃ mb, membufferRun newMembuffer ops = some mb := by
  have hb : ∀ l, ∃ m, bytesRun l ops = some m := by
    induction ops with
    | nil => intro l; exact ⟨l, rfl⟩
    | cons op ops ih =>
      intro l
      have ih := ih (fun c hc => h c (by simp [hc]))
      cases op with
      | entity c => exact absurd (by simp) (h c)
      | _ => exact ih _
  obtain ⟨m, hm⟩ := hb []
  have := C23_membuffer_is_append_only ops
  rw [hm] at this
  obtain ⟨mb, h1, -⟩ := this
  exact ⟨mb, h1⟩

end Xmq.Props
