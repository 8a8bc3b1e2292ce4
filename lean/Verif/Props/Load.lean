import Verif.Spec.Load
import Verif.Props.Containers
/-!
# C83: what is loaded is what is there, however the system portions it
-/
namespace Xmq.Props
open Xmq Xmq.Load Xmq.Spec.Load

theorem stdinEnd_eq {mb : MemBuffer} {l : List Byte} (h : MRepr mb l) : stdinEnd mb = some (.ok l.length (closed l)) := by
  obtain ⟨mb', e, h'⟩ := mrepr_region h [0]
  have hc : membufferContent mb' = closed l := by
    have hl := h'.le; have hcap := h'.cap
    simp only [membufferContent, blockRealloc]
    rw [h'.content, show mb'.used - mb'.buffer.length = 0 by omega]
    simp [closed]
  simp [stdinEnd, e, hc, h'.used]

theorem not_complete_nil (s : List Byte) : ¬ Complete s [] := by
  rintro ⟨pre, k, post, e, -⟩
  simp at e

theorem complete_interrupted (s : List Byte) (as : List Answer) : Complete s (.interrupted :: as) ↔ Complete s as := by
  constructor
  · rintro ⟨pre, k, post, e, hf, hl⟩
    cases pre with
    | nil => simp at e
    | cons a pre =>
      simp at e
      obtain ⟨rfl, e⟩ := e
      exact ⟨pre, k, post, e, by simp at hf; exact hf, by simpa [most] using hl⟩
  · rintro ⟨pre, k, post, e, hf, hl⟩
    exact ⟨.interrupted :: pre, k, post, by simp [e], by simpa using hf, by simpa [most] using hl⟩

theorem complete_failed (s : List Byte) (as : List Answer) : ¬ Complete s (.failed :: as) := by
  rintro ⟨pre, k, post, e, hf, hl⟩
  cases pre with
  | nil => simp at e
  | cons a pre => simp at e; obtain ⟨rfl, e⟩ := e; simp at hf

theorem complete_bytes (s : List Byte) (k : Nat) (as : List Answer) :
    Complete s (.bytes k :: as) ↔ s = [] ∨ Complete (s.drop (min (k + 1) 1024)) as := by
  constructor
  · rintro ⟨pre, k', post, e, hf, hl⟩
    cases pre with
    | nil => left; simpa [most] using hl
    | cons a pre =>
      simp at e
      obtain ⟨rfl, e⟩ := e
      refine Or.inr ⟨pre, k', post, e, by simp at hf; exact hf, ?_⟩
      simp only [most, List.map_cons, List.sum_cons] at hl
      simp only [most, List.length_drop]; omega
  · rintro (rfl | ⟨pre, k', post, e, hf, hl⟩)
    · exact ⟨[], k, as, rfl, by simp, by simp⟩
    · refine ⟨.bytes k :: pre, k', post, by simp [e], by simpa using hf, ?_⟩
      simp only [most, List.length_drop] at hl
      simp only [most, List.map_cons, List.sum_cons]; omega

theorem stdinLoop_spec (as : List Answer) (mb : MemBuffer) (l rest : List Byte) (h : MRepr mb l) :
    ∃ r, stdinLoop mb rest as = some r ∧ (Complete rest as → r = .ok (l ++ rest).length (closed (l ++ rest))) ∧
      (¬ Complete rest as → r = if .failed ∈ as then .failed else .waiting) := by
  induction as generalizing mb l rest with
  | nil => exact ⟨.waiting, rfl, fun hc => absurd hc (not_complete_nil _), fun _ => by simp⟩
  | cons a as ih =>
    cases a with
    | interrupted =>
      obtain ⟨r, e, h1, h2⟩ := ih mb l rest h
      refine ⟨r, by simpa [stdinLoop] using e, fun hc => h1 ((complete_interrupted _ _).mp hc), fun hn => ?_⟩
      rw [h2 (fun hc => hn ((complete_interrupted _ _).mpr hc))]
      simp
    | failed => exact ⟨.failed, rfl, fun hc => absurd hc (complete_failed _ _), fun _ => by simp⟩
    | bytes k =>
      rw [stdinLoop]
      by_cases hr : rest = []
      · subst hr
        refine ⟨_, by simpa using stdinEnd_eq h, fun _ => by simp, fun hn => absurd ((complete_bytes _ _ _).mpr (Or.inl rfl)) hn⟩
      · have hp : 0 < rest.length := List.length_pos_iff.mpr hr
        have hlen : (rest.take (min (k + 1) 1024)).length ≠ 0 := by simp only [List.length_take]; omega
        obtain ⟨mb', e', h'⟩ := mrepr_region h (rest.take (min (k + 1) 1024))
        obtain ⟨r, e, h1, h2⟩ := ih mb' _ (rest.drop (rest.take (min (k + 1) 1024)).length) h'
        have hd : rest.drop (rest.take (min (k + 1) 1024)).length = rest.drop (min (k + 1) 1024) := by
          rw [List.length_take, List.drop_eq_drop_iff]; omega
        have hl : l ++ rest.take (min (k + 1) 1024) ++ rest.drop (min (k + 1) 1024) = l ++ rest := by simp
        rw [hd] at h1 h2 e
        rw [hl] at h1
        refine ⟨r, ?_, fun hc => h1 (((complete_bytes _ _ _).mp hc).resolve_left hr), fun hn => ?_⟩
        · simp only [beq_iff_eq, if_neg hlen, e', Option.bind_some]
          rw [hd]; exact e
        · rw [h2 (fun hc => hn ((complete_bytes _ _ _).mpr (Or.inr hc)))]
          simp

/-- The standard input: for every contents and all answers of the system, nothing is written outside the buffer; when everything has
    been given the result is the contents with a NUL behind, otherwise a failure is reported, or the input is not at its end. -/
theorem C83_stdin (s : List Byte) (as : List Answer) :
    ∃ r, loadStdin s as = some r ∧ (Complete s as → r = .ok s.length (closed s)) ∧
      (¬ Complete s as → r = if .failed ∈ as then .failed else .waiting) := by
  simpa [loadStdin] using stdinLoop_spec as newMembuffer [] s ⟨rfl, rfl, Nat.le_refl _, rfl⟩

/-- Never something else: whatever is loaded is the contents, never a part of them. -/
theorem C83_stdin_whole (s : List Byte) (as : List Answer) (n : Nat) (b : List (Option Byte))
    (h : loadStdin s as = some (.ok n b)) : n = s.length ∧ b = closed s ∧ Complete s as := by
  obtain ⟨r, e, h1, h2⟩ := C83_stdin s as
  rw [h] at e
  cases e
  by_cases hc : Complete s as
  · have := h1 hc
    simp only [Stdin.ok.injEq] at this
    exact ⟨this.1, this.2, hc⟩
  · have := h2 hc
    split at this <;> simp at this

/-- A call for each byte and one more are enough, with any number of interruptions. -/
theorem C83_stdin_ends (s : List Byte) (as : List Answer) (hf : .failed ∉ as)
    (hn : s.length < (as.filter fun a => a != .interrupted).length) : loadStdin s as = some (.ok s.length (closed s)) := by
  suffices hc : Complete s as by
    obtain ⟨r, e, h1, -⟩ := C83_stdin s as
    rw [e, h1 hc]
  induction as generalizing s with
  | nil => simp at hn
  | cons a as ih =>
    cases a with
    | failed => simp at hf
    | interrupted => exact (complete_interrupted _ _).mpr (ih s (by simp at hf; exact hf) (by simpa using hn))
    | bytes k =>
      refine (complete_bytes _ _ _).mpr ?_
      by_cases hs : s = []
      · exact Or.inl hs
      · have := List.length_pos_iff.mpr hs
        refine Or.inr (ih _ (by simp at hf; exact hf) ?_)
        rw [List.filter_cons_of_pos (by simp), List.length_cons] at hn
        rw [List.length_drop]; omega

theorem mostFile_cons (k : Nat) (ks : List Nat) : mostFile (k :: ks) = if k = 0 then 0 else min k 10000 + mostFile ks := by
  by_cases h : k = 0 <;> simp [mostFile, h]

theorem fileLoop_spec (fsize : Nat) (ks : List Nat) (bs n : Nat) (buffer : List (Option Byte)) (l rest : List Byte)
    (hn : n = l.length) (hle : n < fsize ∨ (n = 0 ∧ fsize = 0)) (hb : bs ≤ 10000) (hb' : min 10000 (fsize - n) ≤ bs) (hlen : buffer.length = fsize + 1)
    (ht : buffer.take n = l.map some) :
    ∃ m b, fileLoop fsize bs n buffer rest ks = some (m, b) ∧ b.length = fsize + 1 ∧
      m = min fsize (n + min rest.length (mostFile ks)) ∧ b.take m = (l ++ rest.take (m - n)).map some := by
  induction ks generalizing bs n buffer l rest with
  | nil =>
    refine ⟨n, buffer, rfl, hlen, ?_, by simpa using ht⟩
    simp [mostFile]; omega
  | cons k ks ih =>
    rw [fileLoop]
    have hbs : (if n + bs > fsize then fsize - n else bs) = min 10000 (fsize - n) := by split <;> omega
    simp only [hbs]
    by_cases h0 : (rest.take (min k (min 10000 (fsize - n)))).length = 0
    · simp only [beq_iff_eq, if_pos h0]
      rw [List.length_take] at h0
      refine ⟨n, buffer, rfl, hlen, ?_, by simpa using ht⟩
      rw [mostFile_cons]
      split <;> omega
    · simp only [beq_iff_eq, if_neg h0]
      have hl : (rest.take (min k (min 10000 (fsize - n)))).length = min (min k (min 10000 (fsize - n))) rest.length := by simp
      generalize hblk : rest.take (min k (min 10000 (fsize - n))) = block at *
      obtain ⟨b', e', hl', ht'⟩ := blockCopy_take block (b := buffer) (i := n) (l := l) (by omega) ht
      rw [e', Option.bind_some]
      have hrest : block ++ rest.drop block.length = rest := by
        have : block = rest.take block.length := by
          rw [hl, ← hblk, List.take_eq_take_iff]
          omega
        rw [this, List.length_take]
        have h3 : min block.length rest.length = block.length := by omega
        rw [h3, List.take_append_drop]
      by_cases hlt : n + block.length < fsize
      · rw [if_pos hlt]
        obtain ⟨m, b, e, h1, h2, h3⟩ := ih (min 10000 (fsize - n)) (n + block.length) b' (l ++ block) (rest.drop block.length)
          (by simp [hn]) (Or.inl hlt) (by omega) (by omega) (by omega) ht'
        refine ⟨m, b, e, h1, ?_, ?_⟩
        · rw [h2, mostFile_cons, List.length_drop, if_neg (by omega)]
          omega
        · rw [h3]
          have hm : n + block.length ≤ m := by omega
          conv => rhs; rw [← hrest]
          rw [List.take_append, List.take_of_length_le (l := block) (by omega)]
          simp [List.append_assoc, Nat.sub_sub]
      · rw [if_neg hlt]
        refine ⟨n + block.length, b', rfl, by omega, ?_, ?_⟩
        · rw [mostFile_cons, if_neg (by omega)]
          omega
        · rw [ht']
          conv => rhs; rw [← hrest]
          rw [Nat.add_sub_cancel_left, List.take_left]

/-- A file of which the size is known: nothing is written outside the buffer, and the result is the first `size` bytes with a NUL
    behind if there are so many and no call fails before, otherwise an error. -/
theorem C83_file_partial (f : File) (size : Nat) (ht : f.tell = some size) (hs : size + 1 < word) (malloc : Nat → Bool)
    (hm : malloc (size + 1) = true) (ks : List Nat) :
    loadFile (some f) malloc ks =
      if size ≤ f.contents.length ∧ size ≤ mostFile ks then some (.ok size (closed (f.contents.take size)), 0)
      else some (.cannotRead, 1) := by
  have hf : fileSize f = size := by simp only [fileSize, ht, Option.getD_some]; exact Nat.mod_eq_of_lt (by omega)
  have hz : (size + 1) % word = size + 1 := Nat.mod_eq_of_lt hs
  obtain ⟨m, b, e, hl, hmm, htk⟩ := fileLoop_spec size ks (if size > 10000 then 10000 else size) 0 (List.replicate (size + 1) none) [] f.contents
    rfl (by omega) (by split <;> omega) (by split <;> omega) (by simp) (by simp)
  simp only [loadFile, hf, hz, hm, if_true, e, Option.bind_some]
  by_cases hc : size ≤ f.contents.length ∧ size ≤ mostFile ks
  · have : m = size := by omega
    subst this
    simp only [bne_self_eq_false, if_pos hc]
    have hw : blockWrite b m (some 0) = some (b.set m (some 0)) := by simp [blockWrite, hl]
    rw [if_neg (by simp), hw, Option.map_some]
    congr 2
    congr 1
    have h1 : (b.set m (some 0)).length = m + 1 := by simp [hl]
    rw [← List.take_of_length_le (Nat.le_of_eq h1), List.take_succ_eq_append_getElem (by omega), List.take_set_of_le (Nat.le_refl _), htk]
    simp [closed]
  · rw [if_neg hc]
    have : m ≠ size := by omega
    simp [this]

/-- A file that does not change and from which every call gives something: exactly its contents. -/
theorem C83_file_contents (s : List Byte) (hs : s.length + 1 < word) (malloc : Nat → Bool) (hm : malloc (s.length + 1) = true)
    (ks : List Nat) (hk : ∀ k ∈ ks, 0 < k) (hn : s.length ≤ ks.length) :
    loadFile (some ⟨some s.length, s⟩) malloc ks = some (.ok s.length (closed s), 0) := by
  rw [C83_file_partial _ s.length rfl hs malloc hm, if_pos]
  · simp
  · refine ⟨Nat.le_refl _, Nat.le_trans hn ?_⟩
    clear hn hm hs s
    induction ks with
    | nil => simp
    | cons k ks ih =>
      rw [mostFile_cons, if_neg (by have := hk k (by simp); omega), List.length_cons]
      have := ih (fun x hx => hk x (by simp [hx]))
      have := hk k (by simp)
      omega

/-- A file that has become shorter than its size is never taken for the whole. -/
theorem C83_file_shorter (f : File) (size : Nat) (ht : f.tell = some size) (hs : size + 1 < word) (malloc : Nat → Bool)
    (hm : malloc (size + 1) = true) (ks : List Nat) (hl : f.contents.length < size) :
    loadFile (some f) malloc ks = some (.cannotRead, 1) := by
  rw [C83_file_partial f size ht hs malloc hm, if_neg (by omega)]

theorem written_map (s : List Byte) : written (s.map some) = some s := by
  induction s with
  | nil => rfl
  | cons c s ih => simp [written, ih]

/-- What is parsed is the contents, and behind them is a NUL that may be read. -/
theorem C83_handed (s : List Byte) : handed s.length (closed s) = some (s, 0) := by
  simp [handed, closed, written_map]

/-- The standard input and a file with the same contents are the same to the parser, whatever the portions. -/
theorem C83_same (s : List Byte) (hs : s.length + 1 < word) (malloc : Nat → Bool) (as : List Answer) (ks : List Nat)
    (n m : Nat) (b c : List (Option Byte)) (o : Nat)
    (h1 : loadStdin s as = some (.ok n b)) (h2 : loadFile (some ⟨some s.length, s⟩) malloc ks = some (.ok m c, o)) :
    handed n b = some (s, 0) ∧ handed m c = some (s, 0) := by
  obtain ⟨rfl, rfl, -⟩ := C83_stdin_whole s as n b h1
  refine ⟨C83_handed s, ?_⟩
  by_cases hm : malloc (s.length + 1) = true
  · rw [C83_file_partial _ s.length rfl hs malloc hm] at h2
    split at h2
    · simp only [Option.some.injEq, Prod.mk.injEq, Loaded.ok.injEq, List.take_length] at h2
      obtain ⟨⟨rfl, rfl⟩, -⟩ := h2
      exact C83_handed s
    · simp at h2
  · have hf : fileSize ⟨some s.length, s⟩ = s.length := by simp only [fileSize, Option.getD_some]; exact Nat.mod_eq_of_lt (by omega)
    have hz : (s.length + 1) % word = s.length + 1 := Nat.mod_eq_of_lt hs
    simp [loadFile, hf, hz, hm] at h2

/-- Loading a file never writes outside its buffer. -/
def C83_file_safe : Prop := ∀ (f : File) (malloc : Nat → Bool) (ks : List Nat), loadFile (some f) malloc ks ≠ none

/-- It does for a pipe: `ftell` gives -1, so a buffer of no bytes is allocated and up to 10000 bytes are read into it. -/
theorem C83_false_pipe : ¬ C83_file_safe := fun h => h ⟨none, b#"a=1"⟩ (fun _ => true) [10000] (by decide +kernel)

/-- For every pipe from which something is read. -/
theorem C83_pipe (s : List Byte) (hs : s ≠ []) (k : Nat) (hk : 0 < k) (ks : List Nat) (malloc : Nat → Bool) (hm : malloc 0 = true) :
    loadFile (some ⟨none, s⟩) malloc (k :: ks) = none := by
  have hf : fileSize ⟨none, s⟩ = word - 1 := by simp [fileSize, word]
  have hz : (word - 1 + 1) % word = 0 := by decide +kernel
  simp only [loadFile, hf, hz, hm, if_true]
  have h1 : (if word - 1 > 10000 then 10000 else word - 1) = 10000 := by decide +kernel
  have h2 : ¬ (0 + 10000 > word - 1) := by decide +kernel
  cases s with
  | nil => exact absurd rfl hs
  | cons c s =>
    obtain ⟨j, hj⟩ : ∃ j, min k 10000 = j + 1 := ⟨min k 10000 - 1, by omega⟩
    rw [h1, fileLoop, if_neg h2, hj]
    simp [blockCopy, blockWrite]

/-- Whatever is opened is closed. -/
def C83_closes : Prop := ∀ (f : File) (malloc : Nat → Bool) (ks : List Nat) (r : Loaded) (o : Nat),
  loadFile (some f) malloc ks = some (r, o) → o = 0

/-- Not when the file cannot be read. -/
theorem C83_false_closes : ¬ C83_closes := fun h => by
  have := h ⟨some 3, b#"a=1"⟩ (fun _ => true) [2, 0] .cannotRead 1 (by decide +kernel)
  simp at this

example : loadStdin b#"a=1" [.interrupted, .bytes 0, .bytes 0, .interrupted, .bytes 7, .bytes 7] =
    some (.ok 3 (closed b#"a=1")) := by decide +kernel
example : loadStdin b#"a=1" [.bytes 0, .failed] = some .failed := by decide +kernel
example : loadFile (some ⟨some 3, b#"a=1"⟩) (fun _ => true) [1, 1, 1] = some (.ok 3 (closed b#"a=1"), 0) := by decide +kernel
example : loadFile (some ⟨some 2, b#"a=1"⟩) (fun _ => true) [5] = some (.ok 2 (closed b#"a="), 0) := by decide +kernel

end Xmq.Props
