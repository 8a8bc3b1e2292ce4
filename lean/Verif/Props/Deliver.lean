import Verif.Model.Deliver
/-!
# C97: what is printed, saved and shown is the output, without the declaration if so asked
-/
namespace Xmq.Props

open Xmq Xmq.Deliver

/-! ## Leaving out the declaration -/

theorem declaration_length (d : Dump) :
    (declaration d).length = 36 + d.version.length + (standalonePart d.standalone).length := by
  simp only [declaration, List.length_append, List.length_cons, List.length_nil]; omega

theorem standalonePart_length (s : Option Bool) : (standalonePart s).length = 0 ∨ 16 ≤ (standalonePart s).length := by
  rcases s with _ | _ | _ <;> decide

theorem standalonePart_zero (s : Option Bool) : (standalonePart s).length = 0 ↔ s = none := by
  rcases s with _ | _ | _ <;> decide

/-- Without the option, or for anything but XML, nothing is left out. -/
theorem C97_nothing_left_out (f : Format) (o : Bool) (h : f ≠ .xml ∨ o = false) (out : List Byte) :
    out.drop (outputSkip f o) = out := by
  have : outputSkip f o = 0 := by
    unfold outputSkip; rcases h with h | h <;> simp [h]
  simp [this]

example : (b#"{}\n").drop (outputSkip .json true) = b#"{}\n" := by decide

/-- With the option the file saved is the document without its declaration, if and only if the version has three characters and
    `standalone` is not given. -/
theorem C97_omit_iff (d : Dump) (room : Nat) (hr : (dump d).length ≤ room) :
    (∃ l, saveTo room (dump d) (outputSkip .xml true) = some l ∧ l.file = d.body) ↔
      d.version.length = 3 ∧ d.standalone = none := by
  have hl := declaration_length d
  have hs := standalonePart_length d.standalone
  have hz := standalonePart_zero d.standalone
  have hd : (dump d).length = (declaration d).length + d.body.length := by simp [dump]
  have h39 : outputSkip .xml true = 39 := by decide
  rw [h39]
  constructor
  · rintro ⟨l, e, hb⟩
    unfold saveTo at e
    split at e
    · cases e
      have e' := congrArg List.length hb
      simp only [List.length_take, List.length_drop] at e'
      have : (declaration d).length = 39 := by omega
      refine ⟨by omega, hz.1 (by omega)⟩
    · cases e
  · rintro ⟨hv, hn⟩
    have h0 := hz.2 hn
    have h1 : (declaration d).length = 39 := by omega
    refine ⟨_, by unfold saveTo; rw [if_pos (by omega)], ?_⟩
    have h2 : (dump d).drop 39 = d.body := by rw [dump, ← h1, List.drop_left]
    simp only [h2]
    rw [List.take_of_length_le (i := (dump d).length - 39) (by omega), List.take_of_length_le (by omega)]

example : (saveTo 100 (dump ⟨b#"1.0", none, b#"<a/>\n"⟩) (outputSkip .xml true)).map (·.file) = some b#"<a/>\n" := by decide +kernel

/-- The claim that the option leaves out the declaration of every document. -/
def OmitsDeclaration : Prop :=
  ∀ d : Dump, ∃ l, saveTo (dump d).length (dump d) (outputSkip .xml true) = some l ∧ l.file = d.body

/-- A document that says that it stands alone is left with a part of its declaration. -/
theorem C97_omit_false : ¬ OmitsDeclaration := by
  intro h
  have := (C97_omit_iff ⟨b#"1.0", some true, b#"<a/>\n"⟩ _ (Nat.le_refl _)).1 (h _)
  exact absurd this.2 (by decide)

example : (saveTo 100 (dump ⟨b#"1.0", some true, b#"<a/>\n"⟩) (outputSkip .xml true)).map (·.file) =
    some (b#"andalone=\"yes\"?>\n<a/>\n") := by decide +kernel

/-! ## Printing -/

theorem takeWhile_eq_self_iff (l : List Byte) : l.takeWhile (· != 0) = l ↔ (0 : Byte) ∉ l := by
  induction l with
  | nil => simp
  | cons c t ih =>
    by_cases hc : c = 0
    · subst hc; simp
    · have : (c != 0) = true := by simpa using hc
      rw [List.takeWhile_cons, if_pos this]
      simp only [List.cons.injEq, true_and, ih, List.mem_cons, not_or]
      exact ⟨fun h => ⟨fun e => hc e.symm, h⟩, fun h => h.2⟩

/-- Printed is all of the output but what is left out, if and only if there are fewer than 2^31 bytes of it and no NUL among them. -/
theorem C97_print_iff (out : List Byte) (skip : Nat) (h : skip ≤ out.length) :
    consoleWrite out skip = some (out.drop skip) ↔ out.length - skip < 2 ^ 31 ∧ (0 : Byte) ∉ out.drop skip := by
  unfold consoleWrite
  rw [if_pos h]
  have hl : (out.drop skip).length = out.length - skip := by simp
  constructor
  · intro e
    split at e
    · rename_i hm
      have e := Option.some.inj e
      have e1 := congrArg List.length e
      have e2 := (List.takeWhile_prefix (fun c : Byte => c != 0)
        (l := (out.drop skip).take ((out.length - skip) % 2 ^ 32))).length_le
      rw [e1, List.length_take, hl] at e2
      have e3 : out.length - skip ≤ (out.length - skip) % 2 ^ 32 := by omega
      rw [List.take_of_length_le (by omega)] at e
      exact ⟨by omega, (takeWhile_eq_self_iff _).1 e⟩
    · cases e
  · rintro ⟨h1, h2⟩
    have hm : (out.length - skip) % 2 ^ 32 = out.length - skip := Nat.mod_eq_of_lt (by omega)
    rw [hm, if_pos h1, List.take_of_length_le (by omega), (takeWhile_eq_self_iff _).2 h2]

example : consoleWrite (dump ⟨b#"1.0", none, b#"<a/>\n"⟩) 39 = some b#"<a/>\n" := by decide +kernel

/-- The claim that everything is printed. -/
def PrintsAll : Prop := ∀ out : List Byte, (0 : Byte) ∉ out → consoleWrite out 0 = some out

/-- Of an output of 2^31 bytes not everything is printed. -/
theorem C97_print_false : ¬ PrintsAll := by
  intro h
  obtain ⟨n, hn⟩ : ∃ n : Nat, 2 ^ 31 ≤ n := ⟨_, Nat.le_refl _⟩
  have h0 : (0 : Byte) ∉ List.replicate n (65 : Byte) := by
    intro hm; exact absurd (List.eq_of_mem_replicate hm) (by decide)
  have h1 := ((C97_print_iff (List.replicate n (65 : Byte)) 0 (Nat.zero_le _)).1 (by rw [List.drop_zero]; exact h _ h0)).1
  rw [List.length_replicate] at h1
  omega

/-- Of an output of a multiple of 2^32 bytes nothing is printed. -/
theorem C97_print_nothing (out : List Byte) (k : Nat) (h : out.length = 2 ^ 32 * k) : consoleWrite out 0 = some [] := by
  unfold consoleWrite
  rw [if_pos (Nat.zero_le _), Nat.sub_zero, h, Nat.mul_mod_right, if_pos (by omega)]
  simp

/-- Nothing else is ever printed: what is printed is a beginning of the output behind what is left out. -/
theorem C97_print_prefix (out : List Byte) (skip : Nat) (p : List Byte) (h : consoleWrite out skip = some p) :
    ∃ rest, out.drop skip = p ++ rest := by
  unfold consoleWrite at h
  split at h
  · split at h
    · cases h
      obtain ⟨r, hr⟩ := (List.takeWhile_prefix (fun c : Byte => c != 0)
        (l := (out.drop skip).take ((out.length - skip) % 2 ^ 32))).trans (List.take_prefix _ (out.drop skip))
      exact ⟨r, hr.symm⟩
    · cases h
  · cases h

/-! ## Saving -/

/-- The file has all of the output but what is left out, if and only if it takes that many bytes; and a message is written if and only
    if it does not. -/
theorem C97_save (room : Nat) (out : List Byte) (skip : Nat) (h : skip ≤ out.length) :
    ∃ l, saveTo room out skip = some l ∧ (l.file = out.drop skip ↔ out.length - skip ≤ room) ∧
      (l.complained = false ↔ l.file = out.drop skip) ∧ ∃ rest, out.drop skip = l.file ++ rest := by
  have hl : (out.drop skip).length = out.length - skip := by simp
  refine ⟨_, by unfold saveTo; rw [if_pos h], ?_, ?_, ?_⟩
  · simp only
    rw [List.take_of_length_le (i := out.length - skip) (by omega)]
    constructor
    · intro e
      have := congrArg List.length e
      rw [List.length_take, hl] at this
      omega
    · intro g; exact List.take_of_length_le (by omega)
  · simp only
    rw [List.take_of_length_le (i := out.length - skip) (by omega)]
    constructor
    · intro e
      have e : ((out.drop skip).take room).length = out.length - skip := by simpa using e
      rw [List.length_take, hl] at e
      exact List.take_of_length_le (by omega)
    · intro e; simp [e]
  · refine ⟨(out.drop skip).drop room, ?_⟩
    simp only
    rw [List.take_of_length_le (i := out.length - skip) (by omega), List.take_append_drop]

example : saveTo 3 b#"abcde" 0 = some ⟨b#"abc", true, true⟩ := by decide

/-- The claim that the command succeeds only if the file has everything. -/
def SaveReportsFailure : Prop :=
  ∀ room out skip l, saveTo room out skip = some l → l.returned = true → l.file = out.drop skip

/-- The command succeeds with half of the output in the file. -/
theorem C97_save_status_false : ¬ SaveReportsFailure := by
  intro h
  have := h 3 b#"abcde" 0 ⟨b#"abc", true, true⟩ (by decide) rfl
  exact absurd this (by decide)

/-! ## The browser -/

/-- With nothing left out the file has all of the output, if and only if it takes that many bytes, and only then the browser is
    started. -/
theorem C97_browse_partial (room : Nat) (out : List Byte) :
    ∃ l, browse room out 0 = some l ∧ (l.file = out ↔ out.length ≤ room) ∧ (l.complained = false ↔ l.file = out) := by
  refine ⟨_, by unfold browse; rw [if_pos (Nat.zero_le _)], ?_, ?_⟩
  · simp only [Nat.sub_zero, List.take_length]
    constructor
    · intro e
      have := congrArg List.length e
      rw [List.length_take] at this
      omega
    · exact List.take_of_length_le
  · simp only [Nat.sub_zero, List.take_length]
    constructor
    · intro e
      have e : (out.take room).length = out.length := by simpa using e
      rw [List.length_take] at e
      exact List.take_of_length_le (by omega)
    · intro e; simp [e]

/-- With the declaration to be left out, the browser never gets the document: for any document that does not begin with `<?` the file
    has the declaration and the document lacks its last bytes, without any message. -/
theorem C97_browse_omit (d : Dump) (room : Nat) (hr : (dump d).length ≤ room) (h39 : (declaration d).length = 39)
    (c : Byte) (t : List Byte) (hb : d.body = b#'<' :: c :: t) (hc : c ≠ b#'?') :
    ∃ l, browse room (dump d) (outputSkip .xml true) = some l ∧ l.complained = false ∧ l.file ≠ d.body ∧
      ∃ rest, dump d = l.file ++ rest ∧ rest.length = 39 := by
  have hd : (dump d).length = (declaration d).length + d.body.length := by simp [dump]
  have ho : outputSkip .xml true = 39 := by decide
  rw [ho]
  refine ⟨_, by unfold browse; rw [if_pos (by omega)], ?_, ?_, (dump d).drop ((dump d).length - 39), ?_, ?_⟩
  · simp only [List.length_take]
    simp only [bne_eq_false_iff_eq]
    omega
  · simp only
    intro e
    have e2 := congrArg (fun l : List Byte => l[1]?) e
    simp only [hb, List.getElem?_cons_succ, List.getElem?_cons_zero] at e2
    have hlen : d.body.length = t.length + 2 := by simp [hb]
    rw [List.getElem?_take_of_lt (by omega), List.getElem?_take_of_lt (by omega), dump,
      List.getElem?_append_left (by omega)] at e2
    have h3 : (declaration d)[1]? = some b#'?' := by
      simp [declaration]
    rw [h3] at e2
    exact hc (Option.some.inj e2).symm
  · simp only
    rw [List.take_of_length_le (i := room) (by rw [List.length_take]; omega), List.take_append_drop]
  · rw [List.length_drop]; omega

example : (browse 100 (dump ⟨b#"1.0", none, b#"<a/>\n"⟩) 39).map (·.file) = some b#"<?xml" := by decide +kernel

/-- The claim that the browser gets the output without what is left out. -/
def BrowsesOutput : Prop :=
  ∀ room out skip l, skip ≤ out.length → browse room out skip = some l → l.complained = false → l.file = out.drop skip

/-- The browser gets the declaration to be left out, and loses the end. -/
theorem C97_browse_false : ¬ BrowsesOutput := by
  intro h
  exact absurd (h 9 b#"abc" 1 ⟨b#"ab", false, true⟩ (by decide) (by decide) rfl) (by decide)

/-! ## The name of the file for the browser -/

/-- The last part of a path: what follows the last slash or backslash. -/
def LastPart (path base : List Byte) : Prop :=
  (∃ dir, path = dir ++ base ∧ (dir = [] ∨ ∃ d, dir = d ++ b#"/" ∨ dir = d ++ b#"\\")) ∧ b#'/' ∉ base ∧ b#'\\' ∉ base

theorem baseName_last (i : List Byte) : LastPart i (baseName i) := by
  have key : ∀ l : List Byte, ∃ r, l = l.takeWhile (fun c => c != b#'/' && c != b#'\\') ++ r ∧
      (r = [] ∨ ∃ x r', r = x :: r' ∧ (x = b#'/' ∨ x = b#'\\')) ∧
      ∀ c ∈ l.takeWhile (fun c => c != b#'/' && c != b#'\\'), c ≠ b#'/' ∧ c ≠ b#'\\' := by
    intro l
    induction l with
    | nil => exact ⟨[], rfl, .inl rfl, fun c h => absurd h (by simp)⟩
    | cons a t ih =>
      by_cases ha : (a != b#'/' && a != b#'\\') = true
      · obtain ⟨r, e, hr, hc⟩ := ih
        rw [List.takeWhile_cons, if_pos ha]
        refine ⟨r, by rw [List.cons_append, ← e], hr, ?_⟩
        intro c hm
        rcases List.mem_cons.1 hm with rfl | hm
        · simpa using ha
        · exact hc c hm
      · rw [List.takeWhile_cons, if_neg ha]
        refine ⟨a :: t, rfl, .inr ⟨a, t, rfl, ?_⟩, fun c h => absurd h (by simp)⟩
        by_cases h1 : a = b#'/'
        · exact .inl h1
        · by_cases h2 : a = b#'\\'
          · exact .inr h2
          · exact absurd (by simp [h1, h2]) ha
  obtain ⟨r, e, hr, hc⟩ := key i.reverse
  refine ⟨⟨r.reverse, ?_, ?_⟩, ?_, ?_⟩
  · have := congrArg List.reverse e
    rw [List.reverse_reverse, List.reverse_append] at this
    exact this
  · rcases hr with rfl | ⟨x, r', rfl, rfl | rfl⟩
    · exact .inl rfl
    · exact .inr ⟨r'.reverse, .inl (by simp)⟩
    · exact .inr ⟨r'.reverse, .inr (by simp)⟩
  · intro h; exact (hc _ (List.mem_reverse.1 h)).1 rfl
  · intro h; exact (hc _ (List.mem_reverse.1 h)).2 rfl

/-- Whatever the input is called, the file is one of the current directory whose name begins with `xmq_browsing_`: there is no slash
    or backslash in it. -/
theorem C97_browse_here (inp : Option (List Byte)) :
    b#'/' ∉ browseName inp ∧ b#'\\' ∉ browseName inp ∧ (∃ r, browseName inp = b#"xmq_browsing_" ++ r) ∧
      (browseName inp).length ≤ 1022 := by
  have hm : ∃ m, browseName inp = (b#"xmq_browsing_" ++ m ++ b#".html").take 1022 ∧ b#'/' ∉ m ∧ b#'\\' ∉ m := by
    rcases inp with _ | i
    · exact ⟨_, rfl, by decide, by decide⟩
    · exact ⟨baseName i, rfl, (baseName_last i).2.1, (baseName_last i).2.2⟩
  obtain ⟨m, e, h1, h2⟩ := hm
  rw [e]
  refine ⟨?_, ?_, ?_, by rw [List.length_take]; omega⟩
  · intro h
    have := List.mem_of_mem_take h
    rw [List.append_assoc, List.mem_append, List.mem_append] at this
    rcases this with h | h | h
    · exact absurd h (by decide)
    · exact h1 h
    · exact absurd h (by decide)
  · intro h
    have := List.mem_of_mem_take h
    rw [List.append_assoc, List.mem_append, List.mem_append] at this
    rcases this with h | h | h
    · exact absurd h (by decide)
    · exact h2 h
    · exact absurd h (by decide)
  · refine ⟨(m ++ b#".html").take 1009, ?_⟩
    rw [List.append_assoc, List.take_append]
    rfl

/-- The name has the last part of the path of the input, and ends in `.html`, if that part has at most 1004 bytes. -/
theorem C97_browse_name_partial (i base : List Byte) (h : LastPart i base) (hl : base.length ≤ 1004) :
    browseName (some i) = b#"xmq_browsing_" ++ base ++ b#".html" := by
  have hb : baseName i = base := by
    obtain ⟨⟨dir, e, hd⟩, h1, h2⟩ := h
    have hall : ∀ c ∈ base.reverse, (c != b#'/' && c != b#'\\') = true := by
      intro c hc
      have hc := List.mem_reverse.1 hc
      have g1 : c ≠ b#'/' := fun e => h1 (e ▸ hc)
      have g2 : c ≠ b#'\\' := fun e => h2 (e ▸ hc)
      simp [g1, g2]
    unfold baseName
    rw [e, List.reverse_append, List.takeWhile_append_of_pos hall]
    rcases hd with rfl | ⟨d, rfl | rfl⟩ <;> simp
  unfold browseName
  simp only [hb]
  apply List.take_of_length_le
  simp only [List.length_append, List.length_cons, List.length_nil]
  omega

example : LastPart b#"/alfa/beta/data.xml" b#"data.xml" ∧
    browseName (some b#"/alfa/beta/data.xml") = b#"xmq_browsing_data.xml.html" :=
  ⟨⟨⟨b#"/alfa/beta/", by decide, .inr ⟨b#"/alfa/beta", .inl (by decide)⟩⟩, by decide, by decide⟩, by decide⟩

/-- Two inputs of different directories share a file. -/
theorem C97_browse_same : browseName (some b#"a/x.xml") = browseName (some b#"b/x.xml") := by decide

end Xmq.Props
