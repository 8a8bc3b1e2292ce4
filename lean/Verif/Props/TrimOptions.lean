import Verif.Spec.TrimOptions
/-!
# C101: white space of a document is kept or trimmed as asked
-/
namespace Xmq.Props

open Xmq Xmq.TrimOptions Xmq.Spec

theorem blank_all {s : List Byte} (h : AllBlank s) : s.all isXmlWhitespace = true := by
  rw [List.all_eq_true]
  intro c hc
  rcases h c hc with rfl | rfl | rfl | rfl <;> decide

/-- Blanks that are left out by the parser would have been removed by the trimming. -/
theorem C101_blanks {d e : List Node} (h : LessBlanks d e) : trimDoc e = trimDoc d := by
  simp only [trimDoc]
  induction h with
  | nil => rfl
  | drop s d e hs _ ih =>
    rw [trimNodes, trimNode, trimTextNode, if_pos (blank_all hs), ih]
    cases trimNodes d <;> rfl
  | keep n d e _ ih => rw [trimNodes, trimNodes, ih]
  | inside nm as ks ls d e _ _ ih1 ih2 => rw [trimNodes, trimNodes, trimNode, trimNode, ih1, ih2]

theorem options_flags {vs : List (List Byte)} {f0 f : Flags} (h : vs.foldlM option f0 = some f) :
    f.none = (f0.none || vs.contains b#"none") ∧ f.heuristic = (f0.heuristic || vs.contains b#"heuristic") ∧ f.exact = f0.exact ∧
    ∀ v ∈ vs, v = b#"none" ∨ v = b#"heuristic" := by
  induction vs generalizing f0 with
  | nil => simp at h; subst h; simp
  | cons v vs ih =>
    simp only [List.foldlM_cons] at h
    by_cases h1 : v = b#"none"
    · subst h1
      have e : option f0 b#"none" = some { f0 with none := true } := by simp [option]
      rw [e] at h
      obtain ⟨i1, i2, i3, i4⟩ := ih h
      refine ⟨by simp [i1], by simp [i2], i3, ?_⟩
      intro w hw
      rcases List.mem_cons.mp hw with rfl | hw
      · exact .inl rfl
      · exact i4 w hw
    · by_cases h2 : v = b#"heuristic"
      · subst h2
        have e : option f0 b#"heuristic" = some { f0 with heuristic := true } := by simp [option]
        rw [e] at h
        obtain ⟨i1, i2, i3, i4⟩ := ih h
        refine ⟨by simp [i1], by simp [i2], i3, ?_⟩
        intro w hw
        rcases List.mem_cons.mp hw with rfl | hw
        · exact .inr rfl
        · exact i4 w hw
      · have e : option f0 v = Option.none := by simp [option, h1, h2]
        rw [e] at h
        cases h

/-- Only documents that are trimmed lose blanks in the parser. -/
theorem C101_parser (k : Content) (f : Flags) (h : noBlanks k f = true) : shouldTrim k f = true := by
  obtain ⟨a, b, c⟩ := f
  cases k <;> cases a <;> cases b <;> cases c <;> simp_all [noBlanks, shouldTrim]

/-- The full claim: the last option decides. -/
def C101_Wanted (ok : List (List Byte) → Prop) : Prop :=
  ∀ k opts f, options opts = some f → ok opts → ∀ d e, Delivers (noBlanks k f) d e →
    afterParse k f e = if TrimWanted k opts then trimDoc d else some d

/-- Whether the document is trimmed: the last option decides, except that --trim=none behind --trim=heuristic has no effect. -/
theorem C101_exact (k : Content) (opts : List (List Byte)) (f : Flags) (h : options opts = some f) :
    shouldTrim k f = TrimWanted k opts ↔ ¬ (b#"heuristic" ∈ opts ∧ opts.getLast? = some b#"none") := by
  obtain ⟨h1, h2, h3, h4⟩ := options_flags h
  simp only [Bool.false_or] at h1 h2
  rcases List.eq_nil_or_concat opts with rfl | ⟨l, v, rfl⟩
  · simp at h1 h2
    cases k <;> simp [shouldTrim, TrimWanted, h1, h2, h3]
  · have hv := h4 v (by simp)
    rcases hv with rfl | rfl
    · by_cases hh : b#"heuristic" ∈ l
      · have e2 : f.heuristic = true := by rw [h2]; simp [hh]
        have e1 : f.none = true := by rw [h1]; simp
        simp [shouldTrim, TrimWanted, e1, e2, hh]
      · have e2 : f.heuristic = false := by rw [h2]; simp [hh]
        have e1 : f.none = true := by rw [h1]; simp
        simp [shouldTrim, TrimWanted, e1, e2, h3, hh]
    · have e2 : f.heuristic = true := by rw [h2]; simp
      simp [shouldTrim, TrimWanted, e2]

theorem C101_wanted_partial : C101_Wanted fun opts => ¬ (b#"heuristic" ∈ opts ∧ opts.getLast? = some b#"none") := by
  intro k opts f hf hok d e hd
  have hs := (C101_exact k opts f hf).mpr hok
  rw [afterParse, hs]
  unfold Delivers at hd
  split at hd
  · rename_i hb
    have := C101_parser k f hb
    rw [hs] at this
    rw [if_pos this, if_pos this, C101_blanks hd]
  · rw [hd]

/-- Documents of XMQ and of all other kinds but XML and HTML are read as they are unless --trim=heuristic is given. -/
theorem C101_kept (k : Content) (hk : k ≠ .xml ∧ k ≠ .html) (opts : List (List Byte)) (ho : b#"heuristic" ∉ opts) (f : Flags)
    (hf : options opts = some f) (d e : List Node) (hd : Delivers (noBlanks k f) d e) : afterParse k f e = some d := by
  rw [C101_wanted_partial k opts f hf (fun h => ho h.1) d e hd]
  obtain ⟨-, -, -, h4⟩ := options_flags hf
  have : TrimWanted k opts = false := by
    unfold TrimWanted
    cases hl : opts.getLast? with
    | none => simp [hk.1, hk.2]
    | some v =>
      have hm := List.mem_of_getLast? hl
      rcases h4 v hm with rfl | rfl
      · rfl
      · exact absurd hm ho
  rw [this]; rfl

/-- With --trim=none only, every document is read as it is. -/
theorem C101_none (k : Content) (n : Nat) (f : Flags) (hf : options (List.replicate (n + 1) b#"none") = some f) (d e : List Node)
    (hd : Delivers (noBlanks k f) d e) : afterParse k f e = some d := by
  have hm : b#"heuristic" ∉ List.replicate (n + 1) b#"none" := fun h => by
    have := (List.mem_replicate.mp h).2
    exact absurd this (by decide)
  rw [C101_wanted_partial k _ f hf (fun h => hm h.1) d e hd]
  have : TrimWanted k (List.replicate (n + 1) b#"none") = false := by
    unfold TrimWanted
    rw [List.replicate_succ', List.getLast?_concat]
    rfl
  rw [this]; rfl

example : options [b#"none", b#"heuristic"] = some ⟨true, true, false⟩ := by decide +kernel
example : LessBlanks [.text b#" ", .element b#"a" [] [.text b#"x", .text b#"\n"]] [.element b#"a" [] [.text b#"x"]] :=
  .drop _ _ _ (by simp [AllBlank]) (.inside _ _ _ _ _ _ (.keep _ _ _ (.drop _ _ _ (by simp [AllBlank]) .nil)) .nil)

/-- Not for all: --trim=none behind --trim=heuristic does not keep white space. -/
theorem C101_last_false : ¬ C101_Wanted fun _ => True := fun h => by
  have := h .xmq [b#"heuristic", b#"none"] ⟨true, true, false⟩ (by decide +kernel) trivial [.text b#" "] [.text b#" "]
    (by simp [Delivers, noBlanks])
  have e : afterParse .xmq ⟨true, true, false⟩ [.text b#" "] = some [] := by rfl
  rw [e] at this
  have w : TrimWanted .xmq [b#"heuristic", b#"none"] = false := by decide +kernel
  rw [w] at this
  simp at this

end Xmq.Props
