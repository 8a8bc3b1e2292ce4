import Verif.Lemmas.CmdUnderstood
/-!
# The line is cut into options, the input, and commands
-/
namespace Xmq
open Xmq.CmdLine Xmq.Spec

inductive TookGlobal (w : World) : Command → List Arg → Command → Prop where
  | nil (c : Command) : TookGlobal w c [] c
  | cons (a : Arg) (as : List Arg) (c c1 c2 : Command) : handleGlobal w a c = .yes c1 → TookGlobal w c1 as c2 → TookGlobal w c (a :: as) c2

theorem globals_took (w : World) : ∀ (argv : List Arg) (c c' : Command) (rest : List Arg), globals w argv c = .inr (c', rest) →
    ∃ options, argv = options ++ rest ∧ TookGlobal w c options c' ∧ (∀ o ∈ options, o.head? = some b#'-' ∧ o ≠ b#"-") := by
  intro argv
  induction argv with
  | nil => intro c c' rest h; cases h; exact ⟨[], rfl, .nil _, by simp⟩
  | cons a argv ih =>
    intro c c' rest h
    unfold globals at h
    split at h
    · cases h; exact ⟨[], rfl, .nil _, by simp⟩
    rename_i ha
    split at h
    · rename_i c1 h1
      obtain ⟨options, h2, h3, h4⟩ := ih _ _ _ h
      refine ⟨a :: options, by rw [h2]; rfl, .cons _ _ _ _ _ h1 h3, ?_⟩
      intro o ho
      rcases List.mem_cons.1 ho with rfl | ho
      · exact ⟨Classical.byContradiction fun hh => ha (Or.inl hh), fun hh => ha (Or.inr hh)⟩
      · exact h4 o ho
    · cases h
    · cases h

/-- One option. -/
structure GStep (a : Arg) (c c' : Command) : Prop where
  format : c'.inFormat = (formatOf a).getD c.inFormat
  noInput : c'.noInput = (c.noInput || decide (a = b#"-z"))
  content : c'.inIsContent = (c.inIsContent || decide (a = b#"-i"))
  lines : c'.lines = (c.lines || decide (a = b#"--lines"))
  noMerge : c'.noMerge = (c.noMerge || decide (a = b#"--no-merge"))
  trimNone : c'.trimNone = (c.trimNone || decide (a = b#"--trim=none"))
  trimHeuristic : c'.trimHeuristic = (c.trimHeuristic || decide (a = b#"--trim=heuristic"))
  allParses : c'.ixmlAllParses = (c.ixmlAllParses || decide (a = b#"--ixml-all-parses"))
  recover : c'.ixmlTryToRecover = (c.ixmlTryToRecover || decide (a = b#"--ixml-try-to-recover"))
  xmlOfIxml : c'.xmlOfIxml = (c.xmlOfIxml || decide (a = b#"--xml-of-ixml"))
  root : c'.implicitRoot = (valueOf b#"--root=" a).or c.implicitRoot
  grammar : c'.ixmlFile = (valueOf b#"--ixml=" a).or c.ixmlFile
  help : c'.printHelp = (c.printHelp || decide (a = b#"--help" ∨ a = b#"-h"))
  version : c'.printVersion = (c.printVersion || decide (a = b#"--version"))
  license : c'.printLicense = (c.printLicense || decide (a = b#"--license"))

def formatTable : List (Arg × Format) :=
  [(b#"--xmq", Format.xmq), (b#"--json", .json), (b#"--clines", .clines), (b#"--xml", .xml), (b#"--ixml", .ixml),
   (b#"--html", .html), (b#"--text", .text)]

theorem formatOf_none {a : Arg} (h : ∀ x, (a, x) ∉ formatTable) : formatOf a = none := by
  cases hh : formatOf a with
  | none => rfl
  | some x => exact absurd (lookup_mem _ hh) (h x)

theorem ite_yes {p : Prop} [Decidable p] {x y : Answer} {c' : Command} (h : (if p then x else y) = .yes c') :
    (p ∧ x = .yes c') ∨ (¬ p ∧ y = .yes c') := by
  by_cases hp : p
  · rw [if_pos hp] at h; exact Or.inl ⟨hp, h⟩
  · rw [if_neg hp] at h; exact Or.inr ⟨hp, h⟩

theorem value_step {w : World} {a : Arg} {c c' : Command} (h : globalValue w a c = .yes c') : GStep a c c' ∧ c'.cmd = c.cmd ∧ c'.input = c.input := by
  unfold globalValue at h
  simp only [behind_eq] at h
  split at h
  · rename_i v hv; rw [valueOf_some] at hv; subst hv; cases h
    refine ⟨?_, rfl, rfl⟩
    constructor
    · rw [formatOf_none (fun x => by simp [formatTable])]; rfl
    all_goals simp [valueOf]
  iterate 2
    replace h := ite_yes h; rcases h with ⟨rfl, h⟩ | ⟨_, h⟩
    · cases h
      exact ⟨by constructor <;> first | rfl | simp [valueOf], rfl, rfl⟩
  split at h
  · rename_i v hv; rw [valueOf_some] at hv; subst hv
    replace h := ite_yes h; rcases h with ⟨rfl, h⟩ | ⟨_, h⟩
    · cases h
      exact ⟨by constructor <;> first | rfl | simp [valueOf], rfl, rfl⟩
    replace h := ite_yes h; rcases h with ⟨rfl, h⟩ | ⟨_, h⟩
    · cases h
      exact ⟨by constructor <;> first | rfl | simp [valueOf], rfl, rfl⟩
    · cases h
  split at h
  · rename_i f hv; rw [valueOf_some] at hv; subst hv
    replace h := ite_yes h; rcases h with ⟨_, h⟩ | ⟨hn, h⟩
    · cases h
    replace h := ite_yes h; rcases h with ⟨_, h⟩ | ⟨_, h⟩
    · cases h
    replace h := ite_yes h; rcases h with ⟨_, h⟩ | ⟨_, h⟩
    · replace h := ite_yes h; rcases h with ⟨_, h⟩ | ⟨_, h⟩
      · cases h
        refine ⟨?_, rfl, rfl⟩
        constructor
        · rw [formatOf_none (fun x => by simp [formatTable])]; rfl
        all_goals simp [valueOf]
      · cases h
    · cases h
  · cases h

theorem global_step {w : World} {a : Arg} {c c' : Command} (h : handleGlobal w a c = .yes c') : GStep a c c' ∧ c'.cmd = c.cmd ∧ c'.input = c.input := by
  unfold handleGlobal at h
  replace h := ite_yes h; rcases h with ⟨ha, h⟩ | ⟨_, h⟩
  · rcases ha with rfl | rfl <;> cases h <;> exact ⟨by constructor <;> first | rfl | simp [valueOf], rfl, rfl⟩
  iterate 8
    replace h := ite_yes h; rcases h with ⟨rfl, h⟩ | ⟨_, h⟩
    · cases h
      exact ⟨by constructor <;> first | rfl | simp [valueOf], rfl, rfl⟩
  replace h := ite_yes h; rcases h with ⟨rfl, h⟩ | ⟨_, h⟩
  · cases h
  unfold globalFormat at h
  iterate 7
    replace h := ite_yes h; rcases h with ⟨rfl, h⟩ | ⟨_, h⟩
    · cases h
      exact ⟨by constructor <;> first | rfl | simp [valueOf], rfl, rfl⟩
  replace h := ite_yes h; rcases h with ⟨ha, h⟩ | ⟨_, h⟩
  · rcases ha with rfl | rfl <;> cases h <;> exact ⟨by constructor <;> first | rfl | simp [valueOf], rfl, rfl⟩
  iterate 2
    replace h := ite_yes h; rcases h with ⟨rfl, h⟩ | ⟨_, h⟩
    · cases h
      exact ⟨by constructor <;> first | rfl | simp [valueOf], rfl, rfl⟩
  exact value_step h

theorem tookGlobal_input {w : World} {c c' : Command} {args : List Arg} (h : TookGlobal w c args c') : c'.cmd = c.cmd ∧ c'.input = c.input := by
  induction h with
  | nil => exact ⟨rfl, rfl⟩
  | cons a as c c1 c2 h1 _ ih => exact ⟨ih.1.trans (global_step h1).2.1, ih.2.trans (global_step h1).2.2⟩

theorem tookGlobal_last {w : World} {α : Type} (π : Command → α) (f : Arg → Option α)
    (step : ∀ a c c', GStep a c c' → π c' = (f a).getD (π c)) {c c' : Command} {args : List Arg}
    (h : TookGlobal w c args c') : π c' = (lastOf f args).getD (π c) := by
  induction h with
  | nil => rfl
  | cons a as c c1 c2 h1 _ ih =>
    rw [ih, step a c c1 (global_step h1).1]
    unfold lastOf
    cases hf : f a with
    | none => rw [List.filterMap_cons_none hf]; rfl
    | some x =>
      rw [List.filterMap_cons_some hf, List.getLast?_cons]
      cases (as.filterMap f).getLast? <;> rfl

theorem tookGlobal_opt {w : World} {α : Type} (π : Command → Option α) (f : Arg → Option α)
    (step : ∀ a c c', GStep a c c' → π c' = (f a).or (π c)) {c c' : Command} {args : List Arg}
    (h : TookGlobal w c args c') : π c' = (lastOf f args).or (π c) := by
  induction h with
  | nil => rfl
  | cons a as c c1 c2 h1 _ ih =>
    rw [ih, step a c c1 (global_step h1).1]
    unfold lastOf
    cases hf : f a with
    | none => rw [List.filterMap_cons_none hf]; rfl
    | some x =>
      rw [List.filterMap_cons_some hf, List.getLast?_cons]
      cases (as.filterMap f).getLast? <;> rfl

theorem tookGlobal_mem {w : World} (π : Command → Bool) (o : Arg)
    (step : ∀ a c c', GStep a c c' → π c' = (π c || decide (a = o))) {c c' : Command} {args : List Arg}
    (h : TookGlobal w c args c') : π c' = (π c || decide (o ∈ args)) := by
  induction h with
  | nil => simp
  | cons a as c c1 c2 h1 _ ih =>
    rw [ih, step a c c1 (global_step h1).1]
    by_cases ha : a = o
    · simp [ha]
    · have : ¬ o = a := fun hh => ha hh.symm
      simp [ha, this]

theorem tookGlobal_mem2 {w : World} (π : Command → Bool) (o o2 : Arg)
    (step : ∀ a c c', GStep a c c' → π c' = (π c || decide (a = o ∨ a = o2))) {c c' : Command} {args : List Arg}
    (h : TookGlobal w c args c') : π c' = (π c || decide (o ∈ args ∨ o2 ∈ args)) := by
  induction h with
  | nil => simp
  | cons a as c c1 c2 h1 _ ih =>
    rw [ih, step a c c1 (global_step h1).1, Bool.or_assoc]
    congr 1
    rw [Bool.eq_iff_iff]
    simp only [Bool.or_eq_true, decide_eq_true_eq, List.mem_cons]
    constructor
    · rintro ((rfl | rfl) | (hh | hh))
      · exact Or.inl (Or.inl rfl)
      · exact Or.inr (Or.inl rfl)
      · exact Or.inl (Or.inr hh)
      · exact Or.inr (Or.inr hh)
    · rintro ((rfl | hh) | (rfl | hh))
      · exact Or.inl (Or.inl rfl)
      · exact Or.inr (Or.inl hh)
      · exact Or.inl (Or.inr rfl)
      · exact Or.inr (Or.inr hh)

theorem globals_mean {w : World} {colour : Bool} {c' : Command} {args : List Arg}
    (h : TookGlobal w { allocate colour with cmd := .load } args c') : Globals c' args := by
  constructor
  · exact tookGlobal_last (·.inFormat) _ (fun _ _ _ h => h.format) h
  · simpa [allocate] using tookGlobal_mem (·.noInput) _ (fun _ _ _ h => h.noInput) h
  · simpa [allocate] using tookGlobal_mem (·.inIsContent) _ (fun _ _ _ h => h.content) h
  · simpa [allocate] using tookGlobal_mem (·.lines) _ (fun _ _ _ h => h.lines) h
  · simpa [allocate] using tookGlobal_mem (·.noMerge) _ (fun _ _ _ h => h.noMerge) h
  · simpa [allocate] using tookGlobal_mem (·.trimNone) _ (fun _ _ _ h => h.trimNone) h
  · simpa [allocate] using tookGlobal_mem (·.trimHeuristic) _ (fun _ _ _ h => h.trimHeuristic) h
  · simpa [allocate] using tookGlobal_mem (·.ixmlAllParses) _ (fun _ _ _ h => h.allParses) h
  · simpa [allocate] using tookGlobal_mem (·.ixmlTryToRecover) _ (fun _ _ _ h => h.recover) h
  · simpa [allocate] using tookGlobal_mem (·.xmlOfIxml) _ (fun _ _ _ h => h.xmlOfIxml) h
  · simpa [allocate] using tookGlobal_opt (·.implicitRoot) _ (fun _ _ _ h => h.root) h
  · simpa [allocate] using tookGlobal_opt (·.ixmlFile) _ (fun _ _ _ h => h.grammar) h
  · simpa [allocate] using tookGlobal_mem2 (·.printHelp) _ _ (fun _ _ _ h => h.help) h
  · simpa [allocate] using tookGlobal_mem (·.printVersion) _ (fun _ _ _ h => h.version) h
  · simpa [allocate] using tookGlobal_mem (·.printLicense) _ (fun _ _ _ h => h.license) h

/-! ## The commands -/

theorem isTo_eq (c : Cmd) : isTo c = converts c := by cases c <;> rfl
theorem isOutput_eq (c : Cmd) : isOutput c = writes c := by cases c <;> rfl
theorem mutes_iff (c : Cmd) : (cmdGroup c = .forEach ∨ c = .noOutput) ↔ mutes c = true := by cases c <;> decide

theorem remember_some {f f' : Found} {c : Command} (h : remember f c = .inr f') :
    f'.done = c :: f.done ∧ f'.load = f.load ∧ f'.to = (f.to || converts c.cmd) ∧ (converts c.cmd = true → f.to = false) ∧
    f'.output = (if writes c.cmd then some c.cmd else f.output) ∧ (writes c.cmd = true → f.output = none) ∧
    f'.doPrint = (if mutes c.cmd then false else if converts c.cmd then true else f.doPrint) := by
  unfold remember at h
  rw [isTo_eq, isOutput_eq] at h
  simp only [mutes_iff] at h
  split at h
  · cases h
  rename_i h1
  split at h
  · cases h
  rename_i h2
  cases h
  refine ⟨rfl, rfl, rfl, ?_, rfl, ?_, rfl⟩
  · intro hc
    cases ht : f.to with
    | false => rfl
    | true => exact absurd ⟨hc, ht⟩ h1
  · intro hw
    cases ho : f.output with
    | none => rfl
    | some o => exact absurd ⟨hw, by rw [ho]; rfl⟩ h2

/-- What is known of the commands found. -/
structure GoodCmds (w : World) (load0 : Command) (f : Found) (ps : List (Piece × Command)) : Prop where
  done : f.done.reverse = ps.map (·.2)
  words : ∀ p ∈ ps, IsCommand p.1.word p.2.cmd ∧ Understood w p.2 p.1.args
  to : f.to = ps.any (fun p => converts p.2.cmd)
  toOne : (ps.filter (fun p => converts p.2.cmd)).length ≤ 1
  output : f.output = ((ps.filter (fun p => writes p.2.cmd)).map (·.2.cmd)).head?
  outOne : (ps.filter (fun p => writes p.2.cmd)).length ≤ 1
  muted : f.doPrint = false ↔ Muted (ps.map (·.2.cmd))
  load : f.load = (if ps.any (fun p => p.2.cmd == .tokenize) then { load0 with cmd := .none } else load0)

theorem muted_snoc (cs : List Cmd) (c : Cmd) : Muted (cs ++ [c]) ↔ (mutes c = true ∨ (converts c = false ∧ Muted cs)) := by
  constructor
  · rintro ⟨pre, m, post, h1, h2, h3⟩
    rcases List.eq_nil_or_concat post with rfl | ⟨post', x, rfl⟩
    · have : c = m := by
        have := congrArg List.getLast? h1
        simpa using this
      left; rw [this]; exact h2
    · right
      have h4 : cs = pre ++ m :: post' ∧ c = x := by
        have h5 : cs ++ [c] = (pre ++ m :: post') ++ [x] := by rw [h1]; simp
        have h6 := List.append_inj' h5 rfl
        exact ⟨h6.1, by simpa using h6.2⟩
      refine ⟨by rw [h4.2]; exact h3 x (by simp), pre, m, post', h4.1, h2, fun y hy => h3 y (by simp [hy])⟩
  · rintro (h | ⟨h, pre, m, post, h1, h2, h3⟩)
    · exact ⟨cs, c, [], rfl, h, by simp⟩
    · refine ⟨pre, m, post ++ [c], by rw [h1]; simp, h2, ?_⟩
      intro x hx
      rcases List.mem_append.1 hx with hx | hx
      · exact h3 x hx
      · rw [List.mem_singleton.1 hx]; exact h

theorem mutes_not (c : Cmd) (h : mutes c = true) : converts c = false := by cases c <;> first | rfl | cases h

theorem good_snoc {w : World} {load0 : Command} {f f' : Found} {ps : List (Piece × Command)} {p : Piece} {c : Command}
    (hg : GoodCmds w load0 f ps) (hr : remember { f with load := prepareLoad c.cmd f.load } c = .inr f')
    (hw : IsCommand p.word c.cmd) (hu : Understood w c p.args) : GoodCmds w load0 f' (ps ++ [(p, c)]) := by
  obtain ⟨h1, h2, h3, h4, h5, h6, h7⟩ := remember_some hr
  simp only at h1 h2 h3 h4 h5 h6 h7
  constructor
  · rw [h1, List.reverse_cons, hg.done]; simp
  · intro q hq
    rcases List.mem_append.1 hq with hq | hq
    · exact hg.words q hq
    · rw [List.mem_singleton.1 hq]; exact ⟨hw, hu⟩
  · rw [h3, hg.to]; simp
  · rw [List.filter_append, List.length_append]
    cases hc : converts c.cmd with
    | false => simp [hc]; exact hg.toOne
    | true =>
      have := h4 hc
      rw [hg.to] at this
      have h0 : ps.filter (fun p => converts p.2.cmd) = [] := by
        rw [List.filter_eq_nil_iff]
        rw [List.any_eq_false] at this
        exact this
      simp [hc, h0]
  · rw [h5, List.filter_append, List.map_append]
    cases hc : writes c.cmd with
    | false => simp [hc, hg.output]
    | true =>
      have := h6 hc
      rw [hg.output] at this
      have h0 : (ps.filter (fun p => writes p.2.cmd)).map (·.2.cmd) = [] := List.head?_eq_none_iff.1 this
      rw [h0]; simp [hc]
  · rw [List.filter_append, List.length_append]
    cases hc : writes c.cmd with
    | false => simp [hc]; exact hg.outOne
    | true =>
      have := h6 hc
      rw [hg.output] at this
      have h0 : (ps.filter (fun p => writes p.2.cmd)).map (·.2.cmd) = [] := List.head?_eq_none_iff.1 this
      have h0 := List.map_eq_nil_iff.1 h0
      simp [hc, h0]
  · rw [h7, List.map_append]
    show _ ↔ Muted (_ ++ [c.cmd])
    rw [muted_snoc]
    by_cases hm : mutes c.cmd = true
    · simp [hm]
    · have hm : mutes c.cmd = false := by simpa using hm
      by_cases hc : converts c.cmd = true
      · simp [hm, hc]
      · have hc : converts c.cmd = false := by simpa using hc
        simp [hm, hc, hg.muted]
  · rw [h2, hg.load, List.any_append]
    unfold prepareLoad
    have hany : ([(p, c)].any fun p => p.2.cmd == .tokenize) = (c.cmd == .tokenize) := by simp
    rw [hany]
    by_cases ht : c.cmd = .tokenize
    · have : (c.cmd == .tokenize) = true := by simpa using ht
      rw [if_pos ht, this, Bool.or_true]
      cases ps.any (fun p => p.2.cmd == .tokenize) <;> rfl
    · have : (c.cmd == .tokenize) = false := by simpa using ht
      rw [if_neg ht, this, Bool.or_false]

theorem commands_good (w : World) (colour : Bool) (load0 : Command) : ∀ (n : Nat) (args : List Arg) (f f' : Found) (ps : List (Piece × Command)),
    args.length < n → (args = [] ∨ ∃ x t, args = x :: t ∧ cmdFrom x ≠ .none) → GoodCmds w load0 f ps → commands w colour n args f = .inr f' →
    ∃ qs, GoodCmds w load0 f' (ps ++ qs) ∧ args = (qs.map fun q => q.1.word :: q.1.args).flatten := by
  intro n
  induction n with
  | zero => intro args f f' ps h; omega
  | succ n ih =>
    intro args f f' ps hlen hcmd hg h
    cases args with
    | nil => unfold commands at h; cases h; exact ⟨[], by simpa using hg, rfl⟩
    | cons word rest =>
      have hw : cmdFrom word ≠ .none := by
        rcases hcmd with hh | ⟨x, t, hh, hx⟩
        · cases hh
        · cases hh; exact hx
      unfold commands at h
      simp only at h
      split at h
      · cases h
      rename_i c rest' ha
      split at h
      · cases h
      rename_i f1 hr
      obtain ⟨taken, h1, h2, h3⟩ := arguments_took w _ _ _ _ ha
      have hc : c.cmd = cmdFrom word := by rw [took_cmd h2, prepare_cmd]
      have hu := understood (prepare_fresh f.load colour (cmdFrom word)) h2
      rw [← hc] at hr
      have hg1 : GoodCmds w load0 f1 (ps ++ [(⟨word, taken⟩, c)]) :=
        good_snoc hg hr (by rw [hc]; exact cmdFrom_word word hw) hu
      obtain ⟨qs, q1, q2⟩ := ih rest' f1 f' _ (by
        have := congrArg List.length h1
        simp only [List.length_append] at this
        simp only [List.length_cons] at hlen
        omega) (by
        rcases h3 with h3 | ⟨x, t, h3, h4, _⟩
        · exact Or.inl h3
        · exact Or.inr ⟨x, t, h3, h4⟩) hg1 h
      refine ⟨(⟨word, taken⟩, c) :: qs, by simpa using q1, ?_⟩
      rw [h1, q2]; rfl

theorem good_nil (w : World) (load : Command) : GoodCmds w load { load := load } [] := by
  constructor
  · rfl
  · simp
  · rfl
  · simp
  · rfl
  · simp
  · constructor
    · intro h; cases h
    · rintro ⟨pre, m, post, h, _⟩; simp at h
  · rfl

/-- The default conversion goes before the output command. -/
theorem insert_before (x : Command) : ∀ (pre : List Command) (o : Command) (post : List Command),
    (∀ c ∈ pre, writes c.cmd = false) → writes o.cmd = true →
    insertBeforeOutput x (pre ++ o :: post) = pre ++ x :: o :: post := by
  intro pre
  induction pre with
  | nil => intro o post _ ho; simp [insertBeforeOutput, isOutput_eq, ho]
  | cons p pre ih =>
    intro o post hp ho
    have := hp p List.mem_cons_self
    rw [List.cons_append]
    unfold insertBeforeOutput
    rw [isOutput_eq, this, ih o post (fun c hc => hp c (List.mem_cons_of_mem _ hc)) ho]; rfl

theorem fresh_understood {w : World} (load : Command) (colour : Bool) (k : Cmd) :
    Understood w (prepare load { allocate colour with cmd := k }) [] := understood (prepare_fresh load colour k) (.nil _)

theorem complete_good {w : World} {colour : Bool} {load0 : Command} {f : Found} {ps : List (Piece × Command)} (hl : load0.cmd = .load)
    (hg : GoodCmds w load0 f ps) : ∃ cs, complete colour f = f.load :: cs ∧ Completed w (ps.map (·.2)) cs := by
  have hmap : ((ps.map (·.2)).map (·.cmd)) = ps.map (·.2.cmd) := by rw [List.map_map]; rfl
  have hload : writes f.load.cmd = false := by
    rw [hg.load]; split
    · rfl
    · rw [hl]; rfl
  unfold complete
  simp only
  rw [hg.done]
  by_cases hd : f.doPrint = false
  · refine ⟨ps.map (·.2), ?_, .muted (by rw [hmap]; exact hg.muted.1 hd)⟩
    rw [hd]; simp
  have hnm : ¬ Muted ((ps.map (·.2)).map (·.cmd)) := by rw [hmap]; exact fun hh => hd (hg.muted.2 hh)
  have hd : f.doPrint = true := by simpa using hd
  have hout : f.output = none ↔ ∀ c ∈ ps.map (·.2), writes c.cmd = false := by
    rw [hg.output, List.head?_eq_none_iff, List.map_eq_nil_iff, List.filter_eq_nil_iff]
    constructor
    · intro h c hc
      obtain ⟨p, hp, rfl⟩ := List.mem_map.1 hc
      simpa using h p hp
    · intro h p hp
      simp [h p.2 (List.mem_map_of_mem hp)]
  have hto : (f.to = true → ∃ c ∈ ps.map (·.2), converts c.cmd = true) ∧ (f.to = false → ∀ c ∈ ps.map (·.2), converts c.cmd = false) := by
    rw [hg.to]
    constructor
    · intro h
      obtain ⟨p, hp, hc⟩ := List.any_eq_true.1 h
      exact ⟨p.2, List.mem_map_of_mem hp, hc⟩
    · intro h c hc
      obtain ⟨p, hp, rfl⟩ := List.mem_map.1 hc
      simpa using List.any_eq_false.1 h p hp
  rw [hd]
  cases ht : f.to with
  | true =>
    obtain ⟨c, hc1, hc2⟩ := hto.1 ht
    cases ho : f.output with
    | none =>
      exact ⟨ps.map (·.2) ++ [prepare f.load { allocate colour with cmd := .print }], by simp,
        .print _ hnm ⟨c, hc1, hc2⟩ (hout.1 ho) (prepare_cmd _ _)⟩
    | some o =>
      refine ⟨ps.map (·.2), by simp, .full hnm ⟨c, hc1, hc2⟩ ?_⟩
      have : ¬ (∀ c ∈ ps.map (·.2), writes c.cmd = false) := fun hh => by rw [hout.2 hh] at ho; cases ho
      apply Classical.byContradiction
      intro hh
      apply this
      intro c hc
      cases hw : writes c.cmd with
      | false => rfl
      | true => exact absurd ⟨c, hc, hw⟩ hh
  | false =>
    have hnc := hto.2 ht
    cases ho : f.output with
    | none =>
      exact ⟨ps.map (·.2) ++ [prepare f.load { allocate colour with cmd := .toXmq }, prepare f.load { allocate colour with cmd := .print }],
        by simp, .both _ _ hnm hnc (hout.1 ho) (prepare_cmd _ _) (fresh_understood _ _ _) (prepare_cmd _ _)⟩
    | some o =>
      have h1 := hg.output
      rw [ho] at h1
      have : ∃ pre q post, ps = pre ++ q :: post ∧ (∀ p ∈ pre, writes p.2.cmd = false) ∧ writes q.2.cmd = true ∧ q.2.cmd = o := by
        clear hg hto hout hnm hmap hnc
        induction ps with
        | nil => simp at h1
        | cons p ps ih =>
          cases hw : writes p.2.cmd with
          | true =>
            rw [List.filter_cons_of_pos (by exact hw)] at h1
            exact ⟨[], p, ps, rfl, by simp, hw, by simpa using h1.symm⟩
          | false =>
            rw [List.filter_cons_of_neg (by simp [hw])] at h1
            obtain ⟨pre, q, post, e1, e2, e3, e4⟩ := ih h1
            refine ⟨p :: pre, q, post, by rw [e1]; rfl, ?_, e3, e4⟩
            intro x hx
            rcases List.mem_cons.1 hx with rfl | hx
            · exact hw
            · exact e2 x hx
      obtain ⟨pre, q, post, e1, e2, e3, e4⟩ := this
      refine ⟨pre.map (·.2) ++ prepare f.load { allocate colour with cmd := if o = .browser then .renderHtml else .toXmq } :: q.2 :: post.map (·.2),
        ?_, .convert _ q.2 (pre.map (·.2)) (post.map (·.2)) hnm hnc (by rw [e1]; simp) e3 (by rw [prepare_cmd, e4]) (fresh_understood _ _ _)⟩
      simp only [Bool.not_false, Bool.true_and, if_true, Option.isNone_some, Bool.false_eq_true, if_false, Bool.false_and]
      have := insert_before (prepare f.load { allocate colour with cmd := if o = .browser then .renderHtml else .toXmq })
        (f.load :: pre.map (·.2)) q.2 (post.map (·.2)) (by
          intro c hc
          rcases List.mem_cons.1 hc with rfl | hc
          · exact hload
          · obtain ⟨p, hp, rfl⟩ := List.mem_map.1 hc
            exact e2 p hp) e3
      rw [e1]
      simpa using this

end Xmq
