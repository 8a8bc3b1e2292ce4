import Verif.Lemmas.CmdAccepts
/-!
# C87: the command line
-/
namespace Xmq.Props
open Xmq.CmdLine Xmq.Spec

theorem C87_words (word : Arg) (c : Cmd) : (cmdFrom word = c ∧ c ≠ .none) ↔ IsCommand word c := by
  constructor
  · rintro ⟨rfl, h⟩; exact cmdFrom_word word h
  · exact word_cmdFrom word c

/-- A line that is accepted is options, at most one input, and commands with their arguments; what is run is to load the input,
    these commands in their order, and what is missing: a conversion, an output. -/
theorem C87_grammar (w : World) (colour : Bool) (argv : List Arg) (chain : List Command) (h : parseCmdLine w colour argv = .chain chain) :
    ∃ options input ps load cs, chain = load :: cs ∧ Cut w argv options input ps load cs := by
  unfold parseCmdLine at h
  split at h
  · rename_i e _ _; subst h; rename_i he
    exfalso
    have : ∀ (argv : List Arg) (c : Command) (e : Parsed), globals w argv c = .inl e → ∀ cs, e ≠ .chain cs := by
      intro argv
      induction argv with
      | nil => intro c e h; cases h
      | cons a argv ih =>
        intro c e h
        unfold globals at h
        split at h
        · cases h
        split at h
        · exact ih _ _ h
        · cases h; intro cs hh; cases hh
        · cases h; intro cs hh; cases hh
    exact this _ _ _ he _ rfl
  rename_i load rest hglob
  obtain ⟨options, h1, h2, h3⟩ := globals_took w _ _ _ _ hglob
  have hcmd := tookGlobal_input h2
  have hmean := globals_mean h2
  have key : ∀ (input : Option Arg) (args : List Arg) (hin : ∀ i, input = some i → ∀ k, ¬ IsCommand i k)
      (hline : rest = input.toList ++ args) (hargs : args = [] ∨ ∃ x t, args = x :: t ∧ cmdFrom x ≠ .none) (l : Command)
      (hl : l = { load with input := input })
      (hgo : (match commands w colour (args.length + 1) args { load := l } with
        | .inl e => e
        | .inr f => Parsed.chain (complete colour f)) = .chain chain),
      ∃ options input ps load cs, chain = load :: cs ∧ Cut w argv options input ps load cs := by
    intro input args hin hline hargs l hl hgo
    split at hgo
    · rename_i e he
      exfalso
      have : ∀ (n : Nat) (args : List Arg) (f : Found) (e : Parsed), commands w colour n args f = .inl e → ∀ cs, e ≠ .chain cs := by
        have harg : ∀ (args : List Arg) (c : Command) (e : Parsed), arguments w args c = .inl e → ∀ cs, e ≠ .chain cs := by
          intro args
          induction args with
          | nil => intro c e h; cases h
          | cons a args ih =>
            intro c e h
            unfold arguments at h
            split at h
            · exact ih _ _ h
            · cases h; intro cs hh; cases hh
            · split at h
              · cases h
              · cases h; intro cs hh; cases hh
        intro n
        induction n with
        | zero => intro args f e h; unfold commands at h; cases h
        | succ n ih =>
          intro args f e h
          cases args with
          | nil => unfold commands at h; cases h
          | cons a args =>
            unfold commands at h
            simp only at h
            split at h
            · cases h; rename_i h4; exact harg _ _ _ h4
            split at h
            · cases h
              rename_i h4
              unfold remember at h4
              split at h4
              · cases h4; intro cs hh; cases hh
              simp only at h4
              split at h4
              · cases h4; intro cs hh; cases hh
              · cases h4
            · exact ih _ _ _ h
      exact this _ _ _ _ he _ hgo
    · rename_i f hf
      cases hgo
      obtain ⟨ps, q1, q2⟩ := commands_good w colour l _ _ _ _ [] (Nat.lt_succ_self _) hargs (good_nil w l) hf
      rw [List.nil_append] at q1
      have hll : l.cmd = .load := by rw [hl]; exact hcmd.1
      obtain ⟨cs, c1, c2⟩ := complete_good (colour := colour) hll q1
      refine ⟨options, input, ps, f.load, cs, c1, ?_⟩
      have hload : f.load = l ∨ (f.load = { l with cmd := .none } ∧ ∃ p ∈ ps, p.2.cmd = .tokenize) := by
        rw [q1.load]
        split
        · rename_i ht
          right
          obtain ⟨p, hp, hc⟩ := List.any_eq_true.1 ht
          exact ⟨rfl, p, hp, by simpa using hc⟩
        · left; rfl
      constructor
      · rw [h1, hline, q2]
        unfold line
        rw [List.map_map]
        simp [Function.comp_def]
      · exact h3
      · exact hin
      · exact q1.words
      · exact q1.toOne
      · exact q1.outOne
      · rcases hload with hh | ⟨hh, ht⟩
        · left; rw [hh, hll]
        · right; rw [hh]; exact ⟨rfl, ht⟩
      · rcases hload with hh | ⟨hh, _⟩ <;> rw [hh, hl]
      · have : Globals l options := by
          rw [hl]
          exact ⟨hmean.format, hmean.noInput, hmean.content, hmean.lines, hmean.noMerge, hmean.trimNone, hmean.trimHeuristic,
            hmean.allParses, hmean.recover, hmean.xmlOfIxml, hmean.root, hmean.grammar, hmean.help, hmean.version, hmean.license⟩
        rcases hload with hh | ⟨hh, _⟩ <;> rw [hh]
        · exact this
        · exact ⟨this.format, this.noInput, this.content, this.lines, this.noMerge, this.trimNone, this.trimHeuristic,
            this.allParses, this.recover, this.xmlOfIxml, this.root, this.grammar, this.help, this.version, this.license⟩
      · exact c2
  have hnone : ({ load with input := none } : Command) = load := by
    have h0 : load.input = none := hcmd.2
    cases load; cases h0; rfl
  have notcmd : ∀ word, cmdFrom word = .none → ∀ k, ¬ IsCommand word k := by
    intro word hw k hk
    have := word_cmdFrom word k hk
    exact this.2 (this.1.symm.trans hw)
  simp only at h
  split at h
  · exact key none [] (by simp) rfl (Or.inl rfl) load hnone.symm h
  · rename_i word rest'
    split at h
    · rename_i hw
      exact key none (word :: rest') (by simp) rfl (Or.inr ⟨_, _, rfl, hw⟩) load hnone.symm h
    · rename_i hw
      have hw : cmdFrom word = .none := Classical.byContradiction hw
      have hin : ∀ i, some word = some i → ∀ k, ¬ IsCommand i k := by
        intro i hi; cases hi; exact notcmd _ hw
      split at h
      · exact key (some word) [] hin rfl (Or.inl rfl) _ rfl h
      · rename_i second t
        split at h
        · cases h
        · rename_i hs
          exact key (some word) (second :: t) hin rfl (Or.inr ⟨_, _, rfl, hs⟩) _ rfl h

/-- Lines that have to be accepted: options without a value, a file, commands with arguments that they have, at most one conversion
    and one output. -/
theorem C87_accepts (w : World) (colour : Bool) (options : List Arg) (input : Option Arg) (qs : List (Piece × Cmd))
    (ho : ∀ o ∈ options, o ∈ plainOptions)
    (hi : ∀ i, input = some i → (i.head? ≠ some b#'-' ∨ i = b#"-") ∧ ∀ k, ¬ IsCommand i k)
    (hq : ∀ q ∈ qs, IsCommand q.1.word q.2 ∧ Accepts q.2 q.1.args)
    (h1 : (qs.filter (fun q => converts q.2)).length ≤ 1) (h2 : (qs.filter (fun q => writes q.2)).length ≤ 1) :
    ∃ chain, parseCmdLine w colour (line options input (qs.map (·.1))) = .chain chain := by
  have hword : ∀ word, (∀ k, ¬ IsCommand word k) → cmdFrom word = .none := by
    intro word hw
    apply Classical.byContradiction
    intro hh
    exact hw _ (cmdFrom_word word hh)
  have hflat : (((qs.map (·.1)).map fun p => p.word :: p.args).flatten) = (qs.map fun q => q.1.word :: q.1.args).flatten := by
    rw [List.map_map]; rfl
  have hrest : (qs.map fun q => q.1.word :: q.1.args).flatten = [] ∨
      ∃ x t, (qs.map fun q => q.1.word :: q.1.args).flatten = x :: t ∧ cmdFrom x ≠ .none := by
    cases qs with
    | nil => exact Or.inl rfl
    | cons q qs =>
      right
      have hw := word_cmdFrom _ _ (hq q List.mem_cons_self).1
      exact ⟨q.1.word, q.1.args ++ (qs.map fun q => q.1.word :: q.1.args).flatten, rfl, by rw [hw.1]; exact hw.2⟩
  unfold line
  rw [hflat]
  generalize hR : (qs.map fun q => q.1.word :: q.1.args).flatten = R at hrest
  rw [List.append_assoc]
  obtain ⟨load, hg⟩ := globals_accepts w options (input.toList ++ R) { allocate colour with cmd := .load } ho (by
    cases input with
    | some i => exact Or.inr ⟨i, R, rfl, (hi i rfl).1⟩
    | none =>
      rcases hrest with h | ⟨x, t, h, hx⟩
      · left; rw [h]; rfl
      · right; exact ⟨x, t, by rw [h]; rfl, Or.inl (word_head hx)⟩)
  have hgo : ∀ l : Command, ∃ chain, (match commands w colour (R.length + 1) R { load := l } with
      | .inl e => e
      | .inr f => Parsed.chain (complete colour f)) = .chain chain := by
    intro l
    obtain ⟨f', hf⟩ := commands_accepts w colour (R.length + 1) qs { load := l } hq (by simpa using h1) (by simpa using h2)
    rw [hR] at hf
    rw [hf]
    exact ⟨_, rfl⟩
  unfold parseCmdLine
  rw [hg]
  simp only
  cases input with
  | none =>
    rcases hrest with h | ⟨x, t, h, hx⟩
    · have := hgo load
      rw [h] at this ⊢
      exact this
    · have := hgo load
      rw [h] at this ⊢
      simp only [Option.toList_none, List.nil_append]
      rw [if_pos hx]
      exact this
  | some i =>
    have hin : cmdFrom i = .none := hword i (hi i rfl).2
    simp only [Option.toList_some, List.cons_append, List.nil_append]
    rw [if_neg (by simpa using hin)]
    have := hgo { load with input := some i }
    rcases hrest with h | ⟨x, t, h, hx⟩
    · rw [h] at this ⊢; exact this
    · rw [h] at this ⊢
      simp only
      rw [if_neg hx]
      exact this

/-- A second conversion, a second output are refused. -/
theorem C87_refuses (w : World) (colour : Bool) (argv : List Arg) (chain : List Command) (h : parseCmdLine w colour argv = .chain chain) :
    (chain.filter (fun c => converts c.cmd)).length ≤ 1 ∧ (chain.filter (fun c => writes c.cmd)).length ≤ 1 := by
  obtain ⟨options, input, ps, load, cs, rfl, hc⟩ := C87_grammar w colour argv chain h
  have hl : converts load.cmd = false ∧ writes load.cmd = false := by
    rcases hc.loads with hh | ⟨hh, _⟩ <;> rw [hh] <;> exact ⟨rfl, rfl⟩
  rw [List.filter_cons_of_neg (by simp [hl.1]), List.filter_cons_of_neg (by simp [hl.2])]
  have e1 : ((ps.map (·.2)).filter (fun c => converts c.cmd)).length ≤ 1 := by
    rw [List.filter_map, List.length_map]; exact hc.oneConversion
  have e2 : ((ps.map (·.2)).filter (fun c => writes c.cmd)).length ≤ 1 := by
    rw [List.filter_map, List.length_map]; exact hc.oneOutput
  have z : ∀ (l : List Command) (f : Command → Bool), (∀ c ∈ l, f c = false) → (l.filter f).length = 0 := by
    intro l f hh
    rw [List.length_eq_zero_iff, List.filter_eq_nil_iff]
    intro c hcc; rw [hh c hcc]; decide
  have hcs := hc.completed
  generalize ps.map (·.2) = own at hcs e1 e2
  cases hcs with
  | muted => exact ⟨e1, e2⟩
  | full => exact ⟨e1, e2⟩
  | print p _ h2 h3 hp =>
    rw [List.filter_append, List.filter_append, List.length_append, List.length_append, z own (fun c => writes c.cmd) h3]
    simp [hp, converts, writes]
    exact e1
  | both t p _ h2 h3 ht _ hp =>
    rw [List.filter_append, List.filter_append, List.length_append, List.length_append, z own (fun c => writes c.cmd) h3,
      z own (fun c => converts c.cmd) h2]
    simp [hp, ht, converts, writes]
  | convert t o pre post _ h2 h3 h4 ht =>
    have hpre := z pre (fun c => converts c.cmd) (fun c hcc => h2 c (by rw [h3]; exact List.mem_append_left _ hcc))
    have hpost := z (o :: post) (fun c => converts c.cmd) (fun c hcc => h2 c (by rw [h3]; exact List.mem_append_right _ hcc))
    have htw : converts t.cmd = true ∧ writes t.cmd = false := by rw [ht]; split <;> exact ⟨rfl, rfl⟩
    rw [h3, List.filter_append, List.length_append] at e2
    have f1 : ((t :: o :: post).filter (fun c => converts c.cmd)) = t :: (o :: post).filter (fun c => converts c.cmd) :=
      List.filter_cons_of_pos (by exact htw.1)
    have f2 : ((t :: o :: post).filter (fun c => writes c.cmd)) = (o :: post).filter (fun c => writes c.cmd) :=
      List.filter_cons_of_neg (by simp [htw.2])
    rw [List.filter_append, List.filter_append, List.length_append, List.length_append, hpre, f1, f2, List.length_cons, hpost]
    exact ⟨by omega, e2⟩

/-! ## What is done -/

theorem main_chain {D : Type} {w : World} {S : Sem D} {colour : Bool} {argv options : List Arg} {load : Command} {cs : List Command}
    (h : parseCmdLine w colour argv = .chain (load :: cs)) (hg : Globals load options) (hn : NoHelp options)
    (hc : ∀ c ∈ cs, c.cmd ≠ .help) : CmdLine.main w S colour argv = runChain S (load :: cs) {} := by
  obtain ⟨n1, n2, n3, n4⟩ := hn
  unfold CmdLine.main
  rw [h]
  simp only
  rw [if_neg (by rw [hg.version, hg.license, hg.help]; simp [n1, n2, n3, n4])]
  cases cs with
  | nil => rfl
  | cons c cs => simp only; rw [if_neg (hc c List.mem_cons_self)]

theorem run_edits {D : Type} (S : Sem D) (rest : List Command) (out : Option (List Byte)) (written : List (Sink × List Byte)) :
    ∀ (es : List Command) (d : D), (∀ e ∈ es, edits e.cmd = true ∧ SaysWhat e) →
    runChain S (es ++ rest) { doc := some d, out := out, written := written } =
      (match edited S es d with
      | some d' => runChain S rest { doc := some d', out := out, written := written }
      | none => some (1, written)) := by
  intro es
  induction es with
  | nil => intro d _; rfl
  | cons e es ih =>
    intro d h
    obtain ⟨he, hs1, hs2⟩ := h e List.mem_cons_self
    have hp : perform S e { doc := some d, out := out, written := written } =
        (match S.edit e d with
        | some d => Step.ok { doc := some d, out := out, written := written }
        | none => .failed { doc := some d, out := out, written := written }) := by
      unfold perform
      have hne : ¬ (e.cmd = .none) := by intro hh; rw [hh] at he; cases he
      have h1 : ¬ (e.cmd = .delete ∧ e.xpath = none) := fun hh => hs1 hh.1 hh.2
      have h2 : ¬ (e.cmd = .deleteEntity ∧ e.entity = none) := fun hh => hs2 hh.1 hh.2
      rw [if_neg hne, if_neg h1, if_neg h2]
      cases hk : e.cmd <;> first | rfl | (rw [hk] at he; cases he)
    rw [List.cons_append]
    conv => lhs; unfold runChain
    rw [hp]
    unfold edited
    cases S.edit e d with
    | none => rfl
    | some d1 => exact ih d1 (fun x hx => h x (List.mem_cons_of_mem _ hx))

theorem run_to {D : Type} (S : Sem D) (t : Command) (rest : List Command) (d : D) (ht : converts t.cmd = true) (hk : t.cmd ≠ .tokenize)
    (out : Option (List Byte)) (written : List (Sink × List Byte)) :
    runChain S (t :: rest) { doc := some d, out := out, written := written } =
      runChain S rest { doc := some d, out := some (S.render t d), written := written } := by
  conv => lhs; unfold runChain
  have : perform S t { doc := some d, out := out, written := written } = .ok { doc := some d, out := some (S.render t d), written := written } := by
    unfold perform
    cases hc : t.cmd <;> first | rfl | exact absurd hc hk | (rw [hc] at ht; cases ht)
  rw [this]

theorem run_out {D : Type} (S : Sem D) (o : Command) (sink : Sink) (hs : Sends o sink) (hf : ∀ f, sink = .file f → S.opens f = true)
    (doc : Option D) (text : List Byte) : runChain S [o] { doc := doc, out := some text } = some (0, [(sink, text)]) := by
  have : perform S o { doc := doc, out := some text } = .ok { doc := doc, out := some text, written := [(sink, text)] } := by
    cases sink with
    | console => have hs : o.cmd = .print := hs; unfold perform cmdOutput; rw [hs]; rfl
    | pager => have hs : o.cmd = .pager := hs; unfold perform cmdOutput; rw [hs]; rfl
    | browser => have hs : o.cmd = .browser := hs; unfold perform cmdOutput; rw [hs]; rfl
    | file f =>
      obtain ⟨h1, h2⟩ := hs
      unfold perform cmdOutput
      rw [h1]
      show (match o.saveFile with
        | none => Step.failed _
        | some f => if S.opens f then _ else _) = _
      rw [h2]
      show (if S.opens f = true then _ else _) = _
      rw [if_pos (hf f rfl)]
      rfl
  unfold runChain
  rw [this]
  rfl

theorem edits_not {c : Cmd} (h : edits c = true) : writes c = false ∧ mutes c = false ∧ converts c = false ∧ c ≠ .help ∧ c ≠ .tokenize := by
  cases c <;> first | (refine ⟨rfl, rfl, rfl, ?_, ?_⟩ <;> decide) | cases h

theorem completed_prefix {w : World} {es rest cs : List Command} (he : ∀ e ∈ es, edits e.cmd = true)
    (h : Completed w (es ++ rest) cs) : ∃ rest', cs = es ++ rest' := by
  generalize hown : es ++ rest = own at h
  cases h with
  | muted h => exact ⟨rest, hown.symm⟩
  | full h => exact ⟨rest, hown.symm⟩
  | print p h => exact ⟨rest ++ [p], by rw [← hown]; simp⟩
  | both t p h => exact ⟨rest ++ [t, p], by rw [← hown]; simp⟩
  | convert t o pre post h h2 h3 h4 =>
    have hpre : ∃ r, pre = es ++ r := by
      have h5 : es ++ rest = pre ++ o :: post := by rw [hown, h3]
      rcases List.append_eq_append_iff.1 h5 with ⟨r, h6, _⟩ | ⟨r, h6, h7⟩
      · exact ⟨r, h6⟩
      · cases r with
        | nil => exact ⟨[], by rw [h6]; simp⟩
        | cons x r =>
          exfalso
          have : x = o := by have := congrArg List.head? h7; simpa using this.symm
          have h8 := he x (by rw [h6]; simp)
          rw [this] at h8
          rw [(edits_not h8).1] at h4; cases h4
    obtain ⟨r, hr⟩ := hpre
    exact ⟨r ++ t :: o :: post, by rw [hr]; simp⟩

theorem completed_mem {w : World} {own cs : List Command} (h : Completed w own cs) :
    ∀ c ∈ cs, c ∈ own ∨ c.cmd = .toXmq ∨ c.cmd = .renderHtml ∨ c.cmd = .print := by
  intro c hc
  cases h with
  | muted h => exact Or.inl hc
  | full h => exact Or.inl hc
  | print p h _ _ hp =>
    rcases List.mem_append.1 hc with hc | hc
    · exact Or.inl hc
    · rw [List.mem_singleton.1 hc, hp]; simp
  | both t p h _ _ ht _ hp =>
    rcases List.mem_append.1 hc with hc | hc
    · exact Or.inl hc
    · rcases List.mem_cons.1 hc with rfl | hc
      · rw [ht]; simp
      · rw [List.mem_singleton.1 hc, hp]; simp
  | convert t o pre post h h2 h3 h4 ht =>
    rcases List.mem_append.1 hc with hc | hc
    · left; rw [h3]; exact List.mem_append_left _ hc
    · rcases List.mem_cons.1 hc with rfl | hc
      · right; rw [ht]; split <;> simp
      · left; rw [h3]; exact List.mem_append_right _ hc

theorem run_load {D : Type} (S : Sem D) (load : Command) (cs : List Command) (hl : load.cmd = .load) :
    runChain S (load :: cs) {} = (match S.load load with | some d => runChain S cs { doc := some d } | none => some (1, [])) := by
  have hp : perform S load {} = (match S.load load with | some d => Step.ok { doc := some d } | none => .failed {}) := by
    unfold perform; rw [hl]; rfl
  conv => lhs; unfold runChain
  rw [hp]
  cases S.load load <;> rfl

theorem sends_writes {o : Command} {sink : Sink} (h : Sends o sink) : writes o.cmd = true ∧ mutes o.cmd = false ∧ converts o.cmd = false ∧
    o.cmd ≠ .help ∧ o.cmd ≠ .tokenize ∧ (o.cmd = .browser ↔ sink = .browser) := by
  cases sink with
  | console => have h : o.cmd = .print := h; rw [h]; simp [writes, mutes, converts]
  | pager => have h : o.cmd = .pager := h; rw [h]; simp [writes, mutes, converts]
  | browser => have h : o.cmd = .browser := h; rw [h]; simp [writes, mutes, converts]
  | file f => have h : o.cmd = .saveTo := h.1; rw [h]; simp [writes, mutes, converts]

theorem converts_not {c : Cmd} (h : converts c = true) : writes c = false ∧ mutes c = false ∧ c ≠ .help := by
  cases c <;> first | (refine ⟨rfl, rfl, ?_⟩; decide) | cases h

/-- The usual line: edit the document, convert it, write it.  What is written is the conversion of the edited document; without a
    conversion it is `to-xmq` (`render-html` for the browser), without an output it is the console. -/
theorem C87_usual {D : Type} (w : World) (S : Sem D) (colour : Bool) (argv options : List Arg) (input : Option Arg)
    (ps : List (Piece × Command)) (load : Command) (cs es ts os : List Command) (d d' : D) (sink : Sink)
    (h : parseCmdLine w colour argv = .chain (load :: cs)) (hcut : Cut w argv options input ps load cs) (hn : NoHelp options)
    (hps : ps.map (·.2) = es ++ ts ++ os) (he : ∀ e ∈ es, edits e.cmd = true ∧ SaysWhat e)
    (ht : ∀ t ∈ ts, converts t.cmd = true ∧ t.cmd ≠ .tokenize) (ho : ∀ o ∈ os, Sends o sink) (ho0 : os = [] → sink = .console)
    (hf : ∀ f, sink = .file f → S.opens f = true) (hl : S.load load = some d) (hd : edited S es d = some d') :
    ∃ t, CmdLine.main w S colour argv = some (0, [(sink, S.render t d')]) ∧
      (ts = [t] ∨ (ts = [] ∧ t.cmd = (if sink = .browser then .renderHtml else .toXmq) ∧ Understood w t [])) := by
  have hown : ∀ c ∈ ps.map (·.2), mutes c.cmd = false ∧ c.cmd ≠ .help ∧ c.cmd ≠ .tokenize := by
    intro c hc
    rw [hps, List.append_assoc] at hc
    rcases List.mem_append.1 hc with hc | hc
    · have := edits_not (he c hc).1; exact ⟨this.2.1, this.2.2.2.1, this.2.2.2.2⟩
    rcases List.mem_append.1 hc with hc | hc
    · have := converts_not (ht c hc).1; exact ⟨this.2.1, this.2.2, (ht c hc).2⟩
    · have := sends_writes (ho c hc); exact ⟨this.2.1, this.2.2.2.1, this.2.2.2.2.1⟩
  have hnm : ¬ Muted ((ps.map (·.2)).map (·.cmd)) := by
    rintro ⟨pre, m, post, h1, h2, _⟩
    have : m ∈ (ps.map (·.2)).map (·.cmd) := by rw [h1]; simp
    obtain ⟨c, hc, rfl⟩ := List.mem_map.1 this
    rw [(hown c hc).1] at h2; cases h2
  have hload : load.cmd = .load := by
    rcases hcut.loads with hh | ⟨_, p, hp, ht⟩
    · exact hh
    · exact absurd ht (hown p.2 (List.mem_map_of_mem hp)).2.2
  have hmain : CmdLine.main w S colour argv = runChain S cs { doc := some d } := by
    rw [main_chain h hcut.globals hn, run_load S load cs hload, hl]
    intro c hc
    rcases completed_mem hcut.completed c hc with hh | hh | hh | hh
    · exact (hown c hh).2.1
    · rw [hh]; decide
    · rw [hh]; decide
    · rw [hh]; decide
  rw [hmain]
  have hone : ts.length ≤ 1 ∧ os.length ≤ 1 := by
    have h1 := hcut.oneConversion
    have h2 := hcut.oneOutput
    have e1 : ((ps.map (·.2)).filter (fun c => converts c.cmd)).length ≤ 1 := by
      rw [List.filter_map, List.length_map]; exact h1
    have e2 : ((ps.map (·.2)).filter (fun c => writes c.cmd)).length ≤ 1 := by
      rw [List.filter_map, List.length_map]; exact h2
    rw [hps, List.filter_append, List.filter_append, List.length_append, List.length_append] at e1 e2
    have f1 : ts.filter (fun c => converts c.cmd) = ts := List.filter_eq_self.2 fun t htt => (ht t htt).1
    have f2 : os.filter (fun c => writes c.cmd) = os := List.filter_eq_self.2 fun o hoo => (sends_writes (ho o hoo)).1
    rw [f1] at e1
    rw [f2] at e2
    omega
  have hcs := hcut.completed
  rw [hps] at hcs hnm
  have hes : ∀ c ∈ es, converts c.cmd = false ∧ writes c.cmd = false := fun c hc =>
    ⟨(edits_not (he c hc).1).2.2.1, (edits_not (he c hc).1).1⟩
  -- what is run
  have goal : ∀ (t o : Command), converts t.cmd = true → t.cmd ≠ .tokenize → Sends o sink → cs = es ++ [t, o] →
      runChain S cs { doc := some d } = some (0, [(sink, S.render t d')]) := by
    intro t o h1 h2 h3 h4
    rw [h4, run_edits S [t, o] none [] es d he, hd]
    simp only
    rw [run_to S t [o] d' h1 h2, run_out S o sink h3 hf]
  match ts, os, hone with
  | [], [], _ =>
    have hsink := ho0 rfl
    rw [List.append_nil, List.append_nil] at hcs hnm
    generalize hx : es = own at hcs
    cases hcs with
    | muted hm => rw [← hx] at hm; exact absurd hm hnm
    | full _ hc => obtain ⟨c, hc, hcc⟩ := hc; rw [← hx] at hc; rw [(hes c hc).1] at hcc; cases hcc
    | print p _ hc => obtain ⟨c, hc, hcc⟩ := hc; rw [← hx] at hc; rw [(hes c hc).1] at hcc; cases hcc
    | both t p _ _ _ htt hu hp =>
      refine ⟨t, goal t p (by rw [htt]; rfl) (by rw [htt]; decide) (by rw [hsink]; exact hp) (by rw [hx]), Or.inr ⟨rfl, ?_, hu⟩⟩
      rw [htt, hsink]; rfl
    | convert t o pre post _ _ h3 h4 => 
      have : o ∈ es := by rw [hx, h3]; simp
      rw [(hes o this).2] at h4; cases h4
  | [t], [], _ =>
    have hsink := ho0 rfl
    have htt := ht t List.mem_cons_self
    rw [List.append_nil] at hcs hnm
    generalize hx : es ++ [t] = own at hcs
    cases hcs with
    | muted hm => rw [← hx] at hm; exact absurd hm hnm
    | full _ _ hc =>
      obtain ⟨c, hc, hcc⟩ := hc
      rw [← hx] at hc
      rcases List.mem_append.1 hc with hc | hc
      · rw [(hes c hc).2] at hcc; cases hcc
      · rw [List.mem_singleton.1 hc, (converts_not htt.1).1] at hcc; cases hcc
    | print p _ _ _ hp =>
      exact ⟨t, goal t p htt.1 htt.2 (by rw [hsink]; exact hp) (by rw [← hx]; simp), Or.inl rfl⟩
    | both t' p _ hc =>
      have := hc t (by rw [← hx]; simp)
      rw [htt.1] at this; cases this
    | convert t' o pre post _ hc =>
      have := hc t (by rw [← hx]; simp)
      rw [htt.1] at this; cases this
  | [], [o], _ =>
    have hoo := ho o List.mem_cons_self
    have hw := sends_writes hoo
    rw [List.append_nil] at hcs hnm
    generalize hx : es ++ [o] = own at hcs
    cases hcs with
    | muted hm => rw [← hx] at hm; exact absurd hm hnm
    | full _ hc =>
      obtain ⟨c, hc, hcc⟩ := hc
      rw [← hx] at hc
      rcases List.mem_append.1 hc with hc | hc
      · rw [(hes c hc).1] at hcc; cases hcc
      · rw [List.mem_singleton.1 hc, hw.2.2.1] at hcc; cases hcc
    | print p _ hc =>
      obtain ⟨c, hc, hcc⟩ := hc
      rw [← hx] at hc
      rcases List.mem_append.1 hc with hc | hc
      · rw [(hes c hc).1] at hcc; cases hcc
      · rw [List.mem_singleton.1 hc, hw.2.2.1] at hcc; cases hcc
    | both t p _ _ hc =>
      have := hc o (by rw [← hx]; simp)
      rw [hw.1] at this; cases this
    | convert t o' pre post _ _ h3 h4 htt hu =>
      have hpost : pre = es ∧ o' = o ∧ post = [] := by
        rw [← hx] at h3
        rcases List.eq_nil_or_concat post with rfl | ⟨post', x, rfl⟩
        · have := List.append_inj' h3 rfl
          exact ⟨this.1.symm, by simpa using this.2.symm, rfl⟩
        · have h5 : es ++ [o] = (pre ++ o' :: post') ++ [x] := by rw [h3]; simp
          have h6 := (List.append_inj' h5 rfl).1
          have : o' ∈ es := by rw [h6]; simp
          rw [(hes o' this).2] at h4; cases h4
      obtain ⟨rfl, rfl, rfl⟩ := hpost
      have hk : t.cmd = (if sink = .browser then .renderHtml else .toXmq) := by
        rw [htt]
        by_cases hb : sink = .browser
        · rw [if_pos hb, if_pos (hw.2.2.2.2.2.2 hb)]
        · rw [if_neg hb, if_neg (fun hh => hb (hw.2.2.2.2.2.1 hh))]
      refine ⟨t, goal t o' ?_ ?_ hoo rfl, Or.inr ⟨rfl, hk, hu⟩⟩
      · rw [hk]; split <;> rfl
      · rw [hk]; split <;> decide
  | [t], [o], _ =>
    have hoo := ho o List.mem_cons_self
    have hw := sends_writes hoo
    have htt := ht t List.mem_cons_self
    generalize hx : es ++ [t] ++ [o] = own at hcs
    have hto : t ∈ own := by rw [← hx]; simp
    have hooo : o ∈ own := by rw [← hx]; simp
    cases hcs with
    | muted hm => rw [← hx] at hm; exact absurd hm hnm
    | full _ hc => exact ⟨t, goal t o htt.1 htt.2 hoo (by rw [← hx]; simp), Or.inl rfl⟩
    | print p _ _ hc => have := hc o hooo; rw [hw.1] at this; cases this
    | both t p _ hc => have := hc _ hto; rw [htt.1] at this; cases this
    | convert t' o' pre post _ hc => have := hc _ hto; rw [htt.1] at this; cases this
  | _ :: _ :: _, _, hone => exact absurd hone.1 (by simp)
  | _, _ :: _ :: _, hone => exact absurd hone.2 (by simp)

/-- A command that fails ends the run: nothing is written, the exit status is 1. -/
theorem C87_stops {D : Type} (w : World) (S : Sem D) (colour : Bool) (argv options : List Arg) (input : Option Arg)
    (ps : List (Piece × Command)) (load : Command) (cs es rest : List Command)
    (h : parseCmdLine w colour argv = .chain (load :: cs)) (hcut : Cut w argv options input ps load cs) (hn : NoHelp options)
    (hh : ∀ p ∈ ps, p.2.cmd ≠ .help ∧ p.2.cmd ≠ .tokenize)
    (hps : ps.map (·.2) = es ++ rest) (he : ∀ e ∈ es, edits e.cmd = true ∧ SaysWhat e)
    (hfail : S.load load = none ∨ ∃ d, S.load load = some d ∧ edited S es d = none) :
    CmdLine.main w S colour argv = some (1, []) := by
  have hload : load.cmd = .load := by
    rcases hcut.loads with hh' | ⟨_, p, hp, ht⟩
    · exact hh'
    · exact absurd ht (hh p hp).2
  have hmain : CmdLine.main w S colour argv =
      (match S.load load with | some d => runChain S cs { doc := some d } | none => some (1, [])) := by
    rw [main_chain h hcut.globals hn, run_load S load cs hload]
    intro c hc
    rcases completed_mem hcut.completed c hc with hc | hc | hc | hc
    · obtain ⟨p, hp, rfl⟩ := List.mem_map.1 hc
      exact (hh p hp).1
    · rw [hc]; decide
    · rw [hc]; decide
    · rw [hc]; decide
  rw [hmain]
  rcases hfail with hfail | ⟨d, h1, h2⟩
  · rw [hfail]
  · rw [h1]
    have hcs := hcut.completed
    rw [hps] at hcs
    obtain ⟨rest', hr⟩ := completed_prefix (fun e hee => (he e hee).1) hcs
    simp only
    rw [hr, run_edits S rest' none [] es d he, h2]

/-! ## What does not hold -/

/-- A world in which every file is a document, and documents that count how often they were edited. -/
def world0 : World := { doc := fun _ => true, stylesheet := fun _ => true, schema := fun _ => true, text := fun _ => true }
def sem0 : Sem Nat :=
  { load := fun _ => some 0, edit := fun _ d => some (d + 1), render := fun _ d => List.replicate d b#'x',
    tokens := fun _ => ([], true), opens := fun _ => true }

/-- Asking for help on a command succeeds. -/
def C87_Help : Prop := ∀ (w : World) (S : Sem Nat) (word : Arg) (c : Cmd), IsCommand word c →
  CmdLine.main w S false [b#"help", word] = some (0, [])
theorem C87_false_help : ¬ C87_Help := fun h =>
  absurd (h world0 sem0 b#"delete" .delete (by unfold IsCommand; decide +kernel)) (by decide +kernel)

/-- A word that is no command is named in the message. -/
def C87_Named : Prop := ∀ (w : World) (file word : Arg), cmdFrom file = .none → cmdFrom word = .none → file.head? ≠ some b#'-' →
  parseCmdLine w false [file, word] = .noSuchCommand word
theorem C87_false_named : ¬ C87_Named := fun h =>
  absurd (h world0 b#"f" b#"foo" (by decide +kernel) (by decide +kernel) (by decide +kernel)) (by decide +kernel)

/-- The names by which commands are called in messages are words for them. -/
def C87_Names : Prop := ∀ c : Cmd, c ≠ .none → IsCommand (cmdName c) c
theorem C87_false_names : ¬ C87_Names := fun h => absurd (h .pager (by decide)) (by unfold IsCommand; decide +kernel)

/-- No line leads to undefined behaviour. -/
def C87_Defined : Prop := ∀ (w : World) (S : Sem Nat) (argv : List Arg), CmdLine.main w S false argv ≠ none
theorem C87_false_defined : ¬ C87_Defined := fun h =>
  absurd (h world0 sem0 [b#"f", b#"delete", b#"/a", b#"tokenize"]) (by decide +kernel)

/-- The commands that are run. -/
def chainOf (argv : List Arg) : List Command := match parseCmdLine world0 false argv with | .chain cs => cs | _ => []

/-- What is written has been edited by all commands of the line. -/
def C87_Edited : Prop := ∀ (w : World) (S : Sem Nat) (argv : List Arg) (load : Command) (cs : List Command) (d d' : Nat)
  (status : Nat) (sink : Sink) (text : List Byte), parseCmdLine w false argv = .chain (load :: cs) → S.load load = some d →
  edited S (cs.filter (fun c => edits c.cmd)) d = some d' →
  CmdLine.main w S false argv = some (status, [(sink, text)]) → ∃ t, text = S.render t d'
theorem C87_false_edited : ¬ C87_Edited := by
  intro h
  obtain ⟨t, ht⟩ := h world0 sem0 [b#"f", b#"to-xml", b#"delete", b#"/a"] ((chainOf [b#"f", b#"to-xml", b#"delete", b#"/a"]).headD {})
    (chainOf [b#"f", b#"to-xml", b#"delete", b#"/a"]).tail 0 1 0 .console [] (by decide +kernel) rfl (by decide +kernel)
    (by decide +kernel)
  cases ht

/-- If no command of the line fails, the exit status is 0. -/
def C87_Status : Prop := ∀ (w : World) (S : Sem Nat) (argv : List Arg) (chain : List Command), (∀ c, S.load c ≠ none) →
  (∀ c d, S.edit c d ≠ none) → (∀ f, S.opens f = true) → parseCmdLine w false argv = .chain chain →
  ∀ r, CmdLine.main w S false argv = some r → r.1 = 0
theorem C87_false_status : ¬ C87_Status := fun h =>
  absurd (h world0 sem0 [b#"f", b#"for-each", b#"/a", b#"print"] (chainOf [b#"f", b#"for-each", b#"/a", b#"print"])
    (fun _ hh => by cases hh) (fun _ _ hh => by cases hh) (fun _ => rfl) (by decide +kernel) (1, []) (by decide +kernel)) (by decide)

/-- `--ixml=` takes the grammars its message names: .ixml, .xml, .xmq. -/
def C87_Grammar : Prop := ∀ (w : World) (name suffix : Arg), suffix ∈ [b#".ixml", b#".xml", b#".xmq"] → 2 ≤ name.length →
  w.text (name ++ suffix) = true → ∃ cs, parseCmdLine w false [b#"--ixml=" ++ name ++ suffix] = .chain cs
theorem C87_false_grammar : ¬ C87_Grammar := by
  intro h
  obtain ⟨cs, hc⟩ := h world0 b#"gr" b#".xmq" (by decide +kernel) (by decide +kernel) rfl
  have : parseCmdLine world0 false [b#"--ixml=" ++ b#"gr" ++ b#".xmq"] = .unknownGlobal b#"--ixml=gr.xmq" := by decide +kernel
  rw [this] at hc; cases hc

/-- `-i`, the text instead of a file, holds for every command that reads the input. -/
def C87_Content : Prop := ∀ (w : World) (argv : List Arg) (load : Command) (cs : List Command),
  parseCmdLine w false argv = .chain (load :: cs) → ∀ c ∈ cs, c.cmd = .tokenize → c.inIsContent = load.inIsContent

theorem C87_false_content : ¬ C87_Content := by
  intro h
  have := h world0 [b#"-i", b#"x", b#"tokenize"] ((chainOf [b#"-i", b#"x", b#"tokenize"]).headD {})
    (chainOf [b#"-i", b#"x", b#"tokenize"]).tail (by decide +kernel)
  exact absurd this (by decide +kernel)

/-- The expression of `for-each` is not an option. -/
def C87_Shell : Prop := ∀ (w : World) (argv : List Arg) (load : Command) (cs : List Command),
  parseCmdLine w false argv = .chain (load :: cs) → ∀ c ∈ cs, c.cmd = .forEach → ∀ x, c.xpath = some x → valueOf b#"--shell=" x = none
theorem C87_false_shell : ¬ C87_Shell := by
  intro h
  have := h world0 [b#"f", b#"for-each", b#"--shell=x"] ((chainOf [b#"f", b#"for-each", b#"--shell=x"]).headD {})
    (chainOf [b#"f", b#"for-each", b#"--shell=x"]).tail (by decide +kernel)
    ((chainOf [b#"f", b#"for-each", b#"--shell=x"]).tail.headD {}) (by decide +kernel) (by decide +kernel) b#"--shell=x" (by decide +kernel)
  exact absurd this (by decide +kernel)

/-! ## Cases -/

-- the grammar has accepted lines
example : (chainOf [b#"--xml", b#"f", b#"delete", b#"/a", b#"to-json", b#"--compact"]).map (·.cmd) = [.load, .delete, .toJson, .print] := by
  decide +kernel
example : (chainOf [b#"f", b#"select", b#"//x", b#"browse"]).map (·.cmd) = [.load, .select, .renderHtml, .browser] := by decide +kernel
example : (chainOf [b#"f", b#"for-each", b#"/a"]).map (·.cmd) = [.load, .forEach] := by decide +kernel
example : parseCmdLine world0 false [b#"f", b#"to-xml", b#"to-json"] = .twoConversions := by decide +kernel
-- edited twice, saved
example : CmdLine.main world0 sem0 false [b#"f", b#"delete", b#"/a", b#"delete", b#"b", b#"save-to", b#"x"] =
    some (0, [(.file b#"x", b#"xx")]) := by decide +kernel
-- a command fails
example : CmdLine.main world0 { sem0 with edit := fun _ _ => none } false [b#"f", b#"delete", b#"/a", b#"to-xml"] = some (1, []) := by
  decide +kernel
-- the hypotheses of `C87_usual` are met
example : ∃ options input ps load cs,
    parseCmdLine world0 false [b#"f", b#"delete", b#"/a", b#"to-xml"] = .chain (load :: cs) ∧
    Cut world0 [b#"f", b#"delete", b#"/a", b#"to-xml"] options input ps load cs := by
  obtain ⟨o, i, ps, load, cs, h1, h2⟩ := C87_grammar world0 false [b#"f", b#"delete", b#"/a", b#"to-xml"]
    (chainOf [b#"f", b#"delete", b#"/a", b#"to-xml"]) (by decide +kernel)
  refine ⟨o, i, ps, load, cs, ?_, h2⟩
  rw [← h1]; decide +kernel

end Xmq.Props
