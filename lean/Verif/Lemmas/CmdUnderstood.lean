import Verif.Lemmas.CmdArgs
/-!
# The arguments of each command are understood
-/
namespace Xmq
open Xmq.CmdLine Xmq.Spec

/-- Nothing is set. -/
structure Fresh (c : Command) : Prop where
  silent : c.silent = false
  alias : c.alias = none
  xpath : c.xpath = none
  entity : c.entity = none
  content : c.content = none
  textFile : c.textFile = none
  nodeFile : c.nodeFile = none
  addXmq : c.addXmq = none
  params : c.params = []
  xslt : c.xslt = none
  xsd : c.xsd = none
  saveFile : c.saveFile = none
  renderRaw : c.renderRaw = false
  onlyStyle : c.onlyStyle = false
  theme : c.theme = none
  useId : c.useId = none
  useClass : c.useClass = none
  addNl : c.addNl = false
  is : c.indentationSpace = none
  es : c.explicitSpace = none
  et : c.explicitTab = none
  cr : c.explicitCr = none
  nl : c.explicitNl = none
  indent : c.addIndent = 4
  omitDecl : c.omitDecl = false
  compact : c.compact = false
  escapeNewlines : c.escapeNewlines = false
  escapeNon7bit : c.escapeNon7bit = false
  escapeTabs : c.escapeTabs = false
  helpCommand : c.helpCommand = none
  tokType : c.tokType = .none
  input : c.cmd ≠ .tokenize → c.input = none

theorem prepare_fresh (load : Command) (colour : Bool) (k : Cmd) : Fresh (prepare load { allocate colour with cmd := k }) := by
  cases k <;> constructor <;> first | rfl | exact fun h => absurd rfl h | exact fun _ => rfl

theorem prepare_cmd (load c : Command) : (prepare load c).cmd = c.cmd := by
  unfold prepare
  split <;> rfl

theorem took_none {w : World} {k : Cmd} (step : ∀ a c c', c.cmd = k → handleOption w a c = .yes c' → False) {c c' : Command}
    {args : List Arg} (h : Took w c args c') (hk : c.cmd = k) : args = [] := by
  cases h with
  | nil => rfl
  | cons a as _ c1 _ h1 _ => exact (step a c c1 hk h1).elim

theorem took_shared {w : World} {k : Cmd} (hs : ∀ a c c', c.cmd = k → handleOption w a c = .yes c' → Shared a c c')
    {c c' : Command} {args : List Arg} (h : Took w c args c') (hk : c.cmd = k) (hf : Fresh c) :
    c'.compact = (lastOf (switch b#"--compact") args).getD false ∧
    c'.addIndent = (lastOf indentOf args).getD 4 ∧
    c'.escapeNewlines = (lastOf (switch b#"--escape-newlines") args).getD false ∧
    c'.escapeNon7bit = (lastOf (switch b#"--escape-non-7bit") args).getD false ∧
    c'.escapeTabs = (lastOf (switch b#"--escape-tabs") args).getD false := by
  refine ⟨?_, ?_, ?_, ?_, ?_⟩
  · rw [took_last (·.compact) _ (fun a c c' hk h => (hs a c c' hk h).compact) h hk, hf.compact]
  · rw [took_last (·.addIndent) _ (fun a c c' hk h => (hs a c c' hk h).indent) h hk, hf.indent]
  · rw [took_last (·.escapeNewlines) _ (fun a c c' hk h => (hs a c c' hk h).newlines) h hk, hf.escapeNewlines]
  · rw [took_last (·.escapeNon7bit) _ (fun a c c' hk h => (hs a c c' hk h).non7bit) h hk, hf.escapeNon7bit]
  · rw [took_last (·.escapeTabs) _ (fun a c c' hk h => (hs a c c' hk h).tabs) h hk, hf.escapeTabs]

theorem took_rendered {w : World} {k : Cmd} (hg : cmdGroup k = .render)
    {c c' : Command} {args : List Arg} (h : Took w c args c') (hk : c.cmd = k) (hf : Fresh c) :
    c'.compact = (lastOf (switch b#"--compact") args).getD false ∧
    c'.addIndent = (lastOf indentOf args).getD 4 ∧
    c'.escapeNewlines = (lastOf (switch b#"--escape-newlines") args).getD false ∧
    c'.escapeNon7bit = (lastOf (switch b#"--escape-non-7bit") args).getD false ∧
    c'.escapeTabs = (lastOf (switch b#"--escape-tabs") args).getD false ∧
    c'.renderRaw = (lastOf (switch b#"--nostyle") args).getD false ∧
    c'.onlyStyle = (lastOf (switch b#"--onlystyle") args).getD false ∧
    c'.useClass = lastOf (valueOf b#"--class=") args ∧ c'.useId = lastOf (valueOf b#"--id=") args ∧
    c'.theme = lastOf (valueOf b#"--theme=") args ∧ c'.explicitCr = lastOf (valueOf b#"--use-cr=") args ∧
    c'.explicitSpace = lastOf (valueOf b#"--use-es=") args ∧ c'.explicitTab = lastOf (valueOf b#"--use-et=") args ∧
    c'.indentationSpace = lastOf (valueOf b#"--use-is=") args ∧ c'.explicitNl = lastOf (valueOf b#"--use-nl=") args ∧
    (∀ b, lastOf colourOf args = some b → c'.useColor = b) := by
  have hs : ∀ a c c', c.cmd = k → handleOption w a c = .yes c' → Rendered a c c' :=
    fun a c c' hk h => rendered_step (by rw [hk]; exact hg) h
  obtain ⟨h1, h2, h3, h4, h5⟩ := took_shared (fun a c c' hk h => (hs a c c' hk h).toShared) h hk hf
  refine ⟨h1, h2, h3, h4, h5, ?_, ?_, ?_, ?_, ?_, ?_, ?_, ?_, ?_, ?_, ?_⟩
  · rw [took_last (·.renderRaw) _ (fun a c c' hk h => (hs a c c' hk h).raw) h hk, hf.renderRaw]
  · rw [took_last (·.onlyStyle) _ (fun a c c' hk h => (hs a c c' hk h).style) h hk, hf.onlyStyle]
  · exact took_last_opt (·.useClass) _ (fun a c c' hk h => (hs a c c' hk h).cls) h hk hf.useClass
  · exact took_last_opt (·.useId) _ (fun a c c' hk h => (hs a c c' hk h).ident) h hk hf.useId
  · exact took_last_opt (·.theme) _ (fun a c c' hk h => (hs a c c' hk h).theme) h hk hf.theme
  · exact took_last_opt (·.explicitCr) _ (fun a c c' hk h => (hs a c c' hk h).cr) h hk hf.cr
  · exact took_last_opt (·.explicitSpace) _ (fun a c c' hk h => (hs a c c' hk h).space) h hk hf.es
  · exact took_last_opt (·.explicitTab) _ (fun a c c' hk h => (hs a c c' hk h).tab) h hk hf.et
  · exact took_last_opt (·.indentationSpace) _ (fun a c c' hk h => (hs a c c' hk h).indentation) h hk hf.is
  · exact took_last_opt (·.explicitNl) _ (fun a c c' hk h => (hs a c c' hk h).nl) h hk hf.nl
  · intro b hb
    rw [took_last (·.useColor) _ (fun a c c' hk h => (hs a c c' hk h).colour) h hk, hb]; rfl

theorem took_plain {w : World} {k : Cmd} (hg : cmdGroup k = .to) (h1 : k ≠ .toXmq) (h2 : k ≠ .toHtmq) (h3 : k ≠ .toXml)
    {c c' : Command} {args : List Arg} (h : Took w c args c') (hk : c.cmd = k) (hf : Fresh c) :
    (∀ a ∈ args, a = b#"--compact") ∧ c'.compact = !args.isEmpty := by
  have step : ∀ a c c', c.cmd = k → handleOption w a c = .yes c' → a = b#"--compact" ∧ c'.compact = true := by
    intro a c c' hk h
    rcases plain_step (by rw [hk]; exact hg) (by rw [hk]; exact h1) (by rw [hk]; exact h2) h with ⟨ha, hc⟩ | ⟨hx, _⟩
    · exact ⟨ha, by rw [hc]⟩
    · exact absurd (hk.symm.trans hx) h3
  refine ⟨took_all _ (fun a c c' hk h => (step a c c' hk h).1) h hk, ?_⟩
  have hc := took_last (·.compact) (fun _ => some true) (fun a c c' hk h => by rw [(step a c c' hk h).2]; rfl) h hk
  rw [hc, hf.compact]
  cases args with
  | nil => rfl
  | cons a as => simp [lastOf, List.getLast?_cons]; cases as.getLast? <;> rfl

theorem took_toXml {w : World} {c c' : Command} {args : List Arg} (h : Took w c args c') (hk : c.cmd = .toXml) :
    (∀ a ∈ args, a = b#"--compact" ∨ a = b#"-o" ∨ a = b#"--omit-decl") ∧
    c'.compact = (c.compact || decide (b#"--compact" ∈ args)) ∧
    c'.omitDecl = (c.omitDecl || decide (b#"-o" ∈ args ∨ b#"--omit-decl" ∈ args)) := by
  induction h with
  | nil => simp
  | cons a as c c1 c2 h1 _ ih =>
    obtain ⟨i1, i2, i3⟩ := ih (by rw [handleOption_cmd h1]; exact hk)
    rw [i2, i3]
    rcases plain_step (by rw [hk]; rfl) (by rw [hk]; decide) (by rw [hk]; decide) h1 with ⟨rfl, rfl⟩ | ⟨_, ha, rfl⟩
    · refine ⟨?_, ?_, ?_⟩
      · intro x hx
        rcases List.mem_cons.1 hx with rfl | hx
        · left; rfl
        · exact i1 x hx
      · simp
      · simp
    · refine ⟨?_, ?_, ?_⟩
      · intro x hx
        rcases List.mem_cons.1 hx with rfl | hx
        · right; exact ha
        · exact i1 x hx
      · rcases ha with rfl | rfl <;> simp
      · rcases ha with rfl | rfl <;> simp

theorem took_help {w : World} {c c' : Command} {args : List Arg} (h : Took w c args c') (hk : c.cmd = .help) (h0 : c.helpCommand = none) :
    c'.helpCommand = args.getLast? := by
  have := took_last_opt (·.helpCommand) (fun a => some a) (fun a c c' hk h => by rw [help_step hk h]; rfl) h hk h0
  rw [this]; unfold lastOf; rw [List.filterMap_some]

theorem took_quote {w : World} {k : Cmd} (hg : cmdGroup k = .quote)
    {c c' : Command} {args : List Arg} (h : Took w c args c') (hk : c.cmd = k) (h0 : c.addNl = false) :
    (∀ a ∈ args, a = b#"--add-nl") ∧ c'.addNl = !args.isEmpty := by
  have step : ∀ a c c', c.cmd = k → handleOption w a c = .yes c' → a = b#"--add-nl" ∧ c'.addNl = true := by
    intro a c c' hk h
    have := quote_step (by rw [hk]; exact hg) h
    exact ⟨this.1, by rw [this.2]⟩
  refine ⟨took_all _ (fun a c c' hk h => (step a c c' hk h).1) h hk, ?_⟩
  have key : c'.addNl = (c.addNl || !args.isEmpty) := by
    clear h0
    induction h with
    | nil => simp
    | cons a as c c1 c2 h1 _ ih => rw [ih (by rw [handleOption_cmd h1]; exact hk), (step a c c1 hk h1).2]; simp
  rw [key, h0]; rfl

theorem took_forEach {w : World} {c c' : Command} {args : List Arg} (h : Took w c args c') (hk : c.cmd = .forEach)
    (h0 : c.xpath = none) (h1 : c.content = none) :
    (args = [] ∧ c'.xpath = none ∧ c'.content = none) ∨
      ∃ (x : Arg) (shells : List Arg), args = x :: shells.map (b#"--shell=" ++ ·) ∧ c'.xpath = some x ∧ c'.content = shells.getLast? := by
  cases h with
  | nil => exact Or.inl ⟨rfl, h0, h1⟩
  | cons a as _ c1 _ ha h =>
    right
    rcases forEach_step (by rw [hk]; rfl) ha with ⟨_, rfl⟩ | ⟨x, s, hx, _⟩
    · have key : ∀ (c c' : Command) (as : List Arg), Took w c as c' → c.cmd = .forEach → ∀ x, c.xpath = some x →
          ∃ shells : List Arg, as = shells.map (b#"--shell=" ++ ·) ∧ c'.xpath = some x ∧ c'.content = shells.getLast?.or c.content := by
        clear h0 h1 h hk ha
        intro c c' as h
        induction h with
        | nil => intro _ x hx; exact ⟨[], rfl, hx, rfl⟩
        | cons a as c c1 c2 h1 _ ih =>
          intro hk x hx
          rcases forEach_step (by rw [hk]; rfl) h1 with ⟨hn, _⟩ | ⟨_, s, _, rfl, rfl⟩
          · rw [hn] at hx; cases hx
          · obtain ⟨shells, i1, i2, i3⟩ := ih hk x hx
            refine ⟨s :: shells, by rw [i1]; rfl, i2, ?_⟩
            rw [i3, List.getLast?_cons]
            cases shells.getLast? <;> rfl
      obtain ⟨shells, i1, i2, i3⟩ := key _ _ _ h hk a rfl
      refine ⟨a, shells, by rw [i1], i2, ?_⟩
      rw [i3]
      show shells.getLast?.or c.content = _
      rw [h1, Option.or_none]
    · rw [h0] at hx; cases hx

theorem took_load {w : World} {c c' : Command} {args : List Arg} (h : Took w c args c') (hk : c.cmd = .load)
    (h0 : c.input = none) (h1 : c.alias = none) :
    args.filter (fun a => (valueOf b#"--alias=" a).isNone) = c'.input.toList ∧ c'.alias = lastOf (valueOf b#"--alias=") args := by
  constructor
  · have key : ∀ (c c' : Command) (as : List Arg), Took w c as c' → c.cmd = .load →
        c.input.toList ++ as.filter (fun a => (valueOf b#"--alias=" a).isNone) = c'.input.toList := by
      clear h0 h1 h hk
      intro c c' as h
      induction h with
      | nil => intro _; simp
      | cons a as c c1 c2 h1 _ ih =>
        intro hk
        have := ih (by rw [handleOption_cmd h1]; exact hk)
        rcases load_step (by rw [hk]; rfl) h1 with ⟨v, hv, rfl⟩ | ⟨hv, hn, rfl⟩
        · rw [List.filter_cons_of_neg (by rw [hv]; simp)]; exact this
        · rw [List.filter_cons_of_pos (by rw [hv]; rfl), ← this, hn]; rfl
    have := key _ _ _ h hk
    rwa [h0] at this
  · refine took_last_opt (·.alias) _ (fun a c c' hk h => ?_) h hk h1
    rcases load_step (by rw [hk]; rfl) h with ⟨v, hv, rfl⟩ | ⟨hv, hn, rfl⟩
    · rw [hv]; rfl
    · rw [hv]; rfl

theorem took_tokenize {w : World} {c c' : Command} {args : List Arg} (h : Took w c args c') (hk : c.cmd = .tokenize)
    (h0 : c.tokType = .none) :
    (∀ a ∈ args, (typeOf a).isSome = true) ∧ c'.tokType = (lastOf typeOf args).getD .none := by
  constructor
  · refine took_all _ (fun a c c' hk h => ?_) h hk
    obtain ⟨t, ht, _⟩ := tokenize_step hk h
    rw [ht]; rfl
  · rw [took_last (·.tokType) typeOf (fun a c c' hk h => ?_) h hk, h0]
    obtain ⟨t, ht, h2⟩ := tokenize_step hk h
    rw [ht, h2]; rfl

/-- The arguments that are no options. -/
def entityArgs (args : List Arg) : List Arg :=
  args.filter fun a => (valueOf b#"--with-file=" a).isNone && (valueOf b#"--with-text-file=" a).isNone

theorem took_textFile {w : World} {k : Cmd} (hg : cmdGroup k = .entity) : ∀ (c c' : Command) (args : List Arg), Took w c args c' →
    c.cmd = k → c.textFile ≠ none → c.content = none → c'.content = none := by
  intro c c' args h
  induction h with
  | nil => intro _ _ h; exact h
  | cons a as c c1 c2 h1 _ ih =>
    intro hk hx hc
    have hk1 : c1.cmd = k := by rw [handleOption_cmd h1]; exact hk
    rcases entity_step (by rw [hk]; exact hg) h1 with ⟨f, _, _, rfl⟩ | ⟨f, _, _, _, rfl⟩ | ⟨_, _, _, rfl⟩ | ⟨_, _, _, _, hn, _, _⟩
    · exact ih hk1 hx hc
    · exact ih hk1 (by simp) rfl
    · exact ih hk1 hx hc
    · exact absurd hn hx

theorem took_entity {w : World} {k : Cmd} (hg : cmdGroup k = .entity) : ∀ (c c' : Command) (args : List Arg), Took w c args c' → c.cmd = k → (c.entity = none → c.content = none) →
    (∀ f, c'.nodeFile = some f → c.nodeFile = some f ∨ (w.doc f = true ∧ b#"--with-file=" ++ f ∈ args)) ∧
    (∀ f, c'.textFile = some f → c.textFile = some f ∨ (w.text f = true ∧ b#"--with-text-file=" ++ f ∈ args)) ∧
    (c'.entity = (c.entity.toList ++ entityArgs args).head?) ∧
    (∀ t, c'.content = some t → c.entity.toList ++ c.content.toList ++ entityArgs args = c'.entity.toList ++ [t]) := by
  intro c c' args h
  induction h with
  | nil => intro _ _; exact ⟨fun f h => Or.inl h, fun f h => Or.inl h, by simp [entityArgs, Option.head?_toList], fun t ht => by simp [entityArgs, ht]⟩
  | cons a as c c1 c2 h1 h2 ih =>
    intro hk hinv
    have hk1 : c1.cmd = k := by rw [handleOption_cmd h1]; exact hk
    obtain ⟨i1, i2, i3, i4⟩ := ih hk1 (by
      rcases entity_step (by rw [hk]; exact hg) h1 with ⟨f, _, _, rfl⟩ | ⟨f, _, _, _, rfl⟩ | ⟨_, _, _, rfl⟩ | ⟨_, _, he, _, hn, _, rfl⟩
      · exact hinv
      · intro _; rfl
      · intro hh; cases hh
      · intro hh; exact absurd hh he)
    rcases entity_step (by rw [hk]; exact hg) h1 with ⟨f, hf, hd, rfl⟩ | ⟨f, hf, ht, hd, rfl⟩ | ⟨hf, ht, he, rfl⟩ | ⟨hf, ht, he, hc, hx, hn, rfl⟩
    · have hcons : entityArgs (a :: as) = entityArgs as := by unfold entityArgs; rw [List.filter_cons_of_neg (by rw [hf]; simp)]
      rw [hcons]
      refine ⟨?_, ?_, i3, i4⟩
      · intro g hg'
        rcases i1 g hg' with hh | hh
        · cases hh
          rw [valueOf_some] at hf
          right; exact ⟨hd, by rw [hf]; exact List.mem_cons_self⟩
        · right; exact ⟨hh.1, List.mem_cons_of_mem _ hh.2⟩
      · intro g hg'
        rcases i2 g hg' with hh | hh
        · left; exact hh
        · right; exact ⟨hh.1, List.mem_cons_of_mem _ hh.2⟩
    · have hcons : entityArgs (a :: as) = entityArgs as := by unfold entityArgs; rw [List.filter_cons_of_neg (by rw [ht]; simp)]
      rw [hcons]
      refine ⟨?_, ?_, i3, ?_⟩
      · intro g hg'
        rcases i1 g hg' with hh | hh
        · left; exact hh
        · right; exact ⟨hh.1, List.mem_cons_of_mem _ hh.2⟩
      · intro g hg'
        rcases i2 g hg' with hh | hh
        · cases hh
          rw [valueOf_some] at ht
          right; exact ⟨hd, by rw [ht]; exact List.mem_cons_self⟩
        · right; exact ⟨hh.1, List.mem_cons_of_mem _ hh.2⟩
      · intro t ht'
        have := took_textFile hg _ _ _ h2 hk1 (by simp) rfl
        rw [this] at ht'; cases ht'
    · have hcons : entityArgs (a :: as) = a :: entityArgs as := by unfold entityArgs; rw [List.filter_cons_of_pos (by rw [hf, ht]; rfl)]
      rw [hcons]
      refine ⟨?_, ?_, ?_, ?_⟩
      · intro g hg'
        rcases i1 g hg' with hh | hh
        · left; exact hh
        · right; exact ⟨hh.1, List.mem_cons_of_mem _ hh.2⟩
      · intro g hg'
        rcases i2 g hg' with hh | hh
        · left; exact hh
        · right; exact ⟨hh.1, List.mem_cons_of_mem _ hh.2⟩
      · rw [i3, he]; rfl
      · intro t ht'
        have := i4 t ht'
        rw [← this, he, hinv he]; rfl
    · have hcons : entityArgs (a :: as) = a :: entityArgs as := by unfold entityArgs; rw [List.filter_cons_of_pos (by rw [hf, ht]; rfl)]
      rw [hcons]
      refine ⟨?_, ?_, ?_, ?_⟩
      · intro g hg'
        rcases i1 g hg' with hh | hh
        · left; exact hh
        · right; exact ⟨hh.1, List.mem_cons_of_mem _ hh.2⟩
      · intro g hg'
        rcases i2 g hg' with hh | hh
        · left; exact hh
        · right; exact ⟨hh.1, List.mem_cons_of_mem _ hh.2⟩
      · rw [i3]
        obtain ⟨e, he⟩ := Option.ne_none_iff_exists'.1 he
        show _ = (c.entity.toList ++ _).head?
        rw [he]; rfl
      · intro t ht'
        have := i4 t ht'
        rw [← this, hc]; simp

theorem took_transform {w : World} : ∀ (c c' : Command) (args : List Arg), Took w c args c' → c.cmd = .transform →
    c.xslt.toList ++ args.filter (fun a => (valueOf b#"--param=" a).isNone && (valueOf b#"--stringparam=" a).isNone) = c'.xslt.toList ∧
    (∀ f, c'.xslt = some f → c.xslt = some f ∨ (w.doc f = true ∧ w.stylesheet f = true)) := by
  intro c c' args h
  induction h with
  | nil => intro _; exact ⟨by simp, fun f h => Or.inl h⟩
  | cons a as c c1 c2 h1 h2 ih =>
    intro hk
    obtain ⟨i1, i2⟩ := ih (by rw [handleOption_cmd h1]; exact hk)
    rcases transform_step (by rw [hk]; rfl) h1 with ⟨kv, p, e1, _, rfl⟩ | ⟨kv, p, _, e1, _, rfl⟩ | ⟨e1, e2, hx, hd, hs, rfl⟩
    · rw [List.filter_cons_of_neg (by rw [e1]; simp)]; exact ⟨i1, i2⟩
    · rw [List.filter_cons_of_neg (by rw [e1]; simp)]; exact ⟨i1, i2⟩
    · rw [List.filter_cons_of_pos (by rw [e1, e2]; rfl)]
      refine ⟨by rw [← i1, hx]; rfl, ?_⟩
      intro f hf
      rcases i2 f hf with hh | hh
      · cases hh; exact Or.inr ⟨hd, hs⟩
      · exact Or.inr hh

theorem took_validate {w : World} : ∀ (c c' : Command) (args : List Arg), Took w c args c' → c.cmd = .validate →
    (∀ f, c'.xsd = some f → c.xsd = some f ∨ (w.doc f = true ∧ w.schema f = true ∧ f ∈ args)) ∧
    (c'.silent = true ↔ c.silent = true ∨ ∃ a ∈ args, (valueOf b#"--silent" a).isSome = true) := by
  intro c c' args h
  induction h with
  | nil => intro _; exact ⟨fun f h => Or.inl h, by simp⟩
  | cons a as c c1 c2 h1 h2 ih =>
    intro hk
    obtain ⟨i1, i2⟩ := ih (by rw [handleOption_cmd h1]; exact hk)
    rcases validate_step (by rw [hk]; rfl) h1 with ⟨hs, rfl⟩ | ⟨hs, hx, hd, hsc, rfl⟩ | ⟨hs, hx, hd, hsc, rfl⟩
    · refine ⟨fun f hf => ?_, ?_⟩
      · rcases i1 f hf with hh | hh
        · exact Or.inl hh
        · exact Or.inr ⟨hh.1, hh.2.1, List.mem_cons_of_mem _ hh.2.2⟩
      · rw [i2]; simp [hs]
    · refine ⟨fun f hf => ?_, ?_⟩
      · rcases i1 f hf with hh | hh
        · cases hh; exact Or.inr ⟨hd, hsc, List.mem_cons_self⟩
        · exact Or.inr ⟨hh.1, hh.2.1, List.mem_cons_of_mem _ hh.2.2⟩
      · rw [i2]; simp [hs]
    · refine ⟨fun f hf => ?_, ?_⟩
      · rcases i1 f hf with hh | hh
        · exact Or.inl hh
        · exact Or.inr ⟨hh.1, hh.2.1, List.mem_cons_of_mem _ hh.2.2⟩
      · rw [i2]; simp [hs]

theorem understood {w : World} {c c' : Command} {args : List Arg} (hf : Fresh c) (h : Took w c args c') : Understood w c' args := by
  have hcmd := took_cmd h
  unfold Understood
  rw [hcmd]
  cases hk : c.cmd with
  | delete => exact took_one (·.xpath) (fun a c c' hk h => xpath_step (by rw [hk]; rfl) h) h hk hf.xpath
  | replace => exact took_one (·.xpath) (fun a c c' hk h => xpath_step (by rw [hk]; rfl) h) h hk hf.xpath
  | select => exact took_one (·.xpath) (fun a c c' hk h => xpath_step (by rw [hk]; rfl) h) h hk hf.xpath
  | addRoot => exact took_one (·.xpath) (fun a c c' hk h => xpath_step (by rw [hk]; rfl) h) h hk hf.xpath
  | add => exact took_one (·.addXmq) (fun a c c' hk h => addXmq_step (by rw [hk]; rfl) h) h hk hf.addXmq
  | saveTo =>
    refine took_one (·.saveFile) (fun a c c' hk h => ?_) h hk hf.saveFile
    obtain ⟨_, h1, h2⟩ := output_step (Or.inl (by rw [hk]; rfl)) h
    exact ⟨h1, by rw [h2]⟩
  | substituteEntity =>
    have key : args = c'.entity.toList := took_one (·.entity) (fun a c c' hk h => by
      have := substitute_step (by rw [hk]; rfl) h
      exact ⟨this.1, this.2.1⟩) h hk hf.entity
    refine ⟨key, fun e he k hk' => ?_⟩
    have hall := took_all (fun a => cmdFrom a = .none) (fun a c c' hk h => (substitute_step (by rw [hk]; rfl) h).2.2) h hk
    have hn := hall e (by rw [key, he]; exact List.mem_cons_self)
    have := word_cmdFrom e k hk'
    exact this.2 (this.1.symm.trans hn)
  | substituteCharEntities =>
    have key : args = c'.entity.toList := took_one (·.entity) (fun a c c' hk h => by
      have := substitute_step (by rw [hk]; rfl) h
      exact ⟨this.1, this.2.1⟩) h hk hf.entity
    refine ⟨key, fun e he k hk' => ?_⟩
    have hall := took_all (fun a => cmdFrom a = .none) (fun a c c' hk h => (substitute_step (by rw [hk]; rfl) h).2.2) h hk
    have hn := hall e (by rw [key, he]; exact List.mem_cons_self)
    have := word_cmdFrom e k hk'
    exact this.2 (this.1.symm.trans hn)
  | noOutput => exact took_none (fun a c c' hk h => by have := (output_step (Or.inl (by rw [hk]; rfl)) h).1; rw [hk] at this; cases this) h hk
  | print => exact took_none (fun a c c' hk h => by have := (output_step (Or.inl (by rw [hk]; rfl)) h).1; rw [hk] at this; cases this) h hk
  | pager => exact took_none (fun a c c' hk h => by have := (output_step (Or.inl (by rw [hk]; rfl)) h).1; rw [hk] at this; cases this) h hk
  | browser => exact took_none (fun a c c' hk h => by have := (output_step (Or.inl (by rw [hk]; rfl)) h).1; rw [hk] at this; cases this) h hk
  | none => exact took_none (fun a c c' hk h => by have := (output_step (Or.inr (by rw [hk]; rfl)) h).1; rw [hk] at this; cases this) h hk
  | statistics => exact took_none (fun a c c' hk h => by have := (output_step (Or.inr (by rw [hk]; rfl)) h).1; rw [hk] at this; cases this) h hk
  | help => exact took_help h hk hf.helpCommand
  | forEach => exact took_forEach h hk hf.xpath hf.content
  | load => exact took_load h hk (hf.input (by rw [hk]; decide)) hf.alias
  | quoteC => exact took_quote rfl h hk hf.addNl
  | unquoteC => exact took_quote rfl h hk hf.addNl
  | tokenize => exact took_tokenize h hk hf.tokType
  | toHtml => exact took_plain rfl (by decide) (by decide) (by decide) h hk hf
  | toJson => exact took_plain rfl (by decide) (by decide) (by decide) h hk hf
  | toText => exact took_plain rfl (by decide) (by decide) (by decide) h hk hf
  | toClines => exact took_plain rfl (by decide) (by decide) (by decide) h hk hf
  | toXml =>
    have := took_toXml h hk
    rw [hf.compact, hf.omitDecl] at this
    simpa using this
  | toXmq => exact took_shared (fun a c c' hk h => to_step (Or.inl hk) h) h hk hf
  | toHtmq => exact took_shared (fun a c c' hk h => to_step (Or.inr hk) h) h hk hf
  | renderTerminal => exact took_rendered rfl h hk hf
  | renderHtml => exact took_rendered rfl h hk hf
  | renderTex => exact took_rendered rfl h hk hf
  | renderRaw => exact took_rendered rfl h hk hf
  | deleteEntity =>
    obtain ⟨h1, h2, h3, h4⟩ := took_entity rfl _ _ _ h hk (fun _ => hf.content)
    rw [hf.entity, hf.content] at h4
    rw [hf.entity] at h3
    refine ⟨fun f hff => ?_, fun f hff => ?_, h3, h4⟩
    · rcases h1 f hff with hh | hh
      · rw [hf.nodeFile] at hh; cases hh
      · exact hh
    · rcases h2 f hff with hh | hh
      · rw [hf.textFile] at hh; cases hh
      · exact hh
  | replaceEntity =>
    obtain ⟨h1, h2, h3, h4⟩ := took_entity rfl _ _ _ h hk (fun _ => hf.content)
    rw [hf.entity, hf.content] at h4
    rw [hf.entity] at h3
    refine ⟨fun f hff => ?_, fun f hff => ?_, h3, h4⟩
    · rcases h1 f hff with hh | hh
      · rw [hf.nodeFile] at hh; cases hh
      · exact hh
    · rcases h2 f hff with hh | hh
      · rw [hf.textFile] at hh; cases hh
      · exact hh
  | transform =>
    obtain ⟨h1, h2⟩ := took_transform _ _ _ h hk
    rw [hf.xslt] at h1
    refine ⟨h1, fun f hff => ?_, fun k hkk => ?_⟩
    · rcases h2 f hff with hh | hh
      · rw [hf.xslt] at hh; cases hh
      · exact hh
    · exact took_last_opt (fun c => c.params.lookup k) (paramOf k) (fun a c c' hk h => params_step (by rw [hk]; rfl) h k hkk) h hk
        (by rw [hf.params]; rfl)
  | validate =>
    obtain ⟨h1, h2⟩ := took_validate _ _ _ h hk
    rw [hf.silent] at h2
    refine ⟨fun f hff => ?_, by simpa using h2⟩
    rcases h1 f hff with hh | hh
    · rw [hf.xsd] at hh; cases hh
    · exact hh

end Xmq
