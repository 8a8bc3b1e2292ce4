import Verif.Lemmas.CmdLine
/-!
# What the arguments of each command mean
-/
namespace Xmq
open Xmq.CmdLine Xmq.Spec

theorem handleOption_group {w : World} {a : Arg} {c c' : Command} (h1 : c.cmd ≠ .saveTo) (h2 : c.cmd ≠ .help)
    (h : handleOption w a c = .yes c') : optionGroup w a c = .yes c' := by
  unfold handleOption at h
  rwa [if_neg (fun hh => h1 hh.1), if_neg h2] at h

/-- The settings shared by `to-xmq`, `to-htmq` and the `render` commands. -/
structure Shared (a : Arg) (c c' : Command) : Prop where
  compact : c'.compact = (switch b#"--compact" a).getD c.compact
  indent : c'.addIndent = (indentOf a).getD c.addIndent
  newlines : c'.escapeNewlines = (switch b#"--escape-newlines" a).getD c.escapeNewlines
  non7bit : c'.escapeNon7bit = (switch b#"--escape-non-7bit" a).getD c.escapeNon7bit
  tabs : c'.escapeTabs = (switch b#"--escape-tabs" a).getD c.escapeTabs

structure Rendered (a : Arg) (c c' : Command) : Prop extends Shared a c c' where
  raw : c'.renderRaw = (switch b#"--nostyle" a).getD c.renderRaw
  style : c'.onlyStyle = (switch b#"--onlystyle" a).getD c.onlyStyle
  cls : c'.useClass = (valueOf b#"--class=" a).or c.useClass
  ident : c'.useId = (valueOf b#"--id=" a).or c.useId
  theme : c'.theme = (valueOf b#"--theme=" a).or c.theme
  cr : c'.explicitCr = (valueOf b#"--use-cr=" a).or c.explicitCr
  space : c'.explicitSpace = (valueOf b#"--use-es=" a).or c.explicitSpace
  tab : c'.explicitTab = (valueOf b#"--use-et=" a).or c.explicitTab
  indentation : c'.indentationSpace = (valueOf b#"--use-is=" a).or c.indentationSpace
  nl : c'.explicitNl = (valueOf b#"--use-nl=" a).or c.explicitNl
  colour : c'.useColor = (colourOf a).getD c.useColor

theorem shared_step {a : Arg} {c c' : Command} (hk : c.cmd = .toXmq ∨ c.cmd = .toHtmq ∨ cmdGroup c.cmd = .render)
    (h : optionTo a c = .yes c') : Shared a c c' ∧ (cmdGroup c.cmd = .render → Rendered a c c') := by
  have hg : cmdGroup c.cmd = .to ∨ cmdGroup c.cmd = .render := by
    rcases hk with hk | hk | hk
    · left; rw [hk]; rfl
    · left; rw [hk]; rfl
    · right; exact hk
  have hq : cmdGroup c.cmd ≠ .quote := by rcases hg with hg | hg <;> rw [hg] <;> decide
  have hx : c.cmd ≠ .toXml := by
    rcases hk with hk | hk | hk
    · rw [hk]; decide
    · rw [hk]; decide
    · intro hc; rw [hc] at hk; cases hk
  unfold optionTo at h
  split at h
  · rename_i ha
    obtain ⟨_, rfl⟩ := ha
    cases h
    refine ⟨⟨?_, ?_, ?_, ?_, ?_⟩, fun _ => ⟨⟨?_, ?_, ?_, ?_, ?_⟩, ?_, ?_, ?_, ?_, ?_, ?_, ?_, ?_, ?_, ?_, ?_⟩⟩ <;>
      simp [switch, indentOf, valueOf, colourOf]
  rename_i hcomp
  have hcomp : a ≠ b#"--compact" := fun ha => hcomp ⟨hg, ha⟩
  rw [if_neg (fun hh : c.cmd = .toXml ∧ _ => hx hh.1), if_neg (fun hh : cmdGroup c.cmd = .quote ∧ _ => hq hh.1)] at h
  try rw [if_pos hk] at h
  split at h
  · rename_i ha; subst ha; cases h
    refine ⟨⟨?_, ?_, ?_, ?_, ?_⟩, fun _ => ⟨⟨?_, ?_, ?_, ?_, ?_⟩, ?_, ?_, ?_, ?_, ?_, ?_, ?_, ?_, ?_, ?_, ?_⟩⟩ <;>
      simp [switch, indentOf, valueOf, colourOf]
  split at h
  · rename_i ha; subst ha; cases h
    refine ⟨⟨?_, ?_, ?_, ?_, ?_⟩, fun _ => ⟨⟨?_, ?_, ?_, ?_, ?_⟩, ?_, ?_, ?_, ?_, ?_, ?_, ?_, ?_, ?_, ?_, ?_⟩⟩ <;>
      simp [switch, indentOf, valueOf, colourOf]
  split at h
  · rename_i ha; subst ha; cases h
    refine ⟨⟨?_, ?_, ?_, ?_, ?_⟩, fun _ => ⟨⟨?_, ?_, ?_, ?_, ?_⟩, ?_, ?_, ?_, ?_, ?_, ?_, ?_, ?_, ?_, ?_, ?_⟩⟩ <;>
      simp [switch, indentOf, valueOf, colourOf]
  split at h
  · rename_i ds hb
    rw [behind_eq, valueOf_some] at hb
    subst hb
    split at h
    · cases h
      refine ⟨⟨?_, ?_, ?_, ?_, ?_⟩, fun _ => ⟨⟨?_, ?_, ?_, ?_, ?_⟩, ?_, ?_, ?_, ?_, ?_, ?_, ?_, ?_, ?_, ?_, ?_⟩⟩ <;>
        simp [switch, indentOf, valueOf, colourOf, atoi_eq]
    · cases h
  · cases h

theorem optionTo_no {a : Arg} {c : Command} (hk : cmdGroup c.cmd = .render) (h : optionTo a c = .no) :
    a ≠ b#"--compact" ∧ a ≠ b#"--escape-newlines" ∧ a ≠ b#"--escape-non-7bit" ∧ a ≠ b#"--escape-tabs" ∧ valueOf b#"--indent=" a = none := by
  unfold optionTo at h
  split at h
  · cases h
  rename_i h1
  have hx : c.cmd ≠ .toXml := fun hc => by rw [hc] at hk; cases hk
  have hq : cmdGroup c.cmd ≠ .quote := by rw [hk]; decide
  rw [if_neg (fun hh => hx hh.1), if_neg (fun hh => hq hh.1), if_pos (Or.inr (Or.inr hk))] at h
  split at h
  · cases h
  rename_i h2
  split at h
  · cases h
  rename_i h3
  split at h
  · cases h
  rename_i h4
  split at h
  · split at h <;> cases h
  rename_i h5
  rw [behind_eq] at h5
  exact ⟨fun ha => h1 ⟨Or.inr hk, ha⟩, h2, h3, h4, h5⟩

theorem render_step {a : Arg} {c c' : Command} (hk : cmdGroup c.cmd = .render) (hno : optionTo a c = .no)
    (h : optionRender a c = .yes c') : Rendered a c c' := by
  obtain ⟨n1, n2, n3, n4, n5⟩ := optionTo_no hk hno
  unfold optionRender at h
  rw [if_neg (fun hh => hh hk)] at h
  simp only [behind_eq] at h
  split at h
  · rename_i v hv; rw [valueOf_some] at hv; subst hv; cases h
    refine ⟨⟨?_, ?_, ?_, ?_, ?_⟩, ?_, ?_, ?_, ?_, ?_, ?_, ?_, ?_, ?_, ?_, ?_⟩ <;> simp [switch, indentOf, valueOf, colourOf]
  split at h
  · rename_i hv; subst hv; cases h
    refine ⟨⟨?_, ?_, ?_, ?_, ?_⟩, ?_, ?_, ?_, ?_, ?_, ?_, ?_, ?_, ?_, ?_, ?_⟩ <;> simp [switch, indentOf, valueOf, colourOf]
  split at h
  · rename_i v hv; rw [valueOf_some] at hv; subst hv; cases h
    refine ⟨⟨?_, ?_, ?_, ?_, ?_⟩, ?_, ?_, ?_, ?_, ?_, ?_, ?_, ?_, ?_, ?_, ?_⟩ <;> simp [switch, indentOf, valueOf, colourOf]
  split at h
  · rename_i hv; subst hv; cases h
    refine ⟨⟨?_, ?_, ?_, ?_, ?_⟩, ?_, ?_, ?_, ?_, ?_, ?_, ?_, ?_, ?_, ?_, ?_⟩ <;> simp [switch, indentOf, valueOf, colourOf]
  split at h
  · rename_i hv; subst hv; cases h
    refine ⟨⟨?_, ?_, ?_, ?_, ?_⟩, ?_, ?_, ?_, ?_, ?_, ?_, ?_, ?_, ?_, ?_, ?_⟩ <;> simp [switch, indentOf, valueOf, colourOf]
  split at h
  · rename_i hv; subst hv; cases h
    refine ⟨⟨?_, ?_, ?_, ?_, ?_⟩, ?_, ?_, ?_, ?_, ?_, ?_, ?_, ?_, ?_, ?_, ?_⟩ <;> simp [switch, indentOf, valueOf, colourOf]
  split at h
  · rename_i v hv; rw [valueOf_some] at hv; subst hv; cases h
    refine ⟨⟨?_, ?_, ?_, ?_, ?_⟩, ?_, ?_, ?_, ?_, ?_, ?_, ?_, ?_, ?_, ?_, ?_⟩ <;> simp [switch, indentOf, valueOf, colourOf]
  split at h
  · rename_i v hv; rw [valueOf_some] at hv; subst hv; cases h
    refine ⟨⟨?_, ?_, ?_, ?_, ?_⟩, ?_, ?_, ?_, ?_, ?_, ?_, ?_, ?_, ?_, ?_, ?_⟩ <;> simp [switch, indentOf, valueOf, colourOf]
  split at h
  · rename_i v hv; rw [valueOf_some] at hv; subst hv; cases h
    refine ⟨⟨?_, ?_, ?_, ?_, ?_⟩, ?_, ?_, ?_, ?_, ?_, ?_, ?_, ?_, ?_, ?_, ?_⟩ <;> simp [switch, indentOf, valueOf, colourOf]
  split at h
  · rename_i v hv; rw [valueOf_some] at hv; subst hv; cases h
    refine ⟨⟨?_, ?_, ?_, ?_, ?_⟩, ?_, ?_, ?_, ?_, ?_, ?_, ?_, ?_, ?_, ?_, ?_⟩ <;> simp [switch, indentOf, valueOf, colourOf]
  split at h
  · rename_i v hv; rw [valueOf_some] at hv; subst hv; cases h
    refine ⟨⟨?_, ?_, ?_, ?_, ?_⟩, ?_, ?_, ?_, ?_, ?_, ?_, ?_, ?_, ?_, ?_, ?_⟩ <;> simp [switch, indentOf, valueOf, colourOf]
  split at h
  · rename_i v hv; rw [valueOf_some] at hv; subst hv; cases h
    refine ⟨⟨?_, ?_, ?_, ?_, ?_⟩, ?_, ?_, ?_, ?_, ?_, ?_, ?_, ?_, ?_, ?_, ?_⟩ <;> simp [switch, indentOf, valueOf, colourOf]
  · cases h

/-- The step of a command of a group with no argument of its own. -/
theorem group_step {w : World} {a : Arg} {c c' : Command} {g : Group} (hg : cmdGroup c.cmd = g) (hne : g ≠ .output ∧ g ≠ .help)
    (h : handleOption w a c = .yes c') : optionGroup w a c = .yes c' := by
  refine handleOption_group ?_ ?_ h
  · intro hc; rw [hc] at hg; exact hne.1 hg.symm
  · intro hc; rw [hc] at hg; exact hne.2 hg.symm

theorem to_step {w : World} {a : Arg} {c c' : Command} (hk : c.cmd = .toXmq ∨ c.cmd = .toHtmq) (h : handleOption w a c = .yes c') :
    Shared a c c' := by
  have hg : cmdGroup c.cmd = .to := by rcases hk with hk | hk <;> rw [hk] <;> rfl
  have h := group_step hg (by decide) h
  unfold optionGroup at h
  rw [hg] at h
  exact (shared_step (by rcases hk with hk | hk <;> simp [hk]) h).1

theorem rendered_step {w : World} {a : Arg} {c c' : Command} (hg : cmdGroup c.cmd = .render) (h : handleOption w a c = .yes c') :
    Rendered a c c' := by
  have h := group_step hg (by decide) h
  unfold optionGroup at h
  rw [hg] at h
  simp only at h
  split at h
  · rename_i hn; exact render_step hg hn h
  · exact (shared_step (Or.inr (Or.inr hg)) h).2 hg

/-- `to-html`, `to-json`, `to-text`, `to-clines`, `to-xml`. -/
theorem plain_step {w : World} {a : Arg} {c c' : Command} (hg : cmdGroup c.cmd = .to) (h1 : c.cmd ≠ .toXmq) (h2 : c.cmd ≠ .toHtmq)
    (h : handleOption w a c = .yes c') :
    (a = b#"--compact" ∧ c' = { c with addIndent := 0, compact := true }) ∨
    (c.cmd = .toXml ∧ (a = b#"-o" ∨ a = b#"--omit-decl") ∧ c' = { c with omitDecl := true }) := by
  have h := group_step hg (by decide) h
  unfold optionGroup at h
  rw [hg] at h
  simp only at h
  unfold optionTo at h
  split at h
  · rename_i hc; cases h; exact Or.inl ⟨hc.2, rfl⟩
  split at h
  · rename_i hc; cases h; exact Or.inr ⟨hc.1, hc.2, rfl⟩
  rw [if_neg (by rw [hg]; simp), if_neg (by simp [h1, h2, hg])] at h
  cases h

theorem quote_step {w : World} {a : Arg} {c c' : Command} (hg : cmdGroup c.cmd = .quote) (h : handleOption w a c = .yes c') :
    a = b#"--add-nl" ∧ c' = { c with addNl := true } := by
  have h := group_step hg (by decide) h
  have hx : c.cmd ≠ .toXml ∧ c.cmd ≠ .toXmq ∧ c.cmd ≠ .toHtmq := by
    refine ⟨?_, ?_, ?_⟩ <;> intro hc <;> rw [hc] at hg <;> cases hg
  unfold optionGroup at h
  rw [hg] at h
  simp only at h
  unfold optionTo at h
  rw [if_neg (by rw [hg]; simp), if_neg (by simp [hx.1])] at h
  split at h
  · rename_i hc; cases h; exact ⟨hc.2, rfl⟩
  rw [if_neg (by simp [hx.2.1, hx.2.2, hg])] at h
  cases h

theorem tokenize_step {w : World} {a : Arg} {c c' : Command} (hk : c.cmd = .tokenize) (h : handleOption w a c = .yes c') :
    ∃ t, typeOf a = some t ∧ c'.tokType = t := by
  have hg : cmdGroup c.cmd = .tokenize := by rw [hk]; rfl
  replace h := group_step hg (by decide) h
  unfold optionGroup at h
  rw [hg] at h
  simp only at h
  unfold optionTokenize at h
  rw [behind_eq] at h
  split at h
  · cases h
  rename_i v hv
  rw [valueOf_some] at hv
  clear hg
  subst hv
  repeat' split at h
  · rename_i hv; subst hv; cases h; exact ⟨_, rfl, rfl⟩
  · rename_i hv; subst hv; cases h; exact ⟨_, rfl, rfl⟩
  · rename_i hv; subst hv; cases h; exact ⟨_, rfl, rfl⟩
  · rename_i hv; subst hv; cases h; exact ⟨_, rfl, rfl⟩
  · rename_i hv; subst hv; cases h; exact ⟨_, rfl, rfl⟩
  · rename_i hv; subst hv; cases h; exact ⟨_, rfl, rfl⟩
  · cases h

theorem output_step {w : World} {a : Arg} {c c' : Command} (hg : cmdGroup c.cmd = .output ∨ cmdGroup c.cmd = .none)
    (h : handleOption w a c = .yes c') : c.cmd = .saveTo ∧ c.saveFile = none ∧ c' = { c with saveFile := some a } := by
  unfold handleOption at h
  split at h
  · rename_i hc; cases h; exact ⟨hc.1, hc.2, rfl⟩
  split at h
  · rename_i hc; rw [hc] at hg; rcases hg with hg | hg <;> cases hg
  unfold optionGroup at h
  rcases hg with hg | hg <;> rw [hg] at h <;> cases h

theorem help_step {w : World} {a : Arg} {c c' : Command} (hk : c.cmd = .help) (h : handleOption w a c = .yes c') :
    c'.helpCommand = some a := by
  unfold handleOption at h
  rw [if_neg (by simp [hk]), if_pos hk] at h
  cases h; rfl

theorem xpath_step {w : World} {a : Arg} {c c' : Command} (hg : cmdGroup c.cmd = .xpath) (h : handleOption w a c = .yes c') :
    c.xpath = none ∧ c'.xpath = some a := by
  have h := group_step hg (by decide) h
  unfold optionGroup at h
  rw [hg] at h
  simp only at h
  split at h
  · rename_i hc; cases h; exact ⟨hc, rfl⟩
  · cases h

theorem addXmq_step {w : World} {a : Arg} {c c' : Command} (hg : cmdGroup c.cmd = .addXmq) (h : handleOption w a c = .yes c') :
    c.addXmq = none ∧ c'.addXmq = some a := by
  have h := group_step hg (by decide) h
  unfold optionGroup at h
  rw [hg] at h
  simp only at h
  split at h
  · rename_i hc; cases h; exact ⟨hc, rfl⟩
  · cases h

theorem substitute_step {w : World} {a : Arg} {c c' : Command} (hg : cmdGroup c.cmd = .substitute)
    (h : handleOption w a c = .yes c') : c.entity = none ∧ c'.entity = some a ∧ cmdFrom a = .none := by
  have h := group_step hg (by decide) h
  unfold optionGroup at h
  rw [hg] at h
  simp only at h
  split at h
  · rename_i hc; cases h; exact ⟨hc.2, rfl, hc.1⟩
  · cases h

theorem forEach_step {w : World} {a : Arg} {c c' : Command} (hg : cmdGroup c.cmd = .forEach) (h : handleOption w a c = .yes c') :
    (c.xpath = none ∧ c' = { c with xpath := some a }) ∨
      (∃ x s, c.xpath = some x ∧ a = b#"--shell=" ++ s ∧ c' = { c with content := some s }) := by
  have h := group_step hg (by decide) h
  unfold optionGroup at h
  rw [hg] at h
  simp only [behind_eq] at h
  split at h
  · rename_i hc; cases h; exact Or.inl ⟨hc, rfl⟩
  · rename_i hc
    split at h
    · rename_i s hs
      rw [valueOf_some] at hs
      cases h
      obtain ⟨x, hx⟩ := Option.ne_none_iff_exists'.1 hc
      exact Or.inr ⟨x, s, hx, hs, rfl⟩
    · cases h

theorem load_step {w : World} {a : Arg} {c c' : Command} (hg : cmdGroup c.cmd = .load) (h : handleOption w a c = .yes c') :
    (∃ v, valueOf b#"--alias=" a = some v ∧ c' = { c with alias := some v }) ∨
      (valueOf b#"--alias=" a = none ∧ c.input = none ∧ c' = { c with input := some a }) := by
  have h := group_step hg (by decide) h
  unfold optionGroup at h
  rw [hg] at h
  simp only [behind_eq] at h
  split at h
  · rename_i v hv; cases h; exact Or.inl ⟨v, hv, rfl⟩
  · rename_i hv
    split at h
    · rename_i hc; cases h; exact Or.inr ⟨hv, hc, rfl⟩
    · cases h

theorem entity_step {w : World} {a : Arg} {c c' : Command} (hg : cmdGroup c.cmd = .entity) (h : handleOption w a c = .yes c') :
    (∃ f, valueOf b#"--with-file=" a = some f ∧ w.doc f = true ∧ c' = { c with nodeFile := some f }) ∨
    (∃ f, valueOf b#"--with-file=" a = none ∧ valueOf b#"--with-text-file=" a = some f ∧ w.text f = true ∧
      c' = { c with textFile := some f, content := none }) ∨
    (valueOf b#"--with-file=" a = none ∧ valueOf b#"--with-text-file=" a = none ∧ c.entity = none ∧
      c' = { c with entity := some a }) ∨
    (valueOf b#"--with-file=" a = none ∧ valueOf b#"--with-text-file=" a = none ∧ c.entity ≠ none ∧ c.content = none ∧
      c.textFile = none ∧ c.nodeFile = none ∧ c' = { c with content := some a }) := by
  have h := group_step hg (by decide) h
  unfold optionGroup at h
  rw [hg] at h
  simp only at h
  unfold optionEntity at h
  simp only [behind_eq] at h
  split at h
  · rename_i f hf
    split at h
    · rename_i hd; cases h; exact Or.inl ⟨f, hf, hd, rfl⟩
    · cases h
  rename_i hf
  split at h
  · rename_i f ht
    split at h
    · rename_i hd; cases h; exact Or.inr (Or.inl ⟨f, hf, ht, hd, rfl⟩)
    · cases h
  rename_i ht
  split at h
  · rename_i he; cases h; exact Or.inr (Or.inr (Or.inl ⟨hf, ht, he, rfl⟩))
  rename_i he
  split at h
  · rename_i hc; cases h; exact Or.inr (Or.inr (Or.inr ⟨hf, ht, he, hc.1, hc.2.1, hc.2.2, rfl⟩))
  · cases h

theorem validate_step {w : World} {a : Arg} {c c' : Command} (hg : cmdGroup c.cmd = .validate) (h : handleOption w a c = .yes c') :
    ((valueOf b#"--silent" a).isSome = true ∧ c' = { c with silent := true }) ∨
    (valueOf b#"--silent" a = none ∧ c.xsd = none ∧ w.doc a = true ∧ w.schema a = true ∧ c' = { c with xsd := some a }) ∨
    (valueOf b#"--silent" a = none ∧ c.xsd = none ∧ w.doc a = true ∧ w.schema a = false ∧ c' = c) := by
  have h := group_step hg (by decide) h
  unfold optionGroup at h
  rw [hg] at h
  simp only at h
  unfold optionValidate at h
  simp only [behind_eq] at h
  split at h
  · rename_i v hv; cases h; exact Or.inl ⟨by rw [hv]; rfl, rfl⟩
  rename_i hv
  split at h
  · rename_i hx
    split at h
    · rename_i hd
      split at h
      · rename_i hs; cases h; exact Or.inr (Or.inl ⟨hv, hx, hd, hs, rfl⟩)
      · rename_i hs; cases h; exact Or.inr (Or.inr ⟨hv, hx, hd, by simpa using hs, rfl⟩)
    · cases h
  · cases h

theorem transform_step {w : World} {a : Arg} {c c' : Command} (hg : cmdGroup c.cmd = .transform) (h : handleOption w a c = .yes c') :
    (∃ kv p, valueOf b#"--stringparam=" a = some kv ∧ param false kv = some p ∧ c' = { c with params := putParam p c.params }) ∨
    (∃ kv p, valueOf b#"--stringparam=" a = none ∧ valueOf b#"--param=" a = some kv ∧ param true kv = some p ∧
      c' = { c with params := putParam p c.params }) ∨
    (valueOf b#"--stringparam=" a = none ∧ valueOf b#"--param=" a = none ∧ c.xslt = none ∧ w.doc a = true ∧ w.stylesheet a = true ∧
      c' = { c with xslt := some a }) := by
  have h := group_step hg (by decide) h
  unfold optionGroup at h
  rw [hg] at h
  simp only at h
  unfold optionTransform at h
  simp only [behind_eq] at h
  split at h
  · rename_i kv hkv
    split at h
    · rename_i p hp; cases h; exact Or.inl ⟨kv, p, hkv, hp, rfl⟩
    · cases h
  rename_i hn
  split at h
  · rename_i kv hkv
    split at h
    · rename_i p hp; cases h; exact Or.inr (Or.inl ⟨kv, p, hn, hkv, hp, rfl⟩)
    · cases h
  rename_i hp
  split at h
  · rename_i hx
    split at h
    · rename_i hd; cases h; exact Or.inr (Or.inr ⟨hn, hp, hx, hd.1, hd.2, rfl⟩)
    · cases h
  · cases h

theorem takeWhile_eq_key (k r : Arg) (hk : b#'=' ∉ k) :
    (k ++ b#'=' :: r).takeWhile (· != b#'=') = k ∧ ((k ++ b#'=' :: r).dropWhile (· != b#'=')).drop 1 = r := by
  induction k with
  | nil => exact ⟨rfl, rfl⟩
  | cons x k ih =>
    have hx : x ≠ b#'=' := fun hh => hk (by rw [hh]; exact List.mem_cons_self)
    obtain ⟨h1, h2⟩ := ih (fun hh => hk (List.mem_cons_of_mem _ hh))
    have hb : (x != b#'=') = true := by simpa using hx
    constructor
    · rw [List.cons_append, List.takeWhile_cons, if_pos hb, h1]
    · rw [List.cons_append, List.dropWhile_cons, if_pos hb, h2]

theorem split_eq (kv : Arg) (h : b#'=' ∈ kv) : kv = kv.takeWhile (· != b#'=') ++ b#'=' :: (kv.dropWhile (· != b#'=')).drop 1 ∧
    b#'=' ∉ kv.takeWhile (· != b#'=') := by
  induction kv with
  | nil => cases h
  | cons x kv ih =>
    by_cases hx : x = b#'='
    · subst hx; exact ⟨rfl, by simp⟩
    · have hb : (x != b#'=') = true := by simpa using hx
      have hm : b#'=' ∈ kv := by
        rcases List.mem_cons.1 h with hh | hh
        · exact absurd hh.symm hx
        · exact hh
      obtain ⟨h1, h2⟩ := ih hm
      rw [List.takeWhile_cons, if_pos hb, List.dropWhile_cons, if_pos hb]
      refine ⟨by rw [List.cons_append, ← h1], ?_⟩
      intro hh
      rcases List.mem_cons.1 hh with hh | hh
      · exact hx hh.symm
      · exact h2 hh

theorem lookup_filter_ne {k key : Arg} (hk : k ≠ key) : ∀ ps : List (Arg × Arg),
    (ps.filter (fun p => decide (p.1 ≠ key))).lookup k = ps.lookup k := by
  intro ps
  induction ps with
  | nil => rfl
  | cons p ps ih =>
    obtain ⟨a, b⟩ := p
    by_cases ha : a = key
    · rw [List.filter_cons_of_neg (by simp [ha]), ih, List.lookup_cons]
      have : (k == a) = false := by rw [ha]; simpa using hk
      rw [this]
    · rw [List.filter_cons_of_pos (by simp [ha]), List.lookup_cons, List.lookup_cons, ih]

theorem put_lookup (k : Arg) (p : Arg × Arg) (ps : List (Arg × Arg)) :
    (putParam p ps).lookup k = if k = p.1 then some p.2 else ps.lookup k := by
  unfold putParam
  obtain ⟨a, b⟩ := p
  by_cases hk : k = a
  · subst hk; simp
  · rw [List.lookup_cons]
    have : (k == a) = false := by simpa using hk
    rw [this, if_neg hk]
    exact lookup_filter_ne hk ps

/-- The value of one parameter. -/
theorem param_some (raw : Bool) (kv : Arg) (p : Arg × Arg) (h : param raw kv = some p) (k : Arg) (hk : b#'=' ∉ k) :
    (if k = p.1 then some p.2 else none) =
      (valueOf (k ++ [b#'=']) kv).map (fun v => if raw then v else quoted v) := by
  unfold param at h
  split at h
  · cases h
  rename_i he
  have he : b#'=' ∈ kv := Classical.byContradiction he
  obtain ⟨h1, h2⟩ := split_eq kv he
  have hv : valueOf (k ++ [b#'=']) kv = if k = kv.takeWhile (· != b#'=') then some ((kv.dropWhile (· != b#'=')).drop 1) else none := by
    by_cases hkk : k = kv.takeWhile (· != b#'=')
    · rw [if_pos hkk, valueOf_some, hkk, List.append_assoc]; exact h1
    · rw [if_neg hkk]
      cases hh : valueOf (k ++ [b#'=']) kv with
      | none => rfl
      | some r =>
        rw [valueOf_some, List.append_assoc] at hh
        exfalso; apply hkk; rw [hh]; exact (takeWhile_eq_key k r hk).1.symm
  simp only at h
  cases raw with
  | true =>
    simp only [if_true] at h
    cases h
    rw [hv]; split <;> simp
  | false =>
    simp only [Bool.false_eq_true, if_false] at h
    split at h
    · cases h
    cases h
    rw [hv]
    generalize (kv.dropWhile (· != b#'=')).drop 1 = val
    by_cases hm : b#'\'' ∈ val
    · rw [if_pos hm]
      by_cases hkk : k = kv.takeWhile (· != b#'=') <;> simp [quoted, hm, hkk]
    · rw [if_neg hm]
      by_cases hkk : k = kv.takeWhile (· != b#'=') <;> simp [quoted, hm, hkk]

theorem valueOf_join (o k a : Arg) : valueOf (o ++ k ++ b#"=") a = (valueOf o a).bind (valueOf (k ++ [b#'='])) := by
  cases h : valueOf o a with
  | none =>
    cases h2 : valueOf (o ++ k ++ b#"=") a with
    | none => rfl
    | some r =>
      rw [valueOf_some] at h2
      rw [h2, List.append_assoc, List.append_assoc] at h
      have := (valueOf_some (o := o) (a := o ++ (k ++ (b#"=" ++ r))) (v := k ++ (b#"=" ++ r))).2 rfl
      rw [this] at h; cases h
  | some v =>
    rw [valueOf_some] at h
    subst h
    rw [Option.bind_some]
    cases h2 : valueOf (k ++ [b#'=']) v with
    | some r =>
      rw [valueOf_some] at h2 ⊢
      rw [h2]; simp
    | none =>
      cases h3 : valueOf (o ++ k ++ b#"=") (o ++ v) with
      | none => rfl
      | some r =>
        rw [valueOf_some, List.append_assoc, List.append_assoc, List.append_cancel_left_eq] at h3
        have := (valueOf_some (o := k ++ [b#'=']) (a := v) (v := r)).2 (by rw [h3]; simp)
        rw [this] at h2; cases h2

theorem params_step {w : World} {a : Arg} {c c' : Command} (hg : cmdGroup c.cmd = .transform) (h : handleOption w a c = .yes c')
    (k : Arg) (hk : b#'=' ∉ k) : c'.params.lookup k = (paramOf k a).or (c.params.lookup k) := by
  unfold paramOf
  rw [valueOf_join, valueOf_join]
  rcases transform_step hg h with ⟨kv, p, h1, h2, rfl⟩ | ⟨kv, p, h1, h2, h3, rfl⟩ | ⟨h1, h2, _, _, _, rfl⟩
  · have h4 : valueOf b#"--param=" a = none := by
      rw [valueOf_some] at h1; subst h1; simp [valueOf]
    have := param_some false kv p h2 k hk
    simp only [Bool.false_eq_true, if_false] at this
    rw [h1, h4]
    simp only [Option.bind_none, Option.bind_some, Option.none_or]
    show (putParam p c.params).lookup k = _
    rw [put_lookup, ← this]
    split <;> rfl
  · have := param_some true kv p h3 k hk
    simp only [if_true, Option.map_id'] at this
    rw [h1, h2]
    simp only [Option.bind_none, Option.bind_some, Option.map_none, Option.or_none]
    show (putParam p c.params).lookup k = _
    rw [put_lookup, ← this]
    split <;> rfl
  · rw [h1, h2]; rfl

end Xmq
