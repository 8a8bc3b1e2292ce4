import Verif.Lemmas.ColourRead
/-!
# The tags of the HTML theme are closed
-/
namespace Xmq
open Spec

/-- Reading `w` adds `t` to the open elements. -/
def Leaves (t : List (List Byte)) (w : List Byte) : Prop :=
  ∀ st rest, openTags none st (w ++ rest) = openTags none (t ++ st) rest

theorem Leaves.nil : Leaves [] [] := fun _ _ => rfl

theorem Leaves.append {t u : List (List Byte)} {a b : List Byte} (ha : Leaves t a) (hb : Leaves u b) : Leaves (u ++ t) (a ++ b) := by
  intro st rest
  rw [List.append_assoc, ha, hb, List.append_assoc]

theorem Leaves.plain {w : List Byte} (h : b#'<' ∉ w) : Leaves [] w := by
  intro st rest
  induction w with
  | nil => rfl
  | cons c t ih =>
    simp only [List.mem_cons, not_or] at h
    rw [List.cons_append, openTags, if_neg (fun e => h.1 e.symm)]
    exact ih h.2

theorem Leaves.flatten {ws : List (List Byte)} (h : ∀ w ∈ ws, Leaves [] w) : Leaves [] ws.flatten := by
  induction ws with
  | nil => exact .nil
  | cons w t ih =>
    have h1 := h w (by simp)
    have h2 := ih fun x hx => h x (by simp [hx])
    rw [List.flatten_cons]
    exact h1.append h2

theorem openTags_tag {w : List Byte} (h : b#'>' ∉ w) (acc : List Byte) (st : List (List Byte)) (rest : List Byte) :
    openTags (some acc) st (w ++ b#'>' :: rest) =
      if (acc ++ w).head? = some b#'/' then
        if st.head? = some ((acc ++ w).drop 1) then openTags none (st.drop 1) rest else none
      else openTags none ((acc ++ w).takeWhile (· ≠ b#' ') :: st) rest := by
  induction w generalizing acc with
  | nil => rw [List.nil_append, openTags, if_pos rfl, List.append_nil]
  | cons c t ih =>
    simp only [List.mem_cons, not_or] at h
    rw [List.cons_append, openTags, if_neg (fun e => h.1 e.symm), ih h.2]
    simp only [List.append_assoc, List.singleton_append]

theorem tag_open (n : ColorName) : Leaves [n.tag] (b#'<' :: (n.tag ++ b#">")) := by
  intro st rest
  have e : b#'<' :: (n.tag ++ b#">") ++ rest = b#'<' :: (n.tag ++ b#'>' :: rest) := by simp
  rw [e, openTags, if_pos rfl, openTags_tag (tag_noEnd n), if_neg (by cases n <;> decide)]
  congr 1
  cases n <;> rfl

theorem tag_close (n : ColorName) (st : List (List Byte)) (rest : List Byte) :
    openTags none (n.tag :: st) (b#"</" ++ n.tag ++ b#">" ++ rest) = openTags none st rest := by
  have e : b#"</" ++ n.tag ++ b#">" ++ rest = b#'<' :: ((b#'/' :: n.tag) ++ b#'>' :: rest) := by simp
  rw [e, openTags, if_pos rfl, openTags_tag (by
    simp only [List.mem_cons, not_or]
    exact ⟨by decide, tag_noEnd n⟩), if_pos (by simp), if_pos (by simp)]
  rfl

/-- The element a colour opens. -/
def tagsOf (c : Color) : List (List Byte) := (c.name.map ColorName.tag).toList

/-- The open elements of what has been written are `t`. -/
structure Nested (t : List (List Byte)) (ks : KS) : Prop where
  tags : Leaves t ks.out
  restart : ks.restart = none

/-- A theme that writes elements around its colours. -/
structure TagDress (d : Dress) : Prop where
  render : d.render = .html
  pre : ∀ c, d.pre c = c.name.map fun n => b#'<' :: (n.tag ++ b#">")
  post : ∀ c, d.post c = c.name.map fun n => b#"</" ++ n.tag ++ b#">"
  space : d.space = b#" "
  tab : d.tab = b#"\t"
  nl : d.nl = b#"\n"

theorem html_tagDress (front back : List Byte) (id clazz : Option (List Byte)) (dark : Bool) :
    TagDress (htmlDress front back id clazz dark) := ⟨rfl, fun _ => rfl, fun _ => rfl, rfl, rfl, rfl⟩

section
variable {d : Dress} (hd : TagDress d)
include hd

theorem pre_leaves (c : Color) : Leaves (tagsOf c) ((d.pre c).getD []) := by
  unfold tagsOf
  rw [hd.pre]
  cases c.name with
  | none => exact .nil
  | some n => exact tag_open n

theorem post_closes (c : Color) {t : List (List Byte)} {w : List Byte} (h : Leaves (tagsOf c ++ t) w) :
    Leaves t (w ++ (d.post c).getD []) := by
  revert h
  unfold tagsOf
  rw [hd.post]
  cases c.name with
  | none => intro h; simpa using h
  | some n =>
    intro h st rest
    rw [List.append_assoc, h]
    exact tag_close n _ rest

theorem face_leaves {c : Byte} {k : List Byte} (hk : ∀ x ∈ k, isCont x = true) : Leaves [] (d.face (c :: k)) := by
  have cont : b#'<' ∉ k := fun hm => absurd (hk _ hm) (by decide)
  apply Leaves.plain
  rw [Dress.face, hd.space, hd.tab, hd.render]
  split
  · decide
  · split
    · decide
    · simp only [needsEscape]
      by_cases h1 : c = b#'&'
      · subst h1; show b#'<' ∉ (some _).getD _; simp
      · by_cases h2 : c = b#'<'
        · subst h2; show b#'<' ∉ (some _).getD _; simp
        · by_cases h3 : c = b#'>'
          · subst h3; show b#'<' ∉ (some _).getD _; simp
          · simp only [beq_iff_eq, h1, h2, h3, if_false, Option.getD_none, List.mem_cons, not_or]
            exact ⟨fun e => h2 e.symm, cont⟩

theorem showChar_leaves {replay : Option (List Byte)} {c : Byte} {k : List Byte} (hk : ∀ x ∈ k, isCont x = true) :
    Leaves [] (d.showChar replay (c :: k)) := by
  unfold Dress.showChar
  split
  · have e : (d.post .unicodeWhitespace).or replay = d.post .unicodeWhitespace := by rw [hd.post]; rfl
    rw [e]
    apply post_closes hd (t := [])
    have := (pre_leaves hd .unicodeWhitespace).append
      (face_leaves hd (c := c) hk)
    simpa using this
  · exact face_leaves hd hk

theorem charList_leaves {replay : Option (List Byte)} {gs : List (List Byte)} (h : CharList gs) :
    ∀ g ∈ gs, Leaves [] (d.showChar replay g) := by
  induction h with
  | nil => simp
  | newline _ ih =>
    intro g hg
    rcases List.mem_cons.1 hg with rfl | hg
    · exact showChar_leaves hd (by simp)
    · exact ih g hg
  | char _ hk _ _ ih =>
    intro g hg
    rcases List.mem_cons.1 hg with rfl | hg
    · exact showChar_leaves hd hk
    · exact ih g hg

namespace Nested
variable {t : List (List Byte)} {ks : KS}

omit hd in
theorem write (h : Nested t ks) {w : List Byte} (hw : Leaves [] w) : Nested t (ks.write w) :=
  ⟨h.tags.append hw, h.restart⟩

omit hd in
theorem setLast (h : Nested t ks) (c : Byte) : Nested t { ks with last := c } := ⟨h.tags, h.restart⟩
omit hd in
theorem setCur (h : Nested t ks) (n : Nat) : Nested t { ks with cur := n } := ⟨h.tags, h.restart⟩
omit hd in
theorem setLine (h : Nested t ks) (n : Nat) : Nested t { ks with line := n } := ⟨h.tags, h.restart⟩
omit hd in
theorem set2 (h : Nested t ks) (n : Nat) (c : Byte) : Nested t { ks with cur := n, last := c } := ⟨h.tags, h.restart⟩
omit hd in
theorem setReplay (h : Nested t ks) (r : Option (List Byte)) : Nested t { ks with replay := r } := ⟨h.tags, h.restart⟩

theorem start (h : Nested t ks) (c : Color) : Nested (tagsOf c ++ t) (ks.mark (d.pre c)) :=
  ⟨h.tags.append (pre_leaves hd c), h.restart⟩

theorem stop {c : Color} (h : Nested (tagsOf c ++ t) ks) : Nested t (ks.mark (d.post c)) :=
  ⟨post_closes hd c h.tags, h.restart⟩

theorem bytes (h : Nested t ks) (s : List Byte) : Nested t (KS.bytes d s ks) := by
  unfold KS.bytes
  cases s.getLast? with
  | none => exact h
  | some c =>
    refine ⟨?_, h.restart⟩
    have := h.tags.append (Leaves.flatten (ws := s.map fun b => d.showChar ks.replay [b]) (by
      intro w hw
      obtain ⟨b, _, rfl⟩ := List.mem_map.1 hw
      exact showChar_leaves hd (by simp)))
    simpa [List.flatMap] using this

theorem span (h : Nested t ks) (s : List Byte) : Nested t (KS.span d s ks) := by
  unfold KS.span
  cases s.getLast? with
  | none => exact h
  | some c =>
    refine ⟨?_, h.restart⟩
    have := h.tags.append (Leaves.flatten (ws := (chars s).map (d.showChar ks.replay)) (by
      intro w hw
      obtain ⟨b, hb, rfl⟩ := List.mem_map.1 hw
      exact charList_leaves hd (chars_charList s) b hb))
    simpa [List.flatMap] using this

theorem token (h : Nested t ks) (color : Color) {f : KS → KS} (hf : ∀ {u k}, Nested u k → Nested u (f k)) :
    Nested t (ks.token d color f) := by
  have h1 : Nested (tagsOf color ++ t) (match d.pre color with
    | some p => { ks.write p with replay := some p }
    | none => ks) := by
    have := h.start hd color
    revert this
    cases d.pre color with
    | none => intro h; exact ⟨by simpa [KS.mark, KS.write] using h.tags, h.restart⟩
    | some p => exact fun h => ⟨h.tags, h.restart⟩
  unfold KS.token
  have h2 := (hf h1).stop hd
  simp only
  split
  · exact h2.setReplay _
  · exact h2

theorem print (h : Nested t ks) (color : Color) (s : List Byte) : Nested t (ks.print d color s) := h.token hd color (fun h => h.bytes hd s)

theorem printSpan (h : Nested t ks) (color : Color) (s : List Byte) : Nested t (ks.printSpan d color s) :=
  h.token hd color (fun h => h.span hd s)

theorem whiteSpaces {cfg : OutCfg} (hi : b#'<' ∉ cfg.indentationSpace) (h : Nested t ks) (n : Nat) :
    Nested t (ks.whiteSpaces d cfg n) := by
  unfold KS.whiteSpaces
  have hw : Leaves [] (List.replicate n cfg.indentationSpace).flatten :=
    .flatten fun w hw => by rw [List.eq_of_mem_replicate hw]; exact .plain hi
  exact ((((h.start hd .whitespace).write hw).setCur _)).stop hd

theorem quotedSpaces (h : Nested t ks) (n : Nat) : Nested t (ks.quotedSpaces d n) := by
  unfold KS.quotedSpaces
  have hw : Leaves [] (List.replicate n d.space).flatten :=
    .flatten fun w hw => by rw [List.eq_of_mem_replicate hw, hd.space]; exact .plain (by decide)
  have hq : Leaves [] [b#'\''] := .plain (by decide)
  exact (((((h.start hd .quote).write hq).write hw).set2 _ _).write hq).stop hd

theorem quotes (h : Nested t ks) (color : Color) (n : Nat) : Nested t (ks.quotes d color n) := by
  unfold KS.quotes
  have hw : Leaves [] (List.replicate n b#'\'') := .plain fun hm => absurd (List.eq_of_mem_replicate hm) (by decide)
  exact (((h.start hd color).write hw).set2 _ _).stop hd

omit hd in
theorem none' (h : Nested t ks) : Nested t (ks.mark none) := h.write .nil

theorem lineEnd (h : Nested t ks) : Nested t (ks.write d.nl) := h.write (by rw [hd.nl]; exact .plain (by decide))

omit hd in
theorem restart' (h : Nested t ks) : Nested t (ks.mark ks.restart) := by rw [h.restart]; exact h.none'

theorem nl (h : Nested t ks) : Nested t (ks.nl d none none) := by
  have h1 := (h.none'.lineEnd hd).set2 0 0
  exact h1.restart'.none'

theorem nlIn {c : Color} (h : Nested (tagsOf c ++ t) ks) : Nested (tagsOf c ++ t) (ks.nl d (d.pre c) (d.post c)) := by
  have h1 := ((h.stop hd).lineEnd hd).set2 0 0
  exact h1.restart'.start hd c

theorem nlIndent {cfg : OutCfg} (hi : b#'<' ∉ cfg.indentationSpace) (h : Nested t ks) : Nested t (ks.nlIndent d cfg none none) := by
  have h1 := ((h.none'.lineEnd hd).set2 0 0).whiteSpaces hd hi ks.line
  exact h1.restart'.none'

theorem nlIndentEnd {cfg : OutCfg} (hi : b#'<' ∉ cfg.indentationSpace) {c : Color} (h : Nested (tagsOf c ++ t) ks) :
    Nested t (ks.nlIndent d cfg none (d.post c)) := by
  have h1 := (((h.stop hd).lineEnd hd).set2 0 0).whiteSpaces hd hi ks.line
  exact h1.restart'.none'

theorem nlIndentIn {cfg : OutCfg} (hi : b#'<' ∉ cfg.indentationSpace) {c : Color} (h : Nested (tagsOf c ++ t) ks) :
    Nested (tagsOf c ++ t) (ks.nlIndent d cfg (d.pre c) (d.post c)) := by
  have h1 := (((h.stop hd).lineEnd hd).set2 0 0).whiteSpaces hd hi ks.line
  exact h1.restart'.start hd c

theorem charEntity (h : Nested t ks) (color : Color) (s : List Byte) : Nested t (ks.charEntity d color s).1 := by
  unfold KS.charEntity
  simp only
  split
  · exact ((((h.start hd color).print hd .none _).stop hd).set2 _ _)
  · exact ((h.start hd color).write (.plain (by decide))).stop hd

theorem slashes (h : Nested t ks) {a b : List Byte} (ha : ∀ c ∈ a, c = b#'*') (hb : ∀ c ∈ b, c = b#'*') (n : Nat) :
    Nested t (ks.slashes d a b n) := by
  unfold KS.slashes
  refine ((h.start hd .comment).write (.plain fun hm => ?_)).stop hd
  simp only [List.mem_append] at hm
  rcases hm with (hm | hm) | hm
  · exact absurd (ha _ hm) (by decide)
  · exact absurd (List.eq_of_mem_replicate hm) (by decide)
  · exact absurd (hb _ hm) (by decide)

theorem quoteLoop {cfg : OutCfg} (hi : b#'<' ∉ cfg.indentationSpace) (color : Color) {gs : List (List Byte)} (hgs : CharList gs)
    {ks : KS} (h : Nested (tagsOf color ++ t) ks) : Nested (tagsOf color ++ t) (KS.quoteLoop d cfg color ks gs) := by
  induction hgs generalizing ks with
  | nil => exact h
  | newline _ ih =>
    simp only [KS.quoteLoop, beq_self_eq_true, if_true]
    apply ih
    split
    · exact h.nlIndentIn hd hi
    · exact h.nlIn hd
  | char hn hk _ _ ih =>
    rw [KS.quoteLoop, if_neg (by simp [hn])]
    apply ih
    exact (h.write (showChar_leaves hd hk)).set2 _ _

theorem quoteLines {cfg : OutCfg} (hi : b#'<' ∉ cfg.indentationSpace) (h : Nested t ks) (color : Color) {s : List Byte}
    (hs : s.all (· == b#'\n') = false) : Nested t (ks.quoteLines d cfg color s) := by
  unfold KS.quoteLines
  simp only
  have hr : (if (d.post color).isNone then d.pre color else none) = none := by
    rw [hd.post, hd.pre]
    cases color.name <;> rfl
  rw [hr]
  have h1 := h.start hd color
  have h2 : Nested (tagsOf color ++ t) { ks.mark (d.pre color) with restart := none } := ⟨h1.tags, rfl⟩
  have h3 : Nested (tagsOf color ++ t) (if peek s == b#'\n' then
      ({ ks.mark (d.pre color) with restart := none } : KS).nl d (d.pre color) (d.post color)
      else { ks.mark (d.pre color) with restart := none }) := by
    split
    · exact h2.nlIn hd
    · exact h2
  have h4 := h3.quoteLoop hd hi color (chars_charList s)
  generalize KS.quoteLoop d cfg color _ (chars s) = c4 at h4 ⊢
  have key : ∀ {c : KS}, Nested t c → Nested t { c with restart := ks.restart } := fun hc => ⟨hc.tags, h.restart⟩
  apply key
  split
  · apply setLine
    rw [if_pos (by rw [hs]; rfl)]
    exact (h4.setLine _).nlIndentEnd hd hi
  · exact h4.stop hd

end Nested

omit hd in
/-- A theme without anything to read. -/
theorem blind_reading (cfg : OutCfg) : Reading d cfg (fun _ => True) (fun _ _ => True) :=
  ⟨trivial, fun _ _ => trivial, fun _ => trivial, fun _ => trivial, fun _ => trivial, fun _ => trivial, fun _ _ => trivial, trivial,
    trivial, fun _ => trivial, trivial, trivial⟩

/-- In step, and all elements closed. -/
def InNest (ks : KS) (ps : PS) : Prop := InStep (fun _ => True) (fun _ _ => True) ks ps ∧ Nested [] ks

theorem nest_walk {cfg : OutCfg} (hi : b#'<' ∉ cfg.indentationSpace) :
    Stroll d cfg (fun s => s.all (· == b#'\n') = false) InNest := by
  have w := (blind_reading (d := d) cfg).walk
  exact {
    cur := fun h => h.1.cur
    last := fun h => h.1.last
    line := fun h => h.1.line
    setLast := fun h c => ⟨w.setLast h.1 c, h.2.setLast c⟩
    setLine := fun h c => ⟨w.setLine h.1 c, h.2.setLine c⟩
    lineCur := fun h => ⟨w.lineCur h.1, h.2.setLine _⟩
    print := fun h c s => ⟨w.print h.1 c s, h.2.print hd c s⟩
    printSpan := fun h c s => ⟨w.printSpan h.1 c s, h.2.printSpan hd c s⟩
    comment3 := fun h s => ⟨w.comment3 h.1 s, h.2.token hd .comment fun h => ((h.bytes hd _).span hd s).bytes hd _⟩
    comment2 := fun h s => ⟨w.comment2 h.1 s, h.2.token hd .comment fun h => (h.bytes hd _).span hd s⟩
    pi2 := fun h s => ⟨w.pi2 h.1 s, h.2.token hd .elementKey fun h => (h.bytes hd _).bytes hd s⟩
    whiteSpaces := fun h n => ⟨w.whiteSpaces h.1 n, h.2.whiteSpaces hd hi n⟩
    quotedSpaces := fun h n => ⟨w.quotedSpaces h.1 n, h.2.quotedSpaces hd n⟩
    quotes := fun h c n => ⟨w.quotes h.1 c n, h.2.quotes hd c n⟩
    nl := fun h => ⟨w.nl h.1, h.2.nl hd⟩
    nlIndent := fun h => ⟨w.nlIndent h.1, h.2.nlIndent hd hi⟩
    charEntity := fun h c s => ⟨⟨(w.charEntity h.1 c s).1, h.2.charEntity hd c s⟩, (w.charEntity h.1 c s).2⟩
    slashes := by intro _ _ h _ _ ha hb n; exact ⟨w.slashes h.1 ha hb n, h.2.slashes hd ha hb n⟩
    quoteLines := fun h c s hs => ⟨w.quoteLines h.1 c s trivial, h.2.quoteLines hd hi c hs⟩ }

end

/-! ## Texts -/

/-- No part of the text that is quoted consists of newlines only: newlines are escaped, or there are none, or nothing is escaped
    and the text is not just white space. -/
def Quotable (cfg : OutCfg) (s : List Byte) : Prop :=
  cfg.escapeNewlines = true ∨ (10 : Byte) ∉ s ∨
    (cfg.compact = false ∧ (∀ c ∈ s, Esc cfg c = false) ∧ ∃ c ∈ s, isXmlWhitespace c = false)

theorem not_all_nl {s : List Byte} (hn : s ≠ []) (h : (10 : Byte) ∉ s) : s.all (· == b#'\n') = false := by
  cases s with
  | nil => exact absurd rfl hn
  | cons c t =>
    simp only [List.mem_cons, not_or] at h
    have : (c == b#'\n') = false := beq_eq_false_iff_ne.2 fun e => h.1 e.symm
    simp [this]

theorem not_all_white {s : List Byte} (h : ∃ c ∈ s, isXmlWhitespace c = false) : s.all (· == b#'\n') = false := by
  obtain ⟨c, hc, hw⟩ := h
  rw [List.all_eq_false]
  refine ⟨c, hc, fun e => ?_⟩
  rw [beq_iff_eq] at e
  subst e
  cases hw

theorem calm_cuts (cfg : OutCfg) : Cuts cfg (Quotable cfg) (fun s => s.all (· == b#'\n') = false) where
  lead := by
    intro s l h hl
    obtain ⟨e, hw⟩ := hasLeadingSpaceNl_split hl
    rcases h with h | h | ⟨h1, h2, c, hc, hcw⟩
    · exact .inl h
    · exact .inr (.inl fun hm => h (by rw [← e]; exact List.mem_append_right _ hm))
    · refine .inr (.inr ⟨h1, fun c hc => h2 c (by rw [← e]; exact List.mem_append_right _ hc), c, ?_, hcw⟩)
      rw [← e, List.mem_append] at hc
      rcases hc with hc | hc
      · rw [hw c hc] at hcw; cases hcw
      · exact hc
  tail := by
    intro s l h hl
    obtain ⟨e, hw⟩ := hasEndingNlSpace_split hl
    have sub : ∀ c ∈ l.text ++ l.ws.takeWhile (· == b#' '), c ∈ s := by
      intro c hc
      rw [← e]
      rw [List.mem_append] at hc ⊢
      exact hc.imp _root_.id fun h => (List.takeWhile_prefix _).subset h
    rcases h with h | h | ⟨h1, h2, c, hc, hcw⟩
    · exact .inl h
    · exact .inr (.inl fun hm => h (sub _ hm))
    · refine .inr (.inr ⟨h1, fun c hc => h2 c (sub c hc), c, ?_, hcw⟩)
      rw [← e, List.mem_append] at hc
      rcases hc with hc | hc
      · exact List.mem_append_left _ hc
      · rw [hw c hc] at hcw; cases hcw
  suffix := by
    intro s r h hn hf hr
    rcases h with h | h | ⟨h1, h2, h3⟩
    · exact .inl h
    · exact .inr (.inl fun hm => h (hr.subset hm))
    · rw [findEscape_none cfg s h2 (by rw [h1]; exact fun e => nomatch e)] at hf
      exact absurd (List.length_eq_zero_iff.1 hf) hn
  chunk := by
    intro s h hn hf
    have hne : s.take (findEscape cfg s) ≠ [] := by
      intro e
      rw [List.take_eq_nil_iff] at e
      exact e.elim hf hn
    rcases h with h | h | ⟨h1, h2, h3⟩
    · refine ⟨.inl h, not_all_nl hne fun hm => ?_, .inl h⟩
      have := findEscape_before cfg s _ hm
      simp [Esc, h] at this
    · have h' : (10 : Byte) ∉ s.take (findEscape cfg s) := fun hm => h ((List.take_subset _ _) hm)
      exact ⟨.inr (.inl h'), not_all_nl hne h', .inr (.inl fun hm => h ((List.drop_subset _ _) hm))⟩
    · rw [findEscape_none cfg s h2 (by rw [h1]; exact fun e => nomatch e), List.take_length, List.drop_length]
      exact ⟨.inr (.inr ⟨h1, h2, h3⟩), not_all_white h3, .inr (.inl (by simp))⟩

mutual
theorem nodeFit_all {cfg : OutCfg} {T : List Byte → Prop} (h : ∀ s, T s) (heap : List Ns) (n : NNode) : NodeFit cfg heap T n := by
  cases n with
  | element name ns defs attrs kids =>
    rw [NodeFit]
    exact ⟨fun _ _ s _ _ => h s, fun _ _ v _ _ => h v, nodesFit_all h heap kids⟩
  | _ => rw [NodeFit]; first | exact fun _ => h _ | trivial
theorem nodesFit_all {cfg : OutCfg} {T : List Byte → Prop} (h : ∀ s, T s) (heap : List Ns) (ns : List NNode) :
    NodesFit cfg heap T ns := by
  cases ns with
  | nil => rw [NodesFit]; trivial
  | cons n t => rw [NodesFit]; exact ⟨nodeFit_all h heap n, nodesFit_all h heap t⟩
end

/-- Where the texts of a document are calm, every element that is opened is closed. -/
theorem printDressed_nested {d : Dress} (hd : TagDress d) {cfg cfg' : OutCfg}
    (hc : cfg' = if cfg.compact then { cfg with escapeNewlines := true } else cfg) (hi : b#'<' ∉ cfg.indentationSpace)
    {heap : List Ns} {nodes : List NNode} (ht : NodesFit cfg' heap (Quotable cfg') nodes) (hn : nodes ≠ []) {out : List Byte}
    (hp : printDressed d cfg heap nodes = some out) : ∃ w, out = d.front ++ w ++ d.back ++ [b#'\n'] ∧ Leaves [] w := by
  unfold printDressed at hp
  simp only [← hc] at hp
  split at hp
  · cases hp
  · rw [if_neg (by simpa using hn)] at hp
    cases hp
    refine ⟨_, rfl, ?_⟩
    have hi' : b#'<' ∉ cfg'.indentationSpace := by
      rw [hc]
      split
      · exact hi
      · exact hi
    have h0 : InNest ⟨[], 0, 0, 0, none, none⟩ ⟨[], 0, 0, 0⟩ :=
      ⟨⟨fun _ => trivial, rfl, rfl, rfl, (fun m hm => nomatch hm), (fun m hm => nomatch hm)⟩, .nil, rfl⟩
    exact (Pace.nsNodes (nest_walk hd hi') (calm_cuts cfg') heap ⟨h0⟩ (some 0) 0 nodes ht).rel.2.tags

end Xmq
