import Verif.Model.Colour
import Verif.Lemmas.PrintText
/-!
# A relation between the printer with a theme and the plain printer that the basic functions keep is kept by all of them
-/
namespace Xmq
open Spec

/-- The basic functions keep `R`; the lines of a quote do so for texts with `OK`. -/
structure Stroll (d : Dress) (cfg : OutCfg) (OK : List Byte → Prop) (R : KS → PS → Prop) : Prop where
  cur : ∀ {ks ps}, R ks ps → ks.cur = ps.cur
  last : ∀ {ks ps}, R ks ps → ks.last = ps.last
  line : ∀ {ks ps}, R ks ps → ks.line = ps.line
  setLast : ∀ {ks ps}, R ks ps → ∀ c, R { ks with last := c } { ps with last := c }
  setLine : ∀ {ks ps}, R ks ps → ∀ n, R { ks with line := n } { ps with line := n }
  lineCur : ∀ {ks ps}, R ks ps → R { ks with line := ks.cur } { ps with line := ps.cur }
  print : ∀ {ks ps}, R ks ps → ∀ color s, R (ks.print d color s) (ps.print s)
  printSpan : ∀ {ks ps}, R ks ps → ∀ color s, R (ks.printSpan d color s) (ps.printSpan s)
  comment3 : ∀ {ks ps}, R ks ps → ∀ s,
    R (ks.token d .comment (fun ks => KS.bytes d b#"*/" (KS.span d s (KS.bytes d b#"/*" ks)))) (((ps.print b#"/*").printSpan s).print b#"*/")
  comment2 : ∀ {ks ps}, R ks ps → ∀ s,
    R (ks.token d .comment (fun ks => KS.span d s (KS.bytes d b#"// " ks))) ((ps.print b#"// ").printSpan s)
  pi2 : ∀ {ks ps}, R ks ps → ∀ s,
    R (ks.token d .elementKey (fun ks => KS.bytes d s (KS.bytes d b#"?" ks))) ((ps.print b#"?").print s)
  whiteSpaces : ∀ {ks ps}, R ks ps → ∀ n, R (ks.whiteSpaces d cfg n) (ps.whiteSpaces cfg n)
  quotedSpaces : ∀ {ks ps}, R ks ps → ∀ n, R (ks.quotedSpaces d n) (ps.quotedSpaces n)
  quotes : ∀ {ks ps}, R ks ps → ∀ color n, R (ks.quotes d color n) (ps.quotes n)
  nl : ∀ {ks ps}, R ks ps → R (ks.nl d none none) ps.nl
  nlIndent : ∀ {ks ps}, R ks ps → R (ks.nlIndent d cfg none none) (ps.nlIndent cfg)
  charEntity : ∀ {ks ps}, R ks ps → ∀ color s,
    R (ks.charEntity d color s).1 (ps.charEntity s).1 ∧ (ks.charEntity d color s).2 = (ps.charEntity s).2
  slashes : ∀ {ks ps}, R ks ps → ∀ {a b : List Byte}, (∀ c ∈ a, c = b#'*') → (∀ c ∈ b, c = b#'*') → ∀ n,
    R (ks.slashes d a b n) (ps.write (a ++ List.replicate n b#'/' ++ b))
  quoteLines : ∀ {ks ps}, R ks ps → ∀ color s, OK s → R (ks.quoteLines d cfg color s) (ps.quoteLines cfg s)

/-- The parts that the printer cuts a text into inherit `T`, and the quoted parts are `OK`. -/
structure Cuts (cfg : OutCfg) (T OK : List Byte → Prop) : Prop where
  lead : ∀ {s l}, T s → hasLeadingSpaceNl s = some l → T l.text
  tail : ∀ {s e}, T s → hasEndingNlSpace s = some e → T (e.text ++ e.ws.takeWhile (· == b#' '))
  suffix : ∀ {s r}, T s → s ≠ [] → findEscape cfg s = 0 → r <:+ s → T r
  chunk : ∀ {s}, T s → s ≠ [] → findEscape cfg s ≠ 0 →
    T (s.take (findEscape cfg s)) ∧ OK (s.take (findEscape cfg s)) ∧ T (s.drop (findEscape cfg s))

/-- A text that is written as white space entities, without quoting its newlines. -/
def whiteOnly (cfg : OutCfg) (s : List Byte) : Bool :=
  (hasAllWhitespace s).1 && !((hasAllWhitespace s).2.2 && !cfg.compact && s.length > 1)

/-- `T` is only asked of the texts that get to `textParts`. -/
def TextFit (cfg : OutCfg) (T : List Byte → Prop) (s : List Byte) : Prop := whiteOnly cfg s = false → T s

/-- Two printers related by `R`. -/
structure Pace (R : KS → PS → Prop) (ks : KS) (ps : PS) : Prop where
  rel : R ks ps

/-- Every value of an attribute or key. -/
def ValsFit (cfg : OutCfg) (T : List Byte → Prop) (vs : List Val) : Prop := ∀ s, .text s ∈ vs → TextFit cfg T s

mutual
/-- Every text of a node that is printed as a value. -/
def NodeFit (cfg : OutCfg) (heap : List Ns) (T : List Byte → Prop) : NNode → Prop
  | .text s => TextFit cfg T s
  | .entity _ => True
  | .comment _ => True
  | .pi _ c => TextFit cfg T (flatLines cfg ((addEdgeSpaces c).getD []))
  | .dtd name => TextFit cfg T (flatLines cfg name)
  | .element _ _ defs attrs kids => (∀ a ∈ attrs, ValsFit cfg T a.value) ∧
      (∀ n ∈ defs.filterMap (heap[·]?), ∀ v, n.href = some v → TextFit cfg T v) ∧ NodesFit cfg heap T kids
/-- The same for a list of nodes. -/
def NodesFit (cfg : OutCfg) (heap : List Ns) (T : List Byte → Prop) : List NNode → Prop
  | [] => True
  | n :: t => NodeFit cfg heap T n ∧ NodesFit cfg heap T t
end

theorem nodesFit_mem {cfg : OutCfg} {heap : List Ns} {T : List Byte → Prop} {ns : List NNode} (h : NodesFit cfg heap T ns) {n : NNode}
    (hn : n ∈ ns) : NodeFit cfg heap T n := by
  induction ns with
  | nil => cases hn
  | cons m t ih =>
    rw [NodesFit] at h
    rcases List.mem_cons.1 hn with rfl | hn
    · exact h.1
    · exact ih h.2 hn

section
variable {d : Dress} {cfg : OutCfg} {OK T : List Byte → Prop} {R : KS → PS → Prop}

namespace Pace
variable {ks : KS} {ps : PS}

theorem cur (h : Stroll d cfg OK R) (hs : Pace R ks ps) : ks.cur = ps.cur := h.cur hs.rel
theorem last (h : Stroll d cfg OK R) (hs : Pace R ks ps) : ks.last = ps.last := h.last hs.rel
theorem line (h : Stroll d cfg OK R) (hs : Pace R ks ps) : ks.line = ps.line := h.line hs.rel
theorem setLast (h : Stroll d cfg OK R) (hs : Pace R ks ps) (c : Byte) : Pace R { ks with last := c } { ps with last := c } :=
  ⟨h.setLast hs.rel c⟩
theorem setLine (h : Stroll d cfg OK R) (hs : Pace R ks ps) (n : Nat) : Pace R { ks with line := n } { ps with line := n } :=
  ⟨h.setLine hs.rel n⟩
theorem lineCur (h : Stroll d cfg OK R) (hs : Pace R ks ps) : Pace R { ks with line := ks.cur } { ps with line := ps.cur } :=
  ⟨h.lineCur hs.rel⟩
theorem print (h : Stroll d cfg OK R) (hs : Pace R ks ps) (color : Color) (s : List Byte) :
    Pace R (ks.print d color s) (ps.print s) := ⟨h.print hs.rel color s⟩
theorem printSpan (h : Stroll d cfg OK R) (hs : Pace R ks ps) (color : Color) (s : List Byte) :
    Pace R (ks.printSpan d color s) (ps.printSpan s) := ⟨h.printSpan hs.rel color s⟩
theorem whiteSpaces (h : Stroll d cfg OK R) (hs : Pace R ks ps) (n : Nat) :
    Pace R (ks.whiteSpaces d cfg n) (ps.whiteSpaces cfg n) := ⟨h.whiteSpaces hs.rel n⟩
theorem quotedSpaces (h : Stroll d cfg OK R) (hs : Pace R ks ps) (n : Nat) :
    Pace R (ks.quotedSpaces d n) (ps.quotedSpaces n) := ⟨h.quotedSpaces hs.rel n⟩
theorem quotes (h : Stroll d cfg OK R) (hs : Pace R ks ps) (color : Color) (n : Nat) :
    Pace R (ks.quotes d color n) (ps.quotes n) := ⟨h.quotes hs.rel color n⟩
theorem nl' (h : Stroll d cfg OK R) (hs : Pace R ks ps) : Pace R (ks.nl d none none) ps.nl := ⟨h.nl hs.rel⟩
theorem nlIndent' (h : Stroll d cfg OK R) (hs : Pace R ks ps) : Pace R (ks.nlIndent d cfg none none) (ps.nlIndent cfg) :=
  ⟨h.nlIndent hs.rel⟩
theorem charEntity (h : Stroll d cfg OK R) (hs : Pace R ks ps) (color : Color) (s : List Byte) :
    Pace R (ks.charEntity d color s).1 (ps.charEntity s).1 ∧ (ks.charEntity d color s).2 = (ps.charEntity s).2 :=
  ⟨⟨(h.charEntity hs.rel color s).1⟩, (h.charEntity hs.rel color s).2⟩
theorem slashes (h : Stroll d cfg OK R) (hs : Pace R ks ps) {a b : List Byte} (ha : ∀ c ∈ a, c = b#'*') (hb : ∀ c ∈ b, c = b#'*')
    (n : Nat) : Pace R (ks.slashes d a b n) (ps.write (a ++ List.replicate n b#'/' ++ b)) := ⟨h.slashes hs.rel ha hb n⟩
theorem quoteLines (h : Stroll d cfg OK R) (hs : Pace R ks ps) (color : Color) (s : List Byte) (ho : OK s) :
    Pace R (ks.quoteLines d cfg color s) (ps.quoteLines cfg s) := ⟨h.quoteLines hs.rel color s ho⟩

theorem beforeAttribute (h : Stroll d cfg OK R) (hs : Pace R ks ps) :
    Pace R (ks.beforeAttribute d cfg) (ps.beforeAttribute cfg) := by
  unfold KS.beforeAttribute PS.beforeAttribute
  rw [hs.last h]
  split
  · exact hs
  · split
    · exact hs.nlIndent' h
    · split
      · exact hs.whiteSpaces h 1
      · exact hs

theorem beforeEntity (h : Stroll d cfg OK R) (hs : Pace R ks ps) : Pace R (ks.beforeEntity d cfg) (ps.beforeEntity cfg) := by
  unfold KS.beforeEntity PS.beforeEntity
  rw [hs.last h]
  split
  · exact hs
  · split
    · exact hs.nlIndent' h
    · split
      · exact hs.whiteSpaces h 1
      · exact hs

theorem beforeQuote (h : Stroll d cfg OK R) (hs : Pace R ks ps) (level : Level) :
    Pace R (ks.beforeQuote d cfg level) (ps.beforeQuote cfg level) := by
  unfold KS.beforeQuote PS.beforeQuote
  rw [hs.last h]
  split
  · exact hs
  · split
    · exact hs.nlIndent' h
    · split
      · exact hs.whiteSpaces h 1
      · exact hs

theorem beforeKey (h : Stroll d cfg OK R) (hs : Pace R ks ps) : Pace R (ks.beforeKey d cfg) (ps.beforeKey cfg) := by
  unfold KS.beforeKey PS.beforeKey
  rw [hs.last h]
  split
  · exact hs
  · split
    · exact hs.nlIndent' h
    · split
      · exact hs.whiteSpaces h 1
      · exact hs

theorem beforeComment (h : Stroll d cfg OK R) (hs : Pace R ks ps) :
    Pace R (ks.beforeComment d cfg) (ps.beforeComment cfg) := by
  unfold KS.beforeComment PS.beforeComment
  rw [hs.last h]
  split
  · exact hs
  · split
    · exact hs.nlIndent' h
    · split
      · exact hs.whiteSpaces h 1
      · exact hs

theorem beforeOpeningBrace (h : Stroll d cfg OK R) (hs : Pace R ks ps) :
    Pace R (ks.beforeOpeningBrace d cfg) (ps.beforeOpeningBrace cfg) := by
  unfold KS.beforeOpeningBrace PS.beforeOpeningBrace
  rw [hs.last h]
  split
  · split
    · exact hs.nlIndent' h
    · exact hs.whiteSpaces h 1
  · exact hs

theorem beforeClosingBrace (h : Stroll d cfg OK R) (hs : Pace R ks ps) :
    Pace R (ks.beforeClosingBrace d cfg) (ps.beforeClosingBrace cfg) := by
  unfold KS.beforeClosingBrace PS.beforeClosingBrace
  split
  · exact hs.nlIndent' h
  · exact hs

theorem pretty (h : Stroll d cfg OK R) (hs : Pace R ks ps) (n : Nat) :
    Pace R (if !cfg.compact then ks.whiteSpaces d cfg n else ks) (if !cfg.compact then ps.whiteSpaces cfg n else ps) := by
  split
  · exact hs.whiteSpaces h n
  · exact hs

theorem allWhitespace (h : Stroll d cfg OK R) (level : Level) (k : Nat) {ks : KS} {ps : PS} (hs : Pace R ks ps) (s : List Byte) :
    Pace R (KS.allWhitespace d cfg k ks s level) (PS.allWhitespace cfg k ps s level) := by
  induction k generalizing ks ps s with
  | zero => exact hs
  | succ k ih =>
    cases s with
    | nil => exact hs
    | cons c t =>
      simp only [KS.allWhitespace, PS.allWhitespace]
      split
      · exact ih ((hs.beforeQuote h level).quotedSpaces h _) _
      · exact ih ((hs.beforeEntity h).charEntity h _ _).1 _

theorem safeLeafQuote (h : Stroll d cfg OK R) (hs : Pace R ks ps) (color : Color) (s : List Byte) (ho : OK s) :
    Pace R (ks.safeLeafQuote d cfg color s) (ps.safeLeafQuote cfg s) := by
  unfold KS.safeLeafQuote PS.safeLeafQuote
  simp only
  split
  · have h1 := ((hs.lineCur h).quotes h color (if countNecessaryQuotes s = 0 then 1 else countNecessaryQuotes s)).nlIndent' h
    have h2 := ((h1.quoteLines h color s ho).nlIndent' h).quotes h color (if countNecessaryQuotes s = 0 then 1 else countNecessaryQuotes s)
    rw [hs.line h]
    exact h2.setLine h _
  · have h1 := hs.quotes h color (if countNecessaryQuotes s = 0 then 1 else countNecessaryQuotes s)
    have h2 := (h1.lineCur h).quoteLines h color s ho
    rw [hs.line h]
    exact (h2.setLine h _).quotes h color _

theorem escapeNls (h : Stroll d cfg OK R) (color : Color) (s : List Byte) {ks : KS} {ps : PS} (hs : Pace R ks ps) :
    Pace R (KS.escapeNls d cfg color ks s).1 (PS.escapeNls cfg ps s).1 ∧
      (KS.escapeNls d cfg color ks s).2 = (PS.escapeNls cfg ps s).2 := by
  induction s generalizing ks ps with
  | nil => exact ⟨hs, rfl⟩
  | cons c t ih =>
    simp only [KS.escapeNls, PS.escapeNls]
    split
    · exact ih ((hs.beforeEntity h).charEntity h _ _).1
    · exact ⟨hs, rfl⟩

theorem escapeNls_suffix (s : List Byte) (ps : PS) : (PS.escapeNls cfg ps s).2 <:+ s := by
  induction s generalizing ps with
  | nil => exact List.suffix_refl _
  | cons c t ih =>
    rw [PS.escapeNls]
    split
    · exact (ih _).trans (List.suffix_cons c t)
    · exact List.suffix_refl _

theorem textLoop (h : Stroll d cfg OK R) (hp : Cuts cfg T OK) (level : Level) {rec : KS → List Byte → KS} {rec' : PS → List Byte → PS}
    (hr : ∀ {ks ps} s, T s → Pace R ks ps → Pace R (rec ks s) (rec' ps s)) (k : Nat) {ks : KS} {ps : PS} (hs : Pace R ks ps)
    (s : List Byte) (ht : T s) : Pace R (KS.textLoop d cfg level rec k ks s) (PS.textLoop cfg level rec' k ps s) := by
  induction k generalizing ks ps s with
  | zero => exact hs
  | succ k ih =>
    cases s with
    | nil => exact hs
    | cons c t =>
      simp only [KS.textLoop, PS.textLoop]
      split
      · rename_i hz
        have h1 := (hs.beforeEntity h).charEntity h (entityColor level) (c :: t)
        rw [h1.2]
        split
        · have h2 := escapeNls h (entityColor level) t h1.1
          rw [h2.2]
          exact ih h2.1 _ (hp.suffix ht (by simp) hz ((escapeNls_suffix t _).trans (List.suffix_cons c t)))
        · exact ih h1.1 _ (hp.suffix ht (by simp) hz (List.drop_suffix _ _))
      · rename_i hz
        obtain ⟨t1, t2, t3⟩ := hp.chunk ht (by simp) hz
        refine ih ?_ _ t3
        split
        · exact (hs.beforeQuote h level).safeLeafQuote h _ _ t2
        · exact hr _ t1 hs

theorem textParts (h : Stroll d cfg OK R) (hp : Cuts cfg T OK) (level : Level) {rec : KS → List Byte → KS} {rec' : PS → List Byte → PS}
    (hr : ∀ {ks ps} s, T s → Pace R ks ps → Pace R (rec ks s) (rec' ps s)) {ks : KS} {ps : PS} (hs : Pace R ks ps)
    (s : List Byte) (ht : T s) : Pace R (KS.textParts d cfg level rec ks s) (PS.textParts cfg level rec' ps s) := by
  have tail : ∀ {ks : KS} {ps : PS} (t : List Byte), T t → Pace R ks ps →
      Pace R
        (match hasEndingNlSpace t with
          | some e =>
            if e.onlyNewlines = 0 then
              KS.allWhitespace d cfg (e.ws.drop (e.ws.takeWhile (· == b#' ')).length).length
                (KS.textLoop d cfg level rec (e.text ++ e.ws.takeWhile (· == b#' ')).length ks (e.text ++ e.ws.takeWhile (· == b#' ')))
                (e.ws.drop (e.ws.takeWhile (· == b#' ')).length) level
            else KS.textLoop d cfg level rec t.length ks t
          | none => KS.textLoop d cfg level rec t.length ks t)
        (match hasEndingNlSpace t with
          | some e =>
            if e.onlyNewlines = 0 then
              PS.allWhitespace cfg (e.ws.drop (e.ws.takeWhile (· == b#' ')).length).length
                (PS.textLoop cfg level rec' (e.text ++ e.ws.takeWhile (· == b#' ')).length ps (e.text ++ e.ws.takeWhile (· == b#' ')))
                (e.ws.drop (e.ws.takeWhile (· == b#' ')).length) level
            else PS.textLoop cfg level rec' t.length ps t
          | none => PS.textLoop cfg level rec' t.length ps t) := by
    intro ks ps t ht hs
    cases he : hasEndingNlSpace t with
    | none => exact textLoop h hp level hr _ hs _ ht
    | some e =>
      simp only
      split
      · exact allWhitespace h level _ (textLoop h hp level hr _ hs _ (hp.tail ht he)) _
      · exact textLoop h hp level hr _ hs _ ht
  unfold KS.textParts PS.textParts
  cases hl : hasLeadingSpaceNl s with
  | none => exact tail s ht hs
  | some l =>
    by_cases hz : l.onlyNewlines = 0
    · simp only [hz, if_true]
      exact tail l.text (hp.lead ht hl) (allWhitespace h level _ hs _)
    · simp only [hz, if_false]
      exact tail s ht hs

theorem foldUnit (h : Stroll d cfg OK R) (color : Color) (s : List Byte) (us : List Unit) {ks : KS} {ps : PS} (hs : Pace R ks ps) :
    Pace R (us.foldl (fun ks _ => ks.print d color s) ks) (us.foldl (fun ps _ => ps.print s) ps) := by
  induction us generalizing ks ps with
  | nil => exact hs
  | cons u us ih => exact ih (hs.print h color s)

theorem internalText (h : Stroll d cfg OK R) (hp : Cuts cfg T OK) (level : Level) (k : Nat) {ks : KS} {ps : PS} (hs : Pace R ks ps)
    (s : List Byte) (ht : TextFit cfg T s) :
    Pace R (KS.internalText d cfg level k ks s) (PS.internalText cfg level k ps s) := by
  induction k generalizing ks ps s with
  | zero => exact hs
  | succ k ih =>
    rw [KS.internalText, PS.internalText]
    split
    · exact (hs.beforeQuote h level).print h _ _
    · split
      · exact foldUnit h _ _ _ (hs.beforeEntity h)
      · simp only
        split
        · exact (hs.beforeQuote h level).quotedSpaces h _
        · split
          · exact allWhitespace h level _ hs _
          · rename_i hw
            split
            · exact hs.printSpan h _ _
            · exact textParts h hp level (fun s ht hs => ih hs s fun _ => ht) hs s (ht (by simpa [whiteOnly] using hw))

theorem entityNode (h : Stroll d cfg OK R) (hs : Pace R ks ps) (name : List Byte) :
    Pace R (ks.entityNode d cfg name) (ps.entityNode cfg name) :=
  (((hs.beforeEntity h).print h .entity b#"&").print h .entity name).print h .entity b#";"

theorem valueInternal (h : Stroll d cfg OK R) (hp : Cuts cfg T OK) (hs : Pace R ks ps) (level : Level) (v : Val)
    (ht : ∀ s, v = .text s → TextFit cfg T s) :
    Pace R (ks.valueInternal d cfg level v) (ps.valueInternal cfg level v) := by
  cases v with
  | entity name => exact hs.entityNode h name
  | text s => exact internalText h hp level _ hs s (ht s rfl)

theorem fold {α : Type _} {f : KS → α → KS} {g : PS → α → PS} (l : List α)
    (hf : ∀ {ks ps} a, a ∈ l → Pace R ks ps → Pace R (f ks a) (g ps a)) {ks : KS} {ps : PS} (hs : Pace R ks ps) :
    Pace R (l.foldl f ks) (l.foldl g ps) := by
  induction l generalizing ks ps with
  | nil => exact hs
  | cons a l ih => exact ih (fun a ha => hf a (List.mem_cons_of_mem _ ha)) (hf a List.mem_cons_self hs)

theorem value (h : Stroll d cfg OK R) (hp : Cuts cfg T OK) (hs : Pace R ks ps) (nodes : List Val) (level : Level)
    (ht : ValsFit cfg T nodes) :
    Pace R (ks.value d cfg nodes level) (ps.value cfg nodes level) := by
  have h1 : ∀ (ns : List Val) (l : Level) (n : Nat), ValsFit cfg T ns → Pace R { ns.foldl (KS.valueInternal d cfg l) ks with line := n }
      { ns.foldl (PS.valueInternal cfg l) ps with line := n } := fun ns l n ht =>
    (fold ns (fun v hv hs => hs.valueInternal h hp l v (fun s e => ht s (e ▸ hv))) hs).setLine h n
  have h2 : ∀ (ns : List Val) (l : Level) (n : Nat), ValsFit cfg T ns →
      Pace R
        { (if !cfg.compact then (ns.foldl (KS.valueInternal d cfg l)
              { (if !cfg.compact then (ks.print d .cparLeft b#"(").whiteSpaces d cfg 1 else ks.print d .cparLeft b#"(") with
                line := (if !cfg.compact then (ks.print d .cparLeft b#"(").whiteSpaces d cfg 1 else ks.print d .cparLeft b#"(").cur }
            ).whiteSpaces d cfg 1 else ns.foldl (KS.valueInternal d cfg l)
              { (if !cfg.compact then (ks.print d .cparLeft b#"(").whiteSpaces d cfg 1 else ks.print d .cparLeft b#"(") with
                line := (if !cfg.compact then (ks.print d .cparLeft b#"(").whiteSpaces d cfg 1 else ks.print d .cparLeft b#"(").cur }
            ).print d .cparRight b#")" with line := n }
        { (if !cfg.compact then (ns.foldl (PS.valueInternal cfg l)
              { (if !cfg.compact then (ps.print b#"(").whiteSpaces cfg 1 else ps.print b#"(") with
                line := (if !cfg.compact then (ps.print b#"(").whiteSpaces cfg 1 else ps.print b#"(").cur }
            ).whiteSpaces cfg 1 else ns.foldl (PS.valueInternal cfg l)
              { (if !cfg.compact then (ps.print b#"(").whiteSpaces cfg 1 else ps.print b#"(") with
                line := (if !cfg.compact then (ps.print b#"(").whiteSpaces cfg 1 else ps.print b#"(").cur }
            ).print b#")" with line := n } := by
    intro ns l n ht
    apply Pace.setLine h
    refine (Pace.pretty h ?_ 1).print h .cparRight b#")"
    refine fold _ (fun v hv hs => hs.valueInternal h hp _ v (fun s e => ht s (e ▸ hv))) ?_
    exact ((hs.print h .cparLeft b#"(").pretty h 1).lineCur h
  have h3 : ∀ (b : Bool) {a a' : KS} {c c' : PS}, Pace R a c → Pace R a' c' →
      Pace R (if b then a else a') (if b then c else c') := fun b _ _ _ _ x y => by cases b <;> assumption
  unfold KS.value PS.value
  rw [hs.line h]
  have ht' : ValsFit cfg T (if level == .xmq then nodes.take 1 else nodes) := by
    split
    · exact fun s hs => ht s (List.mem_of_mem_take hs)
    · exact ht
  exact h3 _ (h2 _ _ _ ht') (h1 _ _ _ ht')

theorem commentRest (h : Stroll d cfg OK R) (n k : Nat) {ks : KS} {ps : PS} (hs : Pace R ks ps) (s : List Byte) :
    Pace R (KS.commentRest d cfg n k ks s) (PS.commentRest cfg n k ps s) := by
  induction k generalizing ks ps s with
  | zero => exact hs
  | succ k ih =>
    cases s with
    | nil => exact hs
    | cons c t =>
      simp only [KS.commentRest, PS.commentRest]
      apply ih
      apply Pace.printSpan h
      split
      · exact hs.slashes h (by simp) (by simp) n
      · split
        · exact hs.nl' h
        · exact hs.nlIndent' h

theorem commentLines (h : Stroll d cfg OK R) (hs : Pace R ks ps) (s : List Byte) :
    Pace R (ks.commentLines d cfg s) (ps.commentLines cfg s) := by
  unfold KS.commentLines PS.commentLines
  simp only
  have h1 : Pace R (ks.slashes d [] [b#'*'] (countNecessarySlashes s))
      (ps.write (List.replicate (countNecessarySlashes s) b#'/' ++ [b#'*'])) := hs.slashes h (by simp) (by simp) _
  have h2 : Pace R
      (if (!cfg.compact && peek s != b#'\n') = true then (ks.slashes d [] [b#'*'] (countNecessarySlashes s)).whiteSpaces d cfg 1
        else ks.slashes d [] [b#'*'] (countNecessarySlashes s))
      (if (!cfg.compact && peek s != b#'\n') = true then
          (ps.write (List.replicate (countNecessarySlashes s) b#'/' ++ [b#'*'])).whiteSpaces cfg 1
        else ps.write (List.replicate (countNecessarySlashes s) b#'/' ++ [b#'*'])) := by
    split
    · exact h1.whiteSpaces h 1
    · exact h1
  rw [h1.cur h]
  have h3 := h2.setLine h (if (!cfg.compact) = true then
      (ps.write (List.replicate (countNecessarySlashes s) b#'/' ++ [b#'*'])).cur + 1 + countNecessarySlashes s + 1
      else (ps.write (List.replicate (countNecessarySlashes s) b#'/' ++ [b#'*'])).cur + 1 + countNecessarySlashes s)
  have h4 := commentRest h (countNecessarySlashes s) s.length (h3.printSpan h .comment (s.takeWhile (· != b#'\n')))
    (s.drop ((s.takeWhile (· != b#'\n')).length + 1))
  have h5 := ((h4.pretty h 1).slashes h (a := [b#'*']) (b := []) (by simp) (by simp) (countNecessarySlashes s)).setLast h b#'/'
  have h6 := h5.setLine h (if (!cfg.compact && peek s != b#'\n') = true then
          (ps.write (List.replicate (countNecessarySlashes s) b#'/' ++ [b#'*'])).whiteSpaces cfg 1
        else ps.write (List.replicate (countNecessarySlashes s) b#'/' ++ [b#'*'])).line
  rw [h2.line h]
  simpa using h6

theorem commentNode (h : Stroll d cfg OK R) (hs : Pace R ks ps) (s : List Byte) :
    Pace R (ks.commentNode d cfg s) (ps.commentNode cfg s) := by
  unfold KS.commentNode PS.commentNode
  simp only
  have h1 := hs.beforeComment h
  split
  · split
    · exact Pace.setLast h ⟨h.comment3 h1.rel s⟩ _
    · exact Pace.setLast h ⟨h.comment2 h1.rel s⟩ _
  · exact (h1.commentLines h s).setLast h _

theorem keyValue (h : Stroll d cfg OK R) (hp : Cuts cfg T OK) (hs : Pace R ks ps) (align : Nat) (v : List Val) (ht : ValsFit cfg T v) :
    Pace R (ks.keyValue d cfg align v) (ps.keyValue cfg align v) := by
  unfold KS.keyValue PS.keyValue
  simp only
  rw [hs.line h, hs.cur h]
  exact (((hs.pretty h _).print h .equals _).pretty h 1).value h hp v _ ht

theorem prefixed (h : Stroll d cfg OK R) (hs : Pace R ks ps) (c1 c2 : Color) (pre : Option (List Byte)) (name : List Byte) :
    Pace R (ks.prefixed d c1 c2 pre name) (ps.prefixed pre name) := by
  unfold KS.prefixed PS.prefixed
  cases pre with
  | none => exact hs.print h _ _
  | some p => exact ((hs.print h _ _).print h _ _).print h _ _

theorem nsAttribute (h : Stroll d cfg OK R) (hp : Cuts cfg T OK) (heap : List Ns) (align : Nat) {ks : KS} {ps : PS} (hs : Pace R ks ps) (a : NAttr)
    (ht : ValsFit cfg T a.value) :
    Pace R (ks.nsAttribute d cfg heap align a) (ps.nsAttribute cfg heap align a) := by
  unfold KS.nsAttribute PS.nsAttribute
  simp only
  have h1 := (hs.beforeAttribute h).prefixed h .attrNs .attrKey (nsPrefix heap a.ns) a.name
  split
  · exact h1
  · exact (((h1.pretty h _).print h _ _).pretty h _).value h hp _ _ ht

theorem nsDeclaration (h : Stroll d cfg OK R) (hp : Cuts cfg T OK) (align : Nat) {ks : KS} {ps : PS} (hs : Pace R ks ps) (n : Ns)
    (ht : ∀ v, n.href = some v → TextFit cfg T v) :
    Pace R (ks.nsDeclaration d cfg align n) (ps.nsDeclaration cfg align n) := by
  unfold KS.nsDeclaration PS.nsDeclaration
  simp only
  have h1 := (hs.beforeAttribute h).print h .nsDeclaration b#"xmlns"
  have h2 : Pace R
      (match n.pre with
        | some p => (((ks.beforeAttribute d cfg).print d .nsDeclaration b#"xmlns").print d .nsColon b#":").print d
            (if p == b#"xsl" then .nsOverrideXsl else .attrNs) p
        | none => (ks.beforeAttribute d cfg).print d .nsDeclaration b#"xmlns")
      (match n.pre with
        | some p => (((ps.beforeAttribute cfg).print b#"xmlns").print b#":").print p
        | none => (ps.beforeAttribute cfg).print b#"xmlns") := by
    cases n.pre with
    | none => exact h1
    | some p => exact (h1.print h _ _).print h _ _
  cases hv : n.href with
  | none => exact h2
  | some v => exact internalText h hp _ _ (((h2.pretty h _).print h _ _).pretty h _) _ (ht v hv)

theorem nsAttributes (h : Stroll d cfg OK R) (hp : Cuts cfg T OK) (heap : List Ns) (hs : Pace R ks ps) (attrs : List NAttr) (decls : List Ns)
    (ha : ∀ a ∈ attrs, ValsFit cfg T a.value) (hd : ∀ n ∈ decls, ∀ v, n.href = some v → TextFit cfg T v) :
    Pace R (ks.nsAttributes d cfg heap attrs decls) (ps.nsAttributes cfg heap attrs decls) := by
  unfold KS.nsAttributes PS.nsAttributes
  simp only
  rw [hs.line h]
  apply Pace.setLine h
  refine fold _ (fun n hn hs => hs.nsDeclaration h hp _ n (hd n hn)) ?_
  exact fold _ (fun a hm hs => hs.nsAttribute h hp heap _ a (ha a hm)) (hs.lineCur h)

theorem nsName (h : Stroll d cfg OK R) (hp : Cuts cfg T OK) (heap : List Ns) (key : Bool) (hs : Pace R ks ps) (name : List Byte) (ns : Option Nat)
    (defs : List Nat) (attrs : List NAttr) (ha : ∀ a ∈ attrs, ValsFit cfg T a.value)
    (hd : ∀ n ∈ defs.filterMap (heap[·]?), ∀ v, n.href = some v → TextFit cfg T v) :
    Pace R (ks.nsName d cfg heap key name ns defs attrs) (ps.nsName cfg heap name ns defs attrs) := by
  unfold KS.nsName PS.nsName
  simp only
  split
  · exact (hs.beforeKey h).prefixed h _ _ _ _
  · exact ((((hs.beforeKey h).prefixed h _ _ _ _).print h _ _).nsAttributes h hp heap _ _ ha hd).print h _ _

theorem plainEquals (h : Stroll d cfg OK R) (hs : Pace R ks ps) : Pace R (ks.plainEquals d cfg) (ps.plainEquals cfg) :=
  ((hs.pretty h 1).print h .equals _).pretty h 1

theorem doctype (h : Stroll d cfg OK R) (hp : Cuts cfg T OK) (hs : Pace R ks ps) (name : List Byte)
    (ht : TextFit cfg T (flatLines cfg name)) : Pace R (ks.doctype d cfg name) (ps.doctype cfg name) :=
  internalText h hp _ _ (((hs.beforeKey h).print h _ _).plainEquals h) _ ht

theorem piNode (h : Stroll d cfg OK R) (hp : Cuts cfg T OK) (hs : Pace R ks ps) (target content : List Byte)
    (ht : TextFit cfg T (flatLines cfg ((addEdgeSpaces content).getD []))) :
    Pace R (ks.piNode d cfg target content) (ps.piNode cfg target content) :=
  internalText h hp _ _ (Pace.plainEquals h ⟨h.pi2 (hs.beforeKey h).rel target⟩) _ ht

theorem keyVals_fit {heap : List Ns} {kids : List NNode} (hk : NodesFit cfg heap T kids) {v : List Val} (hv : nsKeyValues kids = some v) :
    ValsFit cfg T v := by
  unfold nsKeyValues at hv
  split at hv
  · cases hv
  · intro s hs
    have key : ∀ (ks : List NNode) (vs : List Val), ks.mapM NNode.val? = some vs → .text s ∈ vs → NNode.text s ∈ ks := by
      intro ks
      induction ks with
      | nil => intro vs h hs; simp at h; subst h; cases hs
      | cons n t ih =>
        intro vs h hs
        rw [List.mapM_cons] at h
        cases hn : n.val? with
        | none => simp [hn] at h
        | some w =>
          cases ht : t.mapM NNode.val? with
          | none => simp [hn, ht] at h
          | some ws =>
            simp [hn, ht] at h
            subst h
            rcases List.mem_cons.1 hs with hw | hs
            · subst hw
              cases n <;> simp [NNode.val?] at hn
              subst hn
              exact List.mem_cons_self
            · exact List.mem_cons_of_mem _ (ih ws ht hs)
    have := nodesFit_mem hk (key kids v hv hs)
    rwa [NodeFit] at this

mutual
theorem nsNode (h : Stroll d cfg OK R) (hp : Cuts cfg T OK) (heap : List Ns) {ks : KS} {ps : PS} (hs : Pace R ks ps) (align : Nat)
    (n : NNode) (ht : NodeFit cfg heap T n) : Pace R (KS.nsNode d cfg heap ks align n) (PS.nsNode cfg heap ps align n) := by
  cases n with
  | text s =>
    rw [NodeFit] at ht
    rw [KS.nsNode, PS.nsNode]
    exact hs.value h hp _ _ (fun t hm => by simp at hm; subst hm; exact ht)
  | entity name => rw [KS.nsNode, PS.nsNode]; exact hs.entityNode h _
  | comment s => rw [KS.nsNode, PS.nsNode]; exact hs.commentNode h _
  | pi t c => rw [NodeFit] at ht; rw [KS.nsNode, PS.nsNode]; exact hs.piNode h hp _ _ ht
  | dtd name => rw [NodeFit] at ht; rw [KS.nsNode, PS.nsNode]; exact hs.doctype h hp _ ht
  | element name ns defs attrs kids =>
    rw [NodeFit] at ht
    have h1 := hs.nsName h hp heap (nsKeyValues kids).isSome name ns defs attrs ht.1 ht.2.1
    simp only [KS.nsNode, PS.nsNode]
    generalize KS.nsName d cfg heap (nsKeyValues kids).isSome ks name ns defs attrs = k1 at h1 ⊢
    generalize PS.nsName cfg heap ps name ns defs attrs = p1 at h1 ⊢
    split
    · exact h1
    · cases hv : nsKeyValues kids with
      | some v => exact h1.keyValue h hp _ _ (keyVals_fit ht.2.2 hv)
      | none =>
        simp only
        have h2 := (h1.beforeOpeningBrace h).print h .braceLeft b#"{"
        generalize KS.print d .braceLeft (k1.beforeOpeningBrace d cfg) b#"{" = k2 at h2 ⊢
        generalize (p1.beforeOpeningBrace cfg).print b#"{" = p2 at h2 ⊢
        have h3 := nsNodes h hp heap (h2.setLine h (p2.line + cfg.addIndent)) (some 0) 0 kids ht.2.2
        rw [h2.line h]
        exact ((h3.setLine h p2.line).beforeClosingBrace h).print h .braceRight b#"}"
theorem nsNodes (h : Stroll d cfg OK R) (hp : Cuts cfg T OK) (heap : List Ns) {ks : KS} {ps : PS} (hs : Pace R ks ps)
    (restart : Option Nat) (max : Nat) (ns : List NNode) (ht : NodesFit cfg heap T ns) :
    Pace R (KS.nsNodes d cfg heap ks restart max ns) (PS.nsNodes cfg heap ps restart max ns) := by
  cases ns with
  | nil => exact hs
  | cons n t =>
    rw [NodesFit] at ht
    simp only [KS.nsNodes, PS.nsNodes]
    exact nsNodes h hp heap (nsNode h hp heap hs _ n ht.1) _ _ t ht.2
end

end Pace
end
end Xmq
