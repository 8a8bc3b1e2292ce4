import Verif.Lemmas.ColourWalk
/-!
# The printer with a theme writes what the plain printer writes, for every way of reading that skips the theme strings
-/
namespace Xmq

/-! ## Characters -/

/-- What of a character is written: nothing behind a space or tab. -/
def keepOne : List Byte → List Byte
  | [] => []
  | c :: t => if c == b#' ' || c == b#'\t' then [c] else c :: t

/-- `chars` splits into these. -/
inductive CharList : List (List Byte) → Prop
  | nil : CharList []
  | newline {t} : CharList t → CharList ([b#'\n'] :: t)
  | char {c k t} : c ≠ b#'\n' → (∀ x ∈ k, isCont x = true) → isCont (peek t.flatten) = false → CharList t →
      CharList ((c :: k) :: t)

theorem chars_flatten (s : List Byte) : (chars s).flatten = s := by
  induction s with
  | nil => rfl
  | cons c t ih =>
    rw [chars]
    split
    · rename_i h
      rw [h] at ih
      simp at ih
      simp [← ih]
    · rename_i g gs h
      rw [h] at ih
      split <;> simpa using ih

theorem chars_charList (s : List Byte) : CharList (chars s) := by
  induction s with
  | nil => exact .nil
  | cons c t ih =>
    have hf := chars_flatten t
    rw [chars]
    split
    · by_cases hc : c = b#'\n'
      · subst hc; exact .newline .nil
      · exact .char hc (by simp) (by decide) .nil
    · rename_i g gs h
      rw [h] at ih hf
      by_cases hc : c = b#'\n'
      · subst hc
        rw [if_neg (by simp)]
        exact .newline ih
      · by_cases hp : isCont (peek t) = true
        · rw [if_pos (by simp [hc, hp])]
          cases ih with
          | newline _ =>
            rw [← hf] at hp
            exact absurd hp (by simp [peek]; decide)
          | @char c' k _ hn hk hq ht =>
            rw [← hf] at hp
            have hp' : isCont c' = true := by simpa [peek] using hp
            refine .char hc ?_ hq ht
            intro x hx
            rcases List.mem_cons.1 hx with rfl | hx
            · exact hp'
            · exact hk x hx
        · have hp' : isCont (peek t) = false := by simpa using hp
          rw [if_neg (by simp [hp'])]
          exact .char hc (by simp) (by rw [hf]; exact hp') ih

theorem keepChars_flag {s : List Byte} (h : isCont (peek s) = false) (b : Bool) : keepChars b s = keepChars false s := by
  cases s with
  | nil => cases b <;> rfl
  | cons c t =>
    have h' : isCont c = false := h
    cases b <;> simp [keepChars, h']

theorem keepChars_conts_true {k r : List Byte} (hk : ∀ x ∈ k, isCont x = true) (hr : isCont (peek r) = false) :
    keepChars true (k ++ r) = keepChars false r := by
  induction k with
  | nil => exact keepChars_flag hr true
  | cons c t ih =>
    simp only [List.cons_append, keepChars, hk c (by simp), Bool.and_self, if_true]
    exact ih fun x hx => hk x (by simp [hx])

theorem cont_not_blank {c : Byte} (h : isCont c = true) : (c == b#' ' || c == b#'\t') = false := by
  have := forall_byte (P := fun c => isCont c = true → (c == b#' ' || c == b#'\t') = false) (by decide +kernel) c
  exact this h

theorem keepChars_conts_false {k r : List Byte} (hk : ∀ x ∈ k, isCont x = true) (_hr : isCont (peek r) = false) :
    keepChars false (k ++ r) = k ++ keepChars false r := by
  induction k with
  | nil => rfl
  | cons c t ih =>
    simp only [List.cons_append, keepChars, Bool.false_and, Bool.false_eq_true, if_false]
    rw [cont_not_blank (hk c (by simp)), ih fun x hx => hk x (by simp [hx])]

theorem keepChars_char {c : Byte} {k r : List Byte} (hk : ∀ x ∈ k, isCont x = true) (hr : isCont (peek r) = false) :
    keepChars false (c :: k ++ r) = keepOne (c :: k) ++ keepChars false r := by
  simp only [List.cons_append, keepChars, Bool.false_and, Bool.false_eq_true, if_false, keepOne]
  cases hb : (c == b#' ' || c == b#'\t')
  · simp [keepChars_conts_false hk hr]
  · simp [keepChars_conts_true hk hr]

theorem keepChars_groups {gs : List (List Byte)} (h : CharList gs) : keepChars false gs.flatten = gs.flatMap keepOne := by
  induction h with
  | nil => rfl
  | @newline t ht ih =>
    have e : keepOne [b#'\n'] = [b#'\n'] := rfl
    rw [List.flatMap_cons, e, ← ih]
    simp only [List.flatten_cons, List.cons_append, List.nil_append, keepChars, Bool.false_and, Bool.false_eq_true, if_false]
    rfl
  | char hn hk hq ht ih =>
    rw [List.flatten_cons, keepChars_char hk hq, List.flatMap_cons, ih]

theorem keepChars_keepOne (s : List Byte) : keepChars false s = (chars s).flatMap keepOne := by
  rw [← keepChars_groups (chars_charList s), chars_flatten]

/-- `PS.quoteLoop` over characters. -/
def PS.charLoop (cfg : OutCfg) : PS → List (List Byte) → PS
  | ps, [] => ps
  | ps, g :: t =>
    if g == [b#'\n'] then
      PS.charLoop cfg (if !t.isEmpty && t.head? != some [b#'\n'] then ps.nlIndent cfg else ps.nl) t
    else PS.charLoop cfg { ps with out := ps.out ++ keepOne g, cur := ps.cur + 1, last := peek g } t

theorem quoteLoop_flag (cfg : OutCfg) (ps : PS) {s : List Byte} (h : isCont (peek s) = false) (b : Bool) :
    PS.quoteLoop cfg b ps s = PS.quoteLoop cfg false ps s := by
  cases s with
  | nil => cases b <;> rfl
  | cons c t =>
    have h' : isCont c = false := h
    cases b <;> simp [PS.quoteLoop, h']

theorem quoteLoop_conts (cfg : OutCfg) {k r : List Byte} (hk : ∀ x ∈ k, isCont x = true) (ps : PS) :
    PS.quoteLoop cfg true ps (k ++ r) = PS.quoteLoop cfg true { ps with out := ps.out ++ k } r := by
  induction k generalizing ps with
  | nil => simp
  | cons c t ih =>
    simp only [List.cons_append, PS.quoteLoop, hk c (by simp), Bool.and_self, if_true]
    rw [ih fun x hx => hk x (by simp [hx])]
    simp [PS.write]

theorem peek_keepChars (s : List Byte) : peek (keepChars false s) = peek s := by
  cases s <;> simp [keepChars, peek]

theorem charList_head {t : List (List Byte)} (h : CharList t) :
    (!t.isEmpty && t.head? != some [b#'\n']) = (!(keepChars false t.flatten).isEmpty && peek (keepChars false t.flatten) != b#'\n') := by
  rw [peek_keepChars]
  cases h with
  | nil => rfl
  | newline _ => simp [keepChars, peek]
  | char hn hk hq ht =>
    simp only [List.isEmpty_cons, List.head?_cons, List.flatten_cons, List.cons_append, keepChars, Bool.false_and,
      Bool.false_eq_true, if_false, peek, Bool.not_false, Bool.true_and]
    rw [bne_iff_ne.2 hn]
    exact bne_iff_ne.2 (by simp [hn])

theorem quoteLoop_groups (cfg : OutCfg) {gs : List (List Byte)} (h : CharList gs) (ps : PS) :
    PS.quoteLoop cfg false ps (keepChars false gs.flatten) = PS.charLoop cfg ps gs := by
  induction h generalizing ps with
  | nil => rfl
  | @newline t ht ih =>
    rw [PS.charLoop, if_pos (by simp), charList_head ht, ← ih]
    simp only [List.flatten_cons, List.cons_append, List.nil_append, keepChars, Bool.false_and, Bool.false_eq_true, if_false,
      PS.quoteLoop]
    rfl
  | @char c k t hn hk hq ht ih =>
    rw [PS.charLoop, if_neg (by simp [hn]), List.flatten_cons, keepChars_char hk hq, ← ih]
    have hq' : isCont (peek (keepChars false t.flatten)) = false := by rw [peek_keepChars]; exact hq
    simp only [keepOne]
    split
    · simp only [List.cons_append, List.nil_append, PS.quoteLoop, Bool.false_and, Bool.false_eq_true, if_false]
      rw [if_neg (by simpa using hn), quoteLoop_flag _ _ hq']
      rfl
    · simp only [List.cons_append, PS.quoteLoop, Bool.false_and, Bool.false_eq_true, if_false]
      rw [if_neg (by simpa using hn), quoteLoop_conts cfg hk, quoteLoop_flag _ _ hq']
      simp [peek]

theorem quoteLoop_chars (cfg : OutCfg) (ps : PS) (s : List Byte) :
    PS.quoteLoop cfg false ps (keepChars false s) = PS.charLoop cfg ps (chars s) := by
  rw [← quoteLoop_groups cfg (chars_charList s), chars_flatten]

/-! ## Readings -/

/-- `S w v`: whatever is written around it, the reader gets `v` out of `w`.  `G` is what is asked of the plain text. -/
structure Reading (d : Dress) (cfg : OutCfg) (G : List Byte → Prop) (S : List Byte → List Byte → Prop) : Prop where
  nil : S [] []
  app : ∀ {a b a' b'}, S a b → S a' b' → S (a ++ a') (b ++ b')
  left : ∀ {a b}, G (a ++ b) → G a
  right : ∀ {a b}, G (a ++ b) → G b
  pre : ∀ {c m}, d.pre c = some m → S m []
  post : ∀ {c m}, d.post c = some m → S m []
  face : ∀ {c k}, (∀ x ∈ k, isCont x = true) → G (keepOne (c :: k)) → S (d.face (c :: k)) (keepOne (c :: k))
  nl : S d.nl [b#'\n']
  space : S d.space [b#' ']
  raw : ∀ {s : List Byte}, (∀ c ∈ s, c = b#'\'' ∨ c = b#'*' ∨ c = b#'/') → S s s
  bad : S b#"&badutf8;" b#"&badutf8;"
  indent : S cfg.indentationSpace cfg.indentationSpace

/-- The two printers are in step. -/
structure InStep (G : List Byte → Prop) (S : List Byte → List Byte → Prop) (ks : KS) (ps : PS) : Prop where
  out : G ps.out → S ks.out ps.out
  cur : ks.cur = ps.cur
  last : ks.last = ps.last
  line : ks.line = ps.line
  replay : ∀ m, ks.replay = some m → S m []
  restart : ∀ m, ks.restart = some m → S m []

section
variable {d : Dress} {cfg : OutCfg} {G : List Byte → Prop} {S : List Byte → List Byte → Prop}

theorem Reading.optPre (h : Reading d cfg G S) (c : Color) : S ((d.pre c).getD []) [] := by
  cases e : d.pre c with
  | none => exact h.nil
  | some m => exact h.pre e

theorem Reading.optPost (h : Reading d cfg G S) (c : Color) : S ((d.post c).getD []) [] := by
  cases e : d.post c with
  | none => exact h.nil
  | some m => exact h.post e

theorem Reading.opt (h : Reading d cfg G S) {o : Option (List Byte)} (ho : ∀ m, o = some m → S m []) : S (o.getD []) [] := by
  cases o with
  | none => exact h.nil
  | some m => exact ho m rfl

theorem Reading.showChar (h : Reading d cfg G S) {replay : Option (List Byte)} (hr : ∀ m, replay = some m → S m []) {c : Byte}
    {k : List Byte} (hk : ∀ x ∈ k, isCont x = true) (hg : G (keepOne (c :: k))) :
    S (d.showChar replay (c :: k)) (keepOne (c :: k)) := by
  unfold Dress.showChar
  split
  · have h1 := h.app (h.optPre .unicodeWhitespace) (h.face hk hg)
    have h2 : S (((d.post .unicodeWhitespace).or replay).getD []) [] := by
      cases e : d.post .unicodeWhitespace with
      | none => simpa using h.opt hr
      | some m => simpa using h.post e
    simpa using h.app h1 h2
  · exact h.face hk hg

theorem Reading.groups (h : Reading d cfg G S) {replay : Option (List Byte)} (hr : ∀ m, replay = some m → S m [])
    {gs : List (List Byte)} (hgs : CharList gs) (hg : G (gs.flatMap keepOne)) :
    S (gs.flatMap (d.showChar replay)) (gs.flatMap keepOne) := by
  induction hgs with
  | nil => exact h.nil
  | newline ht ih =>
    rw [List.flatMap_cons] at hg ⊢
    rw [List.flatMap_cons]
    exact h.app (h.showChar hr (by simp) (h.left hg)) (ih (h.right hg))
  | char hn hk hq ht ih =>
    rw [List.flatMap_cons] at hg ⊢
    rw [List.flatMap_cons]
    exact h.app (h.showChar hr hk (h.left hg)) (ih (h.right hg))

theorem Reading.bytes (h : Reading d cfg G S) {replay : Option (List Byte)} (hr : ∀ m, replay = some m → S m []) {s : List Byte}
    (hg : G s) : S (s.flatMap fun b => d.showChar replay [b]) s := by
  induction s with
  | nil => exact h.nil
  | cons c t ih =>
    have hg' : G ([c] ++ t) := hg
    have e : keepOne [c] = [c] := by simp [keepOne]
    have h1 := h.showChar hr (c := c) (k := []) (by simp) (by rw [e]; exact h.left hg')
    rw [e] at h1
    exact h.app h1 (ih (h.right hg'))

theorem Reading.spaces (h : Reading d cfg G S) {w v : List Byte} (hw : S w v) (n : Nat) :
    S (List.replicate n w).flatten (List.replicate n v).flatten := by
  induction n with
  | zero => exact h.nil
  | succ n ih =>
    simp only [List.replicate_succ, List.flatten_cons]
    exact h.app hw ih

namespace InStep
variable {ks : KS} {ps : PS}

theorem add (h : Reading d cfg G S) (hs : InStep G S ks ps) {w w' : List Byte} (hw : G w → S w' w) (n : Nat) (c : Byte) :
    InStep G S { ks with out := ks.out ++ w', cur := n, last := c } { ps with out := ps.out ++ w, cur := n, last := c } where
  out hg := h.app (hs.out (h.left hg)) (hw (h.right hg))
  cur := rfl
  last := rfl
  line := hs.line
  replay := hs.replay
  restart := hs.restart

theorem setLast (hs : InStep G S ks ps) (c : Byte) : InStep G S { ks with last := c } { ps with last := c } :=
  ⟨hs.out, hs.cur, rfl, hs.line, hs.replay, hs.restart⟩

theorem setLine (hs : InStep G S ks ps) (n : Nat) : InStep G S { ks with line := n } { ps with line := n } :=
  ⟨hs.out, hs.cur, hs.last, rfl, hs.replay, hs.restart⟩

theorem setCur (hs : InStep G S ks ps) (n : Nat) : InStep G S { ks with cur := n } { ps with cur := n } :=
  ⟨hs.out, rfl, hs.last, hs.line, hs.replay, hs.restart⟩

theorem lineCur (hs : InStep G S ks ps) : InStep G S { ks with line := ks.cur } { ps with line := ps.cur } := by
  exact ⟨hs.out, hs.cur, hs.last, hs.cur, hs.replay, hs.restart⟩

theorem write (h : Reading d cfg G S) (hs : InStep G S ks ps) {w w' : List Byte} (hw : G w → S w' w) :
    InStep G S (ks.write w') (ps.write w) := by
  have := hs.add h hw ps.cur ps.last
  refine ⟨this.out, hs.cur, hs.last, hs.line, hs.replay, hs.restart⟩

theorem mark (h : Reading d cfg G S) (hs : InStep G S ks ps) {m : Option (List Byte)} (hm : S (m.getD []) []) :
    InStep G S (ks.mark m) ps :=
  ⟨fun hg => by simpa [KS.mark, KS.write] using h.app (hs.out hg) hm, hs.cur, hs.last, hs.line, hs.replay, hs.restart⟩

theorem bytes (h : Reading d cfg G S) (hs : InStep G S ks ps) (s : List Byte) : InStep G S (KS.bytes d s ks) (ps.print s) := by
  unfold KS.bytes PS.print
  cases s.getLast? with
  | none => exact hs
  | some c =>
    simp only
    rw [hs.cur]
    exact hs.add h (fun hg => h.bytes hs.replay hg) _ _

theorem span (h : Reading d cfg G S) (hs : InStep G S ks ps) (s : List Byte) : InStep G S (KS.span d s ks) (ps.printSpan s) := by
  unfold KS.span PS.printSpan
  cases s.getLast? with
  | none => exact hs
  | some c =>
    simp only
    rw [hs.cur, keepChars_keepOne]
    exact hs.add h (fun hg => h.groups hs.replay (chars_charList s) hg) _ _

theorem token (h : Reading d cfg G S) (hs : InStep G S ks ps) (color : Color) {f : KS → KS} {g : PS → PS}
    (hf : ∀ {ks ps}, InStep G S ks ps → InStep G S (f ks) (g ps)) : InStep G S (ks.token d color f) (g ps) := by
  unfold KS.token
  cases e : d.pre color with
  | none =>
    simp only
    exact (hf hs).mark h (h.optPost color)
  | some p =>
    have h1 : InStep G S { ks.write p with replay := some p } ps :=
      ⟨fun hg => by simpa [KS.write] using h.app (hs.out hg) (h.pre e), hs.cur, hs.last, hs.line,
        fun m hm => by cases hm; exact h.pre e, hs.restart⟩
    have h2 := (hf h1).mark h (h.optPost color)
    cases e2 : ks.replay with
    | none => exact h2
    | some q => exact ⟨h2.out, h2.cur, h2.last, h2.line, fun m hm => by cases hm; exact hs.replay q e2, h2.restart⟩

theorem print (h : Reading d cfg G S) (hs : InStep G S ks ps) (color : Color) (s : List Byte) :
    InStep G S (ks.print d color s) (ps.print s) := hs.token h color (g := fun ps => ps.print s) fun hs => hs.bytes h s

theorem printSpan (h : Reading d cfg G S) (hs : InStep G S ks ps) (color : Color) (s : List Byte) :
    InStep G S (ks.printSpan d color s) (ps.printSpan s) := hs.token h color (g := fun ps => ps.printSpan s) fun hs => hs.span h s

theorem whiteSpaces (h : Reading d cfg G S) (hs : InStep G S ks ps) (n : Nat) :
    InStep G S (ks.whiteSpaces d cfg n) (ps.whiteSpaces cfg n) := by
  have h1 := (hs.mark h (h.optPre .whitespace)).write h (fun _ => h.spaces h.indent n)
  have h2 := h1.setCur (ps.cur + n)
  have h3 := h2.mark h (h.optPost .whitespace)
  have e : ks.cur = ps.cur := hs.cur
  simpa [KS.whiteSpaces, PS.whiteSpaces, KS.mark, KS.write, PS.write, e] using h3

theorem quotedSpaces (h : Reading d cfg G S) (hs : InStep G S ks ps) (n : Nat) :
    InStep G S (ks.quotedSpaces d n) (ps.quotedSpaces n) := by
  have hq : S [b#'\''] [b#'\''] := h.raw (by simp)
  have hsp := h.spaces h.space n
  have h1 := (((hs.mark h (h.optPre .quote)).write h (fun _ => hq)).write h (fun _ => hsp)).write h (fun _ => hq)
  have h2 := (h1.setCur (ps.cur + n)).setLast b#'\''
  have h3 := h2.mark h (h.optPost .quote)
  have e : ks.cur = ps.cur := hs.cur
  have e2 : (List.replicate n [b#' ']).flatten = List.replicate n b#' ' := by simp
  simpa [KS.quotedSpaces, PS.quotedSpaces, KS.mark, KS.write, PS.write, e, e2] using h3

theorem quotes (h : Reading d cfg G S) (hs : InStep G S ks ps) (color : Color) (n : Nat) :
    InStep G S (ks.quotes d color n) (ps.quotes n) := by
  have hq : S (List.replicate n b#'\'') (List.replicate n b#'\'') :=
    h.raw fun c hc => Or.inl (List.eq_of_mem_replicate hc)
  have h1 := (hs.mark h (h.optPre color)).write h (fun _ => hq)
  have h2 := (h1.setCur (ps.cur + n)).setLast b#'\''
  have h3 := h2.mark h (h.optPost color)
  have e : ks.cur = ps.cur := hs.cur
  simpa [KS.quotes, PS.quotes, KS.mark, KS.write, PS.write, e] using h3

theorem nl (h : Reading d cfg G S) (hs : InStep G S ks ps) {a b : Option (List Byte)} (ha : S (a.getD []) [])
    (hb : S (b.getD []) []) : InStep G S (ks.nl d a b) ps.nl := by
  have h1 := (((hs.mark h hb).write h (fun _ => h.nl)).setCur 0).setLast 0
  have h2 := (h1.mark h (h.opt hs.restart)).mark h ha
  simpa [KS.nl, PS.nl, KS.mark, KS.write, PS.write] using h2

theorem nlIndent (h : Reading d cfg G S) (hs : InStep G S ks ps) {a b : Option (List Byte)} (ha : S (a.getD []) [])
    (hb : S (b.getD []) []) : InStep G S (ks.nlIndent d cfg a b) (ps.nlIndent cfg) := by
  have h1 := ((((hs.mark h hb).write h (fun _ => h.nl)).setCur 0).setLast 0).whiteSpaces h ps.line
  have h2 := (h1.mark h (h.opt h1.restart)).mark h ha
  have e : ks.line = ps.line := hs.line
  simpa [KS.nlIndent, PS.nlIndent, PS.nl, KS.mark, KS.write, PS.write, e] using h2

theorem nlIndent' (h : Reading d cfg G S) (hs : InStep G S ks ps) : InStep G S (ks.nlIndent d cfg none none) (ps.nlIndent cfg) :=
  hs.nlIndent h h.nil h.nil

theorem charEntity (h : Reading d cfg G S) (hs : InStep G S ks ps) (color : Color) (s : List Byte) :
    InStep G S (ks.charEntity d color s).1 (ps.charEntity s).1 ∧ (ks.charEntity d color s).2 = (ps.charEntity s).2 := by
  unfold KS.charEntity PS.charEntity
  simp only
  split
  · refine ⟨?_, rfl⟩
    have h1 := ((hs.mark h (h.optPre color)).print h .none (Xmq.charEntity (decodeUtf8 s).char)).mark h (h.optPost color)
    have h2 := (h1.setCur ((ps.print (Xmq.charEntity (decodeUtf8 s).char)).cur + (Xmq.charEntity (decodeUtf8 s).char).length)).setLast b#';'
    rw [h1.cur]
    exact h2
  · exact ⟨((hs.mark h (h.optPre color)).write h (fun _ => h.bad)).mark h (h.optPost color), rfl⟩

theorem slashes (h : Reading d cfg G S) (hs : InStep G S ks ps) {a b : List Byte} (ha : ∀ c ∈ a, c = b#'*') (hb : ∀ c ∈ b, c = b#'*')
    (n : Nat) : InStep G S (ks.slashes d a b n) (ps.write (a ++ List.replicate n b#'/' ++ b)) := by
  have hq : S (a ++ List.replicate n b#'/' ++ b) (a ++ List.replicate n b#'/' ++ b) := by
    refine h.raw fun c hc => ?_
    simp only [List.mem_append] at hc
    rcases hc with (hc | hc) | hc
    · exact Or.inr (Or.inl (ha c hc))
    · exact Or.inr (Or.inr (List.eq_of_mem_replicate hc))
    · exact Or.inr (Or.inl (hb c hc))
  exact ((hs.mark h (h.optPre .comment)).write h (fun _ => hq)).mark h (h.optPost .comment)

theorem charLoop (h : Reading d cfg G S) (color : Color) {gs : List (List Byte)} (hgs : CharList gs) {ks : KS} {ps : PS}
    (hs : InStep G S ks ps) : InStep G S (KS.quoteLoop d cfg color ks gs) (PS.charLoop cfg ps gs) := by
  induction hgs generalizing ks ps with
  | nil => exact hs
  | @newline t ht ih =>
    simp only [KS.quoteLoop, PS.charLoop, beq_self_eq_true, if_true]
    apply ih
    by_cases hb : (!t.isEmpty && t.head? != some [b#'\n']) = true
    · rw [if_pos hb, if_pos hb]
      exact hs.nlIndent h (h.optPre color) (h.optPost color)
    · rw [if_neg hb, if_neg hb]
      exact hs.nl h (h.optPre color) (h.optPost color)
  | @char c k t hn hk hq ht ih =>
    rw [KS.quoteLoop, PS.charLoop, if_neg (by simp [hn]), if_neg (by simp [hn])]
    apply ih
    rw [hs.cur]
    exact hs.add h (fun hg => h.showChar hs.replay hk hg) _ _

theorem quoteLines (h : Reading d cfg G S) (hs : InStep G S ks ps) (color : Color) (s : List Byte) :
    InStep G S (ks.quoteLines d cfg color s) (ps.quoteLines cfg s) := by
  unfold KS.quoteLines PS.quoteLines
  simp only
  rw [quoteLoop_chars]
  have h1 := hs.mark h (h.optPre color)
  have h2 : InStep G S { ks.mark (d.pre color) with restart := if (d.post color).isNone then d.pre color else none } ps :=
    ⟨h1.out, h1.cur, h1.last, h1.line, h1.replay, fun m hm => by
      split at hm
      · exact h.pre hm
      · cases hm⟩
  have h3 : InStep G S (if peek s == b#'\n' then
      ({ ks.mark (d.pre color) with restart := if (d.post color).isNone then d.pre color else none } : KS).nl d (d.pre color) (d.post color)
      else { ks.mark (d.pre color) with restart := if (d.post color).isNone then d.pre color else none })
      (if peek s == b#'\n' then ps.nl else ps) := by
    split
    · exact h2.nl h (h.optPre color) (h.optPost color)
    · exact h2
  have h4 := charLoop h color (chars_charList s) h3
  generalize KS.quoteLoop d cfg color _ (chars s) = c4 at h4 ⊢
  generalize PS.charLoop cfg _ (chars s) = p4 at h4 ⊢
  have key : ∀ {c : KS} {p : PS}, InStep G S c p → InStep G S { c with restart := ks.restart } p := fun hc =>
    ⟨hc.out, hc.cur, hc.last, hc.line, hc.replay, hs.restart⟩
  apply key
  split
  · have h5 : InStep G S { c4 with line := c4.line - 1 } { p4 with line := p4.line - 1 } := by
      rw [h4.line]; exact h4.setLine _
    rw [h4.line]
    apply InStep.setLine
    split
    · rw [h4.line] at h5
      exact h5.nlIndent h h.nil (h.optPost color)
    · rw [h4.line] at h5
      exact ((h5.setCur 0).setLast 0).whiteSpaces h _
  · exact h4.mark h (h.optPost color)

end InStep

/-- The two printers stay in step. -/
theorem Reading.walk (h : Reading d cfg G S) : Stroll d cfg (fun _ => True) (InStep G S) where
  cur hs := hs.cur
  last hs := hs.last
  line hs := hs.line
  setLast hs c := hs.setLast c
  setLine hs n := hs.setLine n
  lineCur hs := hs.lineCur
  print hs c s := hs.print h c s
  printSpan hs c s := hs.printSpan h c s
  comment3 hs s := hs.token h .comment (g := fun ps => ((ps.print b#"/*").printSpan s).print b#"*/")
    fun hs => ((hs.bytes h _).span h s).bytes h _
  comment2 hs s := hs.token h .comment (g := fun ps => (ps.print b#"// ").printSpan s) fun hs => (hs.bytes h _).span h s
  pi2 hs s := hs.token h .elementKey (g := fun ps => (ps.print b#"?").print s) fun hs => (hs.bytes h _).bytes h _
  whiteSpaces hs n := hs.whiteSpaces h n
  quotedSpaces hs n := hs.quotedSpaces h n
  quotes hs c n := hs.quotes h c n
  nl hs := hs.nl h h.nil h.nil
  nlIndent hs := hs.nlIndent' h
  charEntity hs c s := hs.charEntity h c s
  slashes := by intro _ _ hs _ _ ha hb n; exact hs.slashes h ha hb n
  quoteLines hs c s _ := hs.quoteLines h c s

theorem anyParts (cfg : OutCfg) : Cuts cfg (fun _ => True) (fun _ => True) :=
  ⟨fun _ _ => trivial, fun _ _ => trivial, fun _ _ _ _ => trivial, fun _ _ _ => ⟨trivial, trivial, trivial⟩⟩

mutual
theorem anyNode (cfg : OutCfg) (heap : List Ns) (n : NNode) : NodeFit cfg heap (fun _ => True) n := by
  cases n with
  | element name ns defs attrs kids =>
    rw [NodeFit]
    exact ⟨fun _ _ _ _ _ => trivial, fun _ _ _ _ _ => trivial, anyNodes cfg heap kids⟩
  | _ => rw [NodeFit]; first | exact fun _ => trivial | trivial
theorem anyNodes (cfg : OutCfg) (heap : List Ns) (ns : List NNode) : NodesFit cfg heap (fun _ => True) ns := by
  cases ns with
  | nil => rw [NodesFit]; trivial
  | cons n t => rw [NodesFit]; exact ⟨anyNode cfg heap n, anyNodes cfg heap t⟩
end


/-- What is written for the nodes is read as what the plain printer writes. -/
theorem printDressed_read {d : Dress} {cfg : OutCfg} {G : List Byte → Prop} {S : List Byte → List Byte → Prop}
    (h : ∀ cfg', cfg'.indentationSpace = cfg.indentationSpace → Reading d cfg' G S) {heap : List Ns} {nodes : List NNode}
    {plain : List Byte} (hp : printNs cfg heap nodes = some plain) (hn : nodes ≠ []) (hg : G plain) :
    ∃ w v, printDressed d cfg heap nodes = some (d.front ++ w ++ d.back ++ [b#'\n']) ∧ plain = v ++ [b#'\n'] ∧ S w v := by
  unfold printNs at hp
  unfold printDressed
  simp only at hp ⊢
  split at hp
  · cases hp
  · rename_i he
    rw [if_neg (by simpa using hn)] at hp
    cases hp
    have hr := h (if cfg.compact then { cfg with escapeNewlines := true } else cfg) (by split <;> rfl)
    have hs : InStep G S ⟨[], 0, 0, 0, none, none⟩ ⟨[], 0, 0, 0⟩ :=
      ⟨fun _ => hr.nil, rfl, rfl, rfl, (fun m hm => nomatch hm), (fun m hm => nomatch hm)⟩
    have hz := (Pace.nsNodes hr.walk (anyParts _) heap ⟨hs⟩ (some 0) 0 nodes (anyNodes _ heap nodes)).rel
    refine ⟨_, _, ?_, rfl, hz.out (hr.left hg)⟩
    rw [if_neg (by simpa using he), if_neg (by simpa using hn)]

end
end Xmq
