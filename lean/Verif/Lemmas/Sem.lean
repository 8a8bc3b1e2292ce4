import Verif.Lemmas.Delimiters
import Verif.Lemmas.ParserStep
import Verif.Lemmas.FlatBuild
/-!
# Reading a document piece by piece: the parser and the tree builder run together

`At st w col b`: the parser stands before the bytes `w` at column `col`, and the callbacks done so far have built `b`.
`X w col b w' col' b'`: from such a state `parse_xmq` gets to the other one.  `C` and `A` are the same for the contents of
a compound and for an attribute list, `P` for a parser function that returns.
-/
namespace Xmq
open Spec

/-- Column after the bytes `w`. -/
def colw (col : Nat) (w : List Byte) : Nat := (walk (1, col) w).2

theorem walk_snd (l l' col : Nat) (w : List Byte) : (walk (l, col) w).2 = (walk (l', col) w).2 := by
  induction w generalizing l l' col with
  | nil => rfl
  | cons c w ih =>
    simp only [walk_cons, incPos]
    split
    · exact ih _ _ _
    · split
      · exact ih _ _ _
      · exact ih _ _ _

@[simp] theorem colw_nil (col : Nat) : colw col [] = col := rfl

theorem colw_append (col : Nat) (a b : List Byte) : colw col (a ++ b) = colw (colw col a) b := by
  unfold colw
  rw [walk_append]
  exact walk_snd _ _ _ _

set_option linter.unusedSectionVars false
variable [Mode]

/-- What the callbacks done so far have built, with the part of a name that has been seen. -/
def bldP (st : St) : Option (List Byte × List Open) := st.out.reverse.foldlM flatStep ([], [⟨false, [], [], [], false⟩])

/-- What the callbacks done so far have built. -/
def bld (st : St) : Option (List Open) := (bldP st).bind fun s => if s.1.isEmpty then some s.2 else none

theorem bld_some {st : St} {b : List Open} : bld st = some b ↔ bldP st = some ([], b) := by
  unfold bld
  cases h : bldP st with
  | none => simp
  | some s =>
    obtain ⟨p, c⟩ := s
    simp

structure At (st : St) (w : List Byte) (col : Nat) (b : List Open) : Prop where
  rest : st.rest = w
  col : st.col = col
  built : bld st = some b

theorem bldP_emit (st : St) (kd : Kind) (l c : Nat) (t : List Byte) :
    bldP (st.emit kd l c t) = (bldP st).bind fun b => flatStep b ⟨kd, l, c, t⟩ := by
  unfold bldP St.emit
  simp only [List.reverse_cons, List.foldlM_append, List.foldlM_cons, List.foldlM_nil]
  cases List.foldlM flatStep ([], [⟨false, [], [], [], false⟩]) st.out.reverse with
  | none => rfl
  | some b => simp

theorem bld_emit {st : St} {b : List Open} (h : bld st = some b) (kd : Kind) (l c : Nat) (t : List Byte) :
    bld (st.emit kd l c t) = bstep b ⟨kd, l, c, t⟩ := by
  unfold bld bstep
  rw [bldP_emit, bld_some.1 h]
  rfl

theorem At.took {st : St} {t k : List Byte} {col : Nat} {b b' : List Open} (h : At st (t ++ k) col b) (kd : Kind)
    (hb : ∀ line, bstep b ⟨kd, line, col, t⟩ = some b') : At (st.took kd t) k (colw col t) b' := by
  refine ⟨took_rest _ _ _ _ h.rest, ?_, ?_⟩
  · simp only [St.took, St.emit, St.moved, h.rest, h.col]
    rw [List.take_left' rfl]
    exact walk_snd _ _ _ _
  · unfold St.took
    have : bld (st.moved t.length) = some b := h.built
    rw [bld_emit this, h.col]
    exact hb _

/-- From some amount of fuel on, `f` gives `r`. -/
def Ev (f : Nat → Res) (r : Res) : Prop := ∃ F, ∀ F', F ≤ F' → f F' = r

theorem Ev.const (r : Res) : Ev (fun _ => r) r := ⟨0, fun _ _ => rfl⟩

theorem Ev.succ {f : Nat → Res} {r : Res} (h : Ev (fun F => f (F + 1)) r) : Ev f r := by
  obtain ⟨F, h⟩ := h
  refine ⟨F + 1, fun F' hF => ?_⟩
  obtain ⟨j, rfl⟩ : ∃ j, F' = j + 1 := ⟨F' - 1, by omega⟩
  exact h j (by omega)

theorem Ev.pred {f : Nat → Res} {r : Res} (h : Ev f r) : Ev (fun F => f (F + 1)) r := by
  obtain ⟨F, h⟩ := h
  exact ⟨F, fun F' hF => h _ (by omega)⟩

theorem Ev.bind {f : Nat → Res} {g : Nat → St → Res} {s : St} {r : Res} (hf : Ev f (.ok s)) (hg : Ev (fun F => g F s) r) :
    Ev (fun F => (f F).bind (g F)) r := by
  obtain ⟨F, hf⟩ := hf
  obtain ⟨G, hg⟩ := hg
  refine ⟨max F G, fun F' h => ?_⟩
  show (f F').bind (g F') = r
  rw [hf F' (by omega)]
  exact hg F' (by omega)

theorem Ev.congr {f g : Nat → Res} {r : Res} (h : ∀ F, f F = g F) (hf : Ev g r) : Ev f r := by
  rwa [show f = g from funext h]

/-- Spaces and line feeds. -/
def Ws (ws : List Byte) : Prop := ∀ c ∈ ws, c = 32 ∨ c = 10

theorem Ws.nil : Ws [] := by simp [Ws]
theorem Ws.append {a b : List Byte} (ha : Ws a) (hb : Ws b) : Ws (a ++ b) := by
  intro c hc; simp at hc; rcases hc with h | h; exact ha c h; exact hb c h
theorem Ws.cons {c : Byte} {a : List Byte} (hc : c = 32 ∨ c = 10) (ha : Ws a) : Ws (c :: a) := by
  intro x hx; simp at hx; rcases hx with rfl | h; exact hc; exact ha x h

theorem tokenWhitespaceLoop_ws (ws k : List Byte) (hw : Ws ws) (hk : countWhitespace k = 0) (n : Nat) (st : St)
    (hr : st.rest = ws ++ k) (hn : ws.length ≤ n) : tokenWhitespaceLoop n st = st.moved ws.length := by
  induction ws generalizing n st with
  | nil =>
    cases n with
    | zero => simp [tokenWhitespaceLoop]
    | succ n =>
      simp only [tokenWhitespaceLoop]
      split
      · simp
      · rw [if_pos (by simpa [hr] using hk)]; simp
  | cons c ws ih =>
    obtain ⟨n, rfl⟩ : ∃ j, n = j + 1 := ⟨n - 1, by simp at hn; omega⟩
    have hc : c = 32 ∨ c = 10 := hw c (by simp)
    have h1 : countWhitespace st.rest = 1 := by
      rw [hr]; rcases hc with rfl | rfl <;> simp [countWhitespace]
    have h9 : c ≠ 9 := by rcases hc with rfl | rfl <;> decide
    simp only [tokenWhitespaceLoop]
    rw [if_neg (by simp [hr]), if_neg (by simp [h1]), if_neg (by simp [hr, h9]), increment_eq _ (by simp [h1]), h1,
      ih (fun x hx => hw x (by simp [hx])) n (st.moved 1) (by simp [hr]) (by simp at hn; omega), moved_moved,
      List.length_cons, Nat.add_comm]

theorem parseXmqWhitespace_ws (ws k : List Byte) (hw : Ws ws) (hk : countWhitespace k = 0) (st : St)
    (hr : st.rest = ws ++ k) : parseXmqWhitespace st = st.took .whitespace ws := by
  unfold parseXmqWhitespace eatXmqTokenWhitespace
  rw [tokenWhitespaceLoop_ws ws k hw hk _ st hr (by simp [hr])]
  simp only [St.emitSpan, St.took, moved_rest, hr]
  have : (ws ++ k).length - ((ws ++ k).drop ws.length).length = ws.length := by simp
  rw [this, List.take_left' rfl]

theorem notWs_of_count {k : List Byte} (h : countWhitespace k = 0) : isXmlWhitespace (peek k) = false := by
  cases k with
  | nil => rfl
  | cons c t =>
    cases hc : isXmlWhitespace c
    · simpa using hc
    · rw [isXmlWhitespace_iff] at hc
      rcases hc with rfl | rfl | rfl | rfl <;> simp [countWhitespace] at h

theorem At.ws {st : St} {ws k : List Byte} {col : Nat} {b : List Open} (h : At st (ws ++ k) col b) (hw : Ws ws)
    (hk : countWhitespace k = 0) : At (parseXmqWhitespace st) k (colw col ws) b := by
  rw [parseXmqWhitespace_ws ws k hw hk st h.rest]
  exact h.took _ (fun _ => by rw [bstep_same _ _ (by simp)]; rfl)

theorem At.skipWs {st : St} {ws k : List Byte} {col : Nat} {b : List Open} (h : At st (ws ++ k) col b) (hw : Ws ws)
    (hk : countWhitespace k = 0) : At (skipWs st) k (colw col ws) b := by
  unfold Xmq.skipWs
  split
  · exact h.ws hw hk
  · rename_i hn
    cases ws with
    | nil => exact h
    | cons c ws =>
      rw [h.rest] at hn
      rcases hw c (by simp) with rfl | rfl <;> exact absurd rfl hn

theorem At.skipWs_same {st : St} {k : List Byte} {col : Nat} {b : List Open} (h : At st k col b)
    (hk : countWhitespace k = 0) : Xmq.skipWs st = st := by
  unfold Xmq.skipWs
  rw [h.rest, notWs_of_count hk]; rfl

/-- Everything reachable from `st'` is reachable from `st`. -/
def XS (st st' : St) : Prop := ∀ r, Ev (fun F => parseXmq F st') r → Ev (fun F => parseXmq F st) r

def X (w : List Byte) (col : Nat) (b : List Open) (w' : List Byte) (col' : Nat) (b' : List Open) : Prop :=
  ∀ st, At st w col b → ∃ st', At st' w' col' b' ∧ XS st st'

theorem XS.refl (st : St) : XS st st := fun _ h => h
theorem XS.trans {a b c : St} (h : XS a b) (k : XS b c) : XS a c := fun r hr => h r (k r hr)

theorem X.refl (w : List Byte) (col : Nat) (b : List Open) : X w col b w col b := fun st h => ⟨st, h, XS.refl st⟩
theorem X.trans {w1 w2 w3 : List Byte} {c1 c2 c3 : Nat} {b1 b2 b3 : List Open} (h : X w1 c1 b1 w2 c2 b2)
    (k : X w2 c2 b2 w3 c3 b3) : X w1 c1 b1 w3 c3 b3 := by
  intro st hst
  obtain ⟨s2, h2, hx⟩ := h st hst
  obtain ⟨s3, h3, hy⟩ := k s2 h2
  exact ⟨s3, h3, hx.trans hy⟩

/-- A step of the loop of `parse_xmq` that behaves like `f` and goes on. -/
theorem X.step {w : List Byte} {col : Nat} {b : List Open} {w' : List Byte} {col' : Nat} {b' : List Open}
    (f : Nat → St → Res)
    (hf : ∀ st, At st w col b → ∀ F, parseXmq (F + 1) st = (f F st).bind (parseXmq F))
    (h : ∀ st, At st w col b → ∃ st', Ev (fun F => f F st) (.ok st') ∧ At st' w' col' b') : X w col b w' col' b' := by
  intro st hst
  obtain ⟨st', he, ha⟩ := h st hst
  refine ⟨st', ha, fun r hr => ?_⟩
  apply Ev.succ
  exact Ev.congr (hf st hst) (Ev.bind he hr)

/-- Line feeds and spaces: both sides of the whitespace reach the same. -/
theorem xs_ws {st : St} {ws k : List Byte} {col : Nat} {b : List Open} (h : At st (ws ++ k) col b) (hw : Ws ws)
    (hk : countWhitespace k = 0) : XS st (skipWs st) ∧ XS (skipWs st) st := by
  cases ws with
  | nil =>
    rw [At.skipWs_same (k := k) h hk]
    exact ⟨XS.refl _, XS.refl _⟩
  | cons c ws =>
    have hr : st.rest = c :: (ws ++ k) := h.rest
    have hc : c = 32 ∨ c = 10 := hw c (by simp)
    have ht : isXmqTokenWhitespace c = true := by rcases hc with rfl | rfl <;> rfl
    have hx : isXmlWhitespace c = true := by rcases hc with rfl | rfl <;> rfl
    have hs : skipWs st = parseXmqWhitespace st := by
      unfold skipWs; rw [hr]; simp [hx]
    have hstep : ∀ F, parseXmq (F + 1) st = parseXmq F (parseXmqWhitespace st) := by
      intro F; rw [parseXmq]; simp only [hr]; rw [if_pos ht]
    rw [hs]
    exact ⟨fun r hx => Ev.succ (Ev.congr hstep hx), fun r hx => Ev.congr (fun F => (hstep F).symm) hx.pred⟩

theorem X_ws {ws k : List Byte} (hw : Ws ws) (hk : countWhitespace k = 0) (col : Nat) (b : List Open) :
    X (ws ++ k) col b k (colw col ws) b :=
  fun st h => ⟨skipWs st, h.skipWs hw hk, (xs_ws h hw hk).1⟩

/-! ## Compounds -/

/-- The same for the contents of a compound value. -/
def CS (lv : Level) (st st' : St) : Prop :=
  ∀ r, Ev (fun F => parseXmqCompoundChildren F st' lv) r → Ev (fun F => parseXmqCompoundChildren F st lv) r

def C (lv : Level) (w : List Byte) (col : Nat) (b : List Open) (w' : List Byte) (col' : Nat) (b' : List Open) : Prop :=
  ∀ st, At st w col b → ∃ st', At st' w' col' b' ∧ CS lv st st'

theorem C.refl (lv : Level) (w : List Byte) (col : Nat) (b : List Open) : C lv w col b w col b :=
  fun st h => ⟨st, h, fun _ h => h⟩

theorem C.trans {lv : Level} {w1 w2 w3 : List Byte} {c1 c2 c3 : Nat} {b1 b2 b3 : List Open} (h : C lv w1 c1 b1 w2 c2 b2)
    (k : C lv w2 c2 b2 w3 c3 b3) : C lv w1 c1 b1 w3 c3 b3 := by
  intro st hst
  obtain ⟨s2, h2, hx⟩ := h st hst
  obtain ⟨s3, h3, hy⟩ := k s2 h2
  exact ⟨s3, h3, fun r hr => hx r (hy r hr)⟩

theorem C_ws {lv : Level} {ws k : List Byte} (hw : Ws ws) (hk : countWhitespace k = 0) (col : Nat) (b : List Open) :
    C lv (ws ++ k) col b k (colw col ws) b := by
  intro st h
  cases ws with
  | nil => exact ⟨st, h, fun _ h => h⟩
  | cons c ws =>
    refine ⟨parseXmqWhitespace st, h.ws hw hk, fun r hr => Ev.succ (Ev.congr (fun F => ?_) hr)⟩
    have hr : st.rest = c :: (ws ++ k) := h.rest
    have hc : c = 32 ∨ c = 10 := hw c (by simp)
    have hx : isXmlWhitespace c = true := by rcases hc with rfl | rfl <;> rfl
    rw [parseXmqCompoundChildren]; simp only [hr]; rw [if_pos hx]

/-! ## Quotes and entities -/

theorem parseXmqEntity_name (st : St) (level : Level) (name follow : List Byte) (hn : ∀ b ∈ name, isXmqTextName b = true)
    (hr : st.rest = (38 :: (name ++ [59])) ++ follow) :
    parseXmqEntity st level = .ok (st.took (entityKind level) (38 :: (name ++ [59]))) := by
  have h59 : isXmqTextName 59 = false := by decide
  have htw : ((name ++ [59]) ++ follow).takeWhile isXmqTextName = name := by
    rw [List.append_assoc, List.takeWhile_append_of_pos hn]; simp [h59]
  have hdw : ((name ++ [59]) ++ follow).dropWhile isXmqTextName = 59 :: follow := by
    rw [List.append_assoc, List.dropWhile_append_of_pos hn]; simp [h59]
  have hd : st.rest.drop 1 = (name ++ [59]) ++ follow := by rw [hr]; simp
  unfold parseXmqEntity eatXmqEntity
  simp only [hd, htw, hdw, peek_cons, beq_self_eq_true, if_true]
  have := emitSpan_took st (entityKind level) (38 :: (name ++ [59])) follow hr
  rw [show (38 :: (name ++ [59]) : List Byte).length = 1 + name.length + 1 by simp; omega] at this
  exact congrArg Res.ok this

/-- One quote or entity `p` at column `col`, followed by `k`, stands for the node `v`. -/
inductive Part (col : Nat) : List Byte → List Byte → Val → Prop
  | quote (d : Nat) (body k : List Byte) (v : Val) (hd : 0 < d) (hd2 : d ≠ 2) (hb : body ≠ [])
      (hh : body.head? ≠ some 39) (hl : body.getLast? ≠ some 39) (hn : NoRun 39 d body) (hk : k.head? ≠ some 39)
      (hv : quoteVal col (List.replicate d 39 ++ (body ++ List.replicate d 39)) = some v) :
      Part col (List.replicate d 39 ++ (body ++ List.replicate d 39)) k v
  | empty (k : List Byte) (hk : k.head? ≠ some 39) : Part col [39, 39] k (.text [])
  | entity (name k : List Byte) (v : Val) (hn : ∀ b ∈ name, isXmqTextName b = true)
      (hv : entityVal (38 :: (name ++ [59])) = some v) : Part col (38 :: (name ++ [59])) k v

theorem quoteVal_empty (col : Nat) : quoteVal col [39, 39] = some (.text []) := by
  unfold quoteVal unQuote
  simp only [if_true, stripDelims_empty]
  unfold trimQuote
  rw [if_neg (by simp)]
  rfl

/-- How the parser delivers a part: as a quote or an entity, whose callback finds the node. -/
theorem Part.parse {col : Nat} {p k : List Byte} {v : Val} (h : Part col p k v) :
    (p.head? = some 39 ∧ quoteVal col p = some v ∧ ∀ (st : St) (level : Level), st.rest = p ++ k →
      parseXmqQuote st level = .ok (st.took (quoteKind level) p)) ∨
    (p.head? = some 38 ∧ p.getLast? = some 59 ∧ entityVal p = some v ∧ ∀ (st : St) (level : Level), st.rest = p ++ k →
      parseXmqEntity st level = .ok (st.took (entityKind level) p)) := by
  cases h with
  | quote d body k v hd hd2 hb hh hl hn hk hv =>
    left
    refine ⟨?_, hv, fun st level hr => parseXmqQuote_full st level d body k hd hd2 hb hh hl hn hk hr⟩
    obtain ⟨j, rfl⟩ : ∃ j, d = j + 1 := ⟨d - 1, by omega⟩
    simp [List.replicate_succ]
  | empty k hk => exact .inl ⟨rfl, quoteVal_empty _, fun st level hr => parseXmqQuote_empty st level k hk hr⟩
  | entity name k v hn hv => exact .inr ⟨rfl, by simp [List.getLast?_cons], hv, fun st level hr => parseXmqEntity_name st level name k hn hr⟩

theorem head_cons {p : List Byte} {c : Byte} (h : p.head? = some c) : ∃ t, p = c :: t := by
  cases p with
  | nil => simp at h
  | cons a t => simp at h; exact ⟨t, by rw [h]⟩

theorem Part.noWs {col : Nat} {p k k' : List Byte} {v : Val} (h : Part col p k v) : countWhitespace (p ++ k') = 0 := by
  rcases h.parse with ⟨hp, -, -⟩ | ⟨hp, -, -, -⟩ <;> obtain ⟨t, rfl⟩ := head_cons hp <;> simp [countWhitespace] <;> split <;> simp_all

/-- The children `kids` (latest first) with `v` added. -/
def Open.add (o : Open) (n : Node) : Open := { o with kids := addChild o.kids n, lastAttr := false }

theorem X_part {col : Nat} {p k : List Byte} {v : Val} (h : Part col p k v) (o : Open) (stk : List Open) :
    X (p ++ k) col (o :: stk) k (colw col p) (o.add v.node :: stk) := by
  rcases h.parse with ⟨hp, hv, hparse⟩ | ⟨hp, -, hv, hparse⟩ <;> obtain ⟨t, rfl⟩ := head_cons hp
  · refine X.step (fun _ st => parseXmqQuote st .xmq) ?_ ?_
    · intro st hst F
      have hr : st.rest = 39 :: (t ++ k) := hst.rest
      rw [parseXmq]; simp only [hr]
      rw [if_neg (by decide), if_pos (by decide)]
    · intro st hst
      refine ⟨st.took (quoteKind .xmq) (39 :: t), ?_, ?_⟩
      · rw [hparse st _ hst.rest]; exact Ev.const _
      · refine hst.took _ (fun line => ?_)
        simp [bstep_same, buildStep, quoteKind, hv, addTop, Open.add]
  · refine X.step (fun _ st => parseXmqEntity st .xmq) ?_ ?_
    · intro st hst F
      have hr : st.rest = 38 :: (t ++ k) := hst.rest
      rw [parseXmq]; simp only [hr]
      rw [if_neg (by decide), if_neg (by decide), if_pos (by decide)]
    · intro st hst
      refine ⟨st.took (entityKind .xmq) (38 :: t), ?_, ?_⟩
      · rw [hparse st _ hst.rest]; exact Ev.const _
      · refine hst.took _ (fun line => ?_)
        simp [bstep_same, buildStep, entityKind, hv, addTop, Open.add]

/-- A level inside a compound. -/
def InCompound (lv : Level) : Prop := lv = .elementValueCompound ∨ lv = .attrValueCompound

theorem C_part {lv : Level} (hlv : InCompound lv) {col : Nat} {p k : List Byte} {v : Val} (h : Part col p k v) (o : Open)
    (stk : List Open) : C lv (p ++ k) col (o :: stk) k (colw col p) (o.add v.node :: stk) := by
  intro st hst
  rcases h.parse with ⟨hp, hv, hparse⟩ | ⟨hp, -, hv, hparse⟩ <;> obtain ⟨t, rfl⟩ := head_cons hp
  · refine ⟨st.took (quoteKind lv) (39 :: t), hst.took _ (fun line => ?_), fun r hr => Ev.succ (Ev.congr (fun F => ?_) hr)⟩
    · rcases hlv with rfl | rfl <;> simp [bstep_same, buildStep, quoteKind, hv, addTop, Open.add]
    · have hr : st.rest = 39 :: (t ++ k) := hst.rest
      rw [parseXmqCompoundChildren, hparse st _ hst.rest]; simp only [hr]
      rw [if_neg (by decide), if_neg (by decide), if_pos (by decide)]; rfl
  · refine ⟨st.took (entityKind lv) (38 :: t), hst.took _ (fun line => ?_), fun r hr => Ev.succ (Ev.congr (fun F => ?_) hr)⟩
    · rcases hlv with rfl | rfl <;> simp [bstep_same, buildStep, entityKind, hv, addTop, Open.add]
    · have hr : st.rest = 38 :: (t ++ k) := hst.rest
      rw [parseXmqCompoundChildren, hparse st _ hst.rest]; simp only [hr]
      rw [if_neg (by decide), if_neg (by decide), if_neg (by decide), if_pos (by decide)]; rfl

/-- Several parts with whitespace before each of them: `w` at column `col`, followed by `k`, stands for `vs`. -/
inductive Parts : Nat → List Byte → List Byte → List Val → Prop
  | nil (col : Nat) (k : List Byte) : Parts col [] k []
  | cons (col : Nat) (ws p w k : List Byte) (v : Val) (vs : List Val) (hw : Ws ws) (hp : Part (colw col ws) p (w ++ k) v)
      (h : Parts (colw (colw col ws) p) w k vs) : Parts col (ws ++ (p ++ w)) k (v :: vs)

theorem Parts.append {col : Nat} {w1 w2 k : List Byte} {vs1 vs2 : List Val} (h1 : Parts col w1 (w2 ++ k) vs1)
    (h2 : Parts (colw col w1) w2 k vs2) : Parts col (w1 ++ w2) k (vs1 ++ vs2) := by
  generalize hk : w2 ++ k = k' at h1
  induction h1 with
  | nil => simpa using h2
  | cons col ws p w k' v vs hw hp h ih =>
    subst hk
    rw [show ws ++ (p ++ w) ++ w2 = ws ++ (p ++ (w ++ w2)) by simp, List.cons_append]
    refine .cons _ _ _ _ _ _ _ hw (by rwa [List.append_assoc]) (ih ?_ rfl)
    rwa [← colw_append, ← colw_append]

def Open.addAll (o : Open) (ns : List Node) : Open := ns.foldl Open.add o

theorem X_parts {col : Nat} {w k : List Byte} {vs : List Val} (h : Parts col w k vs) (o : Open) (stk : List Open) :
    X (w ++ k) col (o :: stk) k (colw col w) (o.addAll (vs.map Val.node) :: stk) := by
  induction h generalizing o with
  | nil => exact X.refl _ _ _
  | cons col ws p w k v vs hw hp h ih =>
    have := (X_ws hw (hp.noWs (k' := w ++ k)) col (o :: stk)).trans ((X_part hp o stk).trans (ih (o.add v.node)))
    rw [show (ws ++ (p ++ w)) ++ k = ws ++ (p ++ (w ++ k)) by simp, colw_append, colw_append]
    exact this

theorem C_parts {lv : Level} (hlv : InCompound lv) {col : Nat} {w k : List Byte} {vs : List Val} (h : Parts col w k vs)
    (o : Open) (stk : List Open) :
    C lv (w ++ k) col (o :: stk) k (colw col w) (o.addAll (vs.map Val.node) :: stk) := by
  induction h generalizing o with
  | nil => exact C.refl _ _ _ _
  | cons col ws p w k v vs hw hp h ih =>
    have := (C_ws (lv := lv) hw (hp.noWs (k' := w ++ k)) col (o :: stk)).trans
      ((C_part hlv hp o stk).trans (ih (o.add v.node)))
    rw [show (ws ++ (p ++ w)) ++ k = ws ++ (p ++ (w ++ k)) by simp, colw_append, colw_append]
    exact this

/-! ## Functions that return -/

/-- `f` succeeds and gets from one state to the other. -/
def P (f : Nat → St → Res) (w : List Byte) (col : Nat) (b : List Open) (w' : List Byte) (col' : Nat) (b' : List Open) :
    Prop :=
  ∀ st, At st w col b → ∃ st', Ev (fun F => f F st) (.ok st') ∧ At st' w' col' b'

theorem At.one {st : St} {c : Byte} {k : List Byte} {col : Nat} {b b' : List Open} (h : At st (c :: k) col b) (kd : Kind)
    (hb : ∀ line, bstep b ⟨kd, line, col, [c]⟩ = some b') : At (parseOne st kd) k (colw col [c]) b' := by
  have hr : st.rest = [c] ++ k := h.rest
  have := emitSpan_took st kd [c] k hr
  unfold parseOne
  rw [show (1 : Nat) = [c].length from rfl, this]
  exact At.took (t := [c]) h kd hb

/-! ## Values -/

/-- Values with adjacent texts merged, latest first. -/
def addVal (vs : List Val) (v : Val) : List Val :=
  match v, vs with
  | .text b, .text a :: t => .text (a ++ b) :: t
  | v, vs => v :: vs

theorem addChild_node (vs : List Val) (v : Val) : addChild (vs.map Val.node) v.node = (addVal vs v).map Val.node := by
  cases v with
  | entity n => simp [addVal, addChild, Val.node]
  | text b =>
    cases vs with
    | nil => simp [addVal, addChild, Val.node]
    | cons w vs => cases w <;> simp [addVal, addChild, Val.node]

theorem foldl_addChild_node (vs acc : List Val) :
    (vs.map Val.node).foldl addChild (acc.map Val.node) = (vs.foldl addVal acc).map Val.node := by
  induction vs generalizing acc with
  | nil => rfl
  | cons v vs ih => simp only [List.map_cons, List.foldl_cons, addChild_node, ih]

theorem mapM_node (vs : List Val) : (vs.map Val.node).mapM Node.val? = some vs := by
  induction vs with
  | nil => rfl
  | cons v vs ih =>
    rw [List.map_cons, List.mapM_cons, ih]
    cases v <;> rfl

/-- Children with adjacent texts merged, as `xmlAddChild` does. -/
def mergeNodes (ns : List Node) : List Node := (ns.foldl addChild []).reverse

/-- The same for values. -/
def mergeVals (vs : List Val) : List Val := (vs.foldl addVal []).reverse

theorem mergeNodes_vals (vs : List Val) : mergeNodes (vs.map Val.node) = (mergeVals vs).map Val.node := by
  have := foldl_addChild_node vs []
  simp only [List.map_nil] at this
  rw [mergeNodes, this, mergeVals, List.map_reverse]

theorem addAll_eq (o : Open) (ns : List Node) (h : o.lastAttr = false) :
    o.addAll ns = { o with kids := ns.foldl addChild o.kids, lastAttr := false } := by
  induction ns generalizing o with
  | nil => cases o; simp_all [Open.addAll]
  | cons n ns ih =>
    have := ih (o.add n) rfl
    simp only [Open.addAll, List.foldl_cons] at this ⊢
    rw [this]; rfl

/-- `b` is a stack whose `element_last` is fresh, and `f vs` is the stack when it has received the children `vs`.
    `sp`: it may be a declaration or a processing instruction. -/
structure Recv (sp : Bool) (b : List Open) (f : List Val → List Open) : Prop where
  plain : sp = false → special b = false
  notDoctype : atDoctype b = false
  one : ∀ v, addToLast b v = some (f [v])
  many : ∃ c b1, pushLast b = some (c :: b1) ∧ c.lastAttr = false ∧ c.kids = [] ∧
    ∀ vs : List Val, popLast (c.addAll (vs.map Val.node) :: b1) = some (f vs)

theorem recv_element (o : Open) (stk : List Open) (name : List Byte) (attrs : List Attr) (ks : List Node)
    (h : o.lastAttr = false) {sp : Bool} (hsp : sp = false → specialName name = false) (hd : peek name ≠ 33) :
    Recv sp ({ o with kids := .element name attrs [] :: ks } :: stk)
      (fun vs => { o with kids := .element name attrs (mergeNodes (vs.map Val.node)) :: ks } :: stk) := by
  refine ⟨fun hs => by simp [special, h, hsp hs], by simp [atDoctype, h, hd], fun v => ?_,
    ⟨⟨false, name, attrs.reverse, [], false⟩, { o with kids := ks } :: stk, ?_, rfl, rfl, fun vs => ?_⟩⟩
  · simp only [addToLast, h]
    cases v <;> simp [mergeNodes, addChild]
  · simp [pushLast, h]
  · rw [addAll_eq _ _ rfl]
    simp only [popLast, Bool.false_eq_true, if_false, List.reverse_reverse, mergeNodes]
    rw [h]

theorem recv_attr (o : Open) (stk : List Open) (name : List Byte) (as : List Attr) :
    Recv (specialAttr name) ({ o with attrs := ⟨name, []⟩ :: as, lastAttr := true } :: stk)
      (fun vs => { o with attrs := ⟨name, mergeVals vs⟩ :: as, lastAttr := true } :: stk) := by
  refine ⟨fun hs => by simp [special, hs], by simp [atDoctype], fun v => ?_, ⟨⟨true, name, [], [], false⟩, { o with attrs := as, lastAttr := true } :: stk, ?_, rfl, rfl, fun vs => ?_⟩⟩
  · simp only [addToLast, List.map_nil, List.reverse_nil, if_true]
    cases v <;> simp [addChild, mergeVals, addVal, Val.node, Node.val?]
  · simp [pushLast]
  · rw [addAll_eq _ _ rfl]
    simp only [popLast, if_true]
    have : (List.foldl addChild [] (vs.map Val.node)).reverse = (mergeVals vs).map Val.node := mergeNodes_vals vs
    rw [this, mapM_node]
    rfl

/-- A level of a value that is not inside a compound. -/
def ValueLevel (lv : Level) : Prop := lv = .elementValue ∨ lv = .attrValue

theorem P_value_text {lv : Level} (hlv : ValueLevel lv) {b : List Open} {f : List Val → List Open}
    (hb : ∀ v, addToLast b v = some (f [v])) (ws s k : List Byte) (hw : Ws ws) (hs : s ≠ []) (hv : isXmqTextValue s = true) (hk : EndsValue k) (col : Nat) :
    P (fun F st => parseXmqValue F st lv) (ws ++ (s ++ k)) col b k (colw col (ws ++ s)) (f [.text s]) := by
  intro st hst
  have hc : countWhitespace (s ++ k) = 0 := by
    cases s with
    | nil => exact absurd rfl hs
    | cons c t =>
      have h1 : allSafeValueChars (c :: t) = true := by
        unfold isXmqTextValue at hv; split at hv
        · cases hv
        · exact hv
      have h2 : isSafeValueChar (c :: t) = true := by
        rw [allSafeValueChars] at h1; simp at h1; exact h1.1
      have h3 := isSafeValueChar_append (c :: t) k (by simp) hk h2
      simp [isSafeValueChar] at h3; exact h3.1.1.1.1.1.1.1.1.1
  have h1 := hst.skipWs hw hc
  have hval : ∀ F, parseXmqValue F st lv = parseXmqValue F (skipWs st) lv := by
    intro F; simp only [parseXmqValue]; rw [h1.skipWs_same hc]
  refine ⟨(skipWs st).took (if lv = .attrValue then .attr_value_text else .element_value_text) s, ?_, ?_⟩
  · refine Ev.congr (fun F => ?_) (Ev.const _)
    show parseXmqValue F st lv = _
    rw [hval, parseXmqValue_text F _ lv s k hs hv hk h1.rest]
  · rw [colw_append]
    refine h1.took _ (fun line => ?_)
    rcases hlv with rfl | rfl <;> simp [bstep_same, buildStep, hb]

theorem P_value_part {lv : Level} (hlv : ValueLevel lv) {b : List Open} {f : List Val → List Open} {sp : Bool} (hb : Recv sp b f)
    {w k : List Byte} {v : Val} {col : Nat} (ws : List Byte) (hw : Ws ws) (h : Parts (colw col ws) w k [v])
    (hq : sp = true → w.getLast? = some 39) :
    P (fun F st => parseXmqValue F st lv) (ws ++ (w ++ k)) col b k (colw col (ws ++ w)) (f [v]) := by
  cases h with
  | cons _ ws' p w' _ _ _ hw' hp h =>
  cases h
  intro st hst
  rw [show ws ++ ((ws' ++ (p ++ [])) ++ k) = (ws ++ ws') ++ (p ++ k) by simp] at hst
  have h1 := hst.skipWs (hw.append hw') (hp.noWs (k' := k))
  rw [show ws ++ (ws' ++ (p ++ [])) = (ws ++ ws') ++ p by simp, colw_append]
  rw [← colw_append] at hp
  rcases hp.parse with ⟨hhead, hv, hparse⟩ | ⟨hhead, hlast, hv, hparse⟩ <;> obtain ⟨t, rfl⟩ := head_cons hhead
  · refine ⟨(skipWs st).took (quoteKind lv) (39 :: t), ?_, ?_⟩
    · refine Ev.congr (fun F => ?_) (Ev.const _)
      simp only [parseXmqValue]
      rw [show peek (skipWs st).rest = 39 by rw [h1.rest]; rfl, if_pos (by decide)]
      exact hparse _ _ h1.rest
    · refine h1.took _ (fun line => ?_)
      rcases hlv with rfl | rfl
      · rw [bstep_quote _ _ hb.notDoctype rfl]; simp [buildStep, quoteKind, hv, hb.one]
      · rw [bstep_same _ _ (by simp [quoteKind])]; simp [buildStep, quoteKind, hv, hb.one]
  · refine ⟨(skipWs st).took (entityKind lv) (38 :: t), ?_, ?_⟩
    · refine Ev.congr (fun F => ?_) (Ev.const _)
      simp only [parseXmqValue]
      rw [show peek (skipWs st).rest = 38 by rw [h1.rest]; rfl, if_neg (by decide), if_pos (by decide)]
      exact hparse _ _ h1.rest
    · refine h1.took _ (fun line => ?_)
      have hsp : sp = false := by
        cases sp with
        | false => rfl
        | true => exact absurd (hq rfl) (by rw [List.append_nil, List.getLast?_append, hlast]; simp)
      rw [bstep_plain _ _ (hb.plain hsp) (by rcases hlv with rfl | rfl <;> simp [entityKind])]
      rcases hlv with rfl | rfl <;> simp [buildStep, entityKind, hv, hb.one]

theorem countWhitespace_of_head {c : Byte} {t : List Byte} (h : isXmlWhitespace c = false) (h1 : c ≠ 0xc2) (h2 : c ≠ 0xe2) :
    countWhitespace (c :: t) = 0 := by
  rcases countWhitespace_cases (c :: t) with h0 | ⟨c', t', he, hc, -⟩ | ⟨t', he, -⟩ | ⟨x, t', he, -, -⟩
  · exact h0
  · simp at he; rw [he.1, hc] at h; cases h
  · simp at he; exact absurd he.1 h1
  · simp at he; exact absurd he.1 h2

theorem P_value_compound {lv : Level} (hlv : ValueLevel lv) {b : List Open} {f : List Val → List Open} (hb : Recv false b f)
    {w k : List Byte} {vs : List Val} {col : Nat} (ws ws1 ws2 : List Byte) (hw : Ws ws) (hw1 : Ws ws1) (hw2 : Ws ws2)
    (h : Parts (colw col (ws ++ 40 :: ws1)) w (ws2 ++ 41 :: k) vs) :
    P (fun F st => parseXmqValue F st lv) (ws ++ 40 :: (ws1 ++ (w ++ (ws2 ++ 41 :: k)))) col b k
      (colw col (ws ++ 40 :: (ws1 ++ (w ++ (ws2 ++ [41]))))) (f vs) := by
  intro st hst
  obtain ⟨c, b1, hpush, hcl, hck, hpop⟩ := hb.many
  have h41 : countWhitespace (41 :: k) = 0 := countWhitespace_of_head (by decide) (by decide) (by decide)
  have h1 := hst.skipWs hw (countWhitespace_of_head (by decide) (by decide) (by decide))
  have h2 := h1.one .cpar_left (b' := c :: b1) (fun _ => by rw [bstep_plain _ _ (hb.plain rfl) (by simp)]; exact hpush)
  have hlv' : InCompound (enterCompoundLevel lv) := by
    rcases hlv with rfl | rfl
    · exact .inl rfl
    · exact .inr rfl
  -- whitespace before the first part: as part of the parts, or nothing but whitespace
  have key : ∃ col' , C (enterCompoundLevel lv) (ws1 ++ (w ++ (ws2 ++ 41 :: k))) (colw (colw col ws) [40]) (c :: b1) (41 :: k) col'
      (c.addAll (vs.map Val.node) :: b1) ∧ colw col' [41] = colw col (ws ++ 40 :: (ws1 ++ (w ++ (ws2 ++ [41])))) := by
    cases h with
    | nil =>
      refine ⟨colw (colw (colw col ws) [40]) (ws1 ++ ws2), ?_, ?_⟩
      · have := C_ws (lv := enterCompoundLevel lv) (hw1.append hw2) h41 (colw (colw col ws) [40]) (c :: b1)
        rw [List.append_assoc] at this
        exact this
      · rw [← colw_append, ← colw_append, ← colw_append]; simp
    | cons _ ws' p w' _ v vs hw' hp h =>
      refine ⟨colw (colw (colw (colw col ws) [40]) ((ws1 ++ ws') ++ (p ++ w'))) ws2, ?_, ?_⟩
      · have e : colw col (ws ++ 40 :: ws1) = colw (colw (colw col ws) [40]) ws1 := by
          rw [← colw_append, ← colw_append]; simp
        have hps : Parts (colw (colw col ws) [40]) ((ws1 ++ ws') ++ (p ++ w')) (ws2 ++ 41 :: k) (v :: vs) := by
          refine .cons _ _ _ _ _ _ _ (hw1.append hw') ?_ ?_
          · rw [colw_append, ← e]; exact hp
          · rw [colw_append, ← e]; exact h
        have := (C_parts hlv' hps c b1).trans (C_ws hw2 h41 _ _)
        rw [show ((ws1 ++ ws') ++ (p ++ w')) ++ (ws2 ++ 41 :: k) = ws1 ++ ((ws' ++ (p ++ w')) ++ (ws2 ++ 41 :: k)) by simp] at this
        exact this
      · rw [← colw_append, ← colw_append, ← colw_append, ← colw_append]; simp
  obtain ⟨col', hC, hcol⟩ := key
  obtain ⟨st3, h3, hcs⟩ := hC _ h2
  have hret : Ev (fun F => parseXmqCompoundChildren F st3 (enterCompoundLevel lv)) (.ok st3) := by
    apply Ev.succ
    refine Ev.congr (fun F => ?_) (Ev.const _)
    rw [parseXmqCompoundChildren]
    simp only [h3.rest]
    rw [if_neg (by decide), if_pos (by decide)]
  have hrun := hcs _ hret
  refine ⟨parseOne st3 .cpar_right, ?_, ?_⟩
  · have : ∀ F, parseXmqValue F st lv = (parseXmqCompoundChildren F (parseOne (skipWs st) .cpar_left) (enterCompoundLevel lv)).bind
        (fun st => if peek (skipWs st).rest != 41 then .err .compoundNotClosed (skipWs st) else .ok (parseOne (skipWs st) .cpar_right)) := by
      intro F
      simp only [parseXmqValue]
      rw [show peek (skipWs st).rest = 40 by rw [h1.rest]; rfl, if_neg (by decide), if_neg (by decide), if_pos (by decide)]
      rfl
    refine Ev.congr this (Ev.bind hrun ?_)
    refine Ev.congr (fun F => ?_) (Ev.const _)
    rw [h3.skipWs_same h41, h3.rest]
    rfl
  · rw [← hcol]
    exact h3.one _ (fun _ => by rw [bstep_same _ _ (by simp)]; exact hpop vs)

end Xmq
