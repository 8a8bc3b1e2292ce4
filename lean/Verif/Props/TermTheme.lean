import Verif.Model.TermTheme
import Verif.Spec.TermTheme
/-!
# C94: colours fit the terminal
-/
namespace Xmq.Props

open Xmq Xmq.Term Xmq.Spec

theorem digit16_value {c : Byte} {d : Nat} (h : Digit16 c d) : d < 16 ∧ digitValue c = d ∧ isSpace c = false ∧
    c ≠ b#'-' ∧ c ≠ b#'+' ∧ c ≠ b#'x' ∧ c ≠ b#'X' ∧ c ≠ 0 ∧ c ≠ 7 := by
  have hd : d < 16 := by
    unfold Digit16 at h
    rcases Nat.lt_or_ge d 16 with h' | h'
    · exact h'
    · rw [List.getElem?_eq_none (by exact h'), List.getElem?_eq_none (by exact h')] at h
      simp at h
  have key : ∀ d : Fin 16, ∀ c : Byte, Digit16 c d.val → digitValue c = d.val ∧ isSpace c = false ∧
      c ≠ b#'-' ∧ c ≠ b#'+' ∧ c ≠ b#'x' ∧ c ≠ b#'X' ∧ c ≠ 0 ∧ c ≠ 7 := by
    intro d c
    unfold Digit16
    revert d
    exact forall_byte (P := fun c => ∀ d : Fin 16, ((b#"0123456789abcdef")[d.val]? = some c ∨ (b#"0123456789ABCDEF")[d.val]? = some c) →
      digitValue c = d.val ∧ isSpace c = false ∧ c ≠ b#'-' ∧ c ≠ b#'+' ∧ c ≠ b#'x' ∧ c ≠ b#'X' ∧ c ≠ 0 ∧ c ≠ 7)
      (by decide +kernel) c
  exact ⟨hd, key ⟨d, hd⟩ c h⟩

theorem scanHex_component {t : List Byte} {v : Nat} (h : Component t v) (rest : List Byte) :
    scanHex (t ++ rest) = some ((v : Int), rest) := by
  obtain ⟨c1, c2, c3, c4, d1, d2, d3, d4, rfl, h1, h2, h3, h4, rfl⟩ := h
  obtain ⟨l1, v1, s1, m1, p1, _, _, _, _⟩ := digit16_value h1
  obtain ⟨l2, v2, _, _, _, x2, X2, _, _⟩ := digit16_value h2
  obtain ⟨l3, v3, _⟩ := digit16_value h3
  obtain ⟨l4, v4, _⟩ := digit16_value h4
  have hs : scanDigits 4 (c1 :: c2 :: c3 :: c4 :: rest) = [c1, c2, c3, c4] := by
    simp [scanDigits, v1, v2, v3, v4, l1, l2, l3, l4]
  have hd : (c1 :: c2 :: c3 :: c4 :: rest).dropWhile isSpace = c1 :: c2 :: c3 :: c4 :: rest := by
    rw [List.dropWhile_cons, s1]; rfl
  unfold scanHex
  simp only [List.cons_append, List.nil_append, hd, peek, List.headD_cons, m1, p1, or_self, if_false, List.drop_zero, List.drop_succ_cons, x2, X2,
    and_false, Nat.sub_zero, hs]
  rw [if_neg (by simp)]
  simp [v1, v2, v3, v4]
  omega

theorem readReply_keep (i : Nat) (l : List Byte) (rest : List (Option Byte)) (h7 : ∀ c ∈ l, c ≠ 7) (hi : i + l.length < 24) :
    readReply i (l.map some ++ rest) = (readReply (i + l.length) rest).map (l ++ ·) := by
  induction l generalizing i with
  | nil => simp
  | cons c l ih =>
    have hlen : i + (l.length + 1) < 24 := hi
    simp only [List.map_cons, List.cons_append, List.length_cons]
    conv => lhs; unfold readReply
    rw [if_neg (h7 c List.mem_cons_self), if_neg (by omega),
      ih (i + 1) (fun x hx => h7 x (List.mem_cons_of_mem _ hx)) (by omega)]
    rw [show i + 1 + l.length = i + (l.length + 1) by omega]
    cases readReply (i + (l.length + 1)) rest <;> rfl

theorem component_no {t : List Byte} {v : Nat} (h : Component t v) : t.length = 4 ∧ (∀ c ∈ t, c ≠ 7) ∧ (∀ c ∈ t, c ≠ 0) := by
  obtain ⟨c1, c2, c3, c4, d1, d2, d3, d4, rfl, h1, h2, h3, h4, rfl⟩ := h
  obtain ⟨_, _, _, _, _, _, _, z1, b1⟩ := digit16_value h1
  obtain ⟨_, _, _, _, _, _, _, z2, b2⟩ := digit16_value h2
  obtain ⟨_, _, _, _, _, _, _, z3, b3⟩ := digit16_value h3
  obtain ⟨_, _, _, _, _, _, _, z4, b4⟩ := digit16_value h4
  refine ⟨rfl, ?_, ?_⟩
  · intro c hc
    simp at hc
    rcases hc with rfl | rfl | rfl | rfl <;> assumption
  · intro c hc
    simp at hc
    rcases hc with rfl | rfl | rfl | rfl <;> assumption

theorem scanLit_self (l s : List Byte) : scanLit l (l ++ s) = some s := by
  induction l with
  | nil => cases s <;> rfl
  | cons c l ih => simp [scanLit, ih]

theorem takeWhile_all_ne (l : List Byte) (h : ∀ c ∈ l, c ≠ 0) : l.takeWhile (· != 0) = l := by
  induction l with
  | nil => rfl
  | cons c l ih =>
    rw [List.takeWhile_cons, ih fun x hx => h x (List.mem_cons_of_mem _ hx)]
    simp [h c List.mem_cons_self]

/-- The answer up to its end. -/
def answerBody (r g b : List Byte) : List Byte := 0x1b :: b#"]11;rgb:" ++ (r ++ (b#"/" ++ (g ++ (b#"/" ++ b))))

theorem scanReply_body {r g b : List Byte} {vr vg vb : Nat} (hr : Component r vr) (hg : Component g vg) (hb : Component b vb)
    (rest : List Byte) : scanReply ((answerBody r g b ++ rest).drop 1) = some ((vr : Int), (vg : Int), (vb : Int)) := by
  have e : (answerBody r g b ++ rest).drop 1 = b#"]11;rgb:" ++ (r ++ (b#"/" ++ (g ++ (b#"/" ++ (b ++ rest))))) := by
    simp [answerBody]
  rw [e]
  unfold scanReply
  rw [scanLit_self]
  simp only [Option.bind_eq_bind, Option.bind_some]
  rw [scanHex_component hr]
  simp only [Option.bind_some]
  rw [scanLit_self]
  simp only [Option.bind_some]
  rw [scanHex_component hg]
  simp only [Option.bind_some]
  rw [scanLit_self]
  simp only [Option.bind_some]
  rw [scanHex_component hb]
  rfl

theorem query_answer {r g b : List Byte} {vr vg vb : Nat} (hr : Component r vr) (hg : Component g vg) (hb : Component b vb)
    (bel : Bool) (more : List (Option Byte)) :
    ∃ d, queryXterm ((answer r g b bel).map some ++ more) = some d ∧ (d = true ↔ ¬ Bright vr vg vb) := by
  obtain ⟨lr, r7, r0⟩ := component_no hr
  obtain ⟨lg, g7, g0⟩ := component_no hg
  obtain ⟨lb, b7, b0⟩ := component_no hb
  have hmem : ∀ c ∈ answerBody r g b, c = 0x1b ∨ c ∈ b#"]11;rgb:" ∨ c ∈ b#"/" ∨ c ∈ r ∨ c ∈ g ∨ c ∈ b := by
    intro c hc
    unfold answerBody at hc
    simp only [List.cons_append, List.mem_cons, List.mem_append] at hc ⊢
    grind
  have body7 : ∀ c ∈ answerBody r g b, c ≠ 7 := by
    intro c hc
    rcases hmem c hc with h | h | h | h | h | h
    · rw [h]; decide
    · exact (show ∀ c ∈ b#"]11;rgb:", c ≠ 7 by decide) c h
    · exact (show ∀ c ∈ b#"/", c ≠ 7 by decide) c h
    · exact r7 c h
    · exact g7 c h
    · exact b7 c h
  have body0 : ∀ c ∈ answerBody r g b, c ≠ 0 := by
    intro c hc
    rcases hmem c hc with h | h | h | h | h | h
    · rw [h]; decide
    · exact (show ∀ c ∈ b#"]11;rgb:", c ≠ 0 by decide) c h
    · exact (show ∀ c ∈ b#"/", c ≠ 0 by decide) c h
    · exact r0 c h
    · exact g0 c h
    · exact b0 c h
  have blen : (answerBody r g b).length = 23 := by simp [answerBody, lr, lg, lb]
  have fin : ∀ rest : List Byte, (∀ c ∈ rest, c ≠ 0) → ∃ d, (if peek (answerBody r g b ++ rest) = 0x1b ∧ (answerBody r g b ++ rest).length ≥ 23 then
      match scanReply (((answerBody r g b ++ rest).takeWhile (· != 0)).drop 1) with
      | some (r, g, b) => if 2126 * r + 7152 * g + 722 * b > 153 * 256 * 10000 then false else true
      | none => true
    else true) = d ∧ (d = true ↔ ¬ Bright vr vg vb) := by
    intro rest h0
    refine ⟨_, rfl, ?_⟩
    rw [if_pos ⟨rfl, by rw [List.length_append, blen]; omega⟩, takeWhile_all_ne _ (by
      intro c hc
      rcases List.mem_append.1 hc with h | h
      · exact body0 c h
      · exact h0 c h), scanReply_body hr hg hb]
    dsimp only
    unfold Bright
    by_cases hc : 2126 * (vr : Int) + 7152 * vg + 722 * vb > 153 * 256 * 10000
    · rw [if_pos hc]
      simp only [Bool.false_eq_true, false_iff]
      omega
    · rw [if_neg hc]
      simp only [true_iff]
      omega
  have ea : answer r g b bel = answerBody r g b ++ (if bel then [7] else [0x1b, 0x5c]) := by
    simp [answer, answerBody]
  rw [ea, List.map_append, List.append_assoc]
  unfold queryXterm
  rw [readReply_keep 0 _ _ body7 (by rw [blen]; omega), blen]
  cases bel with
  | true =>
    have e : readReply (0 + 23) (List.map some (if true = true then [7] else [0x1b, 0x5c]) ++ more) = some [] := by
      simp [readReply]
    rw [e]
    obtain ⟨d, h1, h2⟩ := fin [] (by simp)
    exact ⟨d, by rw [← h1]; rfl, h2⟩
  | false =>
    have e : readReply (0 + 23) (List.map some (if false = true then [7] else [0x1b, 0x5c]) ++ more) = some [0x1b] := by
      simp [readReply]
    rw [e]
    obtain ⟨d, h1, h2⟩ := fin [0x1b] (by decide)
    exact ⟨d, by rw [← h1]; rfl, h2⟩

/-- The terminals that are asked. -/
def AsksTerminal (w : World) : Prop :=
  w.theme = none ∧ (w.term = some b#"xterm" ∨ w.term = some b#"xterm-256color") ∧ w.tty = true

theorem renderTheme_asks (w : World) (h : AsksTerminal w) : renderTheme w =
    match queryXterm w.reply with
    | none => .exits
    | some true => .found true true .darkbg
    | some false => .found true false .lightbg := by
  obtain ⟨h1, h2, h3⟩ := h
  unfold renderTheme
  rw [h1]
  rcases h2 with h2 | h2
  · rw [h2, h3]; simp only [Option.getD_some]; rw [if_neg (by decide), if_pos (by decide)]; rfl
  · rw [h2, h3]; simp only [Option.getD_some]; rw [if_neg (by decide), if_pos (by decide)]; rfl

/-- **C94.** A terminal that answers with its background colour gets the colours for a light background if that is
bright, and else those for a dark one; whatever is sent behind the answer. -/
theorem C94_background (w : World) (hw : AsksTerminal w) {r g b : List Byte} {vr vg vb : Nat} (hr : Component r vr)
    (hg : Component g vg) (hb : Component b vb) (bel : Bool) (more : List (Option Byte))
    (hreply : w.reply = (answer r g b bel).map some ++ more) :
    (Bright vr vg vb → renderTheme w = .found true false .lightbg) ∧
    (¬ Bright vr vg vb → renderTheme w = .found true true .darkbg) := by
  obtain ⟨d, h1, h2⟩ := query_answer hr hg hb bel more
  rw [renderTheme_asks w hw, hreply, h1]
  cases d with
  | true => exact ⟨fun h => absurd h (h2.1 rfl), fun _ => rfl⟩
  | false => exact ⟨fun _ => rfl, fun h => by have := h2.2 h; cases this⟩

/-- **C94.** What is set in XMQ_THEME is used, whatever the terminal is; an unknown name means no colours. -/
theorem C94_theme (w : World) (m : List Byte) (h : w.theme = some m) :
    (m = b#"lightbg" → renderTheme w = .found true false .lightbg) ∧
    (m = b#"darkbg" → renderTheme w = .found true true .darkbg) ∧
    (m ≠ b#"lightbg" → m ≠ b#"darkbg" → renderTheme w = .found false false .mono) := by
  unfold renderTheme
  rw [h]
  refine ⟨fun e => ?_, fun e => ?_, fun e1 e2 => ?_⟩
  · subst e; rfl
  · subst e; rfl
  · dsimp only
    by_cases e : m = b#"mono"
    · rw [if_pos e]
    · rw [if_neg e, if_neg e1, if_neg e2]

theorem afterLast_none (s : List Byte) : afterLast s = none ↔ b#';' ∉ s := by
  induction s with
  | nil => simp [afterLast]
  | cons c t ih =>
    unfold afterLast
    cases h : afterLast t with
    | some r =>
      have : b#';' ∈ t := Classical.byContradiction fun hn => by rw [ih.2 hn] at h; cases h
      simp [this]
    | none =>
      have := ih.1 h
      by_cases hc : c = b#';'
      · simp [hc]
      · simp [hc, this, Ne.symm hc]

theorem afterLast_some (s r : List Byte) : afterLast s = some r ↔ ∃ p, s = p ++ b#';' :: r ∧ b#';' ∉ r := by
  induction s generalizing r with
  | nil => simp [afterLast]
  | cons c t ih =>
    unfold afterLast
    cases h : afterLast t with
    | some r' =>
      obtain ⟨p, hp, hn⟩ := (ih r').1 h
      dsimp only
      constructor
      · intro e
        cases e
        exact ⟨c :: p, by rw [hp]; rfl, hn⟩
      · rintro ⟨q, hq, hnq⟩
        cases q with
        | nil =>
          have := (List.cons.inj hq).2
          rw [← this, hp] at hnq
          simp at hnq
        | cons x q =>
          have := (ih r).2 ⟨q, (List.cons.inj hq).2, hnq⟩
          rw [h] at this
          exact this
    | none =>
      have hno := (afterLast_none t).1 h
      dsimp only
      by_cases hc : c = b#';'
      · rw [if_pos hc]
        constructor
        · intro e
          cases e
          exact ⟨[], by rw [hc]; rfl, hno⟩
        · rintro ⟨q, hq, hnq⟩
          cases q with
          | nil => rw [(List.cons.inj hq).2]
          | cons x q =>
            exfalso
            apply hno
            rw [(List.cons.inj hq).2]
            simp
      · rw [if_neg hc]
        constructor
        · intro e; cases e
        · rintro ⟨q, hq, hnq⟩
          cases q with
          | nil => exact absurd (List.cons.inj hq).1 hc
          | cons x q =>
            exfalso
            apply hno
            rw [(List.cons.inj hq).2]
            simp

/-- A terminal that is described by COLORFGBG. -/
def UsesFgBg (w : World) (s : List Byte) : Prop :=
  w.theme = none ∧ w.term ≠ some b#"linux" ∧ w.term ≠ some b#"xterm" ∧ w.term ≠ some b#"xterm-256color" ∧ w.fgbg = some s

theorem renderTheme_fgbg (w : World) (s : List Byte) (h : UsesFgBg w s) : renderTheme w =
    match colorFgBg s with
    | none => .undefined
    | some true => .found true true .darkbg
    | some false => .found true false .lightbg := by
  obtain ⟨h1, h2, h3, h4, h5⟩ := h
  have g : ∀ x : List Byte, x ≠ b#"NULL" → w.term ≠ some x → w.term.getD b#"NULL" ≠ x := by
    intro x hx hn e
    cases ht : w.term with
    | none => rw [ht] at e; exact hx e.symm
    | some y => rw [ht] at e; exact hn (by rw [ht]; exact congrArg some e)
  unfold renderTheme
  rw [h1, h5]
  dsimp only
  have hx : ¬ (w.term.getD b#"NULL" = b#"xterm-256color" ∨ w.term.getD b#"NULL" = b#"xterm") := by
    rintro (e | e)
    · exact g _ (by decide) h4 e
    · exact g _ (by decide) h3 e
  rw [if_neg (g _ (by decide) h2), if_neg hx]
  cases colorFgBg s with
  | none => rfl
  | some b => cases b <;> rfl

/-- **C94.** With COLORFGBG the background is dark exactly if its last part is 0, or it has no parts; the condition that
it does not end in a semicolon is needed. -/
theorem C94_fgbg_iff (w : World) (s : List Byte) (h : UsesFgBg w s) :
    (renderTheme w = .found true true .darkbg ↔ b#';' ∉ s ∨ ∃ p, s = p ++ b#";0") ∧
    (renderTheme w = .undefined ↔ ∃ p, s = p ++ b#";") ∧
    (renderTheme w = .found true false .lightbg ↔ b#';' ∈ s ∧ (¬ ∃ p, s = p ++ b#";0") ∧ ¬ ∃ p, s = p ++ b#";") := by
  rw [renderTheme_fgbg w s h]
  unfold colorFgBg
  have hmem : ∀ r, afterLast s = some r → b#';' ∈ s := by
    intro r hr
    obtain ⟨p, hp, _⟩ := (afterLast_some s r).1 hr
    rw [hp]; simp
  have zero : (∃ p, s = p ++ b#";0") ↔ afterLast s = some b#"0" := by
    rw [afterLast_some]
    exact ⟨fun ⟨p, hp⟩ => ⟨p, hp, by decide⟩, fun ⟨p, hp, _⟩ => ⟨p, hp⟩⟩
  have empty : (∃ p, s = p ++ b#";") ↔ afterLast s = some [] := by
    rw [afterLast_some]
    exact ⟨fun ⟨p, hp⟩ => ⟨p, hp, by simp⟩, fun ⟨p, hp, _⟩ => ⟨p, hp⟩⟩
  rw [zero, empty]
  cases ha : afterLast s with
  | none => simp [(afterLast_none s).1 ha]
  | some r =>
    have hm := hmem r ha
    match r with
    | [] => simp [hm]
    | [c] =>
      by_cases hc : c = b#'0'
      · subst hc; simp [hm]
      · have : (c == b#'0') = false := by simpa using hc
        simp [hm, this]
        exact hc
    | c :: d :: t => simp [hm]

/-- The choice is defined for every environment. -/
def ThemeDefined : Prop := ∀ w, renderTheme w ≠ .undefined

/-- `COLORFGBG=15;`: the byte behind the end of the string is read. -/
theorem C94_defined_false : ¬ ThemeDefined := fun h =>
  h ⟨none, some b#"screen", some b#"15;", true, []⟩ (by decide +kernel)

/-- **C94.** Only then. -/
theorem C94_defined_iff (w : World) : renderTheme w = .undefined ↔ ∃ p, UsesFgBg w (p ++ b#";") := by
  constructor
  · intro h
    have h0 := h
    unfold renderTheme at h
    dsimp only at h
    have ht : w.theme = none := by
      cases ht : w.theme with
      | none => rfl
      | some m =>
        rw [ht] at h
        dsimp only at h
        split at h
        · cases h
        · split at h
          · cases h
          · split at h <;> cases h
    rw [ht] at h
    dsimp only at h
    split at h
    · cases h
    · rename_i hl
      split at h
      · split at h
        · cases h
        · split at h <;> cases h
      · rename_i hx
        cases hf : w.fgbg with
        | none => rw [hf] at h; cases h
        | some s =>
          have u : UsesFgBg w s := by
            refine ⟨ht, fun e => hl (by rw [e]; rfl), fun e => hx (Or.inr (by rw [e]; rfl)), fun e => hx (Or.inl (by rw [e]; rfl)), hf⟩
          obtain ⟨p, hp⟩ := (C94_fgbg_iff w s u).2.1.1 h0
          exact ⟨p, by rw [← hp]; exact u⟩
  · rintro ⟨p, u⟩
    exact (C94_fgbg_iff w _ u).2.1.2 ⟨p, rfl⟩

/-- **C94.** In the other cases a dark background is assumed. -/
theorem C94_otherwise (w : World) (ht : w.theme = none) (hn : ¬ AsksTerminal w) (hf : ∀ s, ¬ UsesFgBg w s) :
    renderTheme w = .found true true .darkbg := by
  unfold renderTheme
  rw [ht]
  dsimp only
  split
  · rfl
  · rename_i hl
    split
    · rename_i hx
      cases hy : w.tty with
      | false => rfl
      | true =>
        refine absurd ⟨ht, ?_, hy⟩ hn
        cases hterm : w.term with
        | none => rw [hterm] at hx; exact absurd hx (by decide)
        | some x =>
          rw [hterm] at hx
          rcases hx with hx | hx
          · exact Or.inr (congrArg some hx)
          · exact Or.inl (congrArg some hx)
    · rename_i hx
      cases hg : w.fgbg with
      | none => rfl
      | some s =>
        exact absurd ⟨ht, fun e => hl (by rw [e]; rfl), fun e => hx (Or.inr (by rw [e]; rfl)),
          fun e => hx (Or.inl (by rw [e]; rfl)), hg⟩ (hf s)

/-- **C94.** Without a terminal the output has no colours unless they are asked for. -/
theorem C94_not_a_terminal (w : World) (h : w.tty = false) : mainColours w = .undefined ∨ ∃ d s, mainColours w = .found false d s := by
  unfold mainColours
  cases hr : renderTheme w with
  | undefined => exact Or.inl rfl
  | found u d s => right; exact ⟨d, s, by rw [h]; rfl⟩
  | exits =>
    exfalso
    unfold renderTheme at hr
    rw [h] at hr
    dsimp only at hr
    repeat' split at hr
    all_goals first | (exact Found.noConfusion hr) | (rename_i hq _ _; exact absurd rfl hq) | simp_all

/-- A white background is recognised however many digits the terminal uses. -/
def ShortAnswers : Prop := ∀ w, AsksTerminal w → w.reply = (answer b#"ff" b#"ff" b#"ff" true).map some →
  renderTheme w = .found true false .lightbg

/-- Answers with two digits are taken for a dark background, also for white. -/
theorem C94_short_false : ¬ ShortAnswers := fun h => by
  have := h ⟨none, some b#"xterm", none, true, (answer b#"ff" b#"ff" b#"ff" true).map some⟩ ⟨rfl, Or.inl rfl, rfl⟩ rfl
  exact absurd this (by decide +kernel)

/-- A terminal that does not answer is not used: the program goes on. -/
def SilentTerminal : Prop := ∀ w, renderTheme w ≠ .exits

/-- The program ends if a terminal does not answer, whatever it was asked to do. -/
theorem C94_silent_false : ¬ SilentTerminal := fun h =>
  h ⟨none, some b#"xterm", none, true, []⟩ (by decide +kernel)

example : AsksTerminal ⟨none, some b#"xterm", none, true, (answer b#"ffff" b#"ffff" b#"dddd" true).map some⟩ := ⟨rfl, Or.inl rfl, rfl⟩
example : Component b#"fFa0" 65440 := ⟨_, _, _, _, 15, 15, 10, 0, rfl, Or.inl rfl, Or.inr rfl, Or.inl rfl, Or.inl rfl, rfl⟩
example : Bright 65535 65535 56797 ∧ ¬ Bright 0 0 65535 := by unfold Bright; decide
example : renderTheme ⟨none, some b#"xterm", none, true, (answer b#"ffff" b#"ffff" b#"dddd" false).map some⟩ = .found true false .lightbg := by
  decide +kernel
example : renderTheme ⟨none, some b#"xterm", none, true, (answer b#"0000" b#"0000" b#"00ff" true).map some⟩ = .found true true .darkbg := by
  decide +kernel
example : UsesFgBg ⟨none, some b#"rxvt", some b#"0;default;15", true, []⟩ b#"0;default;15" :=
  ⟨rfl, by decide, by decide, by decide, rfl⟩

end Xmq.Props
