import Verif.Model.Shell
import Verif.Spec.Shell
/-!
# C81: shell commands for nodes
-/
namespace Xmq.Props
open Xmq.Shell Xmq.Spec.Shell

theorem shellSafe_iff (c : Byte) : shellSafe c = true ↔ NameByte c :=
  forall_byte (P := fun c => shellSafe c = true ↔ NameByte c) (by decide +kernel) c

theorem makeShellSafeName_eq (s : List Byte) : makeShellSafeName s = varFor s := by
  induction s with
  | nil => rfl
  | cons c s ih =>
    simp only [makeShellSafeName, varFor, List.map_cons, safeByte] at ih ⊢
    rw [ih]
    congr 1
    by_cases h : NameByte c
    · simp [h, (shellSafe_iff c).2 h]
    · have : shellSafe c = false := by
        cases hb : shellSafe c
        · rfl
        · exact absurd ((shellSafe_iff c).1 hb) h
      simp [h, this]

theorem toBrace_some {s n : List Byte} (h : toBrace s = some n) : b#'}' ∉ n ∧ ∃ r, s = n ++ b#"}" ++ r := by
  induction s generalizing n with
  | nil => simp [toBrace] at h
  | cons c s ih =>
    simp only [toBrace] at h
    split at h
    · next hc =>
      cases h
      exact ⟨by simp, s, by simp_all⟩
    · next hc =>
      cases hs : toBrace s with
      | none => simp [hs] at h
      | some m =>
        simp only [hs, Option.map_some, Option.some.injEq] at h
        subst h
        obtain ⟨h1, r, h2⟩ := ih hs
        refine ⟨?_, r, by simp [h2]⟩
        simp only [List.mem_cons, not_or]
        exact ⟨fun e => hc (by simp [← e]), h1⟩

theorem toBrace_of {n r : List Byte} (h : b#'}' ∉ n) : toBrace (n ++ b#"}" ++ r) = some n := by
  induction n with
  | nil => simp [toBrace]
  | cons c n ih =>
    simp only [List.mem_cons, not_or] at h
    have hc : (c == b#'}') = false := by simpa using fun e => h.1 e.symm
    have := ih h.2
    simp only [List.append_assoc, List.singleton_append] at this
    simp [toBrace, hc, this]

theorem toBrace_none {s : List Byte} (h : toBrace s = none) : b#'}' ∉ s := by
  induction s with
  | nil => simp
  | cons c s ih =>
    simp only [toBrace] at h
    split at h
    · cases h
    · next hc =>
      simp only [Option.map_eq_none_iff] at h
      simp only [List.mem_cons, not_or]
      exact ⟨fun e => hc (by simp [← e]), ih h⟩

theorem grabName_some {s n : List Byte} (h : grabName s = some n) : b#'}' ∉ n ∧ ∃ r, s = b#"${" ++ n ++ b#"}" ++ r := by
  match s, h with
  | c :: d :: s, h =>
    simp only [grabName] at h
    split at h
    · cases h
    · next hc =>
      split at h
      · cases h
      · next hd =>
        obtain ⟨h1, r, h2⟩ := toBrace_some h
        have hc : c = b#'$' := by simpa using hc
        have hd : d = b#'{' := by simpa using hd
        exact ⟨h1, r, by simp [hc, hd, h2]⟩
  | [], h => simp [grabName] at h
  | [c], h => simp [grabName] at h

theorem grabName_none {s : List Byte} (h : grabName s = none) : ¬ Opens s := by
  rintro ⟨r, rfl, hr⟩
  simp only [List.cons_append, List.nil_append, grabName] at h
  simp at h
  exact toBrace_none h hr

theorem grabName_opens {s n : List Byte} (h : grabName s = some n) : Opens s := by
  obtain ⟨_, r, e⟩ := grabName_some h
  exact ⟨n ++ b#"}" ++ r, by simp [e], by simp⟩

theorem varFor_safe (n : List Byte) : ∀ c ∈ varFor n, NameByte c := by
  intro c hc
  simp only [varFor, List.mem_map] at hc
  obtain ⟨a, _, rfl⟩ := hc
  split
  · assumption
  · decide

theorem shellName_ne {c : Byte} (h : NameByte c) : c ≠ b#'$' ∧ c ≠ b#'{' ∧ c ≠ b#'}' ∧ c ≠ b#'=' := by
  refine ⟨?_, ?_, ?_, ?_⟩ <;> (rintro rfl; revert h; decide)

theorem varFor_length (n : List Byte) : (varFor n).length = n.length := by simp [varFor]

/-- Bytes other than the dollar sign are passed. -/
theorem shellLoop_skip (n : Option Node) (p : List Byte) (hp : ∀ c ∈ p, c ≠ b#'$') (fuel : Nat) (s : List Byte) :
    shellLoop n (p.length + fuel) (p ++ s) = (shellLoop n fuel s).map (fun r => (p ++ r.1, r.2)) := by
  induction p with
  | nil => simp
  | cons c p ih =>
    have hc : (c == b#'$') = false := by simpa using hp c (by simp)
    have := ih (fun d hd => hp d (by simp [hd]))
    rw [List.length_cons, Nat.add_right_comm, List.cons_append, shellLoop]
    simp only [hc, Bool.false_eq_true, if_false, this, Option.map_map]
    rfl

/-- The loop follows the pieces. -/
theorem shellLoop_pieces {s : List Byte} {ps : List Piece} (h : Pieces s ps) (m : Node) :
    ∀ fuel, s.length ≤ fuel → shellLoop (some m) fuel s =
      some (write ps, (names ps).map (fun n => varFor n ++ b#"=" ++ grabContent m n)) := by
  induction h with
  | nil => intro fuel _; cases fuel <;> simp [shellLoop, write, names]
  | @byte c s ps ho _ ih =>
    intro fuel hf
    match fuel, hf with
    | fuel + 1, hf =>
      have hf' : s.length ≤ fuel := by simpa using hf
      have hg : grabName (c :: s) = none := by
        cases hg : grabName (c :: s) with
        | none => rfl
        | some n => exact absurd (grabName_opens hg) ho
      rw [shellLoop]
      simp only [hg, ih fuel hf', Option.map_some, write, names]
      split <;> rfl
  | @ref n s ps hn _ ih =>
    intro fuel hf
    simp only [List.length_append, List.length_cons, List.length_nil] at hf
    obtain ⟨f, rfl⟩ : ∃ f, fuel = ((b#'{' :: (varFor n ++ b#"}")).length + f) + 1 := by
      refine ⟨fuel - (n.length + 3), ?_⟩
      simp only [List.length_append, List.length_cons, List.length_nil, varFor_length]
      omega
    have hf' : s.length ≤ f := by
      simp only [List.length_append, List.length_cons, List.length_nil, varFor_length] at hf
      omega
    have hg : grabName (b#'$' :: b#'{' :: (n ++ b#'}' :: s)) = some n := by
      have := toBrace_of (r := s) hn
      simp only [List.append_assoc, List.singleton_append] at this
      simp [grabName, this]
    have hskip := shellLoop_skip (some m) (b#'{' :: (varFor n ++ b#"}")) (by
      intro c hc
      simp only [List.mem_cons, List.mem_append, List.not_mem_nil, or_false] at hc
      rcases hc with rfl | hc | rfl
      · decide
      · exact (shellName_ne (varFor_safe n c hc)).1
      · decide) f s
    have hshape : b#"${" ++ n ++ b#"}" ++ s = b#'$' :: b#'{' :: (n ++ b#'}' :: s) := by simp
    rw [hshape, shellLoop]
    simp only [beq_self_eq_true, if_true, hg, makeShellSafeName_eq]
    have hdrop : List.drop (1 + n.length) (b#'{' :: (n ++ b#'}' :: s)) = b#'}' :: s := by
      rw [Nat.add_comm, List.drop_succ_cons, List.drop_left]
    rw [hdrop]
    have e2 : b#'{' :: varFor n ++ b#'}' :: s = b#'{' :: (varFor n ++ b#"}") ++ s := by simp
    rw [e2, hskip, ih f hf']
    simp [write, names]

/-- Every command consists of pieces, in one way. -/
theorem C81_pieces (s : List Byte) : ∃ ps, Pieces s ps ∧ ∀ qs, Pieces s qs → qs = ps := by
  suffices H : ∀ k (s : List Byte), s.length ≤ k → ∃ ps, Pieces s ps ∧ ∀ qs, Pieces s qs → qs = ps from H _ s (Nat.le_refl _)
  intro k
  induction k with
  | zero =>
    intro s hs
    match s, hs with
    | [], _ =>
      refine ⟨[], .nil, ?_⟩
      intro qs hq
      generalize he : ([] : List Byte) = t at hq
      cases hq with
      | nil => rfl
      | byte => cases he
      | ref => simp at he
  | succ k ih =>
    intro s hs
    match s, hs with
    | [], _ =>
      refine ⟨[], .nil, ?_⟩
      intro qs hq
      generalize he : ([] : List Byte) = t at hq
      cases hq with
      | nil => rfl
      | byte => cases he
      | ref => simp at he
    | c :: s, hs =>
      cases hg : grabName (c :: s) with
      | none =>
        obtain ⟨ps, hp, hu⟩ := ih s (by simpa using hs)
        refine ⟨.byte c :: ps, .byte (grabName_none hg) hp, ?_⟩
        intro qs hq
        generalize he : c :: s = t at hq
        cases hq with
        | nil => cases he
        | byte h1 h2 =>
          cases he
          rw [hu _ h2]
        | @ref n r _ h1 h2 =>
          rw [he] at hg
          have := toBrace_of (r := r) h1
          simp only [List.append_assoc, List.singleton_append] at this
          simp [grabName, this] at hg
      | some n =>
        obtain ⟨hn, r, e⟩ := grabName_some hg
        have hl : r.length ≤ k := by
          have := congrArg List.length e
          simp only [List.length_append, List.length_cons, List.length_nil] at this hs
          omega
        obtain ⟨ps, hp, hu⟩ := ih r hl
        refine ⟨.ref n :: ps, by rw [e]; exact .ref hn hp, ?_⟩
        intro qs hq
        generalize he : c :: s = t at hq
        cases hq with
        | nil => cases he
        | byte h1 h2 => exact absurd (he ▸ grabName_opens hg) h1
        | @ref n' r' _ h1 h2 =>
          rw [he] at hg
          have h3 := toBrace_of (r := r') h1
          simp only [List.append_assoc, List.singleton_append] at h3
          have : n' = n := by simpa [grabName, h3] using hg
          subst this
          rw [he] at e
          have : r' = r := by simpa using e
          subst this
          rw [hu _ h2]

/-- C81: what is run for an element, for all commands and all environments. -/
theorem C81_exact (environ : List (List Byte)) (m : Node) (cmd : List Byte) (ps : List Piece) (h : Pieces cmd ps) :
    invokeShell environ (some m) cmd =
      some ⟨write ps, environ ++ (names ps).map (fun n => varFor n ++ b#"=" ++ grabContent m n)⟩ := by
  rw [invokeShell, shellLoop_pieces h m _ (Nat.le_refl _)]
  rfl

/-- C81: nothing of the document gets into the command; it reaches the shell only as values of variables. -/
theorem C81_command (environ : List (List Byte)) (cmd : List Byte) :
    ∃ out, ∀ m : Node, ∃ env, invokeShell environ (some m) cmd = some ⟨out, env⟩ ∧ environ <+: env := by
  obtain ⟨ps, hp, _⟩ := C81_pieces cmd
  exact ⟨write ps, fun m => ⟨_, C81_exact environ m cmd ps hp, by simp⟩⟩

/-- C81: a command without references is run as it is written, with the environment as it is. -/
theorem C81_plain (environ : List (List Byte)) (m : Option Node) (cmd : List Byte)
    (h : ∀ p r, cmd = p ++ r → ¬ Opens r) : invokeShell environ m cmd = some ⟨cmd, environ⟩ := by
  suffices H : ∀ s : List Byte, (∀ p r, s = p ++ r → ¬ Opens r) → ∀ f, s.length ≤ f → shellLoop m f s = some (s, []) by
    simp [invokeShell, H cmd h _ (Nat.le_refl _)]
  intro s
  induction s with
  | nil => intro _ f _; cases f <;> rfl
  | cons c s ih =>
    intro h f hf
    match f, hf with
    | f + 1, hf =>
      have hg : grabName (c :: s) = none := by
        cases hg : grabName (c :: s) with
        | none => rfl
        | some n => exact absurd (grabName_opens hg) (h [] _ rfl)
      rw [shellLoop]
      simp only [hg, ih (fun p r e => h (c :: p) r (by simp [e])) f (by simpa using hf), Option.map_some]
      split <;> rfl

/-- What is written has the pieces with safe names. -/
theorem pieces_write {s : List Byte} {ps : List Piece} (h : Pieces s ps) :
    Pieces (write ps) (ps.map (fun p => match p with | .byte c => .byte c | .ref n => .ref (varFor n))) ∧
      (b#'}' ∈ write ps → b#'}' ∈ s) ∧ (Opens (write ps) → Opens s) := by
  induction h with
  | nil => exact ⟨.nil, by simp [write], by rintro ⟨r, e, _⟩; simp [write] at e⟩
  | @byte c s ps ho hps ih =>
    obtain ⟨h1, h2, h3⟩ := ih
    have key : Opens (c :: write ps) → Opens (c :: s) := by
      rintro ⟨r, e, hr⟩
      simp only [List.cons_append, List.nil_append, List.cons.injEq] at e
      obtain ⟨rfl, e⟩ := e
      have hb : b#'}' ∈ s := h2 (by rw [e]; simp [hr])
      -- the brace is the next byte of the command, too
      cases hps with
      | nil => simp [write] at e
      | @byte d s' ps' _ _ =>
        simp only [write, List.cons.injEq] at e
        obtain ⟨rfl, e⟩ := e
        refine ⟨s', by simp, ?_⟩
        simpa using hb
      | @ref n' s' ps' _ _ => simp [write] at e
    refine ⟨.byte (fun ho' => ho (key ho')) h1, ?_, key⟩
    simp only [write, List.mem_cons]
    rintro (rfl | hb)
    · simp
    · exact .inr (h2 hb)
  | @ref n s ps hn hps ih =>
    obtain ⟨h1, h2, h3⟩ := ih
    refine ⟨.ref (fun hb => ?_) h1, fun _ => by simp, fun _ => ⟨n ++ b#"}" ++ s, by simp, by simp⟩⟩
    exact (shellName_ne (varFor_safe n _ hb)).2.2.1 rfl

/-- C81: in the command that is run every name in braces has only letters, digits and underscores, and is defined in the
    environment. -/
theorem C81_names (environ : List (List Byte)) (m : Node) (cmd out : List Byte) (env : List (List Byte))
    (h : invokeShell environ (some m) cmd = some ⟨out, env⟩) (ps : List Piece) (hp : Pieces out ps) :
    ∀ n ∈ names ps, (∀ c ∈ n, NameByte c) ∧ ∃ e ∈ env, ∃ v, Defines e n v := by
  obtain ⟨qs, hq, _⟩ := C81_pieces cmd
  rw [C81_exact environ m cmd qs hq] at h
  simp only [Option.some.injEq, Call.mk.injEq] at h
  obtain ⟨rfl, rfl⟩ := h
  have hw := (pieces_write hq).1
  obtain ⟨ps', hp', hu⟩ := C81_pieces (write qs)
  have e := (hu _ hp).trans (hu _ hw).symm
  subst e
  intro n hn
  have hnames : ∀ qs : List Piece, names (qs.map (fun p => match p with | .byte c => .byte c | .ref n => .ref (varFor n))) = (names qs).map varFor := by
    intro qs
    induction qs with
    | nil => rfl
    | cons p qs ih => cases p <;> simp [names, ih]
  rw [hnames] at hn
  simp only [List.mem_map] at hn
  obtain ⟨n0, hn0, rfl⟩ := hn
  refine ⟨varFor_safe n0, varFor n0 ++ b#"=" ++ grabContent m n0, ?_, grabContent m n0, rfl⟩
  simp only [List.mem_append, List.mem_map]
  exact .inr ⟨n0, hn0, rfl⟩

theorem write_length {s : List Byte} {ps : List Piece} (h : Pieces s ps) : (write ps).length = s.length := by
  induction h with
  | nil => rfl
  | byte _ _ ih => simp [write, ih]
  | ref _ _ ih => simp [write, ih, varFor_length]

/-- C81: the command keeps its length, and only bytes in names are changed, to underscores. -/
theorem C81_in_place (environ : List (List Byte)) (m : Node) (cmd out : List Byte) (env : List (List Byte))
    (h : invokeShell environ (some m) cmd = some ⟨out, env⟩) :
    out.length = cmd.length ∧ ∀ (i : Nat) (o c : Byte), out[i]? = some o → cmd[i]? = some c → o = c ∨ (o = b#'_' ∧ ¬ NameByte c) := by
  obtain ⟨qs, hq, -⟩ := C81_pieces cmd
  rw [C81_exact environ m cmd qs hq] at h
  simp only [Option.some.injEq, Call.mk.injEq] at h
  obtain ⟨rfl, rfl⟩ := h
  refine ⟨write_length hq, ?_⟩
  induction hq with
  | nil => intro i o c ho; simp [write] at ho
  | byte _ _ ih =>
    intro i o c ho hc
    match i with
    | 0 => simp_all [write]
    | i + 1 => exact ih i o c (by simpa [write] using ho) (by simpa using hc)
  | @ref n s ps _ _ ih =>
    intro i o c ho hc
    simp only [write, List.append_assoc, List.cons_append, List.nil_append] at ho hc
    match i with
    | 0 => simp_all
    | 1 => simp_all
    | i + 2 =>
      simp only [List.getElem?_cons_succ] at ho hc
      by_cases hin : i < n.length
      · rw [List.getElem?_append_left (by simpa [varFor_length] using hin)] at ho
        rw [List.getElem?_append_left hin] at hc
        simp only [varFor, List.getElem?_map, hc, Option.map_some, Option.some.injEq] at ho
        by_cases hb : NameByte c
        · simp_all
        · simp_all
      · rw [List.getElem?_append_right (by simp only [varFor_length]; omega)] at ho
        rw [List.getElem?_append_right (by omega)] at hc
        simp only [varFor_length] at ho
        cases hj : i - n.length with
        | zero => simp_all
        | succ j =>
          rw [hj] at ho hc
          exact ih j o c (by simpa using ho) (by simpa using hc)

theorem defines_var {e n v w : List Byte} (h : Defines e (varFor n) v) (h' : Defines e (varFor w) v) : varFor n = varFor w := by
  unfold Defines at h h'
  rw [h] at h'
  exact List.append_cancel_right (List.append_cancel_right h')

theorem defines_same {a b v w : List Byte} (ha : ∀ c ∈ a, NameByte c) (hb : ∀ c ∈ b, NameByte c)
    (h : a ++ b#"=" ++ v = b ++ b#"=" ++ w) : a = b ∧ v = w := by
  induction a generalizing b with
  | nil =>
    cases b with
    | nil => simpa using h
    | cons d b =>
      simp only [List.nil_append, List.cons_append, List.cons.injEq] at h
      exact absurd h.1.symm (shellName_ne (hb d (by simp))).2.2.2
  | cons c a ih =>
    cases b with
    | nil =>
      simp only [List.nil_append, List.cons_append, List.cons.injEq] at h
      exact absurd h.1 (shellName_ne (ha c (by simp))).2.2.2
    | cons d b =>
      simp only [List.cons_append, List.cons.injEq] at h
      obtain ⟨rfl, h⟩ := h
      have := ih (b := b) (fun x hx => ha x (by simp [hx])) (fun x hx => hb x (by simp [hx])) (by simpa using h)
      simp [this.1, this.2]

/-- C81: every name in the command has the value that belongs to it, if no variable of that name is in the environment already and no
    other name in the command has the same variable. -/
theorem C81_value_partial (environ : List (List Byte)) (m : Node) (cmd : List Byte) (ps : List Piece) (hp : Pieces cmd ps)
    (n : List Byte) (hn : n ∈ names ps) (hfree : ∀ e ∈ environ, ∀ v, ¬ Defines e (varFor n) v)
    (hone : ∀ k ∈ names ps, varFor k = varFor n → k = n) :
    ∃ c, invokeShell environ (some m) cmd = some c ∧ Gives c.env (varFor n) (grabContent m n) := by
  refine ⟨_, C81_exact environ m cmd ps hp, ⟨varFor n ++ b#"=" ++ grabContent m n, ?_, rfl⟩, ?_⟩
  · simp only [List.mem_append, List.mem_map]
    exact .inr ⟨n, hn, rfl⟩
  · intro e he v hv
    simp only [List.mem_append, List.mem_map] at he
    rcases he with he | ⟨k, hk, rfl⟩
    · exact absurd hv (hfree e he v)
    · have := defines_same (varFor_safe k) (varFor_safe n) hv
      rw [hone k hk this.1] at this
      exact this.2.symm

mutual
theorem appendTextNode_eq (buf : List Byte) : ∀ n, NoRefs n → appendTextNode buf n = buf ++ (texts n).flatten
  | .text s, _ => by simp [appendTextNode, texts]
  | .comment s, _ => by simp [appendTextNode, texts]
  | .entity _, h => h.elim
  | .element t as ks, h => by
    rw [appendTextNode, texts]
    exact appendTextChildren_eq buf ks h
theorem appendTextChildren_eq (buf : List Byte) : ∀ ks, NoRefsIn ks → appendTextChildren buf ks = buf ++ (textsIn ks).flatten
  | [], _ => by simp [appendTextChildren, textsIn]
  | k :: ks, h => by
    rw [appendTextChildren, appendTextNode_eq buf k h.1, appendTextChildren_eq _ ks h.2]
    simp [textsIn]
end

theorem appendTexts_eq (buf : List Byte) (ks : List Node) (h : OnlyTexts ks) :
    appendTexts buf ks = buf ++ (textsIn ks).flatten := by
  induction ks generalizing buf with
  | nil => simp [appendTexts, textsIn]
  | cons k ks ih =>
    have hk := h k (by simp)
    have hks : OnlyTexts ks := fun j hj => h j (by simp [hj])
    cases k with
    | text s => simp [appendTexts, textsIn, texts, ih _ hks]
    | comment s => simp [appendTexts, textsIn, texts, ih _ hks]
    | entity n => exact hk.elim
    | element t as js => exact hk.elim

theorem appendNamed_eq (name buf : List Byte) (ks : List Node)
    (h : ∀ k ∈ ks, ∀ as js, k = .element name as js → OnlyTexts js) :
    appendNamed name buf ks = buf ++ (ks.filter (called name)).flatMap
      (fun k => (texts k).flatten) := by
  induction ks generalizing buf with
  | nil => simp [appendNamed]
  | cons k ks ih =>
    rw [appendNamed, ih _ (fun j hj => h j (by simp [hj]))]
    cases k with
    | text s => simp [children, appendTexts, called]
    | comment s => simp [children, appendTexts, called]
    | entity n => simp [children, appendTexts, called]
    | element t as js =>
      by_cases ht : t = name
      · subst ht
        simp [nodeName, children, appendTexts_eq _ _ (h _ (by simp) as js rfl), texts, called]
      · simp [nodeName, ht, called]

/-- C81: the values are what the names stand for, if there are no references in the element and only texts in its children of that name. -/
theorem C81_means_partial (t : List Byte) (as : List Attr) (ks : List Node) (name : List Byte)
    (hdot : name = b#"." → NoRefsIn ks) (hkids : ∀ k ∈ ks, ∀ bs js, k = .element name bs js → OnlyTexts js) :
    Means (.element t as ks) name (grabContent (.element t as ks) name) := by
  unfold Means grabContent
  by_cases h1 : name = b#".."
  · exact .inl ⟨h1, by simp [h1, nodeName]⟩
  · by_cases h2 : name = b#"."
    · refine .inr (.inl ⟨h2, ?_⟩)
      have e1 : (name == b#"..") = false := by simpa using h1
      have e2 : (name == b#".") = true := by simpa using h2
      rw [e1, e2]
      simpa using appendTextNode_eq [] (.element t as ks) (hdot h2)
    · refine .inr (.inr ⟨h1, h2, ?_⟩)
      have e1 : (name == b#"..") = false := by simpa using h1
      have e2 : (name == b#".") = false := by simpa using h2
      rw [e1, e2]
      simpa [children] using appendNamed_eq name [] ks hkids

/-- C81: `..` and `.` have their values at every element without references. -/
theorem means_unique (n : Node) (name v w : List Byte) (hv : Means n name v) (hw : Means n name w) : v = w := by
  cases n with
  | element t as ks =>
    rcases hv with ⟨a, b⟩ | ⟨a, b⟩ | ⟨a, a', b⟩ <;> rcases hw with ⟨c, d⟩ | ⟨c, d⟩ | ⟨c, c', d⟩ <;> simp_all
  | text s => exact hv.elim
  | comment s => exact hv.elim
  | entity s => exact hv.elim

/-- C81: for each node that was selected there is one call, in their order, for the element that the node is or is in. -/
theorem C81_each (environ : List (List Byte)) (cmd : List Byte) (ps : List Piece) (hp : Pieces cmd ps) (ns : List (List (Option Node)))
    (hel : ∀ up ∈ ns, ∃ t as ks, some (.element t as ks) ∈ up) :
    ∃ cs, forEach environ cmd ns = some cs ∧ cs.length = ns.length ∧
      ∀ i (hi : i < ns.length) (hc : i < cs.length), ∃ before t as ks after,
        ns[i] = before ++ some (.element t as ks) :: after ∧
        (∀ b ∈ before, ∀ t as ks, b ≠ some (.element t as ks)) ∧
        cs[i] = ⟨write ps, environ ++ (names ps).map (fun n => varFor n ++ b#"=" ++ grabContent (.element t as ks) n)⟩ := by
  have up : ∀ l : List (Option Node), (∃ t as ks, some (.element t as ks) ∈ l) →
      ∃ before t as ks after, l = before ++ some (.element t as ks) :: after ∧
        (∀ b ∈ before, ∀ t as ks, b ≠ some (.element t as ks)) ∧ goUp l = some (.element t as ks) := by
    intro l
    induction l with
    | nil => rintro ⟨t, as, ks, h⟩; simp at h
    | cons x l ih =>
      intro h
      have skip : (∀ t as ks, x ≠ some (.element t as ks)) → goUp (x :: l) = goUp l →
          ∃ before t as ks after, x :: l = before ++ some (.element t as ks) :: after ∧
          (∀ b ∈ before, ∀ t as ks, b ≠ some (.element t as ks)) ∧ goUp (x :: l) = some (.element t as ks) := by
        intro hx hg
        obtain ⟨b, t, as, ks, a, h1, h2, h3⟩ := ih (by
          obtain ⟨t, as, ks, hm⟩ := h
          rcases List.mem_cons.1 hm with e | e
          · exact absurd e.symm (hx t as ks)
          · exact ⟨t, as, ks, e⟩)
        refine ⟨x :: b, t, as, ks, a, by simp [h1], ?_, by rw [hg, h3]⟩
        intro y hy
        rcases List.mem_cons.1 hy with rfl | hy
        · exact hx
        · exact h2 y hy
      match x, skip with
      | none, skip => exact skip (by simp) rfl
      | some (.text s), skip => exact skip (by simp) rfl
      | some (.comment s), skip => exact skip (by simp) rfl
      | some (.entity s), skip => exact skip (by simp) rfl
      | some (.element t as ks), _ => exact ⟨[], t, as, ks, l, rfl, by simp, rfl⟩
  induction ns with
  | nil => exact ⟨[], rfl, rfl, by simp⟩
  | cons n ns ih =>
    obtain ⟨cs, h1, h2, h3⟩ := ih (fun u hu => hel u (by simp [hu]))
    obtain ⟨b, t, as, ks, a, g1, g2, g3⟩ := up n (hel n (by simp))
    refine ⟨⟨write ps, environ ++ (names ps).map (fun n => varFor n ++ b#"=" ++ grabContent (.element t as ks) n)⟩ :: cs, by
      simp only [forEach, g3, C81_exact environ (.element t as ks) cmd ps hp, h1, Option.map_some], by simp [h2], ?_⟩
    intro i hi hc
    match i with
    | 0 => exact ⟨b, t, as, ks, a, g1, g2, rfl⟩
    | i + 1 => exact h3 i (by simpa using hi) (by simpa using hc)

/-- What C81 says of values, without conditions. -/
def C81_full : Prop := ∀ (environ : List (List Byte)) (t : List Byte) (as : List Attr) (ks : List Node) (cmd : List Byte) (ps : List Piece),
  Pieces cmd ps → ∀ n ∈ names ps, ∃ c v, invokeShell environ (some (.element t as ks)) cmd = some c ∧
    Means (.element t as ks) n v ∧ Gives c.env (varFor n) v

/-- A reference of a command as pieces. -/
theorem pieces_ref (n : List Byte) (h : b#'}' ∉ n) : Pieces (b#"${" ++ n ++ b#"}") [.ref n] := by
  have := Pieces.ref h Pieces.nil
  simpa using this

theorem shell_false_of (environ : List (List Byte)) (t : List Byte) (as : List Attr) (ks : List Node) (n w e : List Byte) (h : b#'}' ∉ n)
    (hw : Means (.element t as ks) n w)
    (he : e ∈ environ ++ [varFor n ++ b#"=" ++ grabContent (.element t as ks) n])
    (hd : ∃ v, v ≠ w ∧ Defines e (varFor n) v) : ¬ C81_full := by
  intro hf
  obtain ⟨c, v, h1, h2, h3⟩ := hf environ t as ks _ _ (pieces_ref n h) n (by simp [names])
  rw [C81_exact _ _ _ _ (pieces_ref n h)] at h1
  cases h1
  obtain ⟨x, hx, hd⟩ := hd
  have := means_unique _ _ _ _ h2 hw
  subst this
  exact hx (h3.2 e (by simpa [names] using he) x hd)

/-- C81 is false: references in the text become the word TODO. -/
theorem C81_false : ¬ C81_full :=
  shell_false_of [] b#"a" [] [.text b#"x", .entity b#"#10"] b#"." b#"x" b#"_=xTODO" (by decide)
    (.inr (.inl ⟨rfl, rfl⟩)) (by decide +kernel) ⟨b#"xTODO", by decide, rfl⟩

/-- C81 is false: the text in the children of a child is left out. -/
theorem C81_false_nested : ¬ C81_full :=
  shell_false_of [] b#"a" [] [.element b#"n" [] [.text b#"x", .element b#"i" [] [.text b#"y"]]] b#"n" b#"xy" b#"n=x" (by decide)
    (.inr (.inr ⟨by decide, by decide, rfl⟩)) (by decide +kernel) ⟨b#"x", by decide, rfl⟩

/-- C81 is false: a variable of the environment with the same name stays, and is there first. -/
theorem C81_false_environment : ¬ C81_full :=
  shell_false_of [b#"n=old"] b#"a" [] [.element b#"n" [] [.text b#"x"]] b#"n" b#"x" b#"n=old" (by decide)
    (.inr (.inr ⟨by decide, by decide, rfl⟩)) (by decide +kernel) ⟨b#"old", by decide, rfl⟩

/-- C81 is false: two names can have the same variable, which then is there twice with different values. -/
theorem C81_false_same : ∃ (m : Node) (cmd : List Byte) (c : Call), invokeShell [] (some m) cmd = some c ∧
    c.command = b#"${a_b}${a_b}" ∧ c.env = [b#"a_b=1", b#"a_b=2"] :=
  ⟨.element b#"r" [] [.element b#"a-b" [] [.text b#"1"], .element b#"a.b" [] [.text b#"2"]], b#"${a-b}${a.b}",
   ⟨b#"${a_b}${a_b}", [b#"a_b=1", b#"a_b=2"]⟩, by decide +kernel, rfl, rfl⟩

/-- C81: when what was selected is not in an element (the document, a comment beside the root), a NULL pointer is used. -/
theorem C81_false_null : forEach [] b#"echo ${.}" [[none]] = none ∧
    forEach [] b#"echo ${.}" [[some (.comment b#"c"), none]] = none := by decide +kernel

/-- A use of C81_exact, C81_value_partial and C81_means_partial. -/
theorem shell_example : ∃ (m : Node) (c : Call), invokeShell [b#"PATH=/bin"] (some m) b#"echo $HOME '${a-b}' ${..} ${" = some c ∧
    c.command = b#"echo $HOME '${a_b}' ${__} ${" ∧ c.env = [b#"PATH=/bin", b#"a_b=x; rm *", b#"__=r"] :=
  ⟨.element b#"r" [] [.text b#" ", .element b#"a-b" [] [.text b#"x; ", .comment b#"c", .text b#"rm *"]],
   ⟨b#"echo $HOME '${a_b}' ${__} ${", [b#"PATH=/bin", b#"a_b=x; rm *", b#"__=r"]⟩, by decide +kernel, rfl, rfl⟩

end Xmq.Props
