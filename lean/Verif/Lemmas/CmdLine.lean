import Verif.Spec.CmdLine
/-!
# Lemmas about the command line
-/
namespace Xmq
open Xmq.CmdLine Xmq.Spec

theorem behind_eq (o a : Arg) : behind o a = valueOf o a := by
  unfold behind valueOf
  by_cases h : o <+: a
  · rw [if_pos (List.isPrefixOf_iff_prefix.2 h), if_pos (List.prefix_iff_eq_take.1 h).symm]
  · rw [if_neg (fun h' => h (List.isPrefixOf_iff_prefix.1 h')), if_neg]
    exact fun h' => h (List.prefix_iff_eq_take.2 h'.symm)

theorem valueOf_some {o a v : Arg} : valueOf o a = some v ↔ a = o ++ v := by
  unfold valueOf
  split
  · rename_i h
    constructor
    · intro hv; cases hv
      conv => lhs; rw [← List.take_append_drop o.length a, h]
    · intro hv; rw [hv]; simp
  · rename_i h
    constructor
    · intro hv; cases hv
    · intro hv; rw [hv] at h; simp at h

theorem valueOf_append (o v : Arg) : valueOf o (o ++ v) = some v := valueOf_some.2 rfl

theorem atoi_eq (ds : Arg) : atoi ds = numberOf ds := by
  have key : ∀ n, ds.foldl (fun n (d : Byte) => 10 * n + (d.toNat - 48)) n = n * 10 ^ ds.length + numberOf ds := by
    induction ds with
    | nil => intro n; simp [numberOf]
    | cons d t ih =>
      intro n
      rw [List.foldl_cons, ih, numberOf, List.length_cons, Nat.pow_succ]
      rw [Nat.add_mul]
      have : 10 * n * 10 ^ t.length = n * (10 ^ t.length * 10) := by
        rw [Nat.mul_comm 10 n, Nat.mul_assoc, Nat.mul_comm 10]
      omega
  have := key 0
  simpa [atoi] using this

theorem lookup_mem {α β : Type} [BEq α] [LawfulBEq α] {a : α} {b : β} : ∀ (l : List (α × β)), l.lookup a = some b → (a, b) ∈ l := by
  intro l
  induction l with
  | nil => intro h; cases h
  | cons p l ih =>
    intro h
    obtain ⟨x, y⟩ := p
    rw [List.lookup_cons] at h
    split at h
    · rename_i hx
      cases h
      rw [eq_of_beq hx]; exact List.mem_cons_self
    · exact List.mem_cons_of_mem _ (ih h)

theorem cmdFrom_word (word : Arg) (hn : cmdFrom word ≠ .none) : (word, cmdFrom word) ∈ commandWords := by
  unfold cmdFrom at hn ⊢
  cases h : cmdTable.lookup word with
  | none => rw [h] at hn; exact absurd rfl hn
  | some c =>
    have h1 := lookup_mem _ h
    have : ∀ p ∈ cmdTable, p ∈ commandWords := by decide +kernel
    exact this _ h1

theorem word_cmdFrom (word : Arg) (c : Cmd) (h : (word, c) ∈ commandWords) : cmdFrom word = c ∧ c ≠ .none := by
  have : ∀ p ∈ commandWords, cmdFrom p.1 = p.2 ∧ p.2 ≠ .none := by decide +kernel
  exact this (word, c) h

/-- Arguments that a command takes one after the other. -/
inductive Took (w : World) : Command → List Arg → Command → Prop where
  | nil (c : Command) : Took w c [] c
  | cons (a : Arg) (as : List Arg) (c c1 c2 : Command) : handleOption w a c = .yes c1 → Took w c1 as c2 → Took w c (a :: as) c2

theorem arguments_took (w : World) : ∀ (args : List Arg) (c c' : Command) (rest : List Arg), arguments w args c = .inr (c', rest) →
    ∃ taken, args = taken ++ rest ∧ Took w c taken c' ∧ (rest = [] ∨ ∃ x t, rest = x :: t ∧ cmdFrom x ≠ .none ∧ handleOption w x c' = .no) := by
  intro args
  induction args with
  | nil => intro c c' rest h; cases h; exact ⟨[], rfl, .nil _, Or.inl rfl⟩
  | cons a args ih =>
    intro c c' rest h
    unfold arguments at h
    split at h
    · rename_i c1 h1
      obtain ⟨taken, h2, h3, h4⟩ := ih _ _ _ h
      exact ⟨a :: taken, by rw [h2]; rfl, .cons _ _ _ _ _ h1 h3, h4⟩
    · cases h
    · rename_i h1
      split at h
      · rename_i h2; cases h; exact ⟨[], rfl, .nil _, Or.inr ⟨_, _, rfl, h2, h1⟩⟩
      · cases h

theorem optionTo_cmd {a : Arg} {c c' : Command} (h : optionTo a c = .yes c') : c'.cmd = c.cmd := by
  unfold optionTo at h
  repeat' split at h
  all_goals first | (cases h; rfl) | cases h

theorem optionRender_cmd {a : Arg} {c c' : Command} (h : optionRender a c = .yes c') : c'.cmd = c.cmd := by
  unfold optionRender at h
  repeat' split at h
  all_goals first | (cases h; rfl) | cases h

theorem handleOption_cmd {w : World} {a : Arg} {c c' : Command} (h : handleOption w a c = .yes c') : c'.cmd = c.cmd := by
  unfold handleOption at h
  split at h
  · cases h; rfl
  split at h
  · cases h; rfl
  unfold optionGroup at h
  split at h
  · exact optionTo_cmd h
  · exact optionTo_cmd h
  · split at h
    · exact optionRender_cmd h
    · exact optionTo_cmd h
  · unfold optionTokenize at h
    repeat' split at h
    all_goals first | (cases h; rfl) | cases h
  · repeat' split at h
    all_goals first | (cases h; rfl) | cases h
  · repeat' split at h
    all_goals first | (cases h; rfl) | cases h
  · repeat' split at h
    all_goals first | (cases h; rfl) | cases h
  · repeat' split at h
    all_goals first | (cases h; rfl) | cases h
  · unfold optionEntity at h
    repeat' split at h
    all_goals first | (cases h; rfl) | cases h
  · unfold optionTransform at h
    repeat' split at h
    all_goals first | (cases h; rfl) | cases h
  · repeat' split at h
    all_goals first | (cases h; rfl) | cases h
  · unfold optionValidate at h
    repeat' split at h
    all_goals first | (cases h; rfl) | cases h
  · cases h

theorem took_cmd {w : World} {c c' : Command} {args : List Arg} (h : Took w c args c') : c'.cmd = c.cmd := by
  induction h with
  | nil => rfl
  | cons a as c c1 c2 h1 _ ih => rw [ih, handleOption_cmd h1]

/-- A setting is what the last argument about it says. -/
theorem took_last {w : World} {α : Type} {k : Cmd} (π : Command → α) (f : Arg → Option α)
    (step : ∀ a c c', c.cmd = k → handleOption w a c = .yes c' → π c' = (f a).getD (π c)) {c c' : Command} {args : List Arg}
    (h : Took w c args c') (hk : c.cmd = k) : π c' = (lastOf f args).getD (π c) := by
  induction h with
  | nil => rfl
  | cons a as c c1 c2 h1 _ ih =>
    rw [ih (by rw [handleOption_cmd h1]; exact hk), step a c c1 hk h1]
    unfold lastOf
    cases hf : f a with
    | none => rw [List.filterMap_cons_none hf]; rfl
    | some x =>
      rw [List.filterMap_cons_some hf, List.getLast?_cons]
      cases (as.filterMap f).getLast? <;> rfl

theorem took_last_opt {w : World} {α : Type} {k : Cmd} (π : Command → Option α) (f : Arg → Option α)
    (step : ∀ a c c', c.cmd = k → handleOption w a c = .yes c' → π c' = (f a).or (π c)) {c c' : Command} {args : List Arg}
    (h : Took w c args c') (hk : c.cmd = k) (h0 : π c = none) : π c' = lastOf f args := by
  have key : π c' = (lastOf f args).or (π c) := by
    clear h0
    induction h with
    | nil => rfl
    | cons a as c c1 c2 h1 _ ih =>
      rw [ih (by rw [handleOption_cmd h1]; exact hk), step a c c1 hk h1]
      unfold lastOf
      cases hf : f a with
      | none => rw [List.filterMap_cons_none hf]; rfl
      | some x =>
        rw [List.filterMap_cons_some hf, List.getLast?_cons]
        cases (as.filterMap f).getLast? <;> rfl
  rw [key, h0]; cases lastOf f args <;> rfl

theorem took_all {w : World} {k : Cmd} (Q : Arg → Prop)
    (step : ∀ a c c', c.cmd = k → handleOption w a c = .yes c' → Q a) {c c' : Command} {args : List Arg}
    (h : Took w c args c') (hk : c.cmd = k) : ∀ a ∈ args, Q a := by
  induction h with
  | nil => simp
  | cons a as c c1 c2 h1 _ ih =>
    intro x hx
    rcases List.mem_cons.1 hx with rfl | hx
    · exact step _ c c1 hk h1
    · exact ih (by rw [handleOption_cmd h1]; exact hk) x hx

/-- A command that takes one argument. -/
theorem took_one {w : World} {k : Cmd} (π : Command → Option Arg)
    (step : ∀ a c c', c.cmd = k → handleOption w a c = .yes c' → π c = none ∧ π c' = some a) {c c' : Command} {args : List Arg}
    (h : Took w c args c') (hk : c.cmd = k) (h0 : π c = none) : args = (π c').toList := by
  cases h with
  | nil => rw [h0]; rfl
  | cons a as _ c1 _ h1 h2 =>
    have hk1 : c1.cmd = k := by rw [handleOption_cmd h1]; exact hk
    cases h2 with
    | nil => rw [(step a c _ hk h1).2]; rfl
    | cons b bs _ c2 _ h3 _ =>
      have := (step b c1 c2 hk1 h3).1
      rw [(step a c c1 hk h1).2] at this
      cases this

end Xmq
