import Verif.Model.JsonKeys
import Verif.Lemmas.PrintParts
/-!
# C34, C45: keys of JSON objects
-/
namespace Xmq.Props

/-- A decimal digit. -/
def IsDigit (c : Byte) : Prop := 48 ≤ c ∧ c ≤ 57

theorem backOverDigits_append (ds : List Byte) (h : ∀ c ∈ ds, IsDigit c) (x y : Byte) (t : List Byte) :
    backOverDigits (ds ++ x :: y :: t) = backOverDigits (x :: y :: t) := by
  induction ds with
  | nil => rfl
  | cons c ds ih =>
    have hc := h c (by simp)
    have : (c ≥ 48 && c ≤ 57 && c != 91) = true := by
      unfold IsDigit at hc
      simp; grind
    obtain ⟨z, u, e⟩ : ∃ z u, ds ++ x :: y :: t = z :: u := by
      cases ds with
      | nil => exact ⟨_, _, rfl⟩
      | cons z u => exact ⟨_, _, rfl⟩
    rw [List.cons_append, e, backOverDigits, if_pos this, ← e, ih (fun c hc => h c (by simp [hc]))]

theorem decDigits_isDigit (k n : Nat) : ∀ c ∈ decDigits k n, IsDigit c := by
  intro c hc
  obtain ⟨d, hd, rfl⟩ := decDigits_all k n c hc
  have : d = 0 ∨ d = 1 ∨ d = 2 ∨ d = 3 ∨ d = 4 ∨ d = 5 ∨ d = 6 ∨ d = 7 ∨ d = 8 ∨ d = 9 := by omega
  rcases this with rfl | rfl | rfl | rfl | rfl | rfl | rfl | rfl | rfl | rfl <;> exact ⟨by decide, by decide⟩

/-- The suffix `[digits]` is removed from any key, whatever the digits are. -/
theorem C34_suffix_removed (key digits : List Byte) (hk : key ≠ []) (hd : ∀ c ∈ digits, IsDigit c) :
    trimIndexSuffix (key ++ b#"[" ++ digits ++ b#"]") = key := by
  obtain ⟨x, t, e⟩ : ∃ x t, key.reverse = x :: t := by
    cases h : key.reverse with
    | nil => exact absurd (List.reverse_eq_nil_iff.1 h) hk
    | cons x t => exact ⟨x, t, rfl⟩
  unfold trimIndexSuffix
  simp only [List.reverse_append, List.reverse_cons, List.reverse_nil, List.nil_append, List.cons_append]
  rw [e, if_pos (by decide), backOverDigits_append _ (by simpa using hd), backOverDigits, if_neg (by decide)]
  simp only [beq_self_eq_true, if_true]
  have : (x :: t).reverse = key := by rw [← e, List.reverse_reverse]
  simpa using this

/-- The key written for the `i`-th of several children with the same name is read back as the name. -/
theorem C34_index_removed (name : List Byte) (hn : name ≠ []) (total used : Nat) (h : total > 1) :
    trimIndexSuffix (elementKey name total used) = name := by
  unfold elementKey
  rw [if_pos h]
  exact C34_suffix_removed _ _ hn (decDigits_isDigit _ _)

/-- Every other key is left alone: a key that is changed has such a suffix. -/
theorem C34_nothing_else_removed (key : List Byte) (h : trimIndexSuffix key ≠ key) :
    ∃ k digits, k ≠ [] ∧ (∀ c ∈ digits, IsDigit c) ∧ key = k ++ b#"[" ++ digits ++ b#"]" ∧ trimIndexSuffix key = k := by
  have key2 : ∀ r : List Byte, ∃ ds, (∀ c ∈ ds, IsDigit c) ∧ r = ds ++ backOverDigits r := by
    intro r
    fun_induction backOverDigits r with
    | case1 c d t h ih =>
      obtain ⟨ds, h1, h2⟩ := ih
      refine ⟨c :: ds, ?_, by rw [List.cons_append, ← h2]⟩
      intro x hx
      rcases List.mem_cons.1 hx with rfl | hx
      · simp at h; exact ⟨h.1.1, h.1.2⟩
      · exact h1 x hx
    | case2 c d t h => exact ⟨[], by simp, rfl⟩
    | case3 l h => exact ⟨[], by simp, rfl⟩
  generalize hT : trimIndexSuffix key = T at h ⊢
  unfold trimIndexSuffix at hT
  split at hT
  · rename_i c r e
    by_cases hc : (c == 93) = true
    · rw [if_pos hc] at hT
      have hc' : c = 93 := by simpa using hc
      obtain ⟨ds, h1, h2⟩ := key2 r
      split at hT
      · rename_i b d t e2
        by_cases hb : (b == 91) = true
        · rw [if_pos hb] at hT
          have hb' : b = 91 := by simpa using hb
          refine ⟨(d :: t).reverse, ds.reverse, by simp, by simpa using h1, ?_, hT.symm⟩
          rw [e2] at h2
          have : key = (c :: r).reverse := by rw [← e, List.reverse_reverse]
          rw [this, h2, hc', hb']
          simp
        · rw [if_neg hb] at hT; exact absurd hT.symm h
      · exact absurd hT.symm h
    · rw [if_neg hc] at hT; exact absurd hT.symm h
  · exact absurd hT.symm h

/-- Keys of JSON files survive. -/
def KeysKept : Prop := ∀ key : List Byte, trimIndexSuffix key = key

/-- A key that ends in an index itself is changed; so is one that ends in `[]`. -/
theorem C34_false : ¬ KeysKept := fun h => absurd (h b#"a[]") (by decide +kernel)

example : elementKey b#"a" 12 10 = b#"a[10]" ∧ trimIndexSuffix b#"a[10]" = b#"a" ∧ trimIndexSuffix b#"[10]" = b#"[10]" := by decide +kernel

/-! ## C45 -/

theorem totals_eq (kids : List ObjectChild) (m : List Byte → Nat) (x : List Byte) :
    totals kids m x = m x + (kids.map (·.name)).count x := by
  induction kids generalizing m with
  | nil => simp [totals]
  | cons c t ih =>
    rw [totals, ih]
    by_cases h : x = c.name
    · subst h; simp; omega
    · rw [if_neg h, List.map_cons, List.count_cons_of_ne (fun e => h e.symm)]

theorem keysLoop_length (total : List Byte → Nat) (kids : List ObjectChild) (used : List Byte → Nat) :
    (keysLoop total kids used).length = kids.length := by
  induction kids generalizing used with
  | nil => rfl
  | cons c t ih => simp [keysLoop, ih]

/-- The `i`-th key: the number of earlier children with the same name is its index. -/
theorem keysLoop_get (total : List Byte → Nat) (kids : List ObjectChild) (used : List Byte → Nat) (i : Nat) (c : ObjectChild)
    (h : kids[i]? = some c) : (keysLoop total kids used)[i]? = some
      (if c.array then c.name else elementKey c.name (total c.name) (used c.name + ((kids.take i).map (·.name)).count c.name)) := by
  induction kids generalizing used i with
  | nil => simp at h
  | cons d t ih =>
    cases i with
    | zero => simp at h; subst h; simp [keysLoop, elementKey]
    | succ i =>
      simp at h
      rw [keysLoop, List.getElem?_cons_succ, ih _ _ h]
      by_cases e : c.name = d.name
      · simp [e]; ac_rfl
      · simp [e, List.count_cons_of_ne (fun x => e x.symm)]

theorem decDigits_inj {m n : Nat} (h : decDigits (m + 1) m = decDigits (n + 1) n) : m = n := by
  have pw : ∀ n : Nat, n < 10 ^ (n + 1) := by
    intro n
    induction n with
    | zero => decide
    | succ n ih => rw [Nat.pow_succ]; omega
  have e1 := readDigits_decDigits (m + 1) m (pw m) (by omega) []
  have e2 := readDigits_decDigits (n + 1) n (pw n) (by omega) []
  rw [h, e2] at e1
  simpa [readDigits] using e1.symm

theorem elementKey_inj {a b : List Byte} (ha : (91 : Byte) ∉ a) (hb : (91 : Byte) ∉ b) {ta tb ua ub : Nat}
    (h : elementKey a ta ua = elementKey b tb ub) : a = b ∧ ((ta > 1) ↔ (tb > 1)) ∧ (ta > 1 → ua = ub) := by
  have split : ∀ (a b x y : List Byte), (91 : Byte) ∉ a → (91 : Byte) ∉ b → a ++ 91 :: x = b ++ 91 :: y → a = b ∧ x = y := by
    intro a
    induction a with
    | nil =>
      intro b x y _ hb h
      cases b with
      | nil => simpa using h
      | cons c b => simp at h; exact absurd (by simp [← h.1]) hb
    | cons c a ih =>
      intro b x y ha hb h
      cases b with
      | nil => simp at h; exact absurd (by simp [h.1]) ha
      | cons d b =>
        simp at h ha hb
        obtain ⟨e1, e2⟩ := ih b x y ha.2 hb.2 h.2
        exact ⟨by rw [h.1, e1], e2⟩
  unfold elementKey at h
  by_cases h1 : ta > 1 <;> by_cases h2 : tb > 1
  · rw [if_pos h1, if_pos h2] at h
    simp only [List.append_assoc, List.cons_append, List.nil_append] at h
    obtain ⟨e1, e2⟩ := split _ _ _ _ ha hb h
    exact ⟨e1, by simp [h1, h2], fun _ => decDigits_inj (List.append_cancel_right e2)⟩
  · rw [if_pos h1, if_neg h2] at h
    exact absurd (by rw [← h]; simp) hb
  · rw [if_neg h1, if_pos h2] at h
    exact absurd (by rw [h]; simp) ha
  · rw [if_neg h1, if_neg h2] at h
    exact ⟨h, by simp [h1, h2], fun e => absurd e h1⟩

theorem count_take_lt {l : List (List Byte)} {i j : Nat} {a : List Byte} (hi : l[i]? = some a) (hij : i < j) :
    (l.take i).count a < (l.take j).count a := by
  induction l generalizing i j with
  | nil => simp at hi
  | cons x t ih =>
    cases j with
    | zero => omega
    | succ j =>
      cases i with
      | zero => simp at hi; subst hi; simp
      | succ i =>
        simp at hi
        have := ih hi (by omega : i < j)
        simp only [List.take_succ_cons, List.count_cons]
        omega

theorem two_le_count {l : List (List Byte)} {i j : Nat} {a : List Byte} (hi : l[i]? = some a) (hj : l[j]? = some a) (hij : i < j) :
    1 < l.count a := by
  have h1 := count_take_lt hi hij
  have h2 := count_take_lt hj (show j < j + 1 by omega)
  have h3 : (l.take (j + 1)).count a ≤ l.count a := (List.take_sublist _ _).count_le _
  omega

/-- The keys written for the children of an object are all different. -/
def KeysDistinct : Prop := ∀ kids : List ObjectChild, (∀ c ∈ kids, (91 : Byte) ∉ c.name) → (objectKeys kids).Nodup

/-- Two arrays with the same name are written with the same key. -/
theorem C45_false : ¬ KeysDistinct := fun h => absurd (h [⟨b#"a", true⟩, ⟨b#"a", true⟩] (by decide)) (by decide +kernel)

/-- Without arrays the keys are all different. -/
theorem C45_keys_distinct_partial (kids : List ObjectChild) (hn : ∀ c ∈ kids, (91 : Byte) ∉ c.name)
    (ha : ∀ c ∈ kids, c.array = false) : (objectKeys kids).Nodup := by
  unfold objectKeys List.Nodup
  rw [List.pairwise_iff_getElem]
  intro i j hi hj hij h
  have h : (keysLoop (totals kids fun _ => 0) kids fun _ => 0)[i]? = (keysLoop (totals kids fun _ => 0) kids fun _ => 0)[j]? := by
    rw [List.getElem?_eq_getElem hi, List.getElem?_eq_getElem hj, h]
  revert h
  rw [keysLoop_length] at hi hj
  obtain ⟨c, hc⟩ : ∃ c, kids[i]? = some c := ⟨kids[i], List.getElem?_eq_getElem (by omega)⟩
  obtain ⟨d, hd⟩ : ∃ d, kids[j]? = some d := ⟨kids[j], List.getElem?_eq_getElem hj⟩
  have mc := List.mem_of_getElem? hc
  have md := List.mem_of_getElem? hd
  rw [keysLoop_get _ _ _ _ _ hc, keysLoop_get _ _ _ _ _ hd, ha c mc, ha d md]
  simp only [Bool.false_eq_true, if_false, Nat.zero_add]
  intro h
  obtain ⟨e1, _, e3⟩ := elementKey_inj (hn c mc) (hn d md) (Option.some.inj h)
  have hi' : (kids.map (·.name))[i]? = some c.name := by simp [hc]
  have hj' : (kids.map (·.name))[j]? = some c.name := by simp [hd, e1]
  have ht : totals kids (fun _ => 0) c.name > 1 := by
    rw [totals_eq]
    have := two_le_count hi' hj' hij
    omega
  have := count_take_lt hi' hij
  rw [← List.map_take, ← List.map_take] at this
  have e4 := e3 ht
  rw [← e1] at e4
  omega

/-- Every child's key is read back as its name, arrays included. -/
theorem C45_names_read_back (kids : List ObjectChild) (h : ∀ c ∈ kids, c.name ≠ [] ∧ (93 : Byte) ∉ c.name) :
    (objectKeys kids).map trimIndexSuffix = kids.map (·.name) := by
  have plain : ∀ name : List Byte, (93 : Byte) ∉ name → trimIndexSuffix name = name := by
    intro name hn
    apply Classical.byContradiction
    intro hc
    obtain ⟨k, ds, _, _, e, _⟩ := C34_nothing_else_removed name hc
    exact hn (by rw [e]; simp)
  have key : ∀ (total used : List Byte → Nat), (keysLoop total kids used).map trimIndexSuffix = kids.map (·.name) := by
    intro total
    induction kids with
    | nil => intro used; rfl
    | cons c t ih =>
      intro used
      obtain ⟨h1, h2⟩ := h c (by simp)
      rw [keysLoop, List.map_cons, List.map_cons, ih (fun c hc => h c (by simp [hc]))]
      congr 1
      split
      · exact plain _ h2
      · by_cases ht : total c.name > 1
        · exact C34_index_removed _ h1 _ _ ht
        · unfold elementKey; rw [if_neg ht]; exact plain _ h2
  exact key _ _

example : objectKeys [⟨b#"a", false⟩, ⟨b#"b", false⟩, ⟨b#"a", false⟩] = [b#"a[0]", b#"b", b#"a[1]"] := by decide +kernel

end Xmq.Props
