import Verif.Spec.Lookup
import Verif.Props.NoMerge
import Verif.Props.Numbers
/-!
# C90: values looked up by an XPath
-/
namespace Xmq.Props
open Xmq Xmq.Spec Xmq.Lookup Xmq.Spec.Lookup

/-- A callback is called for the items in order, up to the first for which it says stop. -/
theorem C90_foreach {σ : Type} (step : σ → Item → σ × Bool) (xs : List Item) : ∀ s : σ,
    ∃ ys t, Visited step s xs ys t ∧ foreach (some fun s x => some (step s x)) s xs = some (t, xs.length) := by
  have key : ∀ (xs : List Item) (s : σ), ∃ ys t, Visited step s xs ys t ∧ loop (fun s x => some (step s x)) s xs = some t := by
    intro xs
    induction xs with
    | nil => intro s; exact ⟨[], s, ⟨by simp, rfl, by simp, .inl rfl⟩, rfl⟩
    | cons x xs ih =>
      intro s
      rcases hx : step s x with ⟨s', _ | _⟩
      · obtain ⟨ys, t, ⟨h1, h2, h3, h4⟩, h5⟩ := ih s'
        refine ⟨x :: ys, t, ⟨by simpa using h1, by simp [hx, h2], ?_, ?_⟩, by simp [loop, hx, h5]⟩
        · intro i y hy hl
          cases i with
          | zero => simp at hy; subst hy; simp [hx]
          | succ i =>
            simp at hy hl
            have := h3 i y hy (by omega)
            simpa [hx] using this
        · rcases h4 with rfl | ⟨zs, z, rfl, hz⟩
          · exact .inl rfl
          · exact .inr ⟨x :: zs, z, rfl, by simpa [hx] using hz⟩
      · exact ⟨[x], s', ⟨by simp, by simp [hx], by simp, .inr ⟨[], x, rfl, by simp [hx]⟩⟩, by simp [loop, hx]⟩
  intro s
  obtain ⟨ys, t, h1, h2⟩ := key xs s
  exact ⟨ys, t, h1, by simp [foreach, h2]⟩

/-- Without a callback the items are counted. -/
theorem C90_count {σ : Type} (s : σ) (xs : List Item) : foreach none s xs = some (s, xs.length) := rfl

theorem getString_cons (x : Item) (xs : List Item) : getString (x :: xs) = content x := by
  simp only [getString, foreach, loop, catchSingle]
  cases content x <;> simp

/-- Only the first item counts, and nothing found is NULL. -/
theorem C90_first (x : Item) (xs : List Item) : getString (x :: xs) = getString [x] ∧ getString [] = some none := by
  exact ⟨by rw [getString_cons, getString_cons], rfl⟩

/-- What is given: the text or comment that is the first child of the first item. -/
theorem C90_exact (x : Item) (hx : ∀ p h, x ≠ .ns p h) (xs : List Item) (s : List Byte) :
    getString (x :: xs) = some (some s) ↔ (kidsOf x).head? = some (.text s) ∨ (kidsOf x).head? = some (.comment s) := by
  have h0 := getString_cons x xs
  have h1 : content x = some ((kidsOf x).head?.bind contentOf) := by
    cases x with
    | node n => cases n <;> rfl
    | attrib a => rfl
    | doc t => rfl
    | ns p h => exact absurd rfl (hx p h)
  rw [h0, h1]
  cases hk : (kidsOf x).head? with
  | none => simp
  | some k => cases k <;> simp [contentOf]

/-- It is defined for everything but a namespace. -/
theorem C90_defined (x : Item) (xs : List Item) : (getString (x :: xs)).isSome = true ↔ ∀ p h, x ≠ .ns p h := by
  have h0 := getString_cons x xs
  rw [h0]
  cases x with
  | node n => cases n <;> simp [content]
  | attrib a => simp [content]
  | doc t => simp [content]
  | ns p h => simp [content]

/-! ## The whole value -/

theorem textsOf_only : ∀ (ks : List Node), (∀ k ∈ ks, ∃ s, k = .text s) → NoMerge.Apart ks → ks ≠ [] → ∃ s, ks = [.text s] ∧ textsOf ks = s
  | [], _, _, h => absurd rfl h
  | [k], h, _, _ => by obtain ⟨s, rfl⟩ := h k (by simp); exact ⟨s, rfl, by simp [textsOf, Lookup.textOf]⟩
  | k :: l :: ks, h, ha, _ => by
    obtain ⟨s, rfl⟩ := h k (by simp)
    obtain ⟨t, rfl⟩ := h l (by simp)
    exact absurd rfl (ha 0 s t rfl)

theorem allFinished_mem : ∀ {ks : List Node} {k : Node}, NoMerge.AllFinished ks → k ∈ ks → NoMerge.Finished k
  | _ :: _, _, h, hk => by
    rcases List.mem_cons.1 hk with rfl | hk
    · exact h.1
    · exact allFinished_mem h.2 hk

theorem inside_finished {x : Node} {ks : List Node} (h : Inside x ks) : NoMerge.AllFinished ks → NoMerge.Finished x := by
  induction h with
  | here hx => exact fun h => allFinished_mem h hx
  | deep hm _ ih => exact fun h => ih (allFinished_mem h hm).2.2

theorem item_apart {top : List Node} {x : Item} (ha : NoMerge.Apart top) (hf : NoMerge.AllFinished top) (h : ItemOf top x) : NoMerge.Apart (kidsOf x) := by
  cases x with
  | node n =>
    cases n with
    | element n as kk => exact (inside_finished h hf).2.1
    | _ => exact apart_nil
  | attrib a =>
    obtain ⟨n, as, kk, ham, hi⟩ := h
    exact ((inside_finished hi hf).1 a ham).1
  | doc t => cases h; exact ha
  | ns p h => exact apart_nil

theorem value_kids {x : Item} (h : OnlyTexts (kidsOf x)) : valueOf x = textsOf (kidsOf x) := by
  cases x with
  | node n =>
    cases n with
    | element n as kk => simp [valueOf, Lookup.textOf, kidsOf]
    | _ => exact absurd rfl h.1
  | attrib a => rfl
  | doc t => rfl
  | ns p hh => exact absurd rfl h.1

/-- In a document that was read, an element or an attribute with nothing but text has its whole value. -/
theorem C90_whole {input : List Byte} {d : List Node} (hr : Reads input d) {x : Item} (hx : ItemOf d x) (ht : OnlyTexts (kidsOf x)) (xs : List Item) :
    getString (x :: xs) = some (some (valueOf x)) := by
  have hf := C89_finished hr
  obtain ⟨s, h1, h2⟩ := textsOf_only _ ht.2 (item_apart hf.1 hf.2 hx) ht.1
  have hns : ∀ p h, x ≠ .ns p h := by
    intro p h e
    subst e
    exact ht.1 rfl
  rw [(C90_exact x hns xs s).2 (.inl (by rw [h1]; rfl)), value_kids ht, h2]

/-- The number that is written there is given. -/
theorem C90_int_partial {input : List Byte} {d : List Node} (hr : Reads input d) {x : Item} (hx : ItemOf d x) (ht : OnlyTexts (kidsOf x)) (xs : List Item)
    {v : Int} (hv : ReadNumeral (valueOf x) v) (h1 : -2 ^ 31 ≤ v) (h2 : v < 2 ^ 31) : getInt (x :: xs) = some v := by
  unfold getInt
  rw [C90_whole hr hx ht]
  simp [C46_get_int_partial hv h1 h2]

/-- The same for 64 bits. -/
theorem C90_long_partial {input : List Byte} {d : List Node} (hr : Reads input d) {x : Item} (hx : ItemOf d x) (ht : OnlyTexts (kidsOf x)) (xs : List Item)
    {v : Int} (hv : ReadNumeral (valueOf x) v) (h1 : -2 ^ 63 ≤ v) (h2 : v < 2 ^ 63) : getLong (x :: xs) = some v := by
  unfold getLong
  rw [C90_whole hr hx ht]
  simp [(C46_get_long_partial hv).1 h1 h2]

/-- Nothing found, or nothing in what was found, is 0. -/
theorem C90_zero : getInt [] = some 0 ∧ getLong [] = some 0 ∧
    ∀ x xs, (∀ p h, x ≠ .ns p h) → kidsOf x = [] → getString (x :: xs) = some none ∧ getInt (x :: xs) = some 0 ∧ getLong (x :: xs) = some 0 := by
  refine ⟨rfl, rfl, fun x xs hx hk => ?_⟩
  have h0 : getString (x :: xs) = some none := by
    cases x with
    | node n =>
      cases n with
      | element n as kk => simp only [kidsOf] at hk; subst hk; rfl
      | _ => rfl
    | attrib a => obtain ⟨n, v⟩ := a; simp [kidsOf] at hk; subst hk; rfl
    | doc t => simp only [kidsOf] at hk; subst hk; rfl
    | ns p h => exact absurd rfl (hx p h)
  exact ⟨h0, by unfold getInt; rw [h0]; rfl, by unfold getLong; rw [h0]; rfl⟩

/-! ## Where it is not the value -/

/-- The full claim: for what is found in a document that was read, the value is given. -/
def C90_Value : Prop := ∀ input d x, Reads input d → ItemOf d x → (getString [x]).map (Option.getD · []) = some (valueOf x)

theorem readsOf {fuel : Nat} {input : List Byte} {r : List Node} (h : readDoc fuel input = some r) : Reads input r := by
  unfold readDoc at h
  split at h
  · rename_i st hp; exact ⟨_, ⟨fuel, st, hp, rfl⟩, h⟩
  · cases h

/-- It is false for `text()`, which gives NULL. -/
theorem C90_false_text : ¬ C90_Value := fun h =>
  absurd (h b#"a = x" [.element b#"a" [] [.text b#"x"]] (.node (.text b#"x")) (readsOf (fuel := 50) (by decide +kernel))
    (.deep (List.mem_cons_self ..) (.here (by simp)))) (by decide +kernel)

/-- It is false behind a reference, for an element and for an attribute: the rest of the text is lost. -/
theorem C90_false_reference : Reads b#"a(b = ('x' &c; 'y'))" [.element b#"a" [⟨b#"b", [.text b#"x", .entity b#"c", .text b#"y"]⟩] []] ∧
    getString [.attrib ⟨b#"b", [.text b#"x", .entity b#"c", .text b#"y"]⟩] = some (some b#"x") :=
  ⟨readsOf (fuel := 80) (by decide +kernel), by decide +kernel⟩

/-- A comment in front of the text is given instead of the text. -/
theorem C90_false_comment : Reads b#"a { // 17\n '42' }" [.element b#"a" [] [.comment b#"17", .text b#"42"]] ∧
    getInt [.node (.element b#"a" [] [.comment b#"17", .text b#"42"])] = some 17 ∧
    valueOf (.node (.element b#"a" [] [.comment b#"17", .text b#"42"])) = b#"42" :=
  ⟨readsOf (fuel := 80) (by decide +kernel), by decide +kernel, by decide +kernel⟩

/-- With `--no-merge` only the first quote is given. -/
theorem C90_false_no_merge : NoMerge.Reads b#"a = ('1' '2')" [.element b#"a" [] [.text b#"1", .text b#"2"]] ∧
    getInt [.node (.element b#"a" [] [.text b#"1", .text b#"2"])] = some 1 :=
  ⟨reads_raw (fuel := 80) (by decide +kernel), by decide +kernel⟩

/-- For a namespace it is undefined. -/
theorem C90_false_namespace : getString [.ns b#"xml" b#"http://www.w3.org/XML/1998/namespace"] = none := rfl

/-! ## Cases -/

example : OnlyTexts (kidsOf (.node (.element b#"a" [] [.text b#"42"]))) := ⟨by simp [kidsOf], by simp [kidsOf]⟩
example : Reads b#"x { a = 42 b = 0x10 }" [.element b#"x" [] [.element b#"a" [] [.text b#"42"], .element b#"b" [] [.text b#"0x10"]]] :=
  readsOf (fuel := 80) (by decide +kernel)
example : ItemOf [.element b#"x" [] [.element b#"a" [] [.text b#"42"]]] (.node (.element b#"a" [] [.text b#"42"])) :=
  .deep (List.mem_cons_self ..) (.here (by simp))
example : getInt [.node (.element b#"b" [] [.text b#"0x10"])] = some 16 := by decide +kernel
example : ReadNumeral b#"7" 7 := .dec (v := 7) (.one (by unfold DigitIs; decide) (by decide)) (by simp)
example : foreach (some fun (n : Nat) x => some (n + 1, (Lookup.name x) == some b#"stop")) 0
    [.node (.text []), .attrib ⟨b#"stop", []⟩, .doc []] = some (2, 3) := by decide +kernel

end Xmq.Props
