import Verif.Lemmas.YaepFlags
/-!
# FIRST, FOLLOW and the lookahead sets
-/
namespace Xmq.Yaep
open Xmq.Ixml (Sym)
open Xmq.Spec Xmq.Cfg

/-- What a member of the sets says. -/
def FMeans (R : List Rule) : FF → Prop
  | .first n c => Begins (Prods R) [.n n] (.t c) ∧ n ∈ nonterms R ∧ c ∈ codes R
  | .follow n c => Follows (Prods R) (.n n) (.t c) ∧ n ∈ nonterms R ∧ c ∈ codes R

theorem mem_firstOf {l : List FF} {n : List Byte} {c : Int} : c ∈ l.filterMap (FF.firstOf n) ↔ .first n c ∈ l := by
  simp only [List.mem_filterMap]
  constructor
  · rintro ⟨f, hf, h⟩
    cases f with
    | first m d =>
      simp only [FF.firstOf] at h
      split at h
      · next e => rw [← Option.some.inj h, ← e]; exact hf
      · cases h
    | follow m d => cases h
  · intro h
    exact ⟨_, h, by simp [FF.firstOf]⟩

theorem mem_followOf {l : List FF} {n : List Byte} {c : Int} : c ∈ l.filterMap (FF.followOf n) ↔ .follow n c ∈ l := by
  simp only [List.mem_filterMap]
  constructor
  · rintro ⟨f, hf, h⟩
    cases f with
    | follow m d =>
      simp only [FF.followOf] at h
      split at h
      · next e => rw [← Option.some.inj h, ← e]; exact hf
      · cases h
    | first m d => cases h
  · intro h
    exact ⟨_, h, by simp [FF.followOf]⟩

theorem mem_codes {R : List Rule} {r : Rule} (hr : r ∈ R) {c : Int} (hc : .t c ∈ r.rhs) : c ∈ codes R :=
  List.mem_flatMap.2 ⟨r, hr, List.mem_filterMap.2 ⟨_, hc, rfl⟩⟩

/-! ## Sets are joined -/

theorem grow_orSet {S : FF → Prop} {mk : Int → FF} {fr : FF → Option Int} (s : List FF × Bool)
    (h : ∀ c ∈ s.1.filterMap fr, (∀ y ∈ s.1, S y) → S (mk c)) : Grow S s (orSet mk fr s) := by
  have : ∀ (l : List Int) (t : List FF × Bool), (∀ y ∈ s.1, y ∈ t.1) → (∀ c ∈ l, c ∈ s.1.filterMap fr) → Grow S t (l.foldl (fun st c => add (mk c) st) t) := by
    intro l
    induction l with
    | nil => exact fun _ _ _ => .refl
    | cons c l ih =>
      intro t ht hl
      have h1 : Grow S t (add (mk c) t) := .one _ fun hS => h c (hl c (by simp)) fun y hy => hS y (ht y hy)
      exact h1.trans (ih _ (fun y hy => h1.mono y (ht y hy)) fun d hd => hl d (by simp [hd]))
  exact this _ s (fun _ h => h) (fun _ h => h)

theorem orSet_fixed {mk : Int → FF} {fr : FF → Option Int} {s : List FF × Bool} (hs : s.2 = false) (h : orSet mk fr s = s) :
    ∀ c ∈ s.1.filterMap fr, mk c ∈ s.1 := fun c hc =>
  add_fixed hs (fixed_foldl (S := fun _ => True) (fun x _ s => .one _ fun _ => trivial) hs h c hc)

/-! ## The rules are followed -/

section
variable {R : List Rule} {em : Sym → Bool}

theorem begins_lhs {lhs : List Byte} {pre post : List Sym} {x t : Sym} (hp : Prods R (.n lhs) (pre ++ x :: post)) (hpre : ∀ z ∈ pre, Nullable (Prods R) z)
    (hb : Begins (Prods R) [x] t) : Begins (Prods R) [.n lhs] t := by
  obtain ⟨β, h⟩ := begins_of (v := post) hpre hb
  exact ⟨β, Yields.trans (Yields.rule hp) h⟩

theorem follows_in {lhs : List Byte} {pre η post : List Sym} {x y t : Sym} (hp : Prods R (.n lhs) (pre ++ x :: (η ++ y :: post)))
    (hη : ∀ z ∈ η, Nullable (Prods R) z) (hb : Begins (Prods R) [y] t) : Follows (Prods R) x t := by
  obtain ⟨β, h⟩ := begins_of (v := post) hη hb
  refine ⟨.n lhs, pre, β, Yields.trans (Yields.rule hp) ?_⟩
  have := Yields.ctx h (pre ++ [x]) []
  simpa using this

theorem follows_end {lhs : List Byte} {pre η : List Sym} {x t : Sym} (hp : Prods R (.n lhs) (pre ++ x :: η))
    (hη : ∀ z ∈ η, Nullable (Prods R) z) (hf : Follows (Prods R) (.n lhs) t) : Follows (Prods R) x t := by
  obtain ⟨b, u, v, h⟩ := hf
  have h1 := Yields.step u _ (t :: v) _ h hp
  have h2 := Yields.ctx (yields_nulls hη) (u ++ pre ++ [x]) (t :: v)
  refine ⟨b, u ++ pre, v, Yields.trans h1 ?_⟩
  simpa using h2

theorem sym_begins (c : Int) : Begins (Prods R) [.t c] (.t c) := ⟨[], .refl⟩

/-- The step for one symbol behind a nonterminal. -/
def stepFollow (a : List Byte) (y : Sym) (s : List FF × Bool) : List FF × Bool :=
  match y with
  | .t c => add (.follow a c) s
  | .n b => orSet (.follow a) (FF.firstOf b) s

theorem followLoop_cons (lhs a : List Byte) (y : Sym) (ys : List Sym) (s : List FF × Bool) :
    followLoop em lhs a (y :: ys) s = if em y = true then followLoop em lhs a ys (stepFollow a y s) else stepFollow a y s := by
  cases y <;> rfl

theorem grow_stepFollow {r : Rule} (hr : r ∈ R) {pre η ys : List Sym} {a : List Byte} {y : Sym} (e : r.rhs = pre ++ .n a :: (η ++ y :: ys))
    (hη : ∀ z ∈ η, Nullable (Prods R) z) (s : List FF × Bool) : Grow (FMeans R) s (stepFollow a y s) := by
  have hn : a ∈ nonterms R := mem_nonterms.2 ⟨r, hr, .inr (by rw [e]; simp)⟩
  have hp : Prods R (.n r.lhs) (pre ++ .n a :: (η ++ y :: ys)) := ⟨r, hr, rfl, e.symm⟩
  cases y with
  | t c => exact .one _ fun _ => ⟨follows_in hp hη (sym_begins c), hn, mem_codes hr (by rw [e]; simp)⟩
  | n b =>
    refine grow_orSet s fun c hc hS => ?_
    have := hS _ (mem_firstOf.1 hc)
    exact ⟨follows_in hp hη this.1, hn, this.2.2⟩

theorem grow_follow (he : ∀ x, em x = true → Nullable (Prods R) x) {r : Rule} (hr : r ∈ R) {pre : List Sym} {a : List Byte} :
    ∀ (ys η : List Sym) (s : List FF × Bool), r.rhs = pre ++ .n a :: (η ++ ys) → (∀ z ∈ η, Nullable (Prods R) z) →
      Grow (FMeans R) s (followLoop em r.lhs a ys s)
  | [], η, s, e, hη => by
    unfold followLoop
    refine grow_orSet s fun c hc hS => ?_
    have := hS _ (mem_followOf.1 hc)
    refine ⟨follows_end (lhs := r.lhs) (pre := pre) (η := η) ⟨r, hr, rfl, by rw [e]; simp⟩ hη this.1, ?_, this.2.2⟩
    exact mem_nonterms.2 ⟨r, hr, .inr (by rw [e]; simp)⟩
  | y :: ys, η, s, e, hη => by
    have h1 := grow_stepFollow hr e hη s
    rw [followLoop_cons]
    split
    · next hem =>
      refine h1.trans (grow_follow he hr (pre := pre) ys (η ++ [y]) _ (by rw [e]; simp) fun z hz => ?_)
      rcases List.mem_append.1 hz with hz | hz
      · exact hη z hz
      · rw [List.mem_singleton.1 hz]; exact he y hem
    · exact h1

/-- The step for one symbol of a right side. -/
def stepFF (em : Sym → Bool) (lhs : List Byte) (cont : Bool) (x : Sym) (rest : List Sym) (st : List FF × Bool) : List FF × Bool :=
  match x with
  | .t c => if cont then add (.first lhs c) st else st
  | .n a => followLoop em lhs a rest (if cont then orSet (.first lhs) (FF.firstOf a) st else st)

theorem visitFF_cons (lhs : List Byte) (cont : Bool) (x : Sym) (rest : List Sym) (st : List FF × Bool) :
    visitFF em lhs cont (x :: rest) st = visitFF em lhs (cont && em x) rest (stepFF em lhs cont x rest st) := by
  cases x <;> rfl

theorem grow_orFirst {r : Rule} (hr : r ∈ R) {pre rest : List Sym} {a : List Byte} (e : r.rhs = pre ++ .n a :: rest) {cont : Bool}
    (hc : cont = true → ∀ z ∈ pre, Nullable (Prods R) z) (s : List FF × Bool) :
    Grow (FMeans R) s (if cont = true then orSet (.first r.lhs) (FF.firstOf a) s else s) := by
  split
  · next hcont =>
    refine grow_orSet s fun c hc' hS => ?_
    have := hS _ (mem_firstOf.1 hc')
    exact ⟨begins_lhs (pre := pre) (post := rest) ⟨r, hr, rfl, e.symm⟩ (hc hcont) this.1, mem_nonterms.2 ⟨r, hr, .inl rfl⟩, this.2.2⟩
  · exact .refl

theorem grow_stepFF (he : ∀ x, em x = true → Nullable (Prods R) x) {r : Rule} (hr : r ∈ R) {pre rest : List Sym} {x : Sym} (e : r.rhs = pre ++ x :: rest) {cont : Bool}
    (hc : cont = true → ∀ z ∈ pre, Nullable (Prods R) z) (s : List FF × Bool) : Grow (FMeans R) s (stepFF em r.lhs cont x rest s) := by
  cases x with
  | t c =>
    unfold stepFF
    dsimp only
    split
    · next hcont =>
      exact .one _ fun _ => ⟨begins_lhs (pre := pre) (post := rest) ⟨r, hr, rfl, e.symm⟩ (hc hcont) (sym_begins c), mem_nonterms.2 ⟨r, hr, .inl rfl⟩,
        mem_codes hr (by rw [e]; simp)⟩
    · exact .refl
  | n a => exact (grow_orFirst hr e hc s).trans (grow_follow he hr rest [] _ e (by simp))

theorem grow_visitFF (he : ∀ x, em x = true → Nullable (Prods R) x) {r : Rule} (hr : r ∈ R) :
    ∀ (rest pre : List Sym) (cont : Bool) (s : List FF × Bool), r.rhs = pre ++ rest → (cont = true → ∀ z ∈ pre, Nullable (Prods R) z) →
      Grow (FMeans R) s (visitFF em r.lhs cont rest s)
  | [], _, _, s, _, _ => by unfold visitFF; exact .refl
  | x :: rest, pre, cont, s, e, hc => by
    rw [visitFF_cons]
    refine (grow_stepFF he hr e hc s).trans (grow_visitFF he hr rest (pre ++ [x]) _ _ (by rw [e]; simp) fun h z hz => ?_)
    rw [Bool.and_eq_true] at h
    rcases List.mem_append.1 hz with hz | hz
    · exact hc h.1 z hz
    · rw [List.mem_singleton.1 hz]; exact he x h.2

end

/-! ## Nothing is left to be added -/

/-- `c` is a first code of the symbol, as far as `ff` knows. -/
def FirstIn (ff : List FF) (c : Int) (x : Sym) : Prop := x = .t c ∨ ∃ b, x = .n b ∧ .first b c ∈ ff

structure FClosed (R : List Rule) (em : Sym → Bool) (ff : List FF) : Prop where
  first : ∀ r ∈ R, ∀ pre x post c, r.rhs = pre ++ x :: post → (∀ z ∈ pre, em z = true) → FirstIn ff c x → .first r.lhs c ∈ ff
  next : ∀ r ∈ R, ∀ pre a η y post c, r.rhs = pre ++ .n a :: (η ++ y :: post) → (∀ z ∈ η, em z = true) → FirstIn ff c y → .follow a c ∈ ff
  last : ∀ r ∈ R, ∀ pre a η c, r.rhs = pre ++ .n a :: η → (∀ z ∈ η, em z = true) → .follow r.lhs c ∈ ff → .follow a c ∈ ff

section
variable {R : List Rule} {em : Sym → Bool} {ff : List FF}

theorem follow_fixed (he : ∀ x, em x = true → Nullable (Prods R) x) {r : Rule} (hr : r ∈ R) {pre : List Sym} {a : List Byte} :
    ∀ (ys η : List Sym), r.rhs = pre ++ .n a :: (η ++ ys) → (∀ z ∈ η, Nullable (Prods R) z) → followLoop em r.lhs a ys (ff, false) = (ff, false) →
      (∀ η' y post c, ys = η' ++ y :: post → (∀ z ∈ η', em z = true) → FirstIn ff c y → .follow a c ∈ ff) ∧
      ((∀ z ∈ ys, em z = true) → ∀ c, .follow r.lhs c ∈ ff → .follow a c ∈ ff)
  | [], η, e, hη, h => by
    unfold followLoop at h
    refine ⟨fun η' y post c e => by simp at e, fun _ c hc => ?_⟩
    exact orSet_fixed rfl h c (mem_followOf.2 hc)
  | y :: ys, η, e, hη, h => by
    have h1 := grow_stepFollow hr e hη (ff, false)
    have hη2 : em y = true → ∀ z ∈ η ++ [y], Nullable (Prods R) z := by
      intro hem z hz
      rcases List.mem_append.1 hz with hz | hz
      · exact hη z hz
      · rw [List.mem_singleton.1 hz]; exact he y hem
    have e2 : r.rhs = pre ++ .n a :: ((η ++ [y]) ++ ys) := by rw [e]; simp
    rw [followLoop_cons] at h
    have key : stepFollow a y (ff, false) = (ff, false) := by
      split at h
      · next hem => exact h1.fixed (grow_follow he hr ys (η ++ [y]) _ e2 (hη2 hem)) h rfl
      · exact h
    have hy : ∀ c, FirstIn ff c y → .follow a c ∈ ff := by
      rintro c (rfl | ⟨b, rfl, hb⟩)
      · exact add_fixed rfl key
      · exact orSet_fixed rfl key c (mem_firstOf.2 hb)
    have hrest : em y = true → _ := fun hem => follow_fixed he hr ys (η ++ [y]) e2 (hη2 hem) (by
      rw [if_pos hem] at h
      rw [key] at h
      exact h)
    refine ⟨fun η' z post c ez hη' hz => ?_, fun hall c hc => ?_⟩
    · cases η' with
      | nil =>
        rw [List.nil_append] at ez
        injection ez with e3 e4
        subst e3
        exact hy c hz
      | cons w η' =>
        rw [List.cons_append] at ez
        injection ez with e3 e4
        subst e3
        exact (hrest (hη' _ (by simp))).1 η' z post c e4 (fun z hz => hη' z (by simp [hz])) hz
    · exact (hrest (hall y (by simp))).2 (fun z hz => hall z (by simp [hz])) c hc

theorem visitFF_fixed (he : ∀ x, em x = true → Nullable (Prods R) x) {r : Rule} (hr : r ∈ R) :
    ∀ (rest pre : List Sym) (cont : Bool), r.rhs = pre ++ rest → (cont = true → ∀ z ∈ pre, Nullable (Prods R) z) →
      visitFF em r.lhs cont rest (ff, false) = (ff, false) →
      ∀ mid x post, rest = mid ++ x :: post →
        (cont = true → (∀ z ∈ mid, em z = true) → ∀ c, FirstIn ff c x → .first r.lhs c ∈ ff) ∧
        (∀ a, x = .n a → followLoop em r.lhs a post (ff, false) = (ff, false))
  | [], _, _, _, _, _ => fun mid x post e => by simp at e
  | x :: rest, pre, cont, e, hc, h => by
    rw [visitFF_cons] at h
    have e2 : r.rhs = (pre ++ [x]) ++ rest := by rw [e]; simp
    have hc2 : (cont && em x) = true → ∀ z ∈ pre ++ [x], Nullable (Prods R) z := fun h z hz => by
      rw [Bool.and_eq_true] at h
      rcases List.mem_append.1 hz with hz | hz
      · exact hc h.1 z hz
      · rw [List.mem_singleton.1 hz]; exact he x h.2
    have key := (grow_stepFF he hr e hc (ff, false)).fixed (grow_visitFF he hr rest (pre ++ [x]) _ _ e2 hc2) h rfl
    rw [key] at h
    have ih := visitFF_fixed he hr rest (pre ++ [x]) (cont && em x) e2 hc2 h
    intro mid y post em'
    cases mid with
    | cons w mid =>
      rw [List.cons_append] at em'
      injection em' with e3 e4
      subst e3
      obtain ⟨i1, i2⟩ := ih mid y post e4
      refine ⟨fun hcont hm c hy => i1 ?_ (fun z hz => hm z (by simp [hz])) c hy, i2⟩
      rw [hcont, hm x (by simp)]
      rfl
    | nil =>
      rw [List.nil_append] at em'
      injection em' with e3 e4
      subst e3 e4
      cases x with
      | t d =>
        refine ⟨fun hcont _ c hx => ?_, fun a ha => by cases ha⟩
        unfold stepFF at key
        simp only [hcont, if_true] at key
        rcases hx with hx | ⟨b, hx, _⟩
        · cases hx; exact add_fixed rfl key
        · cases hx
      | n a =>
        have k2 := (grow_orFirst hr e hc (ff, false)).fixed (grow_follow he hr rest [] _ e (by simp)) key rfl
        refine ⟨fun hcont _ c hx => ?_, fun b hb => ?_⟩
        · simp only [hcont, if_true] at k2
          rcases hx with hx | ⟨b, hx, hb⟩
          · cases hx
          · cases hx; exact orSet_fixed rfl k2 c (mem_firstOf.2 hb)
        · cases hb
          unfold stepFF at key
          dsimp only at key
          rw [k2] at key
          exact key

end

theorem fclosed_of_fixed {R : List Rule} {em : Sym → Bool} (he : ∀ x, em x = true → Nullable (Prods R) x) {ff : List FF}
    (h : (visits R).foldl (fun st r => visitFF em r.lhs true r.rhs st) (ff, false) = (ff, false)) : FClosed R em ff := by
  have hf : ∀ r ∈ R, visitFF em r.lhs true r.rhs (ff, false) = (ff, false) := fun r hr =>
    fixed_foldl (S := FMeans R) (fun x hx s => grow_visitFF he (mem_visits.1 hx) x.rhs [] true s rfl (by simp)) rfl h r (mem_visits.2 hr)
  have hv := fun r hr => visitFF_fixed he hr r.rhs [] true rfl (by simp) (hf r hr)
  refine ⟨fun r hr pre x post c e hp hx => (hv r hr pre x post e).1 rfl hp c hx, fun r hr pre a η y post c e hη hy => ?_, fun r hr pre a η c e hη hc => ?_⟩
  · have := (hv r hr pre (.n a) _ e).2 a rfl
    exact (follow_fixed he hr (η ++ y :: post) [] e (by simp) this).1 η y post c rfl hη hy
  · have := (hv r hr pre (.n a) _ e).2 a rfl
    exact (follow_fixed he hr η [] e (by simp) this).2 hη c hc

def allFF (R : List Rule) : List FF :=
  (nonterms R).flatMap (fun n => (codes R).map (.first n)) ++ (nonterms R).flatMap (fun n => (codes R).map (.follow n))

theorem flatMap_const {β γ δ : Type} (l : List β) (m : List γ) (f : β → γ → δ) : (l.flatMap fun x => m.map (f x)).length = l.length * m.length := by
  induction l with
  | nil => simp
  | cons x l ih =>
    rw [List.flatMap_cons, List.length_append, ih, List.length_map, List.length_cons, Nat.succ_mul]
    omega

theorem setFF_some {R : List Rule} {fl : List Flag} (he : ∀ x, .empty x ∈ fl ↔ Nullable (Prods R) x) :
    ∃ ff, setFF R fl = some ff ∧ (∀ f ∈ ff, FMeans R f) ∧ FClosed R (isEmpty fl) ff := by
  have he' : ∀ x, isEmpty fl x = true → Nullable (Prods R) x := fun x h => (he x).1 (of_decide_eq_true h)
  have hg : ∀ s, Grow (FMeans R) s ((visits R).foldl (fun st r => visitFF (isEmpty fl) r.lhs true r.rhs st) s) :=
    fun s => grow_foldl fun x hx s => grow_visitFF he' (mem_visits.1 hx) x.rhs [] true s rfl (by simp)
  have hU : ∀ f, FMeans R f → f ∈ allFF R := by
    intro f hf
    unfold allFF
    cases f with
    | first n c => exact List.mem_append_left _ (List.mem_flatMap.2 ⟨n, hf.2.1, List.mem_map.2 ⟨c, hf.2.2, rfl⟩⟩)
    | follow n c => exact List.mem_append_right _ (List.mem_flatMap.2 ⟨n, hf.2.1, List.mem_map.2 ⟨c, hf.2.2, rfl⟩⟩)
  obtain ⟨ff, h1, h2, h3, h4⟩ := repeatUntil_some hg hU (2 * (nonterms R).length * (codes R).length + 2) [] (by simp) (by simp) (by
    unfold allFF
    rw [List.length_append, flatMap_const, flatMap_const, Nat.mul_assoc, List.length_nil]
    omega)
  exact ⟨ff, h1, h3, fclosed_of_fixed he' h4⟩

/-! ## The sets are exact -/

section
variable {R : List Rule} {fl : List Flag} {ff : List FF}

theorem begins_symbols (he : ∀ x, .empty x ∈ fl ↔ Nullable (Prods R) x) (hm : ∀ f ∈ ff, FMeans R f) (hc : FClosed R (isEmpty fl) ff) {α : List Sym} {c : Int} :
    Begins (Prods R) α (.t c) ↔ ∃ u x v, α = u ++ x :: v ∧ (∀ z ∈ u, Nullable (Prods R) z) ∧ FirstIn ff c x := by
  constructor
  · rintro ⟨β, h⟩
    obtain ⟨u, x, v, e, hu, hx⟩ := gen_begins (t := Sym.t c) (F := fun x => ∃ b, x = .n b ∧ FF.first b c ∈ ff) (by
      rintro x u y v ⟨r, hr, rfl, e⟩ hu hy
      exact ⟨_, rfl, hc.first r hr u y v c e.symm (fun z hz => decide_eq_true ((he z).2 (hu z hz))) hy⟩) (yields_gen h) β rfl
    exact ⟨u, x, v, e, hu, hx⟩
  · rintro ⟨u, x, v, rfl, hu, hx⟩
    refine begins_of hu ?_
    rcases hx with rfl | ⟨b, rfl, hb⟩
    · exact sym_begins c
    · exact (hm _ hb).1

theorem first_iff (he : ∀ x, .empty x ∈ fl ↔ Nullable (Prods R) x) (hm : ∀ f ∈ ff, FMeans R f) (hc : FClosed R (isEmpty fl) ff) (n : List Byte) (c : Int) :
    .first n c ∈ ff ↔ Begins (Prods R) [.n n] (.t c) := by
  refine ⟨fun h => (hm _ h).1, fun h => ?_⟩
  obtain ⟨u, x, v, e, hu, hx⟩ := (begins_symbols he hm hc).1 h
  have : x = .n n := by
    cases u with
    | nil => simp at e; exact e.1.symm
    | cons a u => have := congrArg List.length e; simp at this
  subst this
  rcases hx with hx | ⟨b, hx, hb⟩
  · cases hx
  · cases hx; exact hb

theorem follow_iff (he : ∀ x, .empty x ∈ fl ↔ Nullable (Prods R) x) (hm : ∀ f ∈ ff, FMeans R f) (hc : FClosed R (isEmpty fl) ff) (n : List Byte) (c : Int) :
    .follow n c ∈ ff ↔ Follows (Prods R) (.n n) (.t c) := by
  refine ⟨fun h => (hm _ h).1, fun ⟨b, u, v, h⟩ => ?_⟩
  have hem : ∀ {η : List Sym}, (∀ z ∈ η, Nullable (Prods R) z) → ∀ z ∈ η, isEmpty fl z = true := fun h z hz => decide_eq_true ((he z).2 (h z hz))
  have hfi : ∀ y, Begins (Prods R) [y] (.t c) → FirstIn ff c y := by
    intro y hy
    obtain ⟨u, x, v, e, hu, hx⟩ := (begins_symbols he hm hc).1 hy
    cases u with
    | nil => simp at e; rw [e.1]; exact hx
    | cons a u => have := congrArg List.length e; simp at this
  have := follows_closed (P := Prods R) (t := .t c) (F := fun x => ∃ a, x = .n a ∧ FF.follow a c ∈ ff) (N := fun x => ∃ a, x = .n a)
    (by rintro l rhs ⟨r, _, rfl, _⟩; exact ⟨_, rfl⟩)
    (by
      rintro l u x η y v ⟨a, rfl⟩ ⟨r, hr, rfl, e⟩ hη hb
      exact ⟨a, rfl, hc.next r hr u a η y v c e.symm (hem hη) (hfi y hb)⟩)
    (by
      rintro l u x η ⟨a, rfl⟩ ⟨r, hr, rfl, e⟩ hη ⟨b, hb, hF⟩
      cases hb
      exact ⟨a, rfl, hc.last r hr u a η c e.symm (hem hη) hF⟩) h u (.n n) [] (.t c) v rfl ⟨n, rfl⟩ (by simp) (sym_begins c)
  obtain ⟨a, e, ha⟩ := this
  cases e
  exact ha

/-- The first codes of one symbol. -/
def symCodes (ff : List FF) : Sym → List Int
  | .t c => [c]
  | .n a => ff.filterMap (FF.firstOf a)

theorem lookahead_cons (lhs : List Byte) (x : Sym) (xs : List Sym) :
    lookahead fl ff lhs (x :: xs) = symCodes ff x ++ (if isEmpty fl x then lookahead fl ff lhs xs else []) := by
  cases x <;> rfl

theorem firstIn_symbol {x : Sym} {c : Int} : c ∈ symCodes ff x ↔ FirstIn ff c x := by
  unfold symCodes
  cases x with
  | t d => simp [FirstIn, eq_comm]
  | n a => simp only [mem_firstOf, FirstIn]; simp

theorem lookahead_iff (he : ∀ x, .empty x ∈ fl ↔ Nullable (Prods R) x) (hm : ∀ f ∈ ff, FMeans R f) (hc : FClosed R (isEmpty fl) ff) (lhs : List Byte) (c : Int) :
    ∀ xs : List Sym, c ∈ lookahead fl ff lhs xs ↔ Begins (Prods R) xs (.t c) ∨ (Yields (Prods R) xs [] ∧ Follows (Prods R) (.n lhs) (.t c))
  | [] => by
    unfold lookahead
    rw [mem_followOf, follow_iff he hm hc]
    constructor
    · exact fun h => .inr ⟨.refl, h⟩
    · rintro (h | h)
      · obtain ⟨u, x, v, e, _⟩ := (begins_symbols he hm hc).1 h
        simp at e
      · exact h.2
  | x :: xs => by
    rw [lookahead_cons, List.mem_append, firstIn_symbol]
    have ih := lookahead_iff he hm hc lhs c xs
    constructor
    · rintro (h | h)
      · exact .inl ((begins_symbols he hm hc).2 ⟨[], x, xs, rfl, by simp, h⟩)
      · split at h
        · next hx =>
          have hn : Nullable (Prods R) x := (he x).1 (of_decide_eq_true hx)
          rcases ih.1 h with ⟨β, h⟩ | ⟨h, hf⟩
          · exact .inl ⟨β, Yields.append (α := [x]) (β := []) hn h⟩
          · exact .inr ⟨Yields.append (α := [x]) (β := []) hn h, hf⟩
        · simp at h
    · rintro (h | ⟨h, hf⟩)
      · obtain ⟨u, y, v, e, hu, hy⟩ := (begins_symbols he hm hc).1 h
        cases u with
        | nil =>
          rw [List.nil_append] at e
          injection e with e1 e2
          subst e1
          exact .inl hy
        | cons w u =>
          rw [List.cons_append] at e
          injection e with e1 e2
          subst e1
          right
          rw [if_pos (show isEmpty fl x = true from decide_eq_true ((he x).2 (hu x (by simp))))]
          exact ih.2 (.inl ((begins_symbols he hm hc).2 ⟨u, y, v, e2, fun z hz => hu z (by simp [hz]), hy⟩))
      · have hall := yields_nil h
        right
        rw [if_pos (show isEmpty fl x = true from decide_eq_true ((he x).2 (hall x (by simp))))]
        exact ih.2 (.inr ⟨yields_nulls fun z hz => hall z (by simp [hz]), hf⟩)

end

end Xmq.Yaep
