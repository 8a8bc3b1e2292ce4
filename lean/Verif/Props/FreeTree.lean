import Verif.Model.FreeTree
/-!
# C99: a parse tree is given back completely and every part of it once
-/
namespace Xmq.Props

open Xmq Xmq.FreeTree

/-- The nodes a node refers to. -/
def succs : Cell → List Nat
  | .leaf => []
  | .anode _ kids => kids
  | .alt s nx => s.toList ++ nx.toList

/-- The name of a node. -/
def nameOf : Cell → Option Nat
  | .anode nm _ => nm
  | _ => none

/-- Whether a node is an alternative. -/
def isAlt : Cell → Bool
  | .alt _ _ => true
  | _ => false

/-- What can be reached from a node. -/
inductive Reach (G : Nat → Cell) : Nat → Nat → Prop
  | refl (n) : Reach G n n
  | step {n c m} : c ∈ succs (G n) → Reach G c m → Reach G n m

theorem Reach.trans {G a b c} (h : Reach G a b) (h' : Reach G b c) : Reach G a c := by
  induction h with
  | refl => exact h'
  | step hc _ ih => exact .step hc (ih h')

/-- A result of the parser: no cycles (`rank` gets smaller along every reference), nodes of rules have names, alternatives have a node,
    and the next of an alternative is one. -/
structure ParseGraph (G : Nat → Cell) (rank : Nat → Nat) : Prop where
  acyclic : ∀ n, ∀ c ∈ succs (G n), rank c < rank n
  named : ∀ n nm kids, G n = .anode nm kids → nm.isSome = true
  alts : ∀ n s nx, G n = .alt s nx → s.isSome = true ∧ ∀ m, nx = some m → isAlt (G m) = true

/-! ## Trees -/

/-- The trees at the given nodes: their nodes and names, in the order in which they are given back. -/
inductive Owns (rank : Nat → Nat) (h : Nat → Cell) : List Nat → List Nat → List Nat → Prop
  | nil : Owns rank h [] [] []
  | leaf {n r l ln} : h n = .leaf → Owns rank h r l ln → Owns rank h (n :: r) (n :: l) ln
  | anode {n nm kids r l1 n1 l2 n2} : h n = .anode nm kids → (∀ k ∈ kids, rank k < rank n) → Owns rank h kids l1 n1 →
      Owns rank h r l2 n2 → Owns rank h (n :: r) (l1 ++ n :: l2) (nm.toList ++ n1 ++ n2)
  | alt {n s nx r l1 n1 l2 n2 l3 n3} : h n = .alt s nx → (∀ k ∈ s.toList ++ nx.toList, rank k < rank n) →
      Owns rank h s.toList l1 n1 → Owns rank h nx.toList l2 n2 → Owns rank h r l3 n3 →
      Owns rank h (n :: r) (l1 ++ n :: (l2 ++ l3)) (n1 ++ n2 ++ n3)

theorem Owns.congr {rank h ns l ln} (o : Owns rank h ns l ln) {h' : Nat → Cell} (e : ∀ m ∈ l, h' m = h m) : Owns rank h' ns l ln := by
  induction o with
  | nil => exact .nil
  | leaf hn _ ih =>
    exact .leaf (by rw [e _ (List.mem_cons_self ..)]; exact hn) (ih fun m hm => e m (List.mem_cons_of_mem _ hm))
  | anode hn hr _ _ ih1 ih2 =>
    refine .anode (by rw [e _ (by simp)]; exact hn) hr (ih1 fun m hm => e m (by simp [hm])) (ih2 fun m hm => e m (by simp [hm]))
  | alt hn hr _ _ _ ih1 ih2 ih3 =>
    exact .alt (by rw [e _ (by simp)]; exact hn) hr (ih1 fun m hm => e m (by simp [hm])) (ih2 fun m hm => e m (by simp [hm]))
      (ih3 fun m hm => e m (by simp [hm]))

theorem Owns.append {rank h a la na b lb nb} (o : Owns rank h a la na) (o' : Owns rank h b lb nb) :
    Owns rank h (a ++ b) (la ++ lb) (na ++ nb) := by
  induction o with
  | nil => exact o'
  | leaf hn _ ih => exact .leaf hn ih
  | anode hn hr h1 _ _ ih2 =>
    have := Owns.anode hn hr h1 ih2
    simpa [List.append_assoc] using this
  | alt hn hr h1 h2 _ _ _ ih3 =>
    have := Owns.alt hn hr h1 h2 ih3
    simpa [List.append_assoc] using this

theorem sweepKids_singleton (rec : Freed → Nat → Option Freed) (fr : Freed) (n : Nat) : sweepKids rec fr [n] = rec fr n := by
  simp only [sweepKids]
  cases rec fr n <;> rfl

theorem sweepKids_cons (rec : Freed → Nat → Option Freed) (fr fr' : Freed) (n : Nat) (r : List Nat) (h : rec fr n = some fr') :
    sweepKids rec fr (n :: r) = sweepKids rec fr' r := by
  simp only [sweepKids, h]

theorem freeNode_new (fr : Freed) (n : Nat) (h : n ∉ fr.nodes) : freeNode fr n = some ⟨fr.nodes ++ [n], fr.names⟩ := by
  unfold freeNode; rw [if_neg h]

/-- Sweeping trees gives back their nodes and names. -/
theorem sweep_owns {rank st ns l ln} (o : Owns rank st.heap ns l ln) (f : Nat) (fr : Freed) (hf : ∀ n ∈ ns, rank n < f)
    (hv : ∀ m ∈ l, st.visited m = true) (hl : (fr.nodes ++ l).Nodup) (hn : (fr.names ++ ln).Nodup) :
    sweepKids (sweep st f) fr ns = some ⟨fr.nodes ++ l, fr.names ++ ln⟩ := by
  induction o generalizing f fr with
  | nil => simp [sweepKids]
  | @leaf n r l ln hcell _ ih =>
    have hrk := hf n (List.mem_cons_self ..)
    cases f with
    | zero => omega
    | succ f =>
      have hnf : n ∉ fr.nodes := by
        intro hm; have := (List.nodup_append.1 hl).2.2 n hm n (List.mem_cons_self ..); exact this rfl
      have h1 : sweep st (f + 1) fr n = some ⟨fr.nodes ++ [n], fr.names⟩ := by
        unfold sweep
        rw [if_neg hnf, if_neg (by rw [hv n (List.mem_cons_self ..)]; decide), hcell]
        exact freeNode_new fr n hnf
      rw [sweepKids_cons _ _ _ _ _ h1, ih (f + 1) ⟨fr.nodes ++ [n], fr.names⟩ (fun m hm => hf m (List.mem_cons_of_mem _ hm))
        (fun m hm => hv m (List.mem_cons_of_mem _ hm)) (by simpa using hl) hn]
      simp
  | @anode n nm kids r l1 n1 l2 n2 hcell hr _ _ ih1 ih2 =>
    have hrk := hf n (List.mem_cons_self ..)
    cases f with
    | zero => omega
    | succ f =>
      have hl' := List.nodup_append.1 hl
      have hnf : n ∉ fr.nodes := fun hm => hl'.2.2 n hm n (by simp) rfl
      have hnm : freeName fr nm = some ⟨fr.nodes, fr.names ++ nm.toList⟩ := by
        cases nm with
        | none => simp [freeName]
        | some x =>
          have hx : x ∉ fr.names := fun hm => (List.nodup_append.1 hn).2.2 x hm x (by simp) rfl
          simp [freeName, hx]
      have e1 := ih1 f ⟨fr.nodes, fr.names ++ nm.toList⟩ (fun k hk => by have := hr k hk; omega) (fun m hm => hv m (by simp [hm]))
        (by
          have : (fr.nodes ++ l1) ++ (n :: l2) = fr.nodes ++ (l1 ++ n :: l2) := by simp
          rw [← this] at hl
          exact (List.nodup_append.1 hl).1)
        (by
          have : (fr.names ++ nm.toList ++ n1) ++ n2 = fr.names ++ (nm.toList ++ n1 ++ n2) := by simp
          rw [← this] at hn
          exact (List.nodup_append.1 hn).1)
      have hnl1 : n ∉ fr.nodes ++ l1 := by
        intro hm
        have e : (fr.nodes ++ l1) ++ (n :: l2) = fr.nodes ++ (l1 ++ n :: l2) := by simp
        rw [← e] at hl
        exact (List.nodup_append.1 hl).2.2 n hm n (List.mem_cons_self ..) rfl
      have h1 : sweep st (f + 1) fr n = some ⟨fr.nodes ++ l1 ++ [n], fr.names ++ nm.toList ++ n1⟩ := by
        unfold sweep
        rw [if_neg hnf, if_neg (by rw [hv n (by simp)]; decide), hcell]
        simp only [hnm, e1]
        exact freeNode_new _ n hnl1
      rw [sweepKids_cons _ _ _ _ _ h1, ih2 (f + 1) _ (fun m hm => hf m (List.mem_cons_of_mem _ hm))
        (fun m hm => hv m (by simp [hm])) (by simpa using hl) (by simpa using hn)]
      simp
  | @alt n s nx r l1 n1 l2 n2 l3 n3 hcell hr _ _ _ ih1 ih2 ih3 =>
    have hrk := hf n (List.mem_cons_self ..)
    cases f with
    | zero => omega
    | succ f =>
      have hl' := List.nodup_append.1 hl
      have hnf : n ∉ fr.nodes := fun hm => hl'.2.2 n hm n (by simp) rfl
      have el : (fr.nodes ++ l1) ++ (n :: (l2 ++ l3)) = fr.nodes ++ (l1 ++ n :: (l2 ++ l3)) := by simp
      have en : (fr.names ++ n1) ++ (n2 ++ n3) = fr.names ++ (n1 ++ n2 ++ n3) := by simp
      have hla := hl
      rw [← el] at hla
      have hna := hn
      rw [← en] at hna
      have hnl1 : n ∉ fr.nodes ++ l1 := fun hm => (List.nodup_append.1 hla).2.2 n hm n (List.mem_cons_self ..) rfl
      have e1 := ih1 f fr (fun k hk => by have := hr k (List.mem_append_left _ hk); omega) (fun m hm => hv m (by simp [hm]))
        (List.nodup_append.1 hla).1 (List.nodup_append.1 hna).1
      have e2 := ih2 f ⟨fr.nodes ++ l1 ++ [n], fr.names ++ n1⟩ (fun k hk => by have := hr k (List.mem_append_right _ hk); omega)
        (fun m hm => hv m (by simp [hm]))
        (by
          have : (fr.nodes ++ l1 ++ [n] ++ l2) ++ l3 = fr.nodes ++ (l1 ++ n :: (l2 ++ l3)) := by simp
          rw [← this] at hl
          exact (List.nodup_append.1 hl).1)
        (by
          have : (fr.names ++ n1 ++ n2) ++ n3 = fr.names ++ (n1 ++ n2 ++ n3) := by simp
          rw [← this] at hn
          exact (List.nodup_append.1 hn).1)
      have h1 : sweep st (f + 1) fr n = some ⟨fr.nodes ++ l1 ++ [n] ++ l2, fr.names ++ n1 ++ n2⟩ := by
        unfold sweep
        rw [if_neg hnf, if_neg (by rw [hv n (by simp)]; decide), hcell]
        have e3 := freeNode_new ⟨fr.nodes ++ l1, fr.names ++ n1⟩ n hnl1
        cases s with
        | none =>
          have e1 : fr = ⟨fr.nodes ++ l1, fr.names ++ n1⟩ := Option.some.inj e1
          have e3' : freeNode fr n = some ⟨fr.nodes ++ l1 ++ [n], fr.names ++ n1⟩ := by
            conv => lhs; rw [e1]
            exact e3
          cases nx with
          | none => simp only [e3']; exact e2
          | some m =>
            simp only [e3']
            rw [← e2]; exact (sweepKids_singleton _ _ _).symm
        | some s =>
          have e1 : sweep st f fr s = some ⟨fr.nodes ++ l1, fr.names ++ n1⟩ := by
            rw [← e1]; exact (sweepKids_singleton _ _ _).symm
          simp only [e1, e3]
          cases nx with
          | none => exact e2
          | some m =>
            rw [← e2]; exact (sweepKids_singleton _ _ _).symm
      rw [sweepKids_cons _ _ _ _ _ h1, ih3 (f + 1) _ (fun m hm => hf m (List.mem_cons_of_mem _ hm))
        (fun m hm => hv m (by simp [hm])) (by simpa using hl) (by simpa using hn)]
      simp

/-! ## Making the tree -/

/-- The state in which nodes of a rank below `k` may be visited. -/
structure Pre (G : Nat → Cell) (rank : Nat → Nat) (st : St) (k : Nat) : Prop where
  unv : ∀ m, st.visited m = false → st.heap m = G m
  edge : ∀ m, st.visited m = true → rank m < k → ∀ s m', st.heap m = .alt s (some m') →
    st.visited m' = true ∧ rank m' < rank m ∧ isAlt (G m') = true
  kind : ∀ m, isAlt (st.heap m) = isAlt (G m)

/-- What a visit of the trees at `ns` does. -/
structure Res (G : Nat → Cell) (rank : Nat → Nat) (st st' : St) (ns l ln : List Nat) : Prop where
  owns : Owns rank st'.heap ns l ln
  nodup : l.Nodup
  nnodup : ln.Nodup
  vis : ∀ m, st'.visited m = true ↔ st.visited m = true ∨ m ∈ l
  new : ∀ m ∈ l, st.visited m = false
  reach : ∀ m ∈ l, ∃ n ∈ ns, Reach G n m
  frame : ∀ m, m ∉ l → st'.heap m = st.heap m
  closed : ∀ m ∈ l, ∀ c ∈ succs (G m), st'.visited c = true
  edge : ∀ m ∈ l, ∀ s m', st'.heap m = .alt s (some m') → st'.visited m' = true ∧ rank m' < rank m ∧ isAlt (G m') = true
  kind : ∀ m, isAlt (st'.heap m) = isAlt (st.heap m)
  bl : ∀ x, st'.blank x = true ↔ st.blank x = true ∨ x ∈ ln
  bnew : ∀ x ∈ ln, st.blank x = false
  bfrom : ∀ x ∈ ln, ∃ m ∈ l, nameOf (G m) = some x
  ball : ∀ m ∈ l, ∀ x, nameOf (G m) = some x → st'.blank x = true

theorem Pre.after {G rank st k st' ns l ln} (p : Pre G rank st k) (r : Res G rank st st' ns l ln) : Pre G rank st' k where
  unv := by
    intro m hm
    have h1 : m ∉ l := fun h => by rw [(r.vis m).2 (.inr h)] at hm; cases hm
    have h2 : st.visited m = false := by
      cases h : st.visited m with
      | false => rfl
      | true => rw [(r.vis m).2 (.inl h)] at hm; cases hm
    rw [r.frame m h1, p.unv m h2]
  edge := by
    intro m hm hk s m' e
    by_cases h1 : m ∈ l
    · exact r.edge m h1 s m' e
    · have h2 : st.visited m = true := ((r.vis m).1 hm).resolve_right h1
      rw [r.frame m h1] at e
      obtain ⟨a, b, c⟩ := p.edge m h2 hk s m' e
      exact ⟨(r.vis m').2 (.inl a), b, c⟩
  kind := fun m => by rw [r.kind m, p.kind m]

theorem Pre.mono {G rank st k k'} (p : Pre G rank st k) (h : k' ≤ k) : Pre G rank st k' :=
  ⟨p.unv, fun m hm hk => p.edge m hm (by omega), p.kind⟩

theorem Res.nil (G rank) (st : St) : Res G rank st st [] [] [] :=
  ⟨.nil, List.nodup_nil, List.nodup_nil, by simp, by simp, by simp, by simp, by simp, by simp, by simp, by simp, by simp, by simp, by simp⟩

theorem Res.append {G rank st st1 st2 a la na b lb nb} (r : Res G rank st st1 a la na) (r' : Res G rank st1 st2 b lb nb) :
    Res G rank st st2 (a ++ b) (la ++ lb) (na ++ nb) := by
  have hd : ∀ m ∈ la, m ∉ lb := fun m h1 h2 => by
    have := r'.new m h2
    rw [(r.vis m).2 (.inr h1)] at this; cases this
  have hdn : ∀ x ∈ na, x ∉ nb := fun x h1 h2 => by
    have := r'.bnew x h2
    rw [(r.bl x).2 (.inr h1)] at this; cases this
  refine ⟨?_, ?_, ?_, ?_, ?_, ?_, ?_, ?_, ?_, ?_, ?_, ?_, ?_, ?_⟩
  · exact (r.owns.congr fun m hm => r'.frame m (hd m hm)).append r'.owns
  · exact List.nodup_append.2 ⟨r.nodup, r'.nodup, fun x hx y hy e => hd x hx (e ▸ hy)⟩
  · exact List.nodup_append.2 ⟨r.nnodup, r'.nnodup, fun x hx y hy e => hdn x hx (e ▸ hy)⟩
  · intro m; rw [r'.vis, r.vis, List.mem_append, or_assoc]
  · intro m hm
    rcases List.mem_append.1 hm with h | h
    · exact r.new m h
    · have := r'.new m h
      cases h0 : st.visited m with
      | false => rfl
      | true => rw [(r.vis m).2 (.inl h0)] at this; cases this
  · intro m hm
    rcases List.mem_append.1 hm with h | h
    · obtain ⟨n, hn, hr⟩ := r.reach m h; exact ⟨n, List.mem_append_left _ hn, hr⟩
    · obtain ⟨n, hn, hr⟩ := r'.reach m h; exact ⟨n, List.mem_append_right _ hn, hr⟩
  · intro m hm
    rw [List.mem_append, not_or] at hm
    rw [r'.frame m hm.2, r.frame m hm.1]
  · intro m hm c hc
    rcases List.mem_append.1 hm with h | h
    · exact (r'.vis c).2 (.inl (r.closed m h c hc))
    · exact r'.closed m h c hc
  · intro m hm s m' e
    rcases List.mem_append.1 hm with h | h
    · rw [r'.frame m (hd m h)] at e
      obtain ⟨x, y, z⟩ := r.edge m h s m' e
      exact ⟨(r'.vis m').2 (.inl x), y, z⟩
    · exact r'.edge m h s m' e
  · intro m; rw [r'.kind, r.kind]
  · intro x; rw [r'.bl, r.bl, List.mem_append, or_assoc]
  · intro x hx
    rcases List.mem_append.1 hx with h | h
    · exact r.bnew x h
    · have := r'.bnew x h
      cases h0 : st.blank x with
      | false => rfl
      | true => rw [(r.bl x).2 (.inl h0)] at this; cases this
  · intro x hx
    rcases List.mem_append.1 hx with h | h
    · obtain ⟨m, hm, e⟩ := r.bfrom x h; exact ⟨m, List.mem_append_left _ hm, e⟩
    · obtain ⟨m, hm, e⟩ := r'.bfrom x h; exact ⟨m, List.mem_append_right _ hm, e⟩
  · intro m hm x e
    rcases List.mem_append.1 hm with h | h
    · exact (r'.bl x).2 (.inl (r.ball m h x e))
    · exact r'.ball m h x e

/-- `free_tree_reduce` for the nodes of small rank. -/
def RecOk (G : Nat → Cell) (rank : Nat → Nat) (k : Nat) (rec : St → Nat → Option St) : Prop :=
  ∀ st c, rank c < k → Pre G rank st (rank c) → st.visited c = false → ∃ st' l ln, rec st c = some st' ∧ Res G rank st st' [c] l ln

theorem reduceKids_ok {G rank k rec} (hrec : RecOk G rank k rec) (kids : List Nat) (hk : ∀ c ∈ kids, rank c < k) (st : St)
    (p : Pre G rank st k) :
    ∃ st' ks l ln, reduceKids rec st kids = some (st', ks) ∧ Res G rank st st' ks l ln ∧ (∀ c ∈ kids, st'.visited c = true) ∧
      ∀ c ∈ ks, c ∈ kids := by
  induction kids generalizing st with
  | nil => exact ⟨st, [], [], [], rfl, Res.nil .., by simp, by simp⟩
  | cons c r ih =>
    have hkr : ∀ c ∈ r, rank c < k := fun x hx => hk x (List.mem_cons_of_mem _ hx)
    cases hv : st.visited c with
    | true =>
      obtain ⟨st', ks, l, ln, e, res, hall, hsub⟩ := ih hkr st p
      refine ⟨st', ks, l, ln, by simp only [reduceKids, hv, if_true]; exact e, res, ?_, fun x hx => List.mem_cons_of_mem _ (hsub x hx)⟩
      intro x hx
      rcases List.mem_cons.1 hx with rfl | hx
      · exact (res.vis x).2 (.inl hv)
      · exact hall x hx
    | false =>
      have hc := hk c (List.mem_cons_self ..)
      obtain ⟨st1, l1, n1, e1, r1⟩ := hrec st c hc (p.mono (by omega)) hv
      obtain ⟨st', ks, l, ln, e, res, hall, hsub⟩ := ih hkr st1 (p.after r1)
      refine ⟨st', c :: ks, l1 ++ l, n1 ++ ln, ?_, r1.append res, ?_, ?_⟩
      · simp only [reduceKids, hv, e1, e]; rfl
      · intro x hx
        rcases List.mem_cons.1 hx with rfl | hx
        · have : x ∈ l1 := by
            cases r1.owns with
            | leaf _ _ => simp
            | anode _ _ _ _ => simp
            | alt _ _ _ _ _ => simp
          exact (res.vis x).2 (.inl ((r1.vis x).2 (.inr this)))
        · exact hall x hx
      · intro x hx
        rcases List.mem_cons.1 hx with rfl | hx
        · exact List.mem_cons_self ..
        · exact List.mem_cons_of_mem _ (hsub x hx)

/-- The visit of a node when the nodes below are done. -/
theorem close_res {G rank} {st st1 st2 : St} {n : Nat} {cell : Cell} {own ns l ln L : List Nat}
    (hn : st.visited n = false) (h1v : st1.visited = put st.visited n true) (h1h : st1.heap = st.heap)
    (hb : ∀ x, st1.blank x = true ↔ st.blank x = true ∨ x ∈ own) (hon : own.Nodup) (hob : ∀ x ∈ own, st.blank x = false)
    (hof : ∀ x ∈ own, nameOf (G n) = some x) (hoa : ∀ x, nameOf (G n) = some x → st1.blank x = true)
    (r : Res G rank st1 st2 ns l ln) (hns : ∀ c ∈ ns, c ∈ succs (G n)) (hall : ∀ c ∈ succs (G n), st2.visited c = true)
    (hk : isAlt cell = isAlt (st.heap n))
    (he : ∀ s m', cell = .alt s (some m') → st2.visited m' = true ∧ rank m' < rank n ∧ isAlt (G m') = true)
    (ho : n ∉ l → Owns rank (put st2.heap n cell) [n] L (own ++ ln)) (hp : L.Perm (n :: l)) :
    Res G rank st { st2 with heap := put st2.heap n cell } [n] L (own ++ ln) := by
  have hnl : n ∉ l := fun h => by
    have := r.new n h
    rw [h1v] at this; simp [put] at this
  have hm : ∀ m, m ∈ L ↔ m = n ∨ m ∈ l := fun m => by rw [hp.mem_iff, List.mem_cons]
  have hv1 : ∀ m, st1.visited m = true ↔ m = n ∨ st.visited m = true := by
    intro m; rw [h1v]; unfold put; by_cases e : m = n <;> simp [e]
  have hdn : ∀ x ∈ own, x ∉ ln := fun x h1 h2 => by
    have := r.bnew x h2
    rw [(hb x).2 (.inr h1)] at this; cases this
  have hput : ∀ m, m ≠ n → put st2.heap n cell m = st2.heap m := fun m e => by unfold put; rw [if_neg e]
  have hputn : put st2.heap n cell n = cell := by unfold put; rw [if_pos rfl]
  refine ⟨ho hnl, ?_, ?_, ?_, ?_, ?_, ?_, ?_, ?_, ?_, ?_, ?_, ?_, ?_⟩
  · exact hp.nodup_iff.2 (List.nodup_cons.2 ⟨hnl, r.nodup⟩)
  · exact List.nodup_append.2 ⟨hon, r.nnodup, fun x hx y hy e => hdn x hx (e ▸ hy)⟩
  · intro m
    show st2.visited m = true ↔ _
    rw [r.vis, hv1, hm]
    constructor
    · rintro ((h | h) | h)
      · exact .inr (.inl h)
      · exact .inl h
      · exact .inr (.inr h)
    · rintro (h | h | h)
      · exact .inl (.inr h)
      · exact .inl (.inl h)
      · exact .inr h
  · intro m h
    rcases (hm m).1 h with rfl | h
    · exact hn
    · have := r.new m h
      cases h0 : st.visited m with
      | false => rfl
      | true => rw [(hv1 m).2 (.inr h0)] at this; cases this
  · intro m h
    refine ⟨n, List.mem_singleton.2 rfl, ?_⟩
    rcases (hm m).1 h with rfl | h
    · exact .refl _
    · obtain ⟨c, hc, hr⟩ := r.reach m h
      exact .step (hns c hc) hr
  · intro m h
    rw [hm, not_or] at h
    show put st2.heap n cell m = _
    rw [hput m h.1, r.frame m h.2, h1h]
  · intro m h c hc
    show st2.visited c = true
    rcases (hm m).1 h with rfl | h
    · exact hall c hc
    · exact r.closed m h c hc
  · intro m h s m' e
    show st2.visited m' = true ∧ _
    have e : put st2.heap n cell m = .alt s (some m') := e
    by_cases hmn : m = n
    · subst hmn
      rw [hputn] at e
      exact he s m' e
    · rw [hput m hmn] at e
      exact r.edge m (((hm m).1 h).resolve_left hmn) s m' e
  · intro m
    show isAlt (put st2.heap n cell m) = _
    by_cases hmn : m = n
    · subst hmn; rw [hputn, hk]
    · rw [hput m hmn, r.kind, h1h]
  · intro x
    show st2.blank x = true ↔ _
    rw [r.bl, hb, List.mem_append, or_assoc]
  · intro x hx
    rcases List.mem_append.1 hx with h | h
    · exact hob x h
    · have := r.bnew x h
      cases h0 : st.blank x with
      | false => rfl
      | true => rw [(hb x).2 (.inl h0)] at this; cases this
  · intro x hx
    rcases List.mem_append.1 hx with h | h
    · exact ⟨n, (hm n).2 (.inl rfl), hof x h⟩
    · obtain ⟨m, h1, h2⟩ := r.bfrom x h
      exact ⟨m, (hm m).2 (.inr h1), h2⟩
  · intro m h x e
    show st2.blank x = true
    rcases (hm m).1 h with rfl | h
    · exact (r.bl x).2 (.inl (hoa x e))
    · exact r.ball m h x e

/-- The loop over the alternatives that were visited comes to an end, with nothing or with the alternative that was not visited. -/
theorem skip_ok {G rank st k} (p : Pre G rank st k) (f : Nat) (m : Nat) (hf : rank m < f) (hk : rank m < k) (ha : isAlt (G m) = true) :
    skipVisited st f (some m) = some (if st.visited m then none else some m) := by
  induction f generalizing m with
  | zero => omega
  | succ f ih =>
    unfold skipVisited
    cases hv : st.visited m with
    | false => simp
    | true =>
      have hkind := p.kind m
      rw [ha] at hkind
      cases hc : st.heap m with
      | leaf => rw [hc] at hkind; cases hkind
      | anode _ _ => rw [hc] at hkind; cases hkind
      | alt s nx =>
        simp only [if_true]
        cases nx with
        | none => cases f <;> rfl
        | some m' =>
          obtain ⟨a, b, c⟩ := p.edge m hv hk s m' hc
          rw [ih m' (by omega) (by omega) c, a]; rfl

theorem reduce_ok {G rank} (wf : ParseGraph G rank) (f : Nat) : RecOk G rank f (reduce f) := by
  induction f with
  | zero => intro st c h; omega
  | succ f ih =>
    intro st n hr p hv
    have hG := p.unv n hv
    let st1 : St := { st with visited := put st.visited n true }
    have p1 : Pre G rank st1 (rank n) := by
      refine ⟨?_, ?_, p.kind⟩
      · intro m hm
        have : st.visited m = false := by
          have hm : put st.visited n true m = false := hm
          unfold put at hm
          split at hm
          · cases hm
          · exact hm
        exact p.unv m this
      · intro m hm hk s m' e
        have hmn : m ≠ n := fun e => by subst e; omega
        have hm' : st.visited m = true := by
          have hm : put st.visited n true m = true := hm
          unfold put at hm; rw [if_neg hmn] at hm; exact hm
        obtain ⟨a, b, c⟩ := p.edge m hm' hk s m' e
        refine ⟨?_, b, c⟩
        show put st.visited n true m' = true
        unfold put; split
        · rfl
        · exact a
    have hrec : RecOk G rank (rank n) (reduce f) := fun st c hc => ih st c (by omega)
    have hst1v : st1.visited n = true := by show put st.visited n true n = true; unfold put; rw [if_pos rfl]
    cases hcell : st.heap n with
    | leaf =>
      have hGl : G n = .leaf := by rw [← hG, hcell]
      have hh : put st.heap n .leaf = st.heap := by
        funext m; unfold put; split
        · rename_i e; rw [e, hcell]
        · rfl
      have r := close_res (G := G) (rank := rank) (st := st) (st1 := st1) (st2 := st1) (n := n) (cell := .leaf) (own := []) (ns := [])
        (l := []) (ln := []) (L := [n]) hv rfl rfl (by simp [st1]) List.nodup_nil (by simp) (by simp)
        (by intro x e; rw [hGl] at e; cases e) (Res.nil ..) (by simp) (by rw [hGl]; simp [succs]) (by rw [hcell])
        (by intro s m' e; cases e) (by intro _; exact .leaf (by unfold put; rw [if_pos rfl]) .nil) (List.Perm.refl _)
      refine ⟨st1, [n], [], ?_, ?_⟩
      · unfold reduce; rw [hv, hcell]; rfl
      · have e : ({ st1 with heap := put st1.heap n .leaf } : St) = st1 := by
          show (⟨put st.heap n .leaf, _, _⟩ : St) = ⟨st.heap, _, _⟩
          rw [hh]
        rw [e] at r; exact r
    | anode nm kids =>
      have hGa : G n = .anode nm kids := by rw [← hG, hcell]
      cases nm with
      | none => have := wf.named n none kids hGa; cases this
      | some nm =>
        let st1b : St := { st1 with blank := put st.blank nm true }
        have p1b : Pre G rank st1b (rank n) := ⟨p1.unv, p1.edge, p1.kind⟩
        have hkr : ∀ c ∈ kids, rank c < rank n := fun c hc => wf.acyclic n c (by rw [hGa]; exact hc)
        obtain ⟨st2, ks, l, ln, e, r, hall, hsub⟩ := reduceKids_ok hrec kids hkr st1b p1b
        have hbl : ∀ x, st1b.blank x = true ↔ st.blank x = true ∨ x ∈ (if st.blank nm then none else some nm : Option Nat).toList := by
          intro x
          show put st.blank nm true x = true ↔ _
          unfold put
          by_cases hx : x = nm
          · subst hx; cases hbx : st.blank x <;> simp
          · rw [if_neg hx]
            cases hbx : st.blank nm <;> simp [hx]
        have r' := close_res (G := G) (rank := rank) (st := st) (st1 := st1b) (st2 := st2) (n := n)
          (cell := .anode (if st.blank nm then none else some nm) ks) (own := (if st.blank nm then none else some nm : Option Nat).toList)
          (L := l ++ [n]) hv rfl rfl hbl (by split <;> simp)
          (by intro x hx; cases hbx : st.blank nm <;> simp [hbx] at hx; rw [hx, hbx])
          (by intro x hx; cases hbx : st.blank nm <;> simp [hbx] at hx; rw [hx, hGa]; rfl)
          (by
            intro x hx; rw [hGa] at hx
            have hx : nm = x := Option.some.inj hx
            show put st.blank nm true x = true
            unfold put; rw [if_pos hx.symm])
          r (by intro c hc; rw [hGa]; exact hsub c hc) (by intro c hc; rw [hGa] at hc; exact hall c hc) (by rw [hcell]; rfl)
          (by intro s m' e; cases e)
          (by
            intro hnl
            have o := Owns.anode (rank := rank) (h := put st2.heap n (.anode (if st.blank nm then none else some nm) ks)) (n := n)
              (nm := if st.blank nm then none else some nm) (kids := ks) (by unfold put; rw [if_pos rfl])
              (fun k hk => hkr k (hsub k hk))
              (r.owns.congr (fun m hm => by unfold put; rw [if_neg (fun e : m = n => hnl (e ▸ hm))])) Owns.nil
            simpa using o)
          (List.perm_append_comm.trans (List.Perm.refl _))
        refine ⟨_, _, _, ?_, r'⟩
        unfold reduce; rw [hv, hcell]
        simp only [Bool.false_eq_true, if_false]
        have e' : reduceKids (reduce f) { ({ st with visited := put st.visited n true } : St) with blank := put st.blank nm true } kids =
          some (st2, ks) := e
        rw [e']
    | alt s nx =>
      have hGa : G n = .alt s nx := by rw [← hG, hcell]
      obtain ⟨hs, hnx⟩ := wf.alts n s nx hGa
      cases s with
      | none => cases hs
      | some s =>
        have hsr : rank s < rank n := wf.acyclic n s (by rw [hGa]; simp [succs])
        have hsub : ∃ st2 s' l1 n1, (if st1.visited s then some (st1, none) else (reduce f st1 s).map fun st2 => (st2, some s)) =
            some (st2, s') ∧ Res G rank st1 st2 s'.toList l1 n1 ∧ st2.visited s = true ∧ (∀ c ∈ s'.toList, c = s) := by
          cases hvs : st1.visited s with
          | true => exact ⟨st1, none, [], [], by simp, Res.nil .., hvs, by simp⟩
          | false =>
            obtain ⟨st2, l1, n1, e, r⟩ := hrec st1 s hsr (p1.mono (by omega)) hvs
            refine ⟨st2, some s, l1, n1, by simp [e], r, ?_, by simp⟩
            have : s ∈ l1 := by
              cases r.owns with
              | leaf _ _ => simp
              | anode _ _ _ _ => simp
              | alt _ _ _ _ _ => simp
            exact (r.vis s).2 (.inr this)
        obtain ⟨st2, s', l1, n1, e1, r1, hs2, hs'⟩ := hsub
        have p2 := p1.after r1
        have hnext : ∃ st3 nx' l2 n2, Res G rank st2 st3 nx'.toList l2 n2 ∧ (∀ c ∈ nx.toList, st3.visited c = true) ∧
            (∀ c ∈ nx'.toList, c ∈ nx.toList) ∧
            ((nx' = none ∧ skipVisited st2 f nx = some none ∧ st3 = st2) ∨
              ∃ m, nx' = some m ∧ skipVisited st2 f nx = some (some m) ∧ reduce f st2 m = some st3) := by
          cases nx with
          | none => exact ⟨st2, none, [], [], Res.nil .., by simp, by simp, .inl ⟨rfl, by cases f <;> rfl, rfl⟩⟩
          | some m =>
            have hmr : rank m < rank n := wf.acyclic n m (by rw [hGa]; simp [succs])
            have hsk := skip_ok p2 f m (by omega) hmr (hnx m rfl)
            cases hvm : st2.visited m with
            | true =>
              rw [hvm] at hsk
              exact ⟨st2, none, [], [], Res.nil .., by simpa using hvm, by simp, .inl ⟨rfl, hsk, rfl⟩⟩
            | false =>
              rw [hvm] at hsk
              obtain ⟨st3, l2, n2, e, r⟩ := hrec st2 m hmr (p2.mono (by omega)) hvm
              refine ⟨st3, some m, l2, n2, r, ?_, by simp, .inr ⟨m, rfl, hsk, e⟩⟩
              have : m ∈ l2 := by
                cases r.owns with
                | leaf _ _ => simp
                | anode _ _ _ _ => simp
                | alt _ _ _ _ _ => simp
              intro c hc
              have hc : c = m := by simpa using hc
              rw [hc]; exact (r.vis m).2 (.inr this)
        obtain ⟨st3, nx', l2, n2, r2, hv3, hsub3, hcase⟩ := hnext
        have r12 := r1.append r2
        have r' := close_res (G := G) (rank := rank) (st := st) (st1 := st1) (st2 := st3) (n := n)
          (cell := .alt s' nx') (own := []) (L := l1 ++ n :: l2) hv rfl rfl (by simp [st1]) List.nodup_nil (by simp) (by simp)
          (by intro x hx; rw [hGa] at hx; cases hx) r12
          (by
            intro c hc; rw [hGa]
            rcases List.mem_append.1 hc with h | h
            · rw [hs' c h]; simp [succs]
            · exact List.mem_append_right _ (hsub3 c h))
          (by
            intro c hc; rw [hGa] at hc
            rcases List.mem_append.1 hc with h | h
            · have : c = s := by simpa using h
              rw [this]; exact (r2.vis s).2 (.inl hs2)
            · exact hv3 c h)
          (by rw [hcell]; rfl)
          (by
            intro a m' e
            have e : nx' = some m' := by injection e
            have hm : m' ∈ nx.toList := hsub3 m' (by rw [e]; simp)
            refine ⟨hv3 m' hm, wf.acyclic n m' (by rw [hGa]; exact List.mem_append_right _ hm), hnx m' (by simpa using hm)⟩)
          (by
            intro hnl
            rw [List.mem_append, not_or] at hnl
            have hd : ∀ m ∈ l1, m ∉ l2 := fun m h1 h2 => by
              have := r2.new m h2
              rw [(r1.vis m).2 (.inr h1)] at this; cases this
            have o := Owns.alt (rank := rank) (h := put st3.heap n (.alt s' nx')) (n := n) (s := s') (nx := nx') (by unfold put; rw [if_pos rfl])
              (by
                intro k hk
                rcases List.mem_append.1 hk with h | h
                · rw [hs' k h]; exact hsr
                · exact wf.acyclic n k (by rw [hGa]; exact List.mem_append_right _ (hsub3 k h)))
              (r1.owns.congr (fun m hm => by unfold put; rw [if_neg (fun e : m = n => hnl.1 (e ▸ hm)), r2.frame m (hd m hm)]))
              (r2.owns.congr (fun m hm => by unfold put; rw [if_neg (fun e : m = n => hnl.2 (e ▸ hm))])) Owns.nil
            simpa using o)
          (by exact List.perm_middle)
        refine ⟨_, _, _, ?_, r'⟩
        unfold reduce; rw [hv, hcell]
        simp only [Bool.false_eq_true, if_false]
        have e1' : (if (put st.visited n true) s = true then some (({ st with visited := put st.visited n true } : St), none)
          else (reduce f { st with visited := put st.visited n true } s).map fun st2 => (st2, some s)) = some (st2, s') := e1
        rw [e1']
        rcases hcase with ⟨hx, hsk, h3⟩ | ⟨m, hx, hsk, h3⟩
        · simp only [hsk, hx, h3]
        · simp only [hsk, hx, h3]

/-! ## The theorem -/

/-- A parse graph is given back without using anything twice: every node that can be reached exactly once, every name that has a
    character exactly once, and nothing else. -/
theorem C99_once (G : Nat → Cell) (rank : Nat → Nat) (wf : ParseGraph G rank) (blank : Nat → Bool) (root fuel : Nat)
    (hf : rank root < fuel) :
    ∃ fr, freeTree fuel G blank root = some fr ∧ fr.nodes.Nodup ∧ fr.names.Nodup ∧
      (∀ m, m ∈ fr.nodes ↔ Reach G root m) ∧
      (∀ x, x ∈ fr.names ↔ blank x = false ∧ ∃ m, Reach G root m ∧ nameOf (G m) = some x) := by
  obtain ⟨st, l, ln, e, r⟩ := reduce_ok wf fuel ⟨G, fun _ => false, blank⟩ root hf
    ⟨fun _ _ => rfl, fun m hm => by simp at hm, fun _ => rfl⟩ rfl
  have hs := sweep_owns r.owns fuel ⟨[], []⟩ (by intro n hn; rw [List.mem_singleton.1 hn]; exact hf)
    (fun m hm => (r.vis m).2 (.inr hm)) (by simpa using r.nodup) (by simpa using r.nnodup)
  rw [sweepKids_singleton] at hs
  have hmem : ∀ m, m ∈ l ↔ Reach G root m := by
    intro m
    constructor
    · intro hm
      obtain ⟨n, hn, hr⟩ := r.reach m hm
      rw [List.mem_singleton.1 hn] at hr
      exact hr
    · have hvl : ∀ m, st.visited m = true → m ∈ l := fun m hm => ((r.vis m).1 hm).resolve_left (by simp)
      have hroot : root ∈ l := by
        cases r.owns with
        | leaf _ _ => simp
        | anode _ _ _ _ => simp
        | alt _ _ _ _ _ => simp
      intro hr
      have key : ∀ a b, Reach G a b → a ∈ l → b ∈ l := by
        intro a b h
        induction h with
        | refl => exact id
        | step hc _ ih => intro ha; exact ih (hvl _ (r.closed _ ha _ hc))
      exact key root m hr hroot
  refine ⟨⟨l, ln⟩, by unfold freeTree; rw [e]; simpa using hs, r.nodup, r.nnodup, hmem, ?_⟩
  intro x
  constructor
  · intro hx
    obtain ⟨m, hm, e⟩ := r.bfrom x hx
    exact ⟨r.bnew x hx, m, (hmem m).1 hm, e⟩
  · rintro ⟨hb, m, hm, e⟩
    have h1 := r.ball m ((hmem m).2 hm) x e
    rcases (r.bl x).1 h1 with h | h
    · have h : blank x = true := h
      rw [hb] at h; cases h
    · exact h

/-- A graph with two readings that share a node, a terminal and a name. -/
def shared99 : Nat → Cell
  | 9 => .anode (some 1) [8, 2]
  | 8 => .alt (some 6) (some 7)
  | 7 => .alt (some 5) none
  | 6 => .anode (some 2) [2, 3, 2]
  | 5 => .anode (some 2) [3, 2]
  | _ => .leaf

example : ParseGraph shared99 id := by
  have key : ∀ n, (n = 9 ∨ n = 8 ∨ n = 7 ∨ n = 6 ∨ n = 5) ∨ shared99 n = .leaf := by
    intro n
    by_cases h : n = 9 ∨ n = 8 ∨ n = 7 ∨ n = 6 ∨ n = 5
    · exact .inl h
    · refine .inr ?_
      unfold shared99
      split <;> simp_all
  refine ⟨?_, ?_, ?_⟩
  · intro n c hc
    rcases key n with (rfl | rfl | rfl | rfl | rfl) | h
    · revert c; decide
    · revert c; decide
    · revert c; decide
    · revert c; decide
    · revert c; decide
    · rw [h] at hc; cases hc
  · intro n nm kids e
    rcases key n with (rfl | rfl | rfl | rfl | rfl) | h
    all_goals first | (rw [h] at e; cases e) | (cases e; rfl) | cases e
  · intro n s nx e
    rcases key n with (rfl | rfl | rfl | rfl | rfl) | h
    all_goals first | (rw [h] at e; cases e) | (cases e; exact ⟨rfl, fun m hm => by cases hm <;> rfl⟩) | cases e

example : freeTree 10 shared99 (fun _ => false) 9 = some ⟨[2, 3, 6, 8, 5, 7, 9], [1, 2]⟩ := by decide +kernel

/-- The claim that all names are given back. -/
def NamesFreed : Prop :=
  ∀ (G : Nat → Cell) (rank : Nat → Nat), ParseGraph G rank → ∀ blank root fuel fr, rank root < fuel → freeTree fuel G blank root = some fr →
    ∀ m x, Reach G root m → nameOf (G m) = some x → x ∈ fr.names

/-- A name without characters is not given back. -/
theorem C99_blank_false : ¬ NamesFreed := by
  intro h
  let G : Nat → Cell := fun n => if n = 1 then .anode (some 7) [] else .leaf
  have wf : ParseGraph G id := by
    refine ⟨?_, ?_, ?_⟩
    · intro n c hc
      by_cases hn : n = 1 <;> simp [G, hn, succs] at hc
    · intro n nm kids e
      by_cases hn : n = 1
      · simp [G, hn] at e; rw [← e.1]; rfl
      · simp [G, hn] at e
    · intro n s nx e
      by_cases hn : n = 1 <;> simp [G, hn] at e
  have := h G id wf (fun _ => true) 1 2 ⟨[1], []⟩ (by decide) (by decide +kernel) 1 7 (.refl 1) (by decide +kernel)
  cases this

end Xmq.Props
