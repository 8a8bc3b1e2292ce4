import Verif.Lemmas.NsAttrRun
/-!
# Running over an element
-/
namespace Xmq
open Spec

theorem declares_of_declared {seen : List SAttr} {p : Option (List Byte)} {u : List Byte} (h : declared seen p = some u) :
    declares seen p = true := by
  cases hd : declares seen p with
  | true => rfl
  | false => rw [declared_of_declares seen p hd] at h; cases h

/-- Behind the attribute list. -/
abbrev Done (h : List Ns) (env : Env) (d0 d : Option Nat) (pre : Option (List Byte)) (as : List SAttr) (e : NOpen) : Prop :=
  Own h env d0 d pre as [] e

theorem Own.extend_eq {h env d0 d pre as bs e} (w : Own h env d0 d pre as bs e) : extend env as = curEnv env as := by
  funext p
  unfold extend curEnv
  cases hd : declared as p with
  | none => rfl
  | some u =>
    obtain ⟨x, hx, hne⟩ := w.full p (declares_of_declared hd)
    rw [hd] at hx; cases hx
    cases u with
    | nil => exact absurd rfl hne
    | cons => rfl

theorem Own.entry_done {h env d0 d pre as e} (w : Done h env d0 d pre as e) {i : Nat} (hi : i ∈ e.defs) :
    ∃ p u, h[i]? = some ⟨p, some u⟩ ∧ declared as p = some u := by
  rcases w.entry i hi with h1 | ⟨q, -, -, -, h1, -⟩
  · exact h1
  · cases h1

theorem Own.cur_of_env {h env d0 d pre as bs e} (w : Own h env d0 d pre as bs e) {q u : List Byte} (he : env (some q) = some u) :
    curEnv env as (some q) = some u := by
  unfold curEnv
  cases hd : declared as (some q) with
  | none => rw [he]; rfl
  | some x =>
    rcases w.agree q x hd with h1 | h1
    · rw [he] at h1; cases h1
    · rw [he] at h1; cases h1; rfl

/-- Inside the element. -/
theorem Own.known {h env d0 d pre as e o st} (w : Done h env d0 d pre as e) (k : Known h env (o :: st) d0) :
    Known h (extend env as) (e :: o :: st) d := by
  rw [w.extend_eq]
  refine ⟨?_, ?_, ?_, k.xmlHeap, ?_, ?_⟩
  · intro x hx i hi
    rcases List.mem_cons.1 hx with rfl | hx
    · have own : i ∈ x.defs → ∃ p u, h[i]? = some ⟨p, some u⟩ ∧ ∀ q, p = some q → curEnv env as (some q) = some u := by
        intro hi
        obtain ⟨p, u, h1, h2⟩ := w.entry_done hi
        refine ⟨p, u, h1, ?_⟩
        rintro q rfl
        unfold curEnv; rw [h2]; rfl
      rcases hi with hi | hi
      · exact own hi
      · rcases w.nsBound i hi with h1 | ⟨⟨p, u, h1⟩, h2⟩
        · exact own h1
        · refine ⟨p, u, h1, ?_⟩
          rintro q rfl
          exact w.cur_of_env (h2 q u h1)
    · obtain ⟨p, u, h1, h2⟩ := k.bound x hx i hi
      exact ⟨p, u, h1, fun q hq => w.cur_of_env (h2 q hq)⟩
  · intro q u hq hx
    unfold curEnv at hq
    cases hd : declared as (some q) with
    | some y =>
      rw [hd] at hq; cases hq
      obtain ⟨i, hi, h1⟩ := w.has _ _ hd
      exact ⟨e, by simp, i, hi, h1⟩
    | none =>
      rw [hd] at hq
      obtain ⟨x, hx, i, hi, h1⟩ := k.has q u hq hx
      exact ⟨x, by simp only [List.mem_cons] at hx ⊢; exact .inr hx, i, hi, h1⟩
  · exact w.cur_of_env k.xmlEnv
  · intro u hu
    unfold curEnv at hu
    cases hd : declared as none with
    | some y => rw [hd] at hu; cases hu; exact w.dfltSome _ hd
    | none => rw [hd] at hu; rw [w.dfltNone hd]; exact k.dfltSome u hu
  · intro hn
    unfold curEnv at hn
    cases hd : declared as none with
    | some y => rw [hd] at hn; cases hn
    | none => rw [hd] at hn; rw [w.dfltNone hd]; exact k.dfltNone hn

theorem Own.see_decls {h h' env d0 d pre as e} (w : Done h env d0 d pre as e) (x : Ext h h') : nsDecls h' e.defs = declared as := by
  funext p
  have key : ∀ n ∈ e.defs.filterMap (h'[·]?), ∃ u, n.href = some u ∧ declared as n.pre = some u := by
    intro n hn
    obtain ⟨i, hi, h1⟩ := List.mem_filterMap.1 hn
    obtain ⟨q, u, h2, h3⟩ := w.entry_done hi
    rw [x.bound h2] at h1; cases h1
    exact ⟨u, rfl, h3⟩
  unfold nsDecls
  cases hf : (e.defs.filterMap (h'[·]?)).find? (·.pre == p) with
  | some n =>
    obtain ⟨u, h1, h2⟩ := key n (List.mem_of_find?_eq_some hf)
    have h3 := List.find?_some hf
    simp only [beq_iff_eq] at h3
    rw [h3] at h2
    rw [h2]; exact h1
  | none =>
    cases hd : declared as p with
    | none => rfl
    | some u =>
      obtain ⟨i, hi, h1⟩ := w.has p u hd
      have := List.find?_eq_none.1 hf ⟨p, some u⟩ (List.mem_filterMap.2 ⟨i, hi, x.bound h1⟩)
      simp at this

/-- What is seen of the element. -/
theorem Own.see {h h' env d0 d pre as e o st} (w : Done h env d0 d pre as e) (k : Known h env (o :: st) d0) (x : Ext h h')
    (kids : List NNode) :
    seeNode h' (.element e.name e.ns e.defs e.attrs.reverse kids) =
      .element (elementName (extend env as) pre e.name) (declared as) (attributesOf (extend env as) as) (seeNodes h' kids) := by
  have hl : Later h (curEnv env as) e.defs h' (curEnv env as) := by
    refine ⟨x, fun _ _ h => h, fun i hi q hq => ?_⟩
    obtain ⟨p, u, h1, -⟩ := w.entry_done hi
    rw [hq] at h1; cases h1
  have hk := w.known k
  rw [w.extend_eq] at hk ⊢
  rw [seeNode, w.see_decls x, w.attrs h' _ hl]
  congr 1
  cases pre with
  | some p => exact (w.nsSome p rfl).2 h' _ hl
  | none =>
    rw [w.nsNone rfl]
    unfold elementName
    cases hc : curEnv env as none with
    | none => rw [hk.dfltNone hc]; rfl
    | some u =>
      obtain ⟨i, h1, h2⟩ := hk.dfltSome u hc
      rw [h1]
      simp [nsName, x.bound h2]

/-- The tokens of the name make an element without attributes and children. -/
theorem run_name {ns : List Tok} {pre : Option (List Byte)} {name : List Byte} (hn : ElemNameToks ns pre name) {s : NSt} {env : Env}
    {o : NOpen} {st : List NOpen} {as : List SAttr} (rest : List Tok) (hc : NsCalm s) (hs : s.stack = o :: st)
    (k : Known s.heap env (o :: st) s.dflt) (h1 : name ≠ b#"!DOCTYPE") (h2 : name.head? ≠ some b#'?')
    (hp : ∀ p, pre = some p → (env (some p)).isSome = true ∨ declares as (some p) = true) :
    ∃ h' e, nsRun s (ns ++ rest) = nsRun (s.put h' (close e o st) s.dflt) rest ∧ Own h' env s.dflt s.dflt pre [] as e ∧
      Ext s.heap h' ∧ e.isAttr = false ∧ e.name = name ∧ e.kids = [] ∧ e.lastAttr = false := by
  have hpeek : (peek name == b#'?') = false := by
    rw [beq_eq_false_iff_ne]
    intro hh
    cases name with
    | nil => cases hh
    | cons c t => exact h2 (by simpa [peek] using hh)
  have hname : (name == b#"!DOCTYPE") = false := by rw [beq_eq_false_iff_ne]; exact h1
  have empty : ∀ (i : Option Nat) (pr : Option (List Byte)), (pr = none → i = s.dflt) →
      (∀ p, pr = some p → ∃ j u, i = some j ∧ s.heap[j]? = some ⟨some p, some u⟩ ∧ env (some p) = some u) →
      Own s.heap env s.dflt s.dflt pr [] as ⟨false, name, i, [], [], [], false⟩ := by
    intro i pr hnone hsome
    refine ⟨?_, ?_, ?_, ?_, ?_, rfl, ?_, fun _ => rfl, hnone, ?_, ?_, ?_⟩
    · intro i hi; cases hi
    · intro i hi; cases hi
    · intro p u hu; cases hu
    · intro q u hu; cases hu
    · intro p hd; cases hd
    · intro u hu; cases hu
    · intro p hp
      obtain ⟨j, u, rfl, h3, h4⟩ := hsome p hp
      exact ⟨rfl, fun h' cur' l => nsName_eq name (l.ext.bound h3) (l.env p u h4)⟩
    · intro j hj
      simp only at hj
      refine .inr ?_
      cases pr with
      | none =>
        rw [hnone rfl] at hj
        cases he : env none with
        | none => rw [k.dfltNone he] at hj; cases hj
        | some u =>
          obtain ⟨x, h3, h4⟩ := k.dfltSome u he
          rw [h3] at hj; cases hj
          exact ⟨⟨_, _, h4⟩, fun q y hy => by rw [h4] at hy; cases hy⟩
      | some p =>
        obtain ⟨x, u, rfl, h3, h4⟩ := hsome p rfl
        cases hj
        exact ⟨⟨_, _, h3⟩, fun q y hy => by rw [h3] at hy; cases hy; exact h4⟩
    · intro h' cur' l; rfl
  cases hn with
  | plain t ht =>
    refine ⟨s.heap, _, ?_, empty s.dflt none (fun _ => rfl) (fun p hp => by cases hp), Ext.refl _, rfl, rfl, rfl, rfl⟩
    refine nsRun_step ?_
    have : nsStep s t rest = createNode s t.text := by unfold nsStep; rcases ht with ht | ht <;> simp only [ht]
    refine this.trans ?_
    unfold createNode
    simp only [hname, hpeek, Bool.false_eq_true, if_false, hs, hc.elemPre]
    simp [NSt.put, close, hc.elemPre]
  | prefixed p c t hpk hck ht =>
    have s1 : nsStep s p (c :: t :: rest) = some { s with elemPre := some p.text } := by unfold nsStep; simp only [hpk]
    have s2 : nsStep { s with elemPre := some p.text } t rest = createNode { s with elemPre := some p.text } t.text := by
      unfold nsStep; rcases ht with ht | ht <;> simp only [ht]
    have go : ∀ s', createNode { s with elemPre := some p.text } t.text = some s' → nsRun s ([p, c, t] ++ rest) = nsRun s' rest := by
      intro s' h
      simp only [List.cons_append, List.nil_append]
      rw [nsRun_step s1, nsRun_step (step_colon hck), nsRun_step (s2.trans h)]
    have found : ∀ i u, searchNs s.heap p.text false (o :: st) = some i → s.heap[i]? = some ⟨some p.text, some u⟩ →
        env (some p.text) = some u → ∃ h' e, nsRun s ([p, c, t] ++ rest) = nsRun (s.put h' (close e o st) s.dflt) rest ∧
          Own h' env s.dflt s.dflt (some p.text) [] as e ∧ Ext s.heap h' ∧ e.isAttr = false ∧ e.name = t.text ∧ e.kids = [] ∧
          e.lastAttr = false := by
      intro i u h3 h4 h5
      refine ⟨s.heap, _, go _ ?_, empty (some i) (some p.text) (fun h => by cases h)
        (fun q hq => by cases hq; exact ⟨i, u, rfl, h4, h5⟩), Ext.refl _, rfl, rfl, rfl, rfl⟩
      unfold createNode
      simp only [hname, hpeek, Bool.false_eq_true, if_false, hs, h3]
      simp [NSt.put, close, hc.elemPre]
    by_cases hx : p.text = xmlPrefix
    · refine found 0 xmlNamespace (by simp [searchNs, hx]) ?_ ?_
      · rw [hx]; exact k.xmlHeap
      · rw [hx]; exact k.xmlEnv
    · have hsn : searchNs s.heap p.text false (o :: st) = searchUp s.heap p.text false (o :: st) := by
        unfold searchNs; simp [hx]
      cases he : env (some p.text) with
      | some u =>
        obtain ⟨i, h3, h4⟩ := (k.search p.text hx).1 u he
        exact found i u (by rw [hsn, h3]) h4 he
      | none =>
        have h3 := (k.search p.text hx).2 he
        have has : declares as (some p.text) = true := by
          rcases hp p.text rfl with h | h
          · rw [he] at h; cases h
          · exact h
        have hlast := getElem?_last s.heap ⟨some p.text, none⟩
        refine ⟨s.heap ++ [⟨some p.text, none⟩], ⟨false, t.text, some s.heap.length, [s.heap.length], [], [], false⟩, go _ ?_, ?_,
          Ext.append _ _, rfl, rfl, rfl, rfl⟩
        · unfold createNode
          simp only [hname, hpeek, Bool.false_eq_true, if_false, hs, hsn, h3]
          simp [NSt.put, close, hc.elemPre]
        · refine ⟨?_, ?_, ?_, ?_, ?_, rfl, ?_, fun _ => rfl, (fun h => by cases h), ?_, ?_, ?_⟩
          · intro i hi j hj
            simp only [List.mem_singleton] at hi hj
            intros; rw [hi, hj]
          · intro i hi
            simp only [List.mem_singleton] at hi
            subst hi
            exact .inr ⟨p.text, hlast, rfl, he, has, .inl rfl⟩
          · intro x u hu; cases hu
          · intro q u hu; cases hu
          · intro x hd; cases hd
          · intro u hu; cases hu
          · intro q hq
            cases hq
            refine ⟨rfl, fun h' cur' l => ?_⟩
            obtain ⟨u, h4, h5⟩ := l.filled s.heap.length (by simp) p.text hlast
            exact nsName_eq t.text h4 h5
          · intro i hi
            cases hi
            exact .inl (by simp)
          · intro h' cur' l; rfl

/-- The name and the attribute list. -/
theorem run_head {ns as : List Tok} {pre : Option (List Byte)} {name : List Byte} {attrs : Option (List SAttr)}
    (hn : ElemNameToks ns pre name) (ha : MaybeAttributes as attrs) {s : NSt} {env : Env} {root : Bool} {o : NOpen} {st : List NOpen}
    (rest : List Tok) (hc : NsCalm s) (hs : s.stack = o :: st) (k : Known s.heap env (o :: st) s.dflt) (h1 : name ≠ b#"!DOCTYPE")
    (h2 : name.head? ≠ some b#'?')
    (hp : ∀ p, pre = some p → (env (some p)).isSome = true ∨ declares (attrs.getD []) (some p) = true)
    (ht : tameAttrs root env pre [] (attrs.getD []) = true) (hr : root = true → s.dflt = none) :
    ∃ h' e d', nsRun s (ns ++ (as ++ rest)) = nsRun (s.put h' (close e o st) d') rest ∧
      Done h' env s.dflt d' pre (attrs.getD []) e ∧ Ext s.heap h' ∧ e.isAttr = false ∧ e.name = name ∧ e.kids = [] ∧
      (root = false → d' = s.dflt) := by
  obtain ⟨h', e, hrun, own, hext, h3, h4, h5, h6⟩ := run_name hn (as ++ rest) hc hs k h1 h2 hp
  cases ha with
  | none => exact ⟨h', e, s.dflt, by rw [hrun]; rfl, own, hext, h3, h4, h5, fun _ => rfl⟩
  | some l r ts as hl hrk has =>
    have k' : Known h' env ({ o with lastAttr := false } :: st) s.dflt := (k.ext hext).congr rfl rfl
    have hpush := push_close e o st h3
    have he : { e with lastAttr := false } = e := by rw [← h6]
    rw [he] at hpush
    have c1 := hc.put h' (close e o st) s.dflt
    obtain ⟨h'', e', d', hrun', own', hext', same, hd⟩ := run_attributes has
      (s := s.put h' (e :: { o with lastAttr := false } :: st) s.dflt) (r :: rest) (hc.put _ _ _) rfl k' own ht hr
    have he' : e'.isAttr = false := same.isAttr.trans h3
    refine ⟨h'', e', d', ?_, own', hext.trans hext', he', same.name.trans h4, same.kids.trans h5, hd⟩
    rw [hrun]
    simp only [List.cons_append, List.append_assoc, List.nil_append]
    rw [nsRun_step (step_push c1.pi c1.doctype (.inr (.inl hl)) hpush)]
    refine Eq.trans hrun' ?_
    refine (nsRun_step (step_pop (.inr (.inl hrk)) (pop_close e' { o with lastAttr := false } st he'))).trans ?_
    rfl

end Xmq
