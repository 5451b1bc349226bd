import Verif.Lemmas.ElabPolyeqReord
import Verif.Lemmas.ElabCong
import Verif.Lemmas.IdHelper
import Verif.Props.C57

/-! # Facts about the elaboration of equalities modulo reordering -/

namespace Carcara

open Spec

theorem IdHelper.nextId_same {h : IdHelper} (hs : h.stack ≠ []) :
    ∃ id h', h.nextId = .ok (id, h') ∧ h'.stack.length = h.stack.length := by
  obtain ⟨t, ht⟩ := IdHelper.bump_isSome hs
  refine ⟨h.root ++ suffix h.stack, { h with stack := t }, ?_, IdHelper.bump_length ht⟩
  simp [IdHelper.nextId, ht, orPanic, bind, Except.bind]

/-- What holds between two calls of the elaborator. -/
structure PolyElab.Inv (E : TableEnv) (el : Bool) (p : PolyElab) : Prop where
  ne : p.cache.scopes ≠ []
  ids : p.ids.stack.length = p.cache.scopes.length
  cache : ∀ i scope, p.cache.scopes[i]? = some scope → ∀ e ∈ scope, e.2.clause = [eqTerm e.1] ∧ p.root ≤ e.2.depth ∧
    e.2.depth ≤ p.root + i ∧ Accepted E el [] e.2

/-- The level of the elaborator did not change. -/
def PolyElab.Level (p p' : PolyElab) : Prop := p'.root = p.root ∧ p'.cache.scopes.length = p.cache.scopes.length

theorem PolyElab.Level.depth {p p' : PolyElab} (h : p.Level p') : p'.depth = p.depth := by
  simp [PolyElab.depth, HashMapStack.height, h.1, h.2]

theorem PolyElab.Level.trans {p p' p'' : PolyElab} (h : p.Level p') (h' : p'.Level p'') : p.Level p'' :=
  ⟨h'.1.trans h.1, h'.2.trans h.2⟩

/-- A node that proves the equality at a level. -/
structure Proves (E : TableEnv) (el : Bool) (p : PolyElab) (a b : Term) (n : Node) : Prop where
  clause : n.clause = [eqTerm (a, b)]
  low : p.root ≤ n.depth
  high : n.depth ≤ p.depth
  ok : Accepted E el [] n

/-- A call succeeds, with a proof of the equality. -/
def Works (E : TableEnv) (el : Bool) (r : Res (Node × PolyElab)) (a b : Term) (p : PolyElab) : Prop :=
  ∃ n p', r = .ok (n, p') ∧ p'.Inv E el ∧ p.Level p' ∧ Proves E el p a b n

/-- The same, with a node at the current level. -/
def WorksAt (E : TableEnv) (el : Bool) (r : Res (Node × PolyElab)) (a b : Term) (p : PolyElab) : Prop :=
  ∃ n p', r = .ok (n, p') ∧ p'.Inv E el ∧ p.Level p' ∧ Proves E el p a b n ∧ n.depth = p.depth

variable {E : TableEnv} {el : Bool}

theorem WorksAt.works {r : Res (Node × PolyElab)} {a b : Term} {p : PolyElab} (h : WorksAt E el r a b p) : Works E el r a b p := by
  obtain ⟨n, p', h1, h2, h3, h4, _⟩ := h
  exact ⟨n, p', h1, h2, h3, h4⟩

theorem PolyElab.Inv.root_le {p : PolyElab} (h : p.Inv E el) : p.root ≤ p.depth := by
  have := List.length_pos_iff.2 h.ne
  unfold PolyElab.depth HashMapStack.height
  omega

theorem PolyElab.Inv.withIds {p : PolyElab} (h : p.Inv E el) {ids : IdHelper} (hi : ids.stack.length = p.ids.stack.length) :
    PolyElab.Inv E el { p with ids } := ⟨h.ne, hi.trans h.ids, h.cache⟩

theorem PolyElab.Inv.ids_ne {p : PolyElab} (h : p.Inv E el) : p.ids.stack ≠ [] := by
  intro h'
  have := h.ids
  rw [h'] at this
  exact h.ne (List.length_eq_zero_iff.1 this.symm)

theorem addStep_ok {p : PolyElab} (h : p.Inv E el) (c : List Term) (r : String) (ps : List Node) :
    ∃ id p', p.addStep c r ps = .ok (.step ⟨id, p.depth, c, r, []⟩ ps [] none, p') ∧ p'.Inv E el ∧ p.Level p' := by
  obtain ⟨id, ids, e, hl⟩ := IdHelper.nextId_same h.ids_ne
  refine ⟨id, { p with ids }, ?_, h.withIds hl, rfl, rfl⟩
  unfold PolyElab.addStep
  rw [e]
  rfl

/-- A step at the current level. -/
theorem addStep_works {p : PolyElab} (h : p.Inv E el) {a b : Term} {r : String} {ps : List Node} (hps : ∀ q ∈ ps, Accepted E el [] q)
    (hd : ∀ q ∈ ps, q.depth ≤ p.depth) (hok : ∀ id, StepOK E el ⟨id, p.depth, [eqTerm (a, b)], r, []⟩ ps) :
    WorksAt E el (p.addStep [eqTerm (a, b)] r ps) a b p := by
  obtain ⟨id, p', e, hi, hl⟩ := addStep_ok h [eqTerm (a, b)] r ps
  exact ⟨_, p', e, hi, hl, ⟨rfl, h.root_le, Nat.le_refl _, .step hps hd (hok id)⟩, rfl⟩

/-! ## Pairs of argument lists -/

/-- The pairs of terms that are not identical. -/
def diffPairs : List Term → List Term → List (Term × Term)
  | a :: as, b :: bs => if a = b then diffPairs as bs else (a, b) :: diffPairs as bs
  | _, _ => []

theorem diffPairs_ne : ∀ {as bs : List Term} {e : Term × Term}, e ∈ diffPairs as bs → e.1 ≠ e.2
  | a :: as, b :: bs, e, h => by
    unfold diffPairs at h
    split at h
    · exact diffPairs_ne h
    · next hab =>
      rcases List.mem_cons.1 h with rfl | h
      · exact hab
      · exact diffPairs_ne h
  | [], _, _, h => by simp [diffPairs] at h
  | _ :: _, [], _, h => by simp [diffPairs] at h

theorem diffPairs_nil : ∀ {as bs : List Term}, as.length = bs.length → diffPairs as bs = [] → as = bs
  | [], [], _, _ => rfl
  | [], _ :: _, h, _ => by simp at h
  | _ :: _, [], h, _ => by simp at h
  | a :: as, b :: bs, hl, h => by
    unfold diffPairs at h
    split at h
    · next hab => rw [hab, diffPairs_nil (by simpa using hl) h]
    · simp at h

theorem checkCong_diffPairs : ∀ {as bs : List Term}, as.length = bs.length → checkCong (diffPairs as bs) as bs = .ok ()
  | [], [], _ => rfl
  | [], _ :: _, h => by simp at h
  | _ :: _, [], h => by simp at h
  | a :: as, b :: bs, hl => by
    have ih := checkCong_diffPairs (as := as) (bs := bs) (by simpa using hl)
    by_cases hab : a = b
    · rw [diffPairs, if_pos hab]
      cases hd : diffPairs as bs with
      | nil => rw [checkCong, if_pos hab, ← hd, ih]
      | cons e es =>
        obtain ⟨t, u⟩ := e
        have hne : t ≠ u := diffPairs_ne (as := as) (bs := bs) (e := (t, u)) (by rw [hd]; simp)
        rw [checkCong, if_neg, if_pos hab, ← hd, ih]
        rintro (⟨rfl, rfl⟩ | ⟨rfl, rfl⟩) <;> exact hne (by simp [hab])
    · rw [diffPairs, if_neg hab, checkCong, if_pos (.inl ⟨rfl, rfl⟩), ih]

theorem differing_ok {go : ElabCall} {S : Term → Term → Prop} : ∀ {as bs : List Term} {p : PolyElab}, List.Forall₂ S as bs →
    (∀ a ∈ as, ∀ b ∈ bs, S a b → ∀ p : PolyElab, p.Inv E el → Works E el (go a b p) a b p) → p.Inv E el →
    ∃ ns p', differing go as bs p = .ok (ns, p') ∧ p'.Inv E el ∧ p.Level p' ∧ ns.map Node.clause = (diffPairs as bs).map (fun e => [eqTerm e]) ∧
      ∀ n ∈ ns, Accepted E el [] n ∧ n.depth ≤ p.depth
  | _, _, p, .nil, _, hp => ⟨[], p, rfl, hp, ⟨rfl, rfl⟩, rfl, by simp⟩
  | a :: as, b :: bs, p, .cons h hs, hgo, hp => by
    have hgo' : ∀ x ∈ as, ∀ y ∈ bs, S x y → ∀ p : PolyElab, p.Inv E el → Works E el (go x y p) x y p :=
      fun x hx y hy => hgo x (by simp [hx]) y (by simp [hy])
    by_cases hab : a = b
    · obtain ⟨ns, p', h1, h2⟩ := differing_ok hs hgo' hp
      refine ⟨ns, p', ?_, ?_⟩
      · rw [differing, if_pos hab, h1]
      · rw [diffPairs, if_pos hab]; exact h2
    · obtain ⟨n, p1, h1, h2, h3, h4⟩ := hgo a (by simp) b (by simp) h p hp
      obtain ⟨ns, p2, k1, k2, k3, k4, k5⟩ := differing_ok hs hgo' h2
      refine ⟨n :: ns, p2, ?_, k2, h3.trans k3, ?_, ?_⟩
      · rw [differing, if_neg hab, h1]
        simp only [bind, Except.bind]
        rw [k1]
      · rw [diffPairs, if_neg hab, List.map_cons, List.map_cons, k4, h4.clause]
      · intro m hm
        rcases List.mem_cons.1 hm with rfl | hm
        · exact ⟨h4.ok, h4.high⟩
        · rw [← h3.depth]; exact k5 m hm

theorem buildCong_ok {go : ElabCall} {S : Term → Term → Prop} {a b : Term} {as bs : List Term} {p : PolyElab} (hc : congArgs a b = .ok (as, bs))
    (hne : as ≠ bs) (hs : List.Forall₂ S as bs)
    (hgo : ∀ x ∈ as, ∀ y ∈ bs, S x y → ∀ p : PolyElab, p.Inv E el → Works E el (go x y p) x y p) (hp : p.Inv E el) :
    WorksAt E el (buildCong go a b as bs p) a b p := by
  obtain ⟨ns, p', h1, h2, h3, h4, h5⟩ := differing_ok hs hgo hp
  unfold buildCong
  rw [h1]
  simp only [bind, Except.bind]
  obtain ⟨n, p'', k1, k2, k3, k4, k5⟩ := addStep_works (r := "cong") (a := a) (b := b) h2 (fun q hq => (h5 q hq).1)
    (fun q hq => by rw [h3.depth]; exact (h5 q hq).2) (fun id => ⟨cong, rfl, by
      rw [h4]
      exact cong_intro hc hs.length_eq (checkCong_diffPairs hs.length_eq) fun h => hne (diffPairs_nil hs.length_eq h)⟩)
  exact ⟨n, p'', k1, k2, h3.trans k3, ⟨k4.clause, h3.1 ▸ k4.low, h3.depth ▸ k4.high, k4.ok⟩, h3.depth ▸ k5⟩

theorem eqSymm_ok {id : String} {d : Nat} {a b : Term} :
    StepOK E el ⟨id, d, [eqTerm (.op .equals [a, b], .op .equals [b, a])], "eq_symmetric", []⟩ [] :=
  ⟨eqSymmetric, rfl, by simp [eqSymmetric, get1, match2, assertEq, require, bind, Except.bind]⟩

theorem flipEquality_ok {go : ElabCall} {S : Term → Term → Prop} {al ar bl br : Term} {p : PolyElab} (h1 : S al br) (h2 : S ar bl)
    (hgo : ∀ x ∈ [al, ar], ∀ y ∈ [br, bl], S x y → ∀ p : PolyElab, p.Inv E el → Works E el (go x y p) x y p) (hp : p.Inv E el) :
    WorksAt E el (flipEquality go al ar bl br p) (.op .equals [al, ar]) (.op .equals [bl, br]) p := by
  unfold flipEquality
  by_cases h : al = br ∧ ar = bl
  · rw [if_pos h]
    obtain ⟨rfl, rfl⟩ := h
    exact addStep_works hp (by simp) (by simp) fun _ => eqSymm_ok
  · rw [if_neg h]
    obtain ⟨n, p1, k1, k2, k3, k4, k5⟩ := buildCong_ok (a := .op .equals [al, ar]) (b := .op .equals [br, bl]) (p := p)
      (by simp [congArgs, sameHead]) (fun e => h (by simpa using e)) (.cons h1 (.cons h2 .nil)) hgo hp
    rw [k1]
    simp only [bind, Except.bind]
    unfold flipAfter
    obtain ⟨m, p2, l1, l2, l3, l4, l5⟩ := addStep_works (a := .op .equals [br, bl]) (b := .op .equals [bl, br]) (r := "eq_symmetric") (ps := []) k2
      (by simp) (by simp) fun _ => eqSymm_ok
    rw [l1]
    obtain ⟨id, ids, e, hl⟩ := IdHelper.nextId_same l2.ids_ne
    simp only [bind, Except.bind]
    rw [e]
    simp only
    have ht : addTrans n m id = .ok (.step ⟨id, n.depth, [eqTerm (.op .equals [al, ar], .op .equals [bl, br])], "trans", []⟩ [n, m] [] none) := by
      rw [addTrans, k4.clause, l4.clause]; rfl
    rw [ht]
    have hd : m.depth = n.depth := by rw [k5, l5, k3.depth]
    refine ⟨_, { p2 with ids }, rfl, l2.withIds hl, (k3.trans l3).trans ⟨rfl, rfl⟩, ⟨rfl, k4.low, k4.high, .step ?_ ?_ ⟨trans, rfl, ?_⟩⟩, k5⟩
    · intro q hq
      simp only [List.mem_cons, List.not_mem_nil, or_false] at hq
      rcases hq with rfl | rfl
      · exact k4.ok
      · exact l4.ok
    · intro q hq
      simp only [List.mem_cons, List.not_mem_nil, or_false] at hq
      rcases hq with rfl | rfl
      · exact Nat.le_refl _
      · exact Nat.le_of_eq hd
    · rw [List.map_cons, List.map_cons, List.map_nil, k4.clause, l4.clause]
      simp only [trans, bind_ok, get1_ok, match2_ok, Prod.exists]
      refine ⟨_, rfl, _, _, rfl, [(.op .equals [al, ar], .op .equals [br, bl]), (.op .equals [br, bl], .op .equals [bl, br])], ?_,
        chain_findChain (.cons (.cons (.nil _)))⟩
      rfl

/-! ## Subproofs -/

theorem openSubproof_inv {p : PolyElab} (h : p.Inv E el) : p.openSubproof.Inv E el := by
  refine ⟨by simp [PolyElab.openSubproof, HashMapStack.pushScope], ?_, ?_⟩
  · simp [PolyElab.openSubproof, HashMapStack.pushScope, IdHelper.push, h.ids]
  · intro i scope hs e he
    simp only [PolyElab.openSubproof, HashMapStack.pushScope] at hs ⊢
    rw [List.getElem?_append] at hs
    split at hs
    · exact h.cache i scope hs e he
    · obtain rfl : scope = [] := by
        have := List.mem_of_getElem? hs
        simpa using this
      simp at he

theorem openSubproof_depth {p : PolyElab} (h : p.Inv E el) : p.openSubproof.depth = p.depth + 1 := by
  have := List.length_pos_iff.2 h.ne
  simp only [PolyElab.openSubproof, PolyElab.depth, HashMapStack.height, HashMapStack.pushScope, List.length_append, List.length_singleton]
  omega

theorem closeSubproof_ok {p p' : PolyElab} (h : p.Inv E el) (h' : p'.Inv E el) (hl : p.openSubproof.Level p') (args : List AnchorArg)
    (c : List Term) (r : String) (ps : List Node) (prev : Node) :
    ∃ id p'', p'.closeSubproof args c r ps prev =
      .ok (.subproof (.step ⟨id, p.depth + 1, c, r, []⟩ ps [] (some prev)) args [], p'') ∧ p''.Inv E el ∧ p.Level p'' := by
  have hlen : p'.cache.scopes.length = p.cache.scopes.length + 1 := by
    rw [hl.2]; simp [PolyElab.openSubproof, HashMapStack.pushScope]
  have hpos := List.length_pos_iff.2 h.ne
  have hroot : p'.root = p.root := hl.1
  have hd : p'.depth = p.depth + 1 := by rw [hl.depth, openSubproof_depth h]
  have h1 : p'.cache.popScope = .ok ⟨p'.cache.scopes.dropLast⟩ := by
    unfold HashMapStack.popScope; rw [if_neg (by omega)]
  have h2 : p'.ids.pop = .ok { p'.ids with stack := p'.ids.stack.dropLast } := by
    unfold IdHelper.pop; rw [if_pos (by rw [h'.ids]; omega)]
  have hids : p'.ids.stack.dropLast.length = p.cache.scopes.length := by
    rw [List.length_dropLast, h'.ids, hlen]; rfl
  obtain ⟨id, ids, e, hl'⟩ := IdHelper.nextId_same (h := { p'.ids with stack := p'.ids.stack.dropLast })
    (by intro h; rw [show p'.ids.stack.dropLast = [] from h] at hids; simp at hids; omega)
  refine ⟨id, ⟨ids, p'.root, ⟨p'.cache.scopes.dropLast⟩⟩, ?_, ⟨?_, ?_, ?_⟩, ⟨hroot, ?_⟩⟩
  · unfold PolyElab.closeSubproof
    rw [h1]
    simp only [bind, Except.bind]
    rw [h2]
    simp only
    rw [e]
    simp only [hd]
  · intro h0
    have : p'.cache.scopes.dropLast.length = 0 := by rw [show p'.cache.scopes.dropLast = [] from h0]; rfl
    rw [List.length_dropLast] at this
    omega
  · rw [hl']
    simp only [hids, List.length_dropLast, hlen, Nat.add_sub_cancel]
  · intro i scope hs en hen
    refine h'.cache i scope ?_ en hen
    simp only [List.getElem?_dropLast] at hs
    split at hs
    · exact hs
    · simp at hs
  · simp only [List.length_dropLast, hlen, Nat.add_sub_cancel]

theorem bindSubproof_ok {go : ElabCall} {a b : Term} {p : PolyElab} (hgo : Works E el (go a b p) a b p) :
    ∃ e ps dis pv p', bindSubproof go a b p = .ok (.step e ps dis pv, p') ∧ p'.Inv E el ∧ p.Level p' ∧ e.clause = [eqTerm (a, b)] ∧
      e.depth = p.depth ∧ Accepted E el [] (.step e ps dis pv) := by
  obtain ⟨n, p', h1, h2, h3, h4⟩ := hgo
  unfold bindSubproof
  rw [h1]
  simp only [bind, Except.bind]
  by_cases hs : n.isStepAt p'.depth = true
  · rw [if_pos hs]
    cases n with
    | step e ps dis pv =>
      have : e.depth = p'.depth := by simpa [Node.isStepAt] using hs
      exact ⟨e, ps, dis, pv, p', rfl, h2, h3, h4.clause, by rw [this, h3.depth], h4.ok⟩
    | assume => simp [Node.isStepAt] at hs
    | subproof => simp [Node.isStepAt] at hs
  · rw [if_neg hs]
    obtain ⟨id, p'', e, k1, k2⟩ := addStep_ok h2 [eqTerm (a, b)] "reordering" [n]
    refine ⟨_, _, _, _, p'', e, k1, h3.trans k2, rfl, by rw [← h3.depth], .step (by simpa using h4.ok) ?_ (stepOK_reordering rfl ?_)⟩
    · simpa [h3.depth] using h4.high
    · rw [h4.clause]

theorem bindArgs_vars : ∀ (xs ys : List (String × Srt)) (as : List AnchorArg),
    bindArgs (xs.map (fun x => .var x.1 x.2) ++ as) [] ys = bindArgs as [] (xs.foldl (fun m x => setInsert m (x.1, x.2)) ys)
  | [], _, _ => rfl
  | x :: xs, ys, as => by
    rw [List.map_cons, List.cons_append, bindArgs, if_pos (by simp), bindArgs_vars xs]
    rfl

theorem bindArgs_assigns : ∀ (xs : List (String × Srt)) (f : String × Srt → Term) (l ys : List (String × Srt)),
    ∃ l', bindArgs (xs.map fun x => .assign x.1 x.2 (f x)) l ys = .ok (l', ys)
  | [], _, l, _ => ⟨l, rfl⟩
  | x :: xs, f, l, ys => by
    rw [List.map_cons, bindArgs]
    exact bindArgs_assigns xs f _ ys

theorem bindRule_same (q : Binder) (xs : List (String × Srt)) (a b : Term) (context : List (List AnchorArg)) :
    bindRule [eqTerm (.binder q xs a, .binder q xs b)] (context ++ [bindAnchor xs]) (some [eqTerm (a, b)]) = .ok () := by
  obtain ⟨l, hl⟩ := bindArgs_assigns xs (fun x => .var x.1 x.2) [] (xs.foldl (fun m x => setInsert m (x.1, x.2)) [])
  have hb : bindArgs (bindAnchor xs) [] [] = .ok (l, xs.foldl (fun m x => setInsert m (x.1, x.2)) []) := by
    unfold bindAnchor
    rw [bindArgs_vars, hl]
  have hlast : lastArgs (context ++ [bindAnchor xs]) = .ok (bindAnchor xs) := by simp [lastArgs, orPanic]
  simp only [bindRule, orErr, get1, match2, bind, Except.bind, asBinderErr, require, assertEq, if_true, hlast, hb]
  rw [if_pos fun y hy _ => by simpa using hy]
  simp

theorem elabBinders_ok {go : ElabCall} {q : Binder} {xs : List (String × Srt)} {a b : Term} {p : PolyElab} (hp : p.Inv E el)
    (hgo : ∀ p : PolyElab, p.Inv E el → Works E el (go a b p) a b p) :
    WorksAt E el (elabBinders go q xs a q xs b p) (.binder q xs a) (.binder q xs b) p := by
  obtain ⟨e, ps, dis, pv, p1, h1, h2, h3, h4, h5, h6⟩ := bindSubproof_ok (hgo _ (openSubproof_inv hp))
  obtain ⟨id, p2, k1, k2, k3⟩ := closeSubproof_ok hp h2 h3 (bindAnchor xs) [eqTerm (.binder q xs a, .binder q xs b)] "bind" [] (.step e ps dis pv)
  unfold elabBinders
  rw [if_pos ⟨rfl, rfl⟩, h1]
  simp only [bind, Except.bind]
  refine ⟨_, p2, k1, k2, k3, ⟨rfl, hp.root_le, Nat.le_refl _, .bind rfl h6 (Nat.succ_pos _) ?_ ?_⟩, rfl⟩
  · rw [h5, openSubproof_depth hp]
  · intro context
    rw [h4]
    exact bindRule_same q xs a b context

/-! ### `let` -/

theorem letAnchor_ok : ∀ {xs : List (String × Term)}, (∀ x ∈ xs, (sortOf x.2).isSome = true) → ∃ as, letAnchor xs = .ok as
  | [], _ => ⟨[], rfl⟩
  | (x, v) :: xs, h => by
    obtain ⟨as, e⟩ := letAnchor_ok (xs := xs) fun y hy => h y (by simp [hy])
    obtain ⟨s, hs⟩ := Option.isSome_iff_exists.1 (h (x, v) (by simp))
    refine ⟨.var x s :: as, ?_⟩
    rw [letAnchor, hs]
    simp only [orPanic, bind, Except.bind]
    rw [e]

theorem letDiffering_eq {go : ElabCall} : ∀ {xs ys : List (String × Term)} {p : PolyElab}, xs.map (·.1) = ys.map (·.1) →
    letDiffering go xs ys p = differing go (xs.map (·.2)) (ys.map (·.2)) p
  | [], [], _, _ => rfl
  | [], _ :: _, _, h => by simp at h
  | _ :: _, [], _, h => by simp at h
  | (x, a) :: xs, (y, b) :: ys, p, h => by
    simp only [List.map_cons, List.cons.injEq] at h
    rw [letDiffering, if_neg (by simp [h.1]), List.map_cons, List.map_cons, differing]
    split
    · exact letDiffering_eq h.2
    · cases go a b p with
      | error => rfl
      | ok r => simp only [bind, Except.bind]; rw [letDiffering_eq h.2]

theorem bindLetPremises_ok : ∀ es : List (Term × Term), bindLetPremises (es.map fun e => [eqTerm e]) = .ok es
  | [] => rfl
  | e :: es => by
    rw [List.map_cons, bindLetPremises]
    simp only [get1, match2, bind, Except.bind, if_true]
    rw [bindLetPremises_ok es]
    rfl

theorem bindLetPairs_ok : ∀ {xs ys : List (String × Term)}, xs.map (·.1) = ys.map (·.1) →
    bindLetPairs (diffPairs (xs.map (·.2)) (ys.map (·.2))) xs ys = .ok ()
  | [], [], _ => rfl
  | [], _ :: _, h => by simp at h
  | _ :: _, [], h => by simp at h
  | (x, a) :: xs, (y, b) :: ys, h => by
    simp only [List.map_cons, List.cons.injEq] at h
    have ih := bindLetPairs_ok h.2
    rw [List.map_cons, List.map_cons, diffPairs]
    by_cases hab : a = b
    · rw [if_pos hab]
      simp only [bindLetPairs, h.1, bindLetJustify, hab, require, if_true, bind, Except.bind]
      exact ih
    · rw [if_neg hab]
      simp only [bindLetPairs, h.1, bindLetJustify, hab, require, if_true, if_false, bind, Except.bind, bindLetFind]
      exact ih

theorem elabLets_ok {go : ElabCall} {S : Term → Term → Prop} {xs ys : List (String × Term)} {a b : Term} {p : PolyElab} (hp : p.Inv E el)
    (hsort : ∀ x ∈ xs, (sortOf x.2).isSome = true) (hn : xs.map (·.1) = ys.map (·.1)) (hs : List.Forall₂ S (xs.map (·.2)) (ys.map (·.2)))
    (hgos : ∀ x ∈ xs.map (·.2), ∀ y ∈ ys.map (·.2), S x y → ∀ p : PolyElab, p.Inv E el → Works E el (go x y p) x y p)
    (hgo : ∀ p : PolyElab, p.Inv E el → Works E el (go a b p) a b p) :
    WorksAt E el (elabLets go xs a ys b p) (.let_ xs a) (.let_ ys b) p := by
  have hlen : xs.length = ys.length := by simpa using congrArg List.length hn
  obtain ⟨args, hargs⟩ := letAnchor_ok hsort
  obtain ⟨ns, p0, g1, g2, g3, g4, g5⟩ := differing_ok hs hgos hp
  obtain ⟨e, ps, dis, pv, p1, h1, h2, h3, h4, h5, h6⟩ := bindSubproof_ok (hgo _ (openSubproof_inv g2))
  obtain ⟨id, p2, k1, k2, k3⟩ := closeSubproof_ok g2 h2 h3 args [eqTerm (.let_ xs a, .let_ ys b)] "bind_let" ns (.step e ps dis pv)
  unfold elabLets
  rw [if_neg (by simp [hlen]), hargs]
  simp only [bind, Except.bind]
  rw [letDiffering_eq hn, g1]
  simp only
  rw [h1]
  simp only
  refine ⟨_, p2, k1, k2, g3.trans k3, ⟨rfl, ?_, ?_, .bindLet rfl (fun q hq => (g5 q hq).1) (fun q hq => ?_) h6 (Nat.succ_pos _) ?_ ?_⟩, ?_⟩
  · exact Nat.le_trans hp.root_le (Nat.le_of_eq g3.depth.symm)
  · exact Nat.le_of_eq g3.depth
  · have := (g5 q hq).2
    simp only [g3.depth]
    omega
  · rw [h5, openSubproof_depth g2]
  · rw [g4, h4]
    simp only [bindLet, orErr, get1, match2, asLetErr, bind, Except.bind, if_true, require, hlen, bindLetPremises_ok, bindLetPairs_ok hn, assertEq]
  · exact g3.depth

/-! ## Literals -/

theorem alphaEquiv_lit {a b : Term} (ha : ∀ u ∈ a.subterms, divSafe u = true) (hb : ∀ u ∈ b.subterms, divSafe u = true) (h : Reord a b)
    (hc : a.isConst = true ∨ b.isConst = true) (hne : a ≠ b) : alphaEquiv a b = .ok true := by
  have hv : PolyState.Valid {} := ⟨by simp [HashMapStack.new], by simp [HashMapStack.new]⟩
  have hd : (polyGo { reorder := true, alpha := true } (a.size + b.size) a b).Dec (Reord a b) := by
    obtain ⟨n, hn⟩ : ∃ n, a.size + b.size = n + 1 := ⟨a.size + b.size - 1, by have := a.size_pos; omega⟩
    rw [hn, polyGo]
    by_cases hcc : a.isConst = true ∧ b.isConst = true
    · cases a <;> simp [Term.isConst] at hcc
      cases b <;> simp [Term.isConst] at hcc
      refine (Poly.Dec.pure (constEq _ _)).congr ⟨.const, ?_⟩
      intro h
      cases h with
      | const h => exact h
      | lit h =>
        have := congrFun h {}
        simp [litPoly, polyTail, Poly.pure] at this
    · exact lit_off ha hb rfl hc hcc
  obtain ⟨r, s, e, hs, hr⟩ := hd {} hv
  obtain rfl : r = true := hr.2 h
  have hlast : ∃ l, s.cache.scopes.getLast? = some l := by
    cases hl : s.cache.scopes.getLast? with
    | none => exact (hs.1 (List.getLast?_eq_none_iff.1 hl)).elim
    | some l => exact ⟨l, rfl⟩
  obtain ⟨l, hl⟩ := hlast
  simp only [alphaEquiv, polyeqWith, polyRc, bind, Except.bind]
  rw [if_neg (by tauto), if_neg (by simp [HashMapStack.get, HashMapStack.new, mapGet])]
  rw [e]
  simp only [if_true, HashMapStack.insert, hl]

theorem refl_lit {a b : Term} (ha : ∀ u ∈ a.subterms, divSafe u = true) (hb : ∀ u ∈ b.subterms, divSafe u = true) (h : Reord a b)
    (hc : a.isConst = true ∨ b.isConst = true) (hne : a ≠ b) (C : CtxStack) : refl C [eqTerm (a, b)] = .ok C := by
  simp only [refl, get1, match2, bind, Except.bind, if_true]
  rw [alphaEquiv_lit ha hb h hc hne]
  rfl

theorem pure_true_inj {b : Bool} (h : Poly.pure b = Poly.pure true) : b = true := by
  have := congrFun h {}
  simpa [Poly.pure] using this

theorem panics_ne_pure {b : Bool} : Poly.panics ≠ Poly.pure b := by
  intro h
  have := congrFun h {}
  simp [Poly.panics, Poly.pure, panic] at this

theorem quotientEq_true {args : List Term} {q : Rat} (h : quotientEq args q = .pure true) : ∃ c d rest, args = .const c :: .const d :: rest := by
  unfold quotientEq divArgs at h
  split at h
  · beta_reduce at h
    split at h
    · exact ⟨_, _, _, rfl⟩
    · exact absurd (pure_true_inj h) (by simp)
  · exact (panics_ne_pure h).elim

theorem divLiteralEq_true {args : List Term} {q : Rat} (h : divLiteralEq args q = .pure true) :
    (∃ c d rest, args = .const c :: .const d :: rest) ∨ q < 0 := by
  unfold divLiteralEq divArgs at h
  split at h
  · beta_reduce at h
    split at h
    · exact .inl ⟨_, _, _, rfl⟩
    · split at h
      · next hq => exact .inr hq
      · exact absurd (pure_true_inj h) (by simp)
    · split at h
      · next hq => exact .inr hq
      · exact absurd (pure_true_inj h) (by simp)
    · exact absurd (pure_true_inj h) (by simp)
  · exact (panics_ne_pure h).elim

theorem negIntEq_true {args : List Term} {i : Int} (h : negIntEq args i = .pure true) : i < 0 := by
  unfold negIntEq at h
  split at h
  · next hi => exact hi
  · exact absurd (pure_true_inj h) (by simp)

theorem negRealEq_true {args : List Term} {q : Rat} (h : negRealEq args q = .pure true) : q < 0 := by
  unfold negRealEq at h
  split at h
  · next hq => exact hq
  · exact absurd (pure_true_inj h) (by simp)

/-- In elaborated mode, literals that are written in one way only are equal to nothing else. -/
theorem lit_same {a b : Term} (h : Reord a b) (hc : a.isConst = true ∨ b.isConst = true) (ha : ambiguousLit a = false)
    (hb : ambiguousLit b = false) (hs : sepNode a b = true) : a = b := by
  have key : ∀ {a b : Term}, litPoly a b = .pure true → a.isConst = true ∨ b.isConst = true → ambiguousLit a = false →
      ambiguousLit b = false → False := by
    intro a b h hc ha hb
    rw [← polyTail_rc hc (cfg := {}) (rc := fun _ _ => .stuck) (n := 0)] at h
    unfold polyTail at h
    split at h
    · simp [Term.isConst] at hc
    · simp [Term.isConst] at hc
    · simp [Term.isConst] at hc
    · obtain ⟨c, d, rest, rfl⟩ := quotientEq_true h
      simp [ambiguousLit] at hb
    · rcases divLiteralEq_true h with ⟨c, d, rest, rfl⟩ | h
      · simp [ambiguousLit] at ha
      · simp [ambiguousLit] at hb; exact absurd h (by simpa using hb)
    · have := negIntEq_true h
      simp [ambiguousLit] at ha; omega
    · have := negIntEq_true h
      simp [ambiguousLit] at hb; omega
    · have := negRealEq_true h
      simp [ambiguousLit] at hb; exact absurd this (by simpa using hb)
    · have := negRealEq_true h
      simp [ambiguousLit] at ha; exact absurd this (by simpa using ha)
    · exact absurd (pure_true_inj h) (by simp)
  cases h with
  | const h =>
    next c d =>
    cases c <;> cases d <;> simp_all [constEq, sepNode]
  | lit h => exact (key h hc ha hb).elim
  | _ => simp [Term.isConst] at hc

/-! ## The elaborator -/

/-- Pairs of terms that the elaborator is meant for. -/
structure ElabPair (el : Bool) (a b : Term) : Prop where
  reord : Reord a b
  left : elaborable el a
  right : elaborable el b
  sep : el = true → a.separate b

theorem ElabPair.sub {a b x y : Term} (h : ElabPair el a b) (hr : Reord x y) (hx : ∀ u ∈ x.subterms, u ∈ a.subterms)
    (hy : ∀ u ∈ y.subterms, u ∈ b.subterms) : ElabPair el x y :=
  ⟨hr, fun u hu => h.left u (hx u hu), fun u hu => h.right u (hy u hu), fun he u hu v hv => h.sep he u (hx u hu) v (hy v hv)⟩

theorem ElabPair.poly {a b : Term} (ha : elaborable el a) (hb : elaborable el b) : ∃ r, polyeq a b = .ok r ∧ (r = true ↔ Reord a b) :=
  polyeq_dec (fun u hu => (ha u hu).1) fun u hu => (hb u hu).1

theorem strictRefl_self (C : CtxStack) (t : Term) : strictRefl C [eqTerm (t, t)] = .ok C := by
  simp [strictRefl, get1, match2, bind, Except.bind]

/-- A `refl` step at the current level. -/
theorem reflStep_works {p : PolyElab} (h : p.Inv E el) {a b : Term}
    (hok : ∀ C, (if el then strictRefl C [eqTerm (a, b)] else refl C [eqTerm (a, b)]) = .ok C) :
    WorksAt E el (p.addStep [eqTerm (a, b)] "refl" []) a b p := by
  obtain ⟨id, p', e, hi, hl⟩ := addStep_ok h [eqTerm (a, b)] "refl" []
  exact ⟨_, p', e, hi, hl, ⟨rfl, h.root_le, Nat.le_refl _, .refl rfl hok⟩, rfl⟩

theorem get_mem {κ ν : Type} [DecidableEq κ] {m : HashMapStack κ ν} {k : κ} {v : ν} (h : m.get k = some v) :
    ∃ (i : Nat) (scope : List (κ × ν)), m.scopes[i]? = some scope ∧ (k, v) ∈ scope := by
  obtain ⟨scope, hs, hm⟩ := List.exists_of_findSome?_eq_some h
  obtain ⟨i, hi⟩ := List.mem_iff_getElem?.1 (List.mem_reverse.1 hs)
  exact ⟨i, scope, hi, mem_of_mapGet hm⟩

theorem mem_mapInsert_or {κ ν : Type} [DecidableEq κ] {k : κ} {v : ν} {e : κ × ν} : ∀ {l : List (κ × ν)}, e ∈ mapInsert l k v →
    e ∈ l ∨ e = (k, v)
  | [], h => by simpa [mapInsert] using h
  | (k', v') :: l, h => by
    simp only [mapInsert] at h
    split at h
    · next hk =>
      rcases List.mem_cons.1 h with rfl | h
      · exact .inr (by rw [hk])
      · exact .inl (by simp [h])
    · rcases List.mem_cons.1 h with rfl | h
      · exact .inl (by simp)
      · rcases mem_mapInsert_or h with h | h
        · exact .inl (by simp [h])
        · exact .inr h

theorem insert_inv {p : PolyElab} (h : p.Inv E el) {a b : Term} {n : Node} (hn : Proves E el p a b n) :
    ∃ c, p.cache.insert (a, b) n = .ok c ∧ PolyElab.Inv E el { p with cache := c } ∧ c.scopes.length = p.cache.scopes.length := by
  have hpos := List.length_pos_iff.2 h.ne
  obtain ⟨l, hl⟩ : ∃ l, p.cache.scopes.getLast? = some l := by
    cases hl : p.cache.scopes.getLast? with
    | none => exact (h.ne (List.getLast?_eq_none_iff.1 hl)).elim
    | some l => exact ⟨l, rfl⟩
  have hlen : (p.cache.scopes.dropLast ++ [mapInsert l (a, b) n]).length = p.cache.scopes.length := by
    simp; omega
  refine ⟨⟨p.cache.scopes.dropLast ++ [mapInsert l (a, b) n]⟩, ?_, ⟨by simp, ?_, ?_⟩, hlen⟩
  · unfold HashMapStack.insert; rw [hl]
  · rw [hlen]; exact h.ids
  · intro i scope hs e he
    simp only at hs
    rw [List.getElem?_append] at hs
    split at hs
    · next hi =>
      rw [List.getElem?_dropLast] at hs
      split at hs
      · exact h.cache i scope hs e he
      · simp at hs
    · next hi =>
      rw [List.length_dropLast] at hi hs
      have hi0 : i - (p.cache.scopes.length - 1) = 0 := by
        by_contra hne
        rw [List.getElem?_eq_none (by simp; omega)] at hs
        simp at hs
      rw [hi0] at hs
      simp only [List.getElem?_cons_zero, Option.some.injEq] at hs
      subst hs
      have hii : i = p.cache.scopes.length - 1 := by omega
      rcases mem_mapInsert_or he with he | rfl
      · refine h.cache i l ?_ e he
        rw [List.getLast?_eq_getElem?] at hl
        rw [hii]; exact hl
      · refine ⟨hn.clause, hn.low, ?_, hn.ok⟩
        have := hn.high
        unfold PolyElab.depth HashMapStack.height at this
        simp only [hii]
        omega

theorem swapped_ok {a b : Term} (h : ElabPair el a b) : ∃ e, swapped a b = .ok e ∧
    (e = true → ∃ al ar bl br, a = .op .equals [al, ar] ∧ b = .op .equals [bl, br] ∧ Reord al br ∧ Reord ar bl) ∧
    (e = false → ∀ al ar bl br, a = .op .equals [al, ar] → b = .op .equals [bl, br] → ¬ (Reord al br ∧ Reord ar bl)) := by
  unfold swapped
  split
  · next al ar bl br =>
    have sub : ∀ {x y z : Term}, x ∈ [y, z] → ∀ u ∈ x.subterms, u ∈ (Term.op .equals [y, z]).subterms := fun hx => subterms_op hx
    have el1 : ∀ {x : Term}, x ∈ [al, ar] → elaborable el x := fun hx u hu => h.left u (sub hx u hu)
    have el2 : ∀ {x : Term}, x ∈ [bl, br] → elaborable el x := fun hx u hu => h.right u (sub hx u hu)
    obtain ⟨r, e, hr⟩ := ElabPair.poly (el1 (x := al) (by simp)) (el2 (x := br) (by simp))
    obtain ⟨r', e', hr'⟩ := ElabPair.poly (el1 (x := ar) (by simp)) (el2 (x := bl) (by simp))
    rw [e]
    simp only [bind, Except.bind]
    cases r with
    | false =>
      refine ⟨false, by simp, by simp, ?_⟩
      rintro _ al' ar' bl' br' h1 h2 ⟨h3, -⟩
      cases h1; cases h2
      exact absurd (hr.2 h3) (by simp)
    | true =>
      refine ⟨r', by rw [if_pos rfl, e'], ?_, ?_⟩
      · intro h'
        exact ⟨al, ar, bl, br, rfl, rfl, hr.1 rfl, hr'.1 h'⟩
      · rintro h' al' ar' bl' br' h1 h2 ⟨-, h3⟩
        cases h1; cases h2
        rw [hr'.2 h3] at h'
        exact absurd h' (by simp)
  · next hno => exact ⟨false, rfl, by simp, fun _ al ar bl br h1 h2 => (hno al ar bl br h1 h2).elim⟩

theorem elabShapes_lit {go : ElabCall} {a b : Term} {p : PolyElab} (h : ElabPair el a b) (hc : a.isConst = true ∨ b.isConst = true) (hne : a ≠ b)
    (hp : p.Inv E el) : WorksAt E el (elabShapes go p a b) a b p := by
  have ha := h.left a (Term.self_mem_subterms a)
  have hb := h.right b (Term.self_mem_subterms b)
  have heq : elabShapes go p a b = (if a.isConst || b.isConst then do
      let e ← polyeq a b
      if e then p.addStep [.op .equals [a, b]] "refl" [] else panic
    else panic) := by
    unfold elabShapes
    split
    · simp [Term.isConst] at hc
    · simp [Term.isConst] at hc
    · simp [supported] at ha
    · simp [supported] at ha
    · simp [supported] at hb
    · simp [supported] at hb
    · simp [Term.isConst] at hc
    · simp [Term.isConst] at hc
    · rfl
  obtain ⟨r, e, hr⟩ := ElabPair.poly h.left h.right
  obtain rfl := hr.2 h.reord
  rw [heq, if_pos (by simpa using hc), e]
  simp only [bind, Except.bind, if_true]
  refine reflStep_works hp fun C => ?_
  cases el with
  | true => exact (hne (lit_same h.reord hc (ha.2.2 rfl) (hb.2.2 rfl) (h.sep rfl a (Term.self_mem_subterms a) b (Term.self_mem_subterms b)))).elim
  | false => exact refl_lit (fun u hu => (h.left u hu).1) (fun u hu => (h.right u hu).1) h.reord hc hne C

theorem elabEq_ok : ∀ (k : Nat) {a b : Term} {p : PolyElab}, a.size + b.size ≤ k → ElabPair el a b → p.Inv E el →
    Works E el (elabEq k a b p) a b p
  | 0, a, _, _, h, _, _ => by have := a.size_pos; omega
  | k + 1, a, b, p, hk, hab, hp => by
    rw [elabEq]
    cases hg : p.cache.get (a, b) with
    | some n =>
      obtain ⟨i, scope, hi, hm⟩ := get_mem hg
      obtain ⟨h1, h2, h3, h4⟩ := hp.cache i scope hi _ hm
      refine ⟨n, p, rfl, hp, ⟨rfl, rfl⟩, h1, h2, ?_, h4⟩
      have := (List.getElem?_eq_some_iff.1 hi).1
      unfold PolyElab.depth HashMapStack.height
      simp only at h3
      omega
    | none =>
      simp only
      have main : WorksAt E el (elabImpl (elabEq k) a b p) a b p := by
        have hgo : ∀ {x y : Term}, x.size + y.size ≤ k → (∀ u ∈ x.subterms, u ∈ a.subterms) → (∀ u ∈ y.subterms, u ∈ b.subterms) →
            Reord x y → ∀ p : PolyElab, p.Inv E el → Works E el (elabEq k x y p) x y p :=
          fun h hx hy hr p hp => elabEq_ok k h (hab.sub hr hx hy) hp
        unfold elabImpl
        by_cases hne : a = b
        · rw [if_pos hne]
          subst hne
          exact reflStep_works hp fun C => by cases el <;> simp [strictRefl_self, c57_cong_refl]
        rw [if_neg hne]
        obtain ⟨e, he, htrue, hfalse⟩ := swapped_ok hab
        rw [he]
        simp only [bind, Except.bind]
        cases e with
        | true =>
          rw [if_pos rfl]
          obtain ⟨al, ar, bl, br, rfl, rfl, h1, h2⟩ := htrue rfl
          refine flipEquality_ok h1 h2 (fun x hx y hy hr => hgo ?_ (subterms_op hx) (subterms_op (by simpa [or_comm] using hy)) hr) hp
          have := size_le_sizeL hx
          have := size_le_sizeL (as := [bl, br]) (a := y) (by simpa [or_comm] using hy)
          simp only [Term.size] at hk
          omega
        | false =>
          rw [if_neg (by simp)]
          have ha := hab.left a (Term.self_mem_subterms a)
          have hb := hab.right b (Term.self_mem_subterms b)
          have hR := hab.reord
          cases hR with
          | const h => exact elabShapes_lit hab (.inl rfl) hne hp
          | var x s => exact (hne rfl).elim
          | @app f g as bs hf hs =>
            have hfg : f = g := by
              cases f <;> simp [supported] at ha
              cases g <;> simp [supported] at hb
              cases hf with
              | var => rfl
              | lit h => exact (litPoly_apart rfl rfl h).elim
            subst hfg
            simp only [elabShapes]
            rw [if_pos ⟨trivial, hs.length_eq⟩]
            refine buildCong_ok (by simp [congArgs, sameHead]) (fun h => hne (by rw [h])) hs
              (fun x hx y hy hr => hgo ?_ (subterms_app (.inr hx)) (subterms_app (.inr hy)) hr) hp
            have := size_le_sizeL hx
            have := size_le_sizeL hy
            simp only [Term.size] at hk
            omega
          | @op o as bs hs =>
            simp only [elabShapes, elabOps]
            rw [if_neg (by simp), if_neg (by simp [hs.length_eq])]
            refine buildCong_ok (by simp [congArgs, sameHead]) (fun h => hne (by rw [h])) hs
              (fun x hx y hy hr => hgo ?_ (subterms_op hx) (subterms_op hy) hr) hp
            have := size_le_sizeL hx
            have := size_le_sizeL hy
            simp only [Term.size] at hk
            omega
          | swap h1 h2 => exact (hfalse rfl _ _ _ _ rfl rfl ⟨h1, h2⟩).elim
          | @binder q xs t u h =>
            have hq : q = .all ∨ q = .ex := by simpa [supported] using ha.2.1
            have heq : elabShapes (elabEq k) p (.binder q xs t) (.binder q xs u) = elabBinders (elabEq k) q xs t q xs u p := by
              rcases hq with rfl | rfl <;> rfl
            rw [heq]
            refine elabBinders_ok hp (hgo ?_ subterms_binder subterms_binder h)
            simp only [Term.size] at hk
            omega
          | @let_ xs ys t u hn hs h =>
            have hsort : ∀ x ∈ xs, (sortOf x.2).isSome = true := by simpa [supported] using ha.2.1
            simp only [elabShapes]
            refine elabLets_ok hp hsort hn hs (fun x hx y hy hr => ?_) (hgo ?_ ?_ ?_ h)
            · obtain ⟨e, he, rfl⟩ := List.mem_map.1 hx
              obtain ⟨e', he', rfl⟩ := List.mem_map.1 hy
              refine hgo ?_ ?_ ?_ hr
              · have := size_le_sizeB he
                have := size_le_sizeB he'
                simp only [Term.size] at hk
                omega
              · intro u hu
                simp only [Term.subterms, List.mem_cons, List.mem_append, Term.mem_subtermsB]
                exact .inr (.inl ⟨e, he, hu⟩)
              · intro u hu
                simp only [Term.subterms, List.mem_cons, List.mem_append, Term.mem_subtermsB]
                exact .inr (.inl ⟨e', he', hu⟩)
            · simp only [Term.size] at hk
              omega
            · intro u hu; simp [Term.subterms, hu]
            · intro u hu; simp [Term.subterms, hu]
          | paramOp h => simp [supported] at ha
          | lit h =>
            refine elabShapes_lit hab ?_ hne hp
            by_contra hc
            simp only [not_or, Bool.not_eq_true] at hc
            exact litPoly_apart hc.1 hc.2 h
      obtain ⟨n, p', h1, h2, h3, h4, h5⟩ := main
      rw [h1]
      simp only [bind, Except.bind]
      have hn : Proves E el p' a b n := ⟨h4.clause, by rw [h3.1]; exact h4.low, by rw [h3.depth]; exact h4.high, h4.ok⟩
      obtain ⟨c, e, hc, hl⟩ := insert_inv h2 hn
      rw [e]
      exact ⟨n, { p' with cache := c }, rfl, hc, ⟨h3.1, hl.trans h3.2⟩, h4⟩

end Carcara
