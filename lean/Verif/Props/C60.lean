import Verif.Lemmas.ElabSolver

/-!
# C60: the proof found by a solver is put in place of a step

The steps `lia_generic` and `hole` are replaced by a proof that a solver found: a subproof that refutes the negations of the literals of the
conclusion, and steps that get from there to the conclusion.
-/

namespace Carcara

open Spec

/-! ## The proof of the solver is moved into a subproof -/

theorem Node.moved_depth_le (delta : Nat) (pre : String) : ∀ n : Node, (n.moved delta pre).depth ≤ n.depth + delta
  | .assume _ _ _ => by simp [Node.moved, Node.depth]
  | .step _ _ _ _ => by simp [Node.moved, Node.depth]
  | .subproof l _ _ => by
    have := moved_depth_le delta pre l
    rw [Node.moved, Node.depth, Node.depth]
    omega

/-- Steps that are accepted still are when the proof is moved: their names and depths do not matter. -/
theorem c60_moved {E : TableEnv} {el : Bool} {given : List Node} {n : Node} (delta : Nat) (pre : String) (h : Derived E el given n) :
    (n.moved delta pre).clause = n.clause ∧ Derived E el (given.map (Node.moved delta pre)) (n.moved delta pre) := by
  refine ⟨Node.moved_clause delta pre n, ?_⟩
  induction h with
  | given h => exact .given (List.mem_map_of_mem h)
  | step _ hs ih =>
    rw [Node.moved_step]
    refine .step (fun p hp => ?_) ?_
    · obtain ⟨q, hq, rfl⟩ := List.mem_map.1 hp
      exact ih q hq
    · unfold StepOK
      rw [Node.map_moved_clause]
      exact hs

/-- The same for proofs with subproofs of `bind` and `bind_let`. -/
theorem c60_moved_accepted {E : TableEnv} {el : Bool} {given : List Node} {n : Node} (delta : Nat) (pre : String) (h : Accepted E el given n) :
    Accepted E el (given.map (Node.moved delta pre)) (n.moved delta pre) := by
  induction h with
  | given h => exact .given (List.mem_map_of_mem h)
  | step _ hd hs ih =>
    rw [Node.moved_step]
    refine .step (fun p hp => ?_) (fun p hp => ?_) ?_
    · obtain ⟨q, hq, rfl⟩ := List.mem_map.1 hp
      exact ih q hq
    · obtain ⟨q, hq, rfl⟩ := List.mem_map.1 hp
      exact Nat.le_trans (Node.moved_depth_le delta pre q) (Nat.add_le_add_right (hd q hq) delta)
    · unfold StepOK
      rw [Node.map_moved_clause]
      exact hs
  | refl hr h =>
    rw [Node.moved_step]
    exact .refl hr h
  | bind hr _ hd he hb ih =>
    rw [Node.moved, Node.moved_step, Option.map_some, Node.moved_step, Node.movedAll]
    rw [Node.moved_step] at ih
    exact .bind hr ih (by simp only; omega) (by simp only; omega) hb
  | bindLet hr _ hd _ h0 he hb ih ih' =>
    rw [Node.moved, Node.moved_step, Option.map_some, Node.moved_step, Node.movedAll]
    rw [Node.moved_step] at ih'
    refine .bindLet hr (fun p hp => ?_) (fun p hp => ?_) ih' (by simp only; omega) (by simp only; omega) ?_
    · obtain ⟨q, hq, rfl⟩ := List.mem_map.1 hp
      exact ih q hq
    · obtain ⟨q, hq, rfl⟩ := List.mem_map.1 hp
      exact Nat.lt_of_le_of_lt (Node.moved_depth_le delta pre q) (Nat.add_lt_add_right (hd q hq) delta)
    · rw [Node.map_moved_clause]
      exact hb

/-! ## From the subproof to the conclusion -/

/-- The steps after the subproof. -/
theorem closeSolverProof_shape {sid : String} {ids : IdHelper} (hs : ids.stack ≠ []) (dis : List Node) (proof : Node) (C : List Term) (depth : Nat) :
    ∃ names : List String, ∃ idf id, names.length = C.length ∧ closeSolverProof sid ids dis proof C depth =
      .ok (.mk { id, depth, clause := C, rule := "resolution" }
        (.subproof (.step { id := sid, depth := depth + 1, clause := subproofClause C, rule := "subproof" } [] dis (some proof)) [] [] ::
          (names.zip C).map (fun a => .mk { id := a.1, depth, clause := [.op .not [.op .not [.op .not [a.2]]], a.2], rule := "not_not" } []) ++
          [.mk { id := idf, depth, clause := [.op .not [.fls]], rule := "false" } []])) := by
  obtain ⟨names, ids1, h1, e1, hs1⟩ := notNotSteps_total depth C hs
  obtain ⟨idf, ids2, e2, hs2⟩ := IdHelper.nextId_total hs1
  obtain ⟨id, ids3, e3, -⟩ := IdHelper.nextId_total hs2
  refine ⟨names, idf, id, h1, ?_⟩
  unfold closeSolverProof
  simp only [bind, Except.bind]
  rw [e1]
  simp only
  rw [e2]
  simp only
  rw [e3]

theorem map_clause_notNots {depth : Nat} {names : List String} {C : List Term} (h : names.length = C.length) :
    ((names.zip C).map fun a => Node.mk { id := a.1, depth, clause := [.op .not [.op .not [.op .not [a.2]]], a.2], rule := "not_not" } []).map
      Node.clause = C.map fun l => [.op .not [dneg l], l] := by
  rw [List.map_map]
  have : (names.zip C).map (fun a => [Term.op .not [dneg a.2], a.2]) = ((names.zip C).map (·.2)).map fun l => [Term.op .not [dneg l], l] := by
    rw [List.map_map]; rfl
  rw [List.map_snd_zip (by omega)] at this
  rw [← this]
  rfl

/-- Every added premise of the resolution step is accepted, in both modes. -/
theorem solver_premises (E : TableEnv) (el : Bool) {depth : Nat} {names : List String} {C : List Term} {idf : String} {sub p : Node}
    (hp : p ∈ sub :: (names.zip C).map (fun a => Node.mk { id := a.1, depth, clause := [.op .not [.op .not [.op .not [a.2]]], a.2], rule := "not_not" } []) ++
      [.mk { id := idf, depth, clause := [.op .not [.fls]], rule := "false" } []]) : Derived E el [sub] p := by
  rcases List.mem_append.1 hp with hp | hp
  · rcases List.mem_cons.1 hp with rfl | hp
    · exact .given (by simp)
    · obtain ⟨a, -, rfl⟩ := List.mem_map.1 hp
      refine .step (by simp) ⟨notNot, rfl, ?_⟩
      simp [notNot, get2, match1, assertEq, require, bind, Except.bind]
  · rw [List.mem_singleton] at hp
    subst hp
    refine .step (by simp) ⟨falseRule, rfl, ?_⟩
    simp [falseRule, get1, Term.removeNegErr, Term.removeNegation, orErr, require, bind, Except.bind, Term.isBoolFalse]

theorem solver_derived (E : TableEnv) {depth : Nat} {names : List String} {C : List Term} {id idf : String} {sub : Node}
    (hc : sub.clause = subproofClause C) : Derived E false [sub] (.mk { id, depth, clause := C, rule := "resolution" }
      (sub :: (names.zip C).map (fun a => Node.mk { id := a.1, depth, clause := [.op .not [.op .not [.op .not [a.2]]], a.2], rule := "not_not" } []) ++
      [.mk { id := idf, depth, clause := [.op .not [.fls]], rule := "false" } []])) := by
  refine .step (fun p hp => solver_premises E false hp) ⟨resolution, rfl, ?_⟩
  simp only [List.map_append, List.map_cons, List.map_nil, hc]
  exact resolution_solver C _

theorem Spec.Derived.compose {E : TableEnv} {el : Bool} {given given' : List Node} {n : Node} (h : Derived E el given n)
    (hg : ∀ g ∈ given, Derived E el given' g) : Derived E el given' n := by
  induction h with
  | given h => exact hg _ h
  | step _ hs ih => exact .step ih hs

/-! ## Proofs for `lia_generic` -/

/-- The elaborator panics exactly if no step of the forest has an empty conclusion. -/
theorem c60_lia_panics (forest : List Node) (C : List Term) (root : String) (depth : Nat) :
    (insertLia forest C root depth = panic ↔ ∀ n ∈ forest, n.clause ≠ []) ∧
    ((∃ n ∈ forest, n.clause = []) → ∃ n, insertLia forest C root depth = .ok n) := by
  have hok : (∃ n ∈ forest, n.clause = []) → ∃ n, insertLia forest C root depth = .ok n := by
    intro h
    obtain ⟨proof, hp⟩ := Option.isSome_iff_exists.1 (List.find?_isSome (p := fun n : Node => decide (n.clause = [])) |>.2 (by simpa using h))
    unfold insertLia
    rw [hp]
    obtain ⟨sid, ids, e, -⟩ := IdHelper.nextId_total (h := .new root) (by simp [IdHelper.new])
    simp only [orPanic, bind, Except.bind]
    rw [e]
    simp only
    obtain ⟨ns, ids', h1, h2⟩ := liaAssumptions_total (assumptionMap [] ((proof.moved (depth + 1) sid).assumptionsAt (depth + 1))) depth C []
      (ids := .new (sid ++ ".added")) (by simp [IdHelper.new])
    rw [h1]
    simp only
    obtain ⟨names, idf, id, -, h3⟩ := closeSolverProof_shape (sid := sid) h2 ns (proof.moved (depth + 1) sid) C depth
    rw [h3]
    exact ⟨_, rfl⟩
  refine ⟨⟨fun h n hn e => ?_, fun h => ?_⟩, hok⟩
  · obtain ⟨m, hm⟩ := hok ⟨n, hn, e⟩
    rw [h] at hm
    cases hm
  · unfold insertLia
    rw [List.find?_eq_none.2 (by simpa using h)]
    rfl

/-- The proof that is put in place of a `lia_generic` step has the same conclusion and depth. If the proof of the solver starts from negations
of literals of the conclusion, each of which is assumed once, the subproof is accepted, and so are all steps after it. -/
theorem c60_lia (E : TableEnv) {forest : List Node} {C : List Term} {root : String} {depth : Nat} {n proof : Node}
    (h : insertLia forest C root depth = .ok n) (hp : forest.find? (fun n => n.clause = []) = some proof) (h0 : proof.depth = 0) (hi : Inside proof)
    (hC : ∀ m, Reaches proof m → AssumptionAt 0 m → ∃ l ∈ C, m.clause = [.op .not [l]])
    (hd : ∀ m m', Reaches proof m → Reaches proof m' → AssumptionAt 0 m → AssumptionAt 0 m' → m.clause = m'.clause → m = m') :
    n.clause = C ∧ n.depth = depth ∧ ∃ d as pre, Closes d as (proof.moved (depth + 1) pre) ∧ d.depth = depth + 1 ∧
      Derived E false [.subproof (.step d [] (as.map fun a => .assume a.1 d.depth a.2) (some (proof.moved (depth + 1) pre))) [] []] n := by
  have hpc : proof.clause = [] := by simpa using List.find?_some hp
  unfold insertLia at h
  rw [hp] at h
  simp only [orPanic, bind_ok, ok_inj, exists_eq_left', Prod.exists] at h
  obtain ⟨sid, _, -, ns, ids, h1, h⟩ := h
  have hs : ids.stack ≠ [] := by
    obtain ⟨_, _, h2, h3⟩ := liaAssumptions_total (assumptionMap [] ((proof.moved (depth + 1) sid).assumptionsAt (depth + 1))) depth C []
      (ids := .new (sid ++ ".added")) (by simp [IdHelper.new])
    rw [h1] at h2
    cases h2
    exact h3
  obtain ⟨as, rfl, has⟩ := liaAssumptions_shape (fun t m hm => by
    rcases assumptionMap_get hm with h | ⟨h, id, k, rfl⟩
    · simp [mapGet] at h
    · obtain ⟨-, id', t', e⟩ := Node.mem_assumptionsAt.1 h
      cases e
      exact ⟨id, rfl⟩) h1
  obtain ⟨names, idf, id, -, h3⟩ := closeSolverProof_shape (sid := sid) hs (as.map fun a => .assume a.1 (depth + 1) a.2)
    (proof.moved (depth + 1) sid) C depth
  rw [h3] at h
  cases h
  refine ⟨rfl, rfl, { id := sid, depth := depth + 1, clause := subproofClause C, rule := "subproof" }, as, sid, ⟨rfl, ?_, fun Γ => ?_, ?_⟩, rfl,
    solver_derived E rfl⟩
  · rw [Node.moved_depth _ _ hi, h0, Nat.zero_add]
  · rw [Node.moved_clause, hpc]
    refine subproof_refutation.2 ?_
    have : List.Forall₂ (fun t l => polyeq t (.op .not [l]) = .ok true) (as.map (·.2)) C := by
      rw [has, List.forall₂_map_left_iff, List.forall₂_same]
      exact fun l _ => polyeq_refl _
    rwa [List.forall₂_map_left_iff] at this
  · rintro m hm ⟨mid, t, rfl⟩
    obtain ⟨m', hm', e⟩ := hm.moved
    cases m' with
    | step => simp [Node.moved] at e
    | subproof => simp [Node.moved] at e
    | assume id' k' t' =>
      rw [Node.moved] at e
      simp only [Node.assume.injEq] at e
      obtain ⟨rfl, e2, rfl⟩ := e
      obtain rfl : k' = 0 := by omega
      obtain ⟨l, hl, e⟩ := hC _ hm' ⟨_, _, rfl⟩
      simp only [Node.clause, List.cons.injEq, and_true] at e
      subst e
      have hmem : Node.assume (sid ++ "." ++ id') (depth + 1) (.op .not [l]) ∈ (proof.moved (depth + 1) sid).assumptionsAt (depth + 1) :=
        Node.mem_assumptionsAt.2 ⟨hm, _, _, rfl⟩
      obtain ⟨q, hq⟩ := Option.isSome_iff_exists.1 (assumptionMap_isSome (m := []) (.inr ⟨_, _, hmem⟩))
      obtain rfl : q = Node.assume (sid ++ "." ++ id') (depth + 1) (.op .not [l]) := by
        rcases assumptionMap_get hq with h | ⟨h, qid, qk, rfl⟩
        · simp [mapGet] at h
        · obtain ⟨hr, _, _, eq⟩ := Node.mem_assumptionsAt.1 h
          cases eq
          obtain ⟨q', hq', e⟩ := hr.moved
          cases q' with
          | step => simp [Node.moved] at e
          | subproof => simp [Node.moved] at e
          | assume id'' k'' t'' =>
            rw [Node.moved] at e
            simp only [Node.assume.injEq] at e
            obtain ⟨rfl, e3, rfl⟩ := e
            obtain rfl : k'' = 0 := by omega
            have := hd _ _ hm' hq' ⟨_, _, rfl⟩ ⟨_, _, rfl⟩ rfl
            cases this
            rfl
      exact liaAssumptions_covers hq h1 hl (by simp)

/-! ## Proofs for `hole` -/

/-- The proof that is put in place of a `hole` step has the same conclusion and depth, and all steps after the subproof are accepted. The
subproof is accepted exactly if the assumptions of the solver's proof are, in the order in which they are found, the negations of all
literals of the conclusion, up to what `polyeq` ignores. -/
theorem c60_hole (E : TableEnv) {forest : List Node} {C : List Term} {root : String} {depth : Nat} {n proof : Node}
    (h : insertHole forest C root depth = .ok n) (hp : forest.find? (fun n => n.clause = []) = some proof) (h0 : proof.depth = 0)
    (hi : Inside proof) : n.clause = C ∧ n.depth = depth ∧ ∃ d as, d.depth = depth + 1 ∧
      as.map (fun a => Node.assume a.1 d.depth a.2) = (proof.moved (depth + 1) root).assumptionsAt (depth + 1) ∧
      Derived E false [.subproof (.step d [] (as.map fun a => .assume a.1 d.depth a.2) (some (proof.moved (depth + 1) root))) [] []] n ∧
      (Closes d as (proof.moved (depth + 1) root) ↔ List.Forall₂ (fun a l => polyeq a.2 (.op .not [l]) = .ok true) as C) := by
  have hpc : proof.clause = [] := by simpa using List.find?_some hp
  unfold insertHole at h
  rw [hp] at h
  simp only [orPanic, bind_ok, ok_inj, exists_eq_left', Prod.exists] at h
  obtain ⟨sid, ids, h1, h⟩ := h
  have hs : ids.stack ≠ [] := by
    obtain ⟨_, _, e, h⟩ := IdHelper.nextId_total (h := .new root) (by simp [IdHelper.new])
    rw [h1] at e
    cases e
    exact h
  have has : ∀ ns : List Node, (∀ m ∈ ns, AssumptionAt (depth + 1) m) → ∃ as : List (String × Term), as.map (fun a => Node.assume a.1 (depth + 1) a.2) = ns := by
    intro ns
    induction ns with
    | nil => exact fun _ => ⟨[], rfl⟩
    | cons m ns ih =>
      intro h
      obtain ⟨as, e⟩ := ih fun m hm => h m (by simp [hm])
      obtain ⟨id, t, rfl⟩ := h m (by simp)
      exact ⟨(id, t) :: as, by simp [e]⟩
  obtain ⟨as, has⟩ := has _ fun m hm => (Node.mem_assumptionsAt.1 hm).2
  obtain ⟨names, idf, id, -, h3⟩ := closeSolverProof_shape (sid := sid) hs ((proof.moved (depth + 1) root).assumptionsAt (depth + 1))
    (proof.moved (depth + 1) root) C depth
  rw [h3] at h
  cases h
  refine ⟨rfl, rfl, { id := sid, depth := depth + 1, clause := subproofClause C, rule := "subproof" }, as, rfl, has, ?_, ?_⟩
  · simp only [has]
    exact solver_derived E rfl
  · constructor
    · intro h
      have := h.accepted []
      rw [Node.moved_clause, hpc] at this
      exact subproof_refutation.1 this
    · intro h
      refine ⟨rfl, ?_, fun Γ => ?_, fun m hm ha => ?_⟩
      · rw [Node.moved_depth _ _ hi, h0, Nat.zero_add]
      · rw [Node.moved_clause, hpc]
        exact subproof_refutation.2 h
      · simp only [has]
        exact Node.mem_assumptionsAt.2 ⟨hm, ha⟩

/-! ## After the steps are elaborated -/

theorem complementary_lit {x u : Term} (h : Complementary x u) : u.removeAllNegations.2 = x.removeAllNegations.2 ∧
    (u.removeAllNegations.1 = x.removeAllNegations.1 + 1 ∨ x.removeAllNegations.1 = u.removeAllNegations.1 + 1) := by
  rcases h with rfl | rfl
  · rw [removeAll_not]; exact ⟨rfl, .inl rfl⟩
  · rw [removeAll_not]; exact ⟨rfl, .inr rfl⟩

theorem removeAll_dneg (t : Term) : (dneg t).removeAllNegations = (t.removeAllNegations.1 + 2, t.removeAllNegations.2) := by
  rw [dneg, removeAll_not, removeAll_not]

theorem mem_subproofClause {C : List Term} {x : Term} : x ∈ subproofClause C ↔ (∃ l ∈ C, x = dneg l) ∨ x = .fls := by
  rw [subproofClause, List.mem_append, List.mem_map, List.mem_singleton]
  exact or_congr ⟨fun ⟨l, h, e⟩ => ⟨l, h, e.symm⟩, fun ⟨l, h, e⟩ => ⟨l, h, e.symm⟩⟩ Iff.rfl

theorem fls_removeAll : Term.fls.removeAllNegations = (0, .fls) := rfl

section
variable {C : List Term} (hn : (C.map fun t => t.removeAllNegations.2).Nodup) (hf : ∀ l ∈ C, l.removeAllNegations.2 ≠ .fls)
include hn hf

theorem solver_noTautology : NoTautology (subproofClause C :: C.map (fun l => [.op .not [dneg l], l]) ++ [[.op .not [.fls]]]) := by
  intro c hc x hx u hu hcu
  obtain ⟨h1, h2⟩ := complementary_lit hcu
  rcases List.mem_append.1 hc with hc | hc
  · rcases List.mem_cons.1 hc with rfl | hc
    · rcases mem_subproofClause.1 hx with ⟨l, hl, rfl⟩ | rfl <;> rcases mem_subproofClause.1 hu with ⟨k, hk, rfl⟩ | rfl
      · rw [removeAll_dneg, removeAll_dneg] at h1 h2
        have : k = l := List.inj_on_of_nodup_map hn hk hl h1
        subst this
        simp only at h2
        omega
      · rw [removeAll_dneg, fls_removeAll] at h1
        exact hf l hl h1.symm
      · rw [removeAll_dneg, fls_removeAll] at h1
        exact hf k hk h1
      · omega
    · obtain ⟨l, hl, rfl⟩ := List.mem_map.1 hc
      simp only [List.mem_cons, List.not_mem_nil, or_false] at hx hu
      rcases hx with rfl | rfl <;> rcases hu with rfl | rfl <;> (try simp only [removeAll_not, removeAll_dneg] at h2) <;> omega
  · rw [List.mem_singleton] at hc
    subst hc
    rw [List.mem_singleton] at hx hu
    subst hx hu
    omega

theorem solver_disjoint : (subproofClause C :: C.map (fun l => [Term.op .not [dneg l], l]) ++ [[Term.op .not [.fls]]]).Pairwise
    fun c e => ∀ x ∈ c, x ∉ e := by
  rw [List.cons_append, List.pairwise_cons, List.pairwise_append, List.pairwise_map]
  refine ⟨fun c hc x hx hxc => ?_, ?_, by simp, ?_⟩
  · rcases List.mem_append.1 hc with hc | hc
    · obtain ⟨k, hk, rfl⟩ := List.mem_map.1 hc
      simp only [List.mem_cons, List.not_mem_nil, or_false] at hxc
      rcases mem_subproofClause.1 hx with ⟨l, hl, rfl⟩ | rfl
      · have h : (dneg l).removeAllNegations.2 = k.removeAllNegations.2 := by
          rcases hxc with e | e <;> rw [e] <;> simp only [removeAll_not, removeAll_dneg]
        rw [removeAll_dneg] at h
        have : l = k := List.inj_on_of_nodup_map hn hl hk h
        subst this
        rcases hxc with e | e
        · have := congrArg (fun t => t.removeAllNegations.1) e
          simp only [removeAll_not, removeAll_dneg] at this
          omega
        · have := congrArg (fun t => t.removeAllNegations.1) e
          simp only [removeAll_dneg] at this
          omega
      · rcases hxc with e | e
        · have := congrArg (fun t => t.removeAllNegations.1) e
          simp only [removeAll_not, fls_removeAll] at this
          omega
        · exact hf k hk (by rw [← e, fls_removeAll])
    · rw [List.mem_singleton] at hc
      subst hc
      rw [List.mem_singleton] at hxc
      subst hxc
      rcases mem_subproofClause.1 hx with ⟨l, hl, e⟩ | e
      · have := congrArg (fun t => t.removeAllNegations.2) e
        simp only [removeAll_not, removeAll_dneg, fls_removeAll] at this
        exact hf l hl this.symm
      · cases e
  · have : C.Pairwise fun l k => l.removeAllNegations.2 ≠ k.removeAllNegations.2 := by
      rw [List.Nodup, List.pairwise_map] at hn
      exact hn
    refine this.imp fun {l k} hne x hx hxk => hne ?_
    simp only [List.mem_cons, List.not_mem_nil, or_false] at hx hxk
    have h1 : x.removeAllNegations.2 = l.removeAllNegations.2 := by
      rcases hx with e | e <;> rw [e] <;> simp only [removeAll_not, removeAll_dneg]
    have h2 : x.removeAllNegations.2 = k.removeAllNegations.2 := by
      rcases hxk with e | e <;> rw [e] <;> simp only [removeAll_not, removeAll_dneg]
    rw [← h1, h2]
  · intro c hc e he x hx hxe
    rw [List.mem_singleton] at he
    subst he
    rw [List.mem_singleton] at hxe
    subst hxe
    obtain ⟨l, hl, rfl⟩ := List.mem_map.1 hc
    simp only [List.mem_cons, List.not_mem_nil, or_false] at hx
    have h1 : (Term.op .not [.fls]).removeAllNegations.2 = l.removeAllNegations.2 := by
      rcases hx with e | e <;> rw [e] <;> simp only [removeAll_not, removeAll_dneg]
    exact hf l hl h1.symm

end

theorem noReturn_of_disjoint {cs : List (List Term)} (h : cs.Pairwise fun c e => ∀ x ∈ c, x ∉ e) : NoReturn cs := by
  intro i j k c d e hij hjk hi hj hk l hl u _ hle
  obtain ⟨hi', rfl⟩ := List.getElem?_eq_some_iff.1 hi
  obtain ⟨hk', rfl⟩ := List.getElem?_eq_some_iff.1 hk
  exact absurd hle (List.pairwise_iff_getElem.1 h i k hi' hk' (by omega) l hl)

theorem insert_shape {forest : List Node} {C : List Term} {root : String} {depth : Nat} {n : Node}
    (h : insertLia forest C root depth = .ok n ∨ insertHole forest C root depth = .ok n) :
    ∃ names : List String, ∃ sid idf id dis proof, names.length = C.length ∧ n = .mk { id, depth, clause := C, rule := "resolution" }
      (.subproof (.step { id := sid, depth := depth + 1, clause := subproofClause C, rule := "subproof" } [] dis (some proof)) [] [] ::
        (names.zip C).map (fun a => .mk { id := a.1, depth, clause := [.op .not [.op .not [.op .not [a.2]]], a.2], rule := "not_not" } []) ++
        [.mk { id := idf, depth, clause := [.op .not [.fls]], rule := "false" } []]) := by
  rcases h with h | h
  · unfold insertLia at h
    simp only [bind_ok, Prod.exists] at h
    obtain ⟨proof, -, sid, _, -, ns, ids, h1, h⟩ := h
    have hs : ids.stack ≠ [] := by
      obtain ⟨_, _, h2, h3⟩ := liaAssumptions_total (assumptionMap [] ((proof.moved (depth + 1) sid).assumptionsAt (depth + 1))) depth C []
        (ids := .new (sid ++ ".added")) (by simp [IdHelper.new])
      rw [h1] at h2
      cases h2
      exact h3
    obtain ⟨names, idf, id, h2, h3⟩ := closeSolverProof_shape (sid := sid) hs ns (proof.moved (depth + 1) sid) C depth
    rw [h3] at h
    cases h
    exact ⟨names, sid, idf, id, _, _, h2, rfl⟩
  · unfold insertHole at h
    simp only [bind_ok, Prod.exists] at h
    obtain ⟨proof, -, sid, ids, h1, h⟩ := h
    have hs : ids.stack ≠ [] := by
      obtain ⟨_, _, e, h⟩ := IdHelper.nextId_total (h := .new root) (by simp [IdHelper.new])
      rw [h1] at e
      cases e
      exact h
    obtain ⟨names, idf, id, h2, h3⟩ := closeSolverProof_shape (sid := sid) hs ((proof.moved (depth + 1) root).assumptionsAt (depth + 1))
      (proof.moved (depth + 1) root) C depth
    rw [h3] at h
    cases h
    exact ⟨names, sid, idf, id, _, _, h2, rfl⟩

/-- Once the resolution step has been elaborated as well, all steps after the subproof are accepted in both modes, if the literals have
different atoms and none of them is `false`.

Missing: conclusions in which two literals have the same atom; for these the claim fails (below). -/
theorem c60_elaborated_partial (E : TableEnv) (el : Bool) {forest : List Node} {C : List Term} {root : String} {depth : Nat} {n : Node}
    (h : insertLia forest C root depth = .ok n ∨ insertHole forest C root depth = .ok n) (hne : C ≠ [])
    (hn : (C.map fun t => t.removeAllNegations.2).Nodup) (hf : ∀ l ∈ C, l.removeAllNegations.2 ≠ .fls) :
    ∃ d last ps n', n = .mk d (.subproof last [] [] :: ps) ∧ elabResolution d (.subproof last [] [] :: ps) [] none = .ok n' ∧ n'.clause = C ∧
      Derived E el [.subproof last [] []] n' := by
  obtain ⟨names, sid, idf, id, dis, proof, hl, rfl⟩ := insert_shape h
  have hcl := map_clause_notNots (depth := depth) hl
  generalize hsub : Node.step { id := sid, depth := depth + 1, clause := subproofClause C, rule := "subproof" } [] dis (some proof) = last
  have hsc : (Node.subproof last [] []).clause = subproofClause C := by rw [← hsub]; rfl
  generalize hps : Node.subproof last [] [] :: (names.zip C).map (fun a => .mk { id := a.1, depth, clause := [.op .not [.op .not [.op .not [a.2]]], a.2], rule := "not_not" } []) ++
    [.mk { id := idf, depth, clause := [.op .not [.fls]], rule := "false" } []] = ps
  have hclauses : ps.map Node.clause = subproofClause C :: C.map (fun l => [.op .not [dneg l], l]) ++ [[.op .not [.fls]]] := by
    rw [← hps, List.map_append, List.map_cons, hcl, hsc]; rfl
  have hnodup : ps.Nodup := by
    have := solver_disjoint hn hf
    rw [← hclauses, List.pairwise_map] at this
    refine List.Pairwise.imp_of_mem (fun {a b} ha _ h e => ?_) this
    subst e
    have hne : a.clause ≠ [] := by
      have hm : a.clause ∈ ps.map Node.clause := List.mem_map_of_mem ha
      rw [hclauses] at hm
      rcases List.mem_append.1 hm with hm | hm
      · rcases List.mem_cons.1 hm with e | hm
        · rw [e]; simp [subproofClause]
        · obtain ⟨_, _, e⟩ := List.mem_map.1 hm; rw [← e]; simp
      · rw [List.mem_singleton.1 hm]; simp
    obtain ⟨x, hx⟩ := List.exists_mem_of_ne_nil _ hne
    exact h x hx hx
  have hlen : ps.length = C.length + 2 := by
    have := congrArg List.length hclauses
    simpa using this
  obtain ⟨n', h1, h2, h3⟩ := c59_accepted_partial E el (d := { id, depth, clause := C, rule := "resolution" }) (ps := ps) (qs := ps)
    (r := ⟨false, C.map (fun l => (dneg l, true)) ++ [(.fls, true)]⟩) [] none rfl (.inl hne) hnodup (by omega)
    ⟨by rw [hclauses]; exact greedy_solver hn hf, .inl rfl⟩ rfl (by rw [hclauses]; exact solver_noTautology hn hf)
    (by rw [hclauses]; exact noReturn_of_disjoint (solver_disjoint hn hf)) (by simp [hlen]) (by
      rw [List.map_append, List.map_map, List.nodup_append]
      refine ⟨?_, by simp, ?_⟩
      · refine List.Nodup.of_map (fun t => t.removeAllNegations.2) ?_
        simpa [Function.comp_def, removedBy, removeAll_dneg] using hn
      · intro a ha b hb e
        obtain ⟨l, _, rfl⟩ := List.mem_map.1 ha
        simp only [List.map_cons, List.map_nil, List.mem_singleton] at hb
        subst hb
        simp [removedBy, dneg, Term.fls] at e)
  subst hps
  refine ⟨_, last, _, n', rfl, h1, h2, h3.compose fun p hp => solver_premises E el hp⟩

/-! ## Cases -/

section
private abbrev p : Term := .var "p" .bool
private abbrev q : Term := .var "q" .bool
private abbrev neg (t : Term) : Term := .op .not [t]
private abbrev assume (id : String) (t : Term) : Node := .assume id 0 t
private abbrev step (id : String) (C : List Term) (ps : List Node) : Node := .mk { id, depth := 0, clause := C, rule := "resolution" } ps

theorem Spec.Reaches.mk_inv {d : NodeData} {ps : List Node} {m : Node} (h : Reaches (.mk d ps) m) : m = .mk d ps ∨ ∃ n ∈ ps, Reaches n m := by
  generalize e : Node.mk d ps = n at h
  cases h with
  | refl => exact .inl rfl
  | premise hp h => cases e; exact .inr ⟨_, hp, h⟩
  | discharge hp => cases e; simp at hp
  | previous => cases e
  | last => cases e
  | extra => cases e

theorem Spec.Reaches.assume_inv {id : String} {k : Nat} {t : Term} {m : Node} (h : Reaches (.assume id k t) m) : m = .assume id k t := by
  cases h; rfl

/-- The solver refuted `(not p)` and `(not (not p))`; the conclusion also has the literal `q`, which is not used. -/
private abbrev refutation : Node := step "t1" [] [assume "a0" (neg p), assume "a1" (neg (neg p))]

theorem refutation_assumptions {m : Node} (h : Reaches refutation m) (ha : AssumptionAt 0 m) : m = assume "a0" (neg p) ∨ m = assume "a1" (neg (neg p)) := by
  rcases h.mk_inv with rfl | ⟨n, hn, h⟩
  · obtain ⟨_, _, e⟩ := ha; cases e
  · simp only [List.mem_cons, List.not_mem_nil, or_false] at hn
    rcases hn with rfl | rfl
    · exact .inl h.assume_inv
    · exact .inr h.assume_inv

/-- The hypotheses of `c60_lia` hold for the conclusion `p`, `q`, `(not p)`, and the steps are what one expects. -/
example (E : TableEnv) : ∃ n, insertLia [refutation] [p, q, neg p] "t7" 2 = .ok n ∧ n.clause = [p, q, neg p] ∧ n.depth = 2 ∧
    ∃ d as pre, Closes d as (refutation.moved 3 pre) ∧ d.depth = 3 ∧
      Derived E false [.subproof (.step d [] (as.map fun a => .assume a.1 d.depth a.2) (some (refutation.moved 3 pre))) [] []] n := by
  obtain ⟨n, hn⟩ := (c60_lia_panics [refutation] [p, q, neg p] "t7" 2).2 ⟨refutation, by simp, rfl⟩
  refine ⟨n, hn, c60_lia E hn rfl rfl trivial ?_ ?_⟩
  · intro m hm ha
    rcases refutation_assumptions hm ha with rfl | rfl
    · exact ⟨p, by simp, rfl⟩
    · exact ⟨neg p, by simp, rfl⟩
  · intro m m' hm hm' ha ha' e
    rcases refutation_assumptions hm ha with rfl | rfl <;> rcases refutation_assumptions hm' ha' with rfl | rfl <;> simp [Node.clause] at e ⊢

example : insertLia [refutation] [p, q] "t7" 0 = .ok (.mk { id := "t7.t1.added.t5", depth := 0, clause := [p, q], rule := "resolution" }
    [.subproof (.step { id := "t7.t1", depth := 1, clause := [neg (neg p), neg (neg q), .fls], rule := "subproof" } []
        [.assume "t7.t1.a0" 1 (neg p), .assume "t7.t1.added.t1" 1 (neg q)] (some (.mk { id := "t7.t1.t1", depth := 1, clause := [], rule := "resolution" }
          [.assume "t7.t1.a0" 1 (neg p), .assume "t7.t1.a1" 1 (neg (neg p))]))) [] [],
     .mk { id := "t7.t1.added.t2", depth := 0, clause := [neg (neg (neg p)), p], rule := "not_not" } [],
     .mk { id := "t7.t1.added.t3", depth := 0, clause := [neg (neg (neg q)), q], rule := "not_not" } [],
     .mk { id := "t7.t1.added.t4", depth := 0, clause := [neg .fls], rule := "false" } []]) := Node.ok_of_same (by decide +kernel)

/-- The node is a step whose first premise is a subproof, the closing step of which is not accepted. -/
def NotClosed (n : Node) : Prop :=
  ∃ d' d dis prev rest, n = .mk d' (.subproof (.step d [] dis (some prev)) [] [] :: rest) ∧
    ∀ as : List (String × Term), dis = as.map (fun a => .assume a.1 d.depth a.2) → ¬ Closes d as prev

private def named : List Node → List (String × Term)
  | .assume id _ t :: ns => (id, t) :: named ns
  | _ :: ns => named ns
  | [] => []

private theorem named_map {k : Nat} : ∀ as : List (String × Term), named (as.map fun a => .assume a.1 k a.2) = as
  | [] => rfl
  | a :: as => by rw [List.map_cons, named, named_map as]

private def notClosed : Node → Bool
  | .step _ (.subproof (.step d [] dis (some prev)) [] [] :: _) [] none =>
    decide (subproof { conclusion := d.clause, previous := some prev.clause, discharge := (named dis).map fun a => .assume a.1 a.2 } ≠ .ok ()) ||
      (prev.assumesAt d.depth).any fun m => !dis.any m.same
  | _ => false

private theorem notClosed_spec {n : Node} (h : notClosed n = true) : NotClosed n := by
  unfold notClosed at h
  split at h
  · next d' d dis prev rest =>
    refine ⟨d', d, dis, prev, rest, rfl, fun as e hc => ?_⟩
    subst e
    rw [named_map] at h
    rw [Bool.or_eq_true] at h
    rcases h with h | h
    · exact of_decide_eq_true h (hc.accepted [])
    · obtain ⟨m, hm, h⟩ := List.any_eq_true.1 h
      obtain ⟨h1, h2⟩ := Node.mem_assumesAt.1 hm
      have := hc.all m h1 h2
      rw [Bool.not_eq_true', List.any_eq_false] at h
      exact h m this (Node.same_self m)
  · simp at h

private theorem notClosed_of_eval {r : Res Node} (h : (match r with | .ok n => notClosed n | .error _ => false) = true) :
    ∃ n, r = .ok n ∧ NotClosed n := by
  split at h
  · exact ⟨_, rfl, notClosed_spec h⟩
  · simp at h

private abbrev a : Term := .var "a" .int
private abbrev b : Term := .var "b" .int

/-- A step of a proof that the checker accepts (with the warning that it is a hole). -/
private abbrev holed (id : String) (ps : List Node) : Node := .mk { id, depth := 0, clause := [], rule := "hole" } ps

private theorem holed_derived (E : TableEnv) (el : Bool) (id : String) (ps : List Node) : Derived E el ps (holed id ps) :=
  .step (fun p hp => .given hp) ⟨fun _ _ _ => .ok (), rfl, rfl⟩

/-- Proofs that the checker accepts, of the empty clause from negations of literals of the conclusion, for which the closing step of the
inserted subproof is rejected. For `lia_generic`: a negated literal is assumed twice; an equality is assumed the other way around. For `hole`:
a literal is not used; the literals are used in another order. -/
theorem c60_not_closed_fails (E : TableEnv) :
    (Derived E false [assume "a0" (neg p), assume "a1" (neg p)] (holed "t1" [assume "a0" (neg p), assume "a1" (neg p)]) ∧
      ∃ n, insertLia [holed "t1" [assume "a0" (neg p), assume "a1" (neg p)]] [p] "t7" 0 = .ok n ∧ NotClosed n) ∧
    (polyeq (neg (.op .equals [b, a])) (neg (.op .equals [a, b])) = .ok true ∧
      Derived E false [assume "a0" (neg (.op .equals [b, a]))] (holed "t1" [assume "a0" (neg (.op .equals [b, a]))]) ∧
      ∃ n, insertLia [holed "t1" [assume "a0" (neg (.op .equals [b, a]))]] [.op .equals [a, b]] "t7" 0 = .ok n ∧ NotClosed n) ∧
    (Derived E false [assume "a0" (neg p)] (holed "t1" [assume "a0" (neg p)]) ∧
      ∃ n, insertHole [holed "t1" [assume "a0" (neg p)]] [p, q] "t7" 0 = .ok n ∧ NotClosed n) ∧
    (Derived E false [assume "a1" (neg q), assume "a0" (neg p)] (holed "t1" [assume "a1" (neg q), assume "a0" (neg p)]) ∧
      ∃ n, insertHole [holed "t1" [assume "a1" (neg q), assume "a0" (neg p)]] [p, q] "t7" 0 = .ok n ∧ NotClosed n) := by
  refine ⟨⟨holed_derived .., notClosed_of_eval (by decide +kernel)⟩, ⟨by decide +kernel, holed_derived .., notClosed_of_eval (by decide +kernel)⟩,
    ⟨holed_derived .., notClosed_of_eval (by decide +kernel)⟩, holed_derived .., notClosed_of_eval (by decide +kernel)⟩

/-- In the case of `hole`, the step that closes the subproof is named like a step of the solver's proof that is named `t1`. -/
theorem c60_names_fails : ∃ n d' d dis e ps rest, insertHole [holed "t1" [assume "a0" (neg p)]] [p] "t7" 0 = .ok n ∧
    n = .mk d' (.subproof (.step d [] dis (some (.step e ps [] none))) [] [] :: rest) ∧ d.id = e.id := by
  refine ⟨.mk { id := "t7.t4", depth := 0, clause := [p], rule := "resolution" }
    [.subproof (.step { id := "t7.t1", depth := 1, clause := [neg (neg p), .fls], rule := "subproof" } [] [.assume "t7.a0" 1 (neg p)]
        (some (.mk { id := "t7.t1", depth := 1, clause := [], rule := "hole" } [.assume "t7.a0" 1 (neg p)]))) [] [],
     .mk { id := "t7.t2", depth := 0, clause := [neg (neg (neg p)), p], rule := "not_not" } [],
     .mk { id := "t7.t3", depth := 0, clause := [neg .fls], rule := "false" } []], _, _, _, _, _, _, Node.ok_of_same (by decide +kernel), rfl, rfl⟩

/-- Conclusions with two literals for the same atom. For `p`, `(not p)` the elaborator panics (an error is returned, and unwrapped by the
caller). For `p`, `p` the elaborated step is rejected. -/
theorem c60_elaborated_fails (E : TableEnv) :
    (∃ d ps, insertLia [refutation] [p, neg p] "t7" 0 = .ok (.mk d ps) ∧ elabResolution d ps [] none = err) ∧
    (∃ d ps e, insertLia [refutation] [p, p] "t7" 0 = .ok (.mk d ps) ∧ elabResolution d ps [] none = .ok (.mk e ps) ∧ ¬ StepOK E true e ps) := by
  have h1 : (match insertLia [refutation] [p, neg p] "t7" 0 with
    | .ok (.step d ps [] none) => (match elabResolution d ps [] none with | .error .err => true | _ => false)
    | _ => false) = true := by decide +kernel
  have h2 : (match insertLia [refutation] [p, p] "t7" 0 with
    | .ok (.step d ps [] none) => (match elabResolution d ps [] none with
      | .ok (.step e qs [] none) => Node.sames qs ps && decide (e.rule = "resolution") && decide (resolutionWithArgs e.clause (qs.map Node.clause) e.args ≠ .ok ())
      | _ => false)
    | _ => false) = true := by decide +kernel
  constructor
  · split at h1
    · next d ps he =>
      split at h1
      · next e => exact ⟨d, ps, he, e⟩
      · simp at h1
    · simp at h1
  · split at h2
    · next d ps he =>
      split at h2
      · next e qs hq =>
        simp only [Bool.and_eq_true, decide_eq_true_eq] at h2
        obtain ⟨⟨h3, h4⟩, h5⟩ := h2
        obtain rfl := Node.sames_eq h3
        exact ⟨d, qs, e, he, hq, fun h => h5 ((stepOK_resolution_elaborated h4).1 h)⟩
      · simp at h2
    · simp at h2

/-- The hypotheses of `c60_hole`, with a closing step that is accepted, and those of `c60_elaborated_partial`. -/
example (E : TableEnv) : ∃ n, insertHole [holed "t2" [assume "a0" (neg p), assume "a1" (neg q)]] [p, q] "t7" 0 = .ok n ∧
    ∃ d as, Closes d as ((holed "t2" [assume "a0" (neg p), assume "a1" (neg q)]).moved 1 "t7") := by
  obtain ⟨n, hn⟩ := ok_of_eval (r := insertHole [holed "t2" [assume "a0" (neg p), assume "a1" (neg q)]] [p, q] "t7" 0) (by decide +kernel)
  obtain ⟨-, -, d, as, h1, h2, -, h3⟩ := c60_hole E hn rfl rfl trivial
  refine ⟨n, hn, d, as, h3.2 ?_⟩
  have e : ((holed "t2" [assume "a0" (neg p), assume "a1" (neg q)]).moved (0 + 1) "t7").assumptionsAt (0 + 1) =
      [.assume "t7.a0" 1 (neg p), .assume "t7.a1" 1 (neg q)] := Node.sames_eq (by decide +kernel)
  rw [e] at h2
  have := congrArg named h2
  rw [named_map] at this
  subst this
  simp only [named, List.forall₂_cons, List.forall₂_nil_left_iff, and_true]
  exact ⟨polyeq_refl _, polyeq_refl _⟩
example (E : TableEnv) : ∃ d last ps n', insertLia [refutation] [neg p, q] "t7" 0 = .ok (.mk d (.subproof last [] [] :: ps)) ∧
    elabResolution d (.subproof last [] [] :: ps) [] none = .ok n' ∧ n'.clause = [neg p, q] ∧ Derived E true [.subproof last [] []] n' := by
  obtain ⟨n, hn⟩ := (c60_lia_panics [refutation] [neg p, q] "t7" 0).2 ⟨refutation, by simp, rfl⟩
  obtain ⟨d, last, ps, n', rfl, h⟩ := c60_elaborated_partial E true (.inl hn) (by simp) (by decide) (by decide)
  exact ⟨d, last, ps, n', hn, h⟩
example (E : TableEnv) : Derived E false [.assume "t7.t1.a0" 3 (neg p), .assume "t7.t1.a1" 3 (neg (neg p))] (refutation.moved 3 "t7.t1") := by
  have h : Derived E false [assume "a0" (neg p), assume "a1" (neg (neg p))] refutation :=
    .step (fun p hp => .given hp) ⟨resolution, rfl, by decide +kernel⟩
  exact (c60_moved 3 "t7.t1" h).2
example (E : TableEnv) : Accepted E false [.assume "t7.t1.a0" 3 (neg p), .assume "t7.t1.a1" 3 (neg (neg p))] (refutation.moved 3 "t7.t1") :=
  c60_moved_accepted 3 "t7.t1" (given := [assume "a0" (neg p), assume "a1" (neg (neg p))])
    (.step (fun p hp => .given hp) (by simp [Node.depth]) ⟨resolution, rfl, by decide +kernel⟩)

end

end Carcara
