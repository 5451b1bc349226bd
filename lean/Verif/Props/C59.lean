import Verif.Lemmas.ElabResolution
import Verif.Lemmas.UncrowdingTotal

/-!
# C59: resolution steps are elaborated into resolution steps with arguments that are accepted

The property fails in several ways; the theorems say exactly when it holds for premises in which no clause is a tautology and no literal comes
back after its complement.
-/

namespace Carcara

open Spec

/-! ## The conclusion is kept -/

theorem restoreNotNot_shape {ids : IdHelper} {d : NodeData} {qs : List Node} {n : Node} (h : restoreNotNot ids d qs = .ok n) :
    ∃ c id1 id2 id3, d.clause = [.op .not [.op .not [c]]] ∧
      n = .mk { id := id3, depth := d.depth, clause := d.clause, rule := "resolution",
                args := [c, .tru, .op .not [.op .not [.op .not [.op .not [c]]]], .tru] }
        [.mk { d with clause := [c] } qs,
         .mk { id := id1, depth := d.depth, clause := [.op .not [.op .not [.op .not [.op .not [c]]]], .op .not [c]], rule := "not_not" } [],
         .mk { id := id2, depth := d.depth,
               clause := [.op .not [.op .not [.op .not [.op .not [.op .not [c]]]]], .op .not [.op .not [c]]], rule := "not_not" } []] := by
  unfold restoreNotNot at h
  split at h
  · next c hc =>
    simp only [bind_ok, Prod.exists] at h
    obtain ⟨id1, _, _, id2, _, _, id3, _, _, h⟩ := h
    cases h
    exact ⟨c, id1, id2, id3, hc, by rw [hc]⟩
  · simp at h

/-- The elaborated step has the conclusion and the depth of the original one. -/
theorem c59_conclusion {d : NodeData} {ps dis : List Node} {prev : Option Node} {n : Node} (h : elabResolution d ps dis prev = .ok n) :
    n.clause = d.clause ∧ n.depth = d.depth := by
  unfold elabResolution at h
  split at h
  · cases h; exact ⟨rfl, rfl⟩
  · split at h
    · next hc =>
      simp only [elabNotTrue, bind_ok, Prod.exists] at h
      obtain ⟨_, _, _, _, _, _, h⟩ := h
      cases h
      exact ⟨hc.1.symm, rfl⟩
    · split at h
      · cases h; exact ⟨rfl, rfl⟩
      · simp only [elabGreedy, bind_ok, Prod.exists] at h
        obtain ⟨qs, r, _, h⟩ := h
        split at h
        · obtain ⟨c, id1, id2, id3, _, rfl⟩ := restoreNotNot_shape h
          exact ⟨rfl, rfl⟩
        · cases h; exact ⟨rfl, rfl⟩

/-! ## The premise `(not true)` -/

/-- The empty clause from `(not true)`: the elaborated steps are accepted. -/
theorem c59_not_true (E : TableEnv) (el : Bool) {d : NodeData} {p : Node} (dis : List Node) (prev : Option Node) (hd : d.clause = [])
    (ha : d.args = []) (hp : p.clause = [.op .not [.tru]]) :
    ∃ n, elabResolution d [p] dis prev = .ok n ∧ n.clause = [] ∧ Derived E el [p] n := by
  obtain ⟨id1, ids1, e1, hs1⟩ := IdHelper.nextId_total (h := .new d.id) (by simp [IdHelper.new])
  obtain ⟨id2, ids2, e2, -⟩ := IdHelper.nextId_total hs1
  unfold elabResolution
  rw [if_neg (by simp [ha]), if_pos (by simp [hd, hp])]
  unfold elabNotTrue
  simp only [bind, Except.bind]
  rw [e1]
  simp only
  rw [e2]
  refine ⟨_, rfl, rfl, .step ?_ (stepOK_resolution rfl ?_)⟩
  · intro m hm
    simp only [List.singleton_append, List.mem_cons, List.not_mem_nil, or_false] at hm
    rcases hm with rfl | rfl
    · exact .given (by simp)
    · refine .step (by simp) ⟨trueRule, rfl, ?_⟩
      simp [trueRule, get1, require, bind, Except.bind, Term.isBoolTrue, Node.mk]
  · simp only [List.singleton_append, List.map_cons, List.map_nil, hp]
    rw [resolutionWithArgs_exact]
    refine ⟨by simp, .neg (e := (· ∈ ([] : List Term))) ⟨by simp, by simp [Node.clause, Node.mk], fun x => ?_⟩ (.done fun _ => Iff.rfl)⟩
    simp [Node.clause, Node.mk]

/-! ## Steps for which greedy resolution finds the pivots -/

theorem greedy_chain {C first : List Term} {rest : List (List Term)} {r : ResolutionTrace} (hnt : NoTautology (first :: rest))
    (hnr : NoReturn (first :: rest)) (h : greedyResolution C (first :: rest) true = .ok r) :
    ∃ s : Greedy, greedyFinish (setOf (C.map iLit)) s = .ok r ∧ History (setOf (C.map iLit)) s (first :: rest) ∧
      ∀ f, ResChain (· ∈ first) rest (tracedArgs r.pivotTrace) f ↔
        (r.pivotTrace.length = rest.length ∧ (r.pivotTrace.map removedBy).Nodup) ∧ ∀ x, s.has x ↔ f x := by
  simp only [greedyResolution, bind_ok] at h
  obtain ⟨s, h1, h2⟩ := h
  obtain ⟨h3, h4⟩ := greedyLoop_chain hnt hnr h1
  refine ⟨s, h2, h4, ?_⟩
  have : r.pivotTrace = s.trace := by
    unfold greedyFinish at h2
    split at h2
    · simp only [bind_ok, pure_ok] at h2
      obtain ⟨_, _, h2⟩ := h2
      rw [← h2]
    · split at h2
      · cases h2; rfl
      · split at h2
        · split at h2
          · cases h2; rfl
          · simp at h2
        · simp at h2
    · simp at h2
  rw [this]
  exact h3

theorem mapGet_false_iff {m : List (ILit × Bool)} (hn : (m.map (·.1)).Nodup) (k : ILit) :
    mapGet m k = some false ↔ (k, false) ∈ m.filter (fun p => !p.2) := by
  rw [List.mem_filter]
  refine ⟨fun h => ⟨mem_of_mapGet h, rfl⟩, fun h => ?_⟩
  replace h := h.1
  induction m with
  | nil => simp at h
  | cons p m ih =>
    obtain ⟨a, b⟩ := p
    simp only [List.map_cons, List.nodup_cons] at hn
    rw [mapGet]
    rcases List.mem_cons.1 h with e | h
    · cases e; rw [if_pos rfl]
    · rw [if_neg, ih hn.2 h]
      rintro rfl
      exact hn.1 (List.mem_map.2 ⟨_, h, rfl⟩)

theorem has_iff {C : List Term} {s : Greedy} (ha : s.Apart (setOf (C.map iLit))) (x : Term) :
    s.has x ↔ (x ∈ C ∧ iLit x ∈ s.working) ∨ (iLit x, false) ∈ s.pivots.filter (fun p => !p.2) := by
  unfold Greedy.has InR
  rw [mapGet_false_iff ha.nodup]
  refine or_congr ⟨fun h => ⟨?_, h⟩, fun h => h.2⟩ Iff.rfl
  have := ha.sub _ h
  rw [mem_setOf, List.mem_map] at this
  obtain ⟨y, hy, e⟩ := this
  exact iLit_injective e ▸ hy

theorem iLit_fls : iLit .fls = (0, .fls) := rfl

/-- What the final state stands for if no double negation was added. -/
theorem has_finish {C : List Term} {s : Greedy} {r : ResolutionTrace} (ha : s.Apart (setOf (C.map iLit)))
    (h : greedyFinish (setOf (C.map iLit)) s = .ok r) (hr : r.notNotAdded = false) :
    (∀ x, s.has x ↔ x ∈ C) ∨ (C = [] ∧ ∀ x, s.has x ↔ x ∈ [.fls]) := by
  unfold greedyFinish at h
  split at h
  · next hf =>
    simp only [bind_ok, require_ok] at h
    obtain ⟨_, hw, -⟩ := h
    refine .inl fun x => ?_
    rw [has_iff ha, hf]
    simp only [List.not_mem_nil, or_false, and_iff_left_iff_imp]
    exact fun hx => hw _ (by rw [mem_setOf]; exact List.mem_map_of_mem hx)
  · next i pivot b hf =>
    split at h
    · next hc =>
      obtain ⟨h1, rfl, h3⟩ := hc
      simp only [Term.isBoolFalse, decide_eq_true_eq] at h3
      subst h3
      have hC : C = [] := by
        rcases C with _ | ⟨c, C⟩
        · rfl
        · have : iLit c ∈ setOf ((c :: C).map iLit) := by rw [mem_setOf]; simp
          rw [h1] at this
          simp at this
      refine .inr ⟨hC, fun x => ?_⟩
      have hb : b = false := by
        have : ((0, Term.fls), b) ∈ s.pivots.filter (fun p => !p.2) := by rw [hf]; simp
        simpa using (List.mem_filter.1 this).2
      subst hb
      rw [has_iff ha, hf, hC]
      simp only [List.not_mem_nil, false_and, false_or, List.mem_singleton, Prod.mk.injEq, and_true]
      rw [← iLit_fls]
      exact ⟨fun h => iLit_injective h, fun h => h ▸ rfl⟩
    · split at h
      · split at h
        · cases h; simp at hr
        · simp at h
      · simp at h
  · simp at h

/-- The arguments that greedy resolution finds for the premises are accepted exactly if there is one pivot for each premise after the first
and no literal is taken out twice. Where the constant `false` was left over, the same holds for the conclusion `false`. -/
theorem c59_arguments {C : List Term} {premises : List (List Term)} {r : ResolutionTrace} (hnt : NoTautology premises) (hnr : NoReturn premises)
    (h : greedyResolution C premises true = .ok r) (hr : r.notNotAdded = false) (h2 : 2 ≤ premises.length) :
    (r.pivotTrace.length + 1 = premises.length ∧ (r.pivotTrace.map removedBy).Nodup) ↔
      (resolutionWithArgs C premises (tracedArgs r.pivotTrace) = .ok () ∨
        C = [] ∧ resolutionWithArgs [.fls] premises (tracedArgs r.pivotTrace) = .ok ()) := by
  obtain ⟨first, rest, rfl⟩ : ∃ first rest, premises = first :: rest := by
    cases premises with
    | nil => simp at h2
    | cons a l => exact ⟨a, l, rfl⟩
  obtain ⟨s, hf, hh, hiff⟩ := greedy_chain hnt hnr h
  have hne : rest ≠ [] := by rintro rfl; simp at h2
  simp only [List.length_cons, Nat.add_right_cancel_iff]
  rw [resolutionWithArgs_exact, resolutionWithArgs_exact, hiff, hiff]
  constructor
  · intro h
    rcases has_finish hh.apart hf hr with he | ⟨hC, he⟩
    · exact .inl ⟨hne, h, he⟩
    · exact .inr ⟨hC, hne, h, he⟩
  · rintro (⟨-, h, -⟩ | ⟨-, -, h, -⟩) <;> exact h

theorem dedupNodes_nodup : ∀ {ps seen : List Node}, ps.Nodup → (∀ p ∈ ps, p ∉ seen) → dedupNodes seen ps = ps
  | [], _, _, _ => rfl
  | p :: ps, seen, hn, hs => by
    rw [List.nodup_cons] at hn
    rw [dedupNodes, if_neg, dedupNodes_nodup hn.2]
    · intro q hq hm
      rcases List.mem_cons.1 hm with rfl | hm
      · exact hn.1 hq
      · exact hs q (by simp [hq]) hm
    · intro h
      obtain ⟨q, hq, e⟩ := List.any_eq_true.1 h
      exact hs p (by simp) (Node.same_eq e ▸ hq)

/-- The order in which greedy resolution finds the pivots of a step: the given one or, if that fails, the reverse one. -/
def FoundIn (C : List Term) (ps qs : List Node) (r : ResolutionTrace) : Prop :=
  greedyResolution C (qs.map Node.clause) true = .ok r ∧
    (qs = ps ∨ qs = ps.reverse ∧ greedyResolution C (ps.map Node.clause) true = err)

theorem FoundIn.greedy {C : List Term} {ps qs : List Node} {r : ResolutionTrace} (h : FoundIn C ps qs r) : greedyBothWays C ps = .ok (qs, r) := by
  obtain ⟨h1, rfl | ⟨rfl, h2⟩⟩ := h
  · unfold greedyBothWays; rw [h1]
  · unfold greedyBothWays
    rw [h2]
    simp only [err, bind, Except.bind]
    rw [h1]

theorem FoundIn.mem {C : List Term} {ps qs : List Node} {r : ResolutionTrace} (h : FoundIn C ps qs r) (p : Node) : p ∈ qs ↔ p ∈ ps := by
  obtain ⟨-, rfl | ⟨rfl, -⟩⟩ := h
  · exact Iff.rfl
  · exact List.mem_reverse

theorem elabResolution_greedy {d : NodeData} {ps qs : List Node} (dis : List Node) (prev : Option Node) {r : ResolutionTrace} (ha : d.args = [])
    (hC : d.clause ≠ [] ∨ 2 ≤ ps.length ∧ ∀ p ∈ ps, p.clause ≠ []) (hn : ps.Nodup) (h : FoundIn d.clause ps qs r) :
    elabResolution d ps dis prev =
      (if r.notNotAdded then
        restoreNotNot (.new d.id) { id := d.id, depth := d.depth, clause := d.clause, rule := "resolution", args := tracedArgs r.pivotTrace } qs
      else .ok (.mk { id := d.id, depth := d.depth, clause := d.clause, rule := "resolution", args := tracedArgs r.pivotTrace } qs)) := by
  unfold elabResolution
  rw [if_neg (by simp [ha]), if_neg, if_neg]
  · unfold elabGreedy
    rw [dedupNodes_nodup hn (by simp), h.greedy]
    rfl
  · rintro ⟨h1, h2⟩
    obtain ⟨p, hp, e⟩ := List.any_eq_true.1 h2
    rcases hC with h3 | h3
    · exact h3 h1
    · exact h3.2 p hp (by simpa using e)
  · rintro ⟨h1, h2⟩
    rcases hC with h3 | h3
    · exact h3 h1
    · have := congrArg List.length h2
      simp only [List.length_map, List.length_singleton] at this
      omega

theorem stepOK_resolution_elaborated {E : TableEnv} {d : NodeData} {qs : List Node} (hr : d.rule = "resolution") :
    StepOK E true d qs ↔ resolutionWithArgs d.clause (qs.map Node.clause) d.args = .ok () :=
  ⟨fun h => h.rule (r := resolutionWithArgs) (by rw [hr]; rfl), stepOK_resolution hr⟩

/-- A step whose pivots are found by greedy resolution, without adding a double negation. The elaborated step takes the same premises, and it
is accepted in elaborated mode exactly if there is one pivot for each premise after the first and no literal is taken out twice. -/
theorem c59_exact (E : TableEnv) {d : NodeData} {ps qs : List Node} (dis : List Node) (prev : Option Node) {r : ResolutionTrace} (ha : d.args = [])
    (hC : d.clause ≠ [] ∨ ∀ p ∈ ps, p.clause ≠ [] ∧ .fls ∉ p.clause) (hn : ps.Nodup) (h2 : 2 ≤ ps.length)
    (h : FoundIn d.clause ps qs r) (hr : r.notNotAdded = false) (hnt : NoTautology (qs.map Node.clause)) (hnr : NoReturn (qs.map Node.clause)) :
    ∃ step, elabResolution d ps dis prev = .ok (.mk step qs) ∧ step.clause = d.clause ∧ step.rule = "resolution" ∧
      (StepOK E true step qs ↔ r.pivotTrace.length + 1 = ps.length ∧ (r.pivotTrace.map removedBy).Nodup) := by
  have hl : qs.length = ps.length := by
    obtain ⟨-, rfl | ⟨rfl, -⟩⟩ := h <;> simp
  rw [elabResolution_greedy dis prev ha (hC.imp_right fun h => ⟨h2, fun p hp => (h p hp).1⟩) hn h, hr]
  refine ⟨_, rfl, rfl, rfl, ?_⟩
  rw [stepOK_resolution_elaborated rfl]
  have := c59_arguments hnt hnr h.1 hr (by simpa [hl] using h2)
  rw [List.length_map, hl] at this
  rw [this]
  refine ⟨.inl, fun h' => h'.resolve_right ?_⟩
  rintro ⟨h3, h4⟩
  rcases hC with hC | hC
  · exact hC h3
  · obtain ⟨q, qs, rfl⟩ : ∃ q qs', qs = q :: qs' := by
      cases qs with
      | nil => simp at hl; omega
      | cons a l => exact ⟨a, l, rfl⟩
    rw [List.map_cons, resolutionWithArgs_exact] at h4
    rcases h4.2.origin .fls (by simp) with h5 | ⟨c, hc, h5⟩
    · exact (hC q ((h.mem q).1 (by simp))).2 h5
    · obtain ⟨p, hp, rfl⟩ := List.mem_map.1 hc
      exact (hC p ((h.mem p).1 (by simp [hp]))).2 h5

/-- The same, for both modes: the elaborated step is derived from the premises.

Missing: steps for which the pivots are not found, or where a premise takes no pivot, a literal is taken out twice, the constant `false` is
left over, a premise is a tautology, or a literal comes back after its complement; for all of these the claim fails (below). -/
theorem c59_accepted_partial (E : TableEnv) (el : Bool) {d : NodeData} {ps qs : List Node} (dis : List Node) (prev : Option Node)
    {r : ResolutionTrace} (ha : d.args = []) (hC : d.clause ≠ [] ∨ ∀ p ∈ ps, p.clause ≠ [] ∧ .fls ∉ p.clause) (hn : ps.Nodup)
    (h2 : 2 ≤ ps.length) (h : FoundIn d.clause ps qs r) (hr : r.notNotAdded = false) (hnt : NoTautology (qs.map Node.clause))
    (hnr : NoReturn (qs.map Node.clause)) (hlen : r.pivotTrace.length + 1 = ps.length) (hnd : (r.pivotTrace.map removedBy).Nodup) :
    ∃ n, elabResolution d ps dis prev = .ok n ∧ n.clause = d.clause ∧ Derived E el ps n := by
  obtain ⟨step, h3, h4, h5, h6⟩ := c59_exact E dis prev ha hC hn h2 h hr hnt hnr
  refine ⟨_, h3, h4, .step (fun p hp => .given ((h.mem p).1 hp)) (stepOK_resolution h5 ?_)⟩
  exact (stepOK_resolution_elaborated h5).1 (h6.2 ⟨hlen, hnd⟩)

/-! ## An added double negation -/

theorem finish_notNot {concl : List ILit} {s : Greedy} {r : ResolutionTrace} (h : greedyFinish concl s = .ok r) (hr : r.notNotAdded = true) :
    ∃ i j u, concl = [(j, u)] ∧ s.pivots.filter (fun p => !p.2) = [((i, u), false)] ∧ i % 2 = j % 2 := by
  unfold greedyFinish at h
  split at h
  · simp only [bind_ok, pure_ok] at h
    obtain ⟨_, _, rfl⟩ := h
    simp at hr
  · next i pivot b hf =>
    have hb : b = false := by
      have : ((i, pivot), b) ∈ s.pivots.filter (fun p => !p.2) := by rw [hf]; simp
      simpa using (List.mem_filter.1 this).2
    subst hb
    split at h
    · cases h; simp at hr
    · split at h
      · next j c hcc =>
        split at h
        · next hc => obtain ⟨rfl, hc⟩ := hc; exact ⟨i, j, c, rfl, hf, hc⟩
        · simp at h
      · simp at h
  · simp at h

theorem resolution_notNot (c : Term) : resolutionWithArgs [.op .not [.op .not [c]]]
    [[c], [.op .not [.op .not [.op .not [.op .not [c]]]], .op .not [c]],
      [.op .not [.op .not [.op .not [.op .not [.op .not [c]]]]], .op .not [.op .not [c]]]]
    [c, .tru, .op .not [.op .not [.op .not [.op .not [c]]]], .tru] = .ok () := by
  rw [resolutionWithArgs_exact]
  refine ⟨by simp, .pos (e := (· ∈ [.op .not [.op .not [.op .not [.op .not [c]]]]])) ⟨by simp, by simp, fun x => ?_⟩
    (.pos (e := (· ∈ [.op .not [.op .not [c]]])) ⟨by simp, by simp, fun x => ?_⟩ (.done fun _ => Iff.rfl))⟩
  · have : ([.op .not [.op .not [.op .not [.op .not [c]]]], .op .not [c]] : List Term).erase (.op .not [c]) =
        [.op .not [.op .not [.op .not [.op .not [c]]]]] := by
      rw [List.erase_cons_tail, List.erase_cons_head]
      intro h
      have h' : Term.op .not [.op .not [.op .not [.op .not [c]]]] = .op .not [c] := by simpa using h
      have := congrArg (fun t => t.removeAllNegations.1) h'
      simp only [removeAll_not] at this
      omega
    rw [this]
    simp
  · rw [List.erase_cons_head]
    simp

/-- A conclusion `(not (not c))` where the premises give `c`. All steps after the resolution step with conclusion `c` are accepted. -/
theorem c59_not_not (E : TableEnv) (el : Bool) {d : NodeData} {ps qs : List Node} (dis : List Node) (prev : Option Node) {r : ResolutionTrace}
    (ha : d.args = []) {c : Term} (hd : d.clause = [.op .not [.op .not [c]]]) (hn : ps.Nodup) (h : FoundIn d.clause ps qs r)
    (hr : r.notNotAdded = true) :
    ∃ n step, elabResolution d ps dis prev = .ok n ∧ n.clause = d.clause ∧ step.clause = [c] ∧ step.rule = "resolution" ∧
      step.args = tracedArgs r.pivotTrace ∧ Derived E el [.mk step qs] n ∧ Uses n (.mk step qs) := by
  obtain ⟨id1, ids1, e1, hs1⟩ := IdHelper.nextId_total (h := .new d.id) (by simp [IdHelper.new])
  obtain ⟨id2, ids2, e2, hs2⟩ := IdHelper.nextId_total hs1
  obtain ⟨id3, ids3, e3, -⟩ := IdHelper.nextId_total hs2
  rw [elabResolution_greedy dis prev ha (.inl (by simp [hd])) hn h, hr, if_pos rfl]
  unfold restoreNotNot
  rw [hd]
  simp only [bind, Except.bind]
  rw [e1]
  simp only
  rw [e2]
  simp only
  rw [e3]
  refine ⟨_, { id := d.id, depth := d.depth, clause := [c], rule := "resolution", args := tracedArgs r.pivotTrace }, rfl, rfl, rfl, rfl, rfl,
    .step ?_ (stepOK_resolution rfl (resolution_notNot c)), .premise (by simp) (.refl _)⟩
  intro m hm
  simp only [List.mem_cons, List.not_mem_nil, or_false] at hm
  rcases hm with rfl | rfl | rfl
  · exact .given (by simp)
  · refine .step (by simp) ⟨notNot, rfl, ?_⟩
    simp [notNot, get2, match1, assertEq, require, bind, Except.bind]
  · refine .step (by simp) ⟨notNot, rfl, ?_⟩
    simp [notNot, get2, match1, assertEq, require, bind, Except.bind]

/-- The resolution step with conclusion `c` is accepted as well, under the conditions of `c59_accepted_partial`, if no literal of a premise
differs from `c` and `(not c)` only in the number of negations. -/
theorem c59_not_not_partial (E : TableEnv) (el : Bool) {d : NodeData} {ps qs : List Node} (dis : List Node) (prev : Option Node)
    {r : ResolutionTrace} (ha : d.args = []) {c : Term} (hd : d.clause = [.op .not [.op .not [c]]]) (hn : ps.Nodup) (h2 : 2 ≤ ps.length)
    (h : FoundIn d.clause ps qs r) (hr : r.notNotAdded = true) (hnt : NoTautology (qs.map Node.clause)) (hnr : NoReturn (qs.map Node.clause))
    (hlen : r.pivotTrace.length + 1 = ps.length) (hnd : (r.pivotTrace.map removedBy).Nodup)
    (hc : ∀ p ∈ ps, ∀ t ∈ p.clause, t.removeAllNegations.2 = c.removeAllNegations.2 → t = c ∨ t = .op .not [c]) :
    ∃ n, elabResolution d ps dis prev = .ok n ∧ n.clause = d.clause ∧ Derived E el ps n := by
  obtain ⟨n, step, h3, h4, h5, h6, h7, h8, -⟩ := c59_not_not E el dis prev ha hd hn h hr
  refine ⟨n, h3, h4, ?_⟩
  have hl : qs.length = ps.length := by
    obtain ⟨-, rfl | ⟨rfl, -⟩⟩ := h <;> simp
  obtain ⟨q, rest, rfl⟩ : ∃ q qs', qs = q :: qs' := by
    cases qs with
    | nil => simp at hl; omega
    | cons a l => exact ⟨a, l, rfl⟩
  have hinner : StepOK E el step (q :: rest) := by
    refine stepOK_resolution h6 ?_
    rw [h5, h7, List.map_cons, resolutionWithArgs_exact]
    refine ⟨by rintro e; simp at e; subst e; simp at hl; omega, ?_⟩
    have hg := h.1
    rw [List.map_cons] at hg hnt hnr
    obtain ⟨s, hf, hh, hiff⟩ := greedy_chain hnt hnr hg
    have hlen' : r.pivotTrace.length = (rest.map Node.clause).length := by
      simp at hl ⊢; omega
    have hchain := (hiff s.has).2 ⟨⟨hlen', hnd⟩, fun _ => Iff.rfl⟩
    refine (hiff _).2 ⟨⟨hlen', hnd⟩, fun x => ?_⟩
    obtain ⟨i, j, u, hcl, hpiv, hmod⟩ := finish_notNot hf hr
    have hfrom : ∀ t : Term, (∃ cl ∈ q.clause :: rest.map Node.clause, t ∈ cl) → (iLit t).2 = (iLit c).2 → t = c ∨ t = .op .not [c] := by
      rintro t ⟨cl, hcl, ht⟩ e
      rw [← List.map_cons, List.mem_map] at hcl
      obtain ⟨p, hp, rfl⟩ := hcl
      exact hc p ((h.mem p).1 hp) t ht e
    have hju : (j, u) = ((iLit c).1 + 2, (iLit c).2) := by
      have : iLit (.op .not [.op .not [c]]) ∈ setOf (d.clause.map iLit) := by rw [mem_setOf, hd]; simp
      rw [hcl, List.mem_singleton, iLit_not, iLit_not] at this
      rw [← this]
      exact Prod.ext (by simp only; omega) rfl
    simp only [Prod.mk.injEq] at hju
    obtain ⟨rfl, rfl⟩ := hju
    have hi : i = (iLit c).1 := by
      have hget : mapGet s.pivots (i, (iLit c).2) = some false := (mapGet_false_iff hh.apart.nodup _).2 (by rw [hpiv]; simp)
      obtain ⟨cl, hcl, t, ht, e⟩ := hh.keys (i, (iLit c).2) (by rw [hget]; rfl)
      rcases hfrom t ⟨cl, hcl, ht⟩ (by rw [e]) with rfl | rfl
      · rw [e]
      · rw [iLit_not] at e
        have := congrArg Prod.fst e
        simp only at this
        omega
    subst hi
    rw [has_iff hh.apart, hpiv, hd]
    simp only [List.mem_singleton, Prod.mk.injEq, and_true, Prod.mk.eta]
    constructor
    · rintro (⟨rfl, hw⟩ | e)
      · exfalso
        have hx : s.has (.op .not [.op .not [c]]) := .inl hw
        have := hfrom (.op .not [.op .not [c]]) (by
          rcases hchain.origin _ hx with h | ⟨cl, hcl, h⟩
          · exact ⟨_, by simp, h⟩
          · exact ⟨cl, by simp only [List.mem_cons]; exact .inr hcl, h⟩) (by rw [iLit_not, iLit_not])
        rcases this with e | e <;>
        · have := congrArg (fun t => (iLit t).1) e
          simp only [iLit_not] at this
          omega
      · exact iLit_injective e
    · rintro rfl
      exact .inr rfl
  have trans : ∀ {m : Node}, Derived E el [.mk step (q :: rest)] m → Derived E el ps m := by
    intro m hm
    induction hm with
    | given hm =>
      rw [List.mem_singleton] at hm
      subst hm
      exact .step (fun p hp => .given ((h.mem p).1 hp)) hinner
    | step _ h2 ih => exact .step ih h2
  exact trans h8

/-! ## Steps that the checker accepts by greedy resolution -/

/-- The elaborator finds the pivots of every step that the checker accepts by greedy resolution. -/
theorem c59_found {C : List Term} {ps : List Node} {r : ResolutionTrace} (h : greedyResolution C (ps.map Node.clause) false = .ok r) :
    ∃ r', FoundIn C ps ps r' ∧ r'.notNotAdded = r.notNotAdded := by
  rw [greedyResolution_untraced] at h
  cases hg : greedyResolution C (ps.map Node.clause) true with
  | error e => rw [hg] at h; simp [Except.map] at h
  | ok r' =>
    rw [hg] at h
    simp only [Except.map, ok_inj] at h
    exact ⟨r', ⟨hg, .inl rfl⟩, by rw [← h]⟩

/-! ## The claim fails in general -/

section
private abbrev p : Term := .var "p" .bool
private abbrev q : Term := .var "q" .bool
private abbrev r : Term := .var "r" .bool
private abbrev s : Term := .var "s" .bool
private abbrev neg (t : Term) : Term := .op .not [t]

/-- Premises with the given clauses. -/
private def holes (cs : List (List Term)) : List Node :=
  cs.zipIdx.map fun c => .mk { id := "h" ++ toString c.2, depth := 0, clause := c.1, rule := "hole" } []

private def resStep (C : List Term) : NodeData := { id := "t", depth := 0, clause := C, rule := "resolution" }

/-- The checker accepts the step without arguments. -/
private def Accepts (C : List Term) (cs : List (List Term)) : Prop := resolution C cs [] = .ok ()

/-- The elaborator returns a step that is not accepted in elaborated mode. -/
private def Rejected (E : TableEnv) (C : List Term) (cs : List (List Term)) : Prop :=
  ∃ n, elabResolution (resStep C) (holes cs) [] none = .ok n ∧ ¬ Derived E true (holes cs) n

/-- A check that a node, or the first premise of it, is a resolution step that is rejected. -/
private def isRejected : Node → Bool
  | .step d qs _ _ => decide (d.rule = "resolution") && (decide (resolutionWithArgs d.clause (qs.map Node.clause) d.args ≠ .ok ()) ||
      match qs with
      | .step d' qs' _ _ :: _ => decide (d'.rule = "resolution") && decide (resolutionWithArgs d'.clause (qs'.map Node.clause) d'.args ≠ .ok ())
      | _ => false)
  | _ => false

private theorem hole_rule {cs : List (List Term)} {d : NodeData} {qs dis : List Node} {prev : Option Node} (h : Node.step d qs dis prev ∈ holes cs) :
    d.rule = "hole" := by
  simp only [holes, List.mem_map] at h
  obtain ⟨c, -, e⟩ := h
  cases e
  rfl

private theorem not_derived {E : TableEnv} {cs : List (List Term)} {n : Node} (h : isRejected n = true) : ¬ Derived E true (holes cs) n := by
  have one : ∀ {d : NodeData} {qs dis : List Node} {prev : Option Node}, d.rule = "resolution" → Derived E true (holes cs) (.step d qs dis prev) →
      resolutionWithArgs d.clause (qs.map Node.clause) d.args = .ok () ∧ ∀ q ∈ qs, Derived E true (holes cs) q := by
    intro d qs dis prev hr h
    cases h with
    | given h => rw [hole_rule h] at hr; simp at hr
    | step h1 h2 => exact ⟨(stepOK_resolution_elaborated hr).1 h2, h1⟩
  intro hd
  unfold isRejected at h
  split at h
  · simp only [Bool.and_eq_true, Bool.or_eq_true, decide_eq_true_eq] at h
    obtain ⟨hr, h⟩ := h
    obtain ⟨h1, h2⟩ := one hr hd
    rcases h with h | h
    · exact h h1
    · split at h
      · simp only [Bool.and_eq_true, decide_eq_true_eq] at h
        exact h.2 (one h.1 (h2 _ (List.mem_cons_self ..))).1
      · simp at h
  · simp at h

private theorem rejected_of_eval (E : TableEnv) {C : List Term} {cs : List (List Term)}
    (h : (match elabResolution (resStep C) (holes cs) [] none with | .ok n => isRejected n | .error _ => false) = true) : Rejected E C cs := by
  unfold Rejected
  split at h
  · next n hn => exact ⟨n, hn, not_derived h⟩
  · simp at h

/-- Steps that the checker accepts, and the elaborated step is rejected: a literal is taken out by two premises; the constant `false` is left
over; a premise takes no pivot; a literal comes back after its complement; a premise has the empty clause; a premise is a tautology; the double negation is added to a literal with more negations. -/
theorem c59_rejected_fails (E : TableEnv) :
    (Accepts [q, r, s] [[p, q], [neg p, r], [neg p, s]] ∧ Rejected E [q, r, s] [[p, q], [neg p, r], [neg p, s]]) ∧
    (Accepts [] [[p, .fls], [neg p]] ∧ Rejected E [] [[p, .fls], [neg p]]) ∧
    (Accepts [q] [[p], [neg p, q], [q]] ∧ Rejected E [q] [[p], [neg p, q], [q]]) ∧
    (Accepts [] [[neg p, q], [p], [neg p, neg q]] ∧ Rejected E [] [[neg p, q], [p], [neg p, neg q]]) ∧
    (Accepts [] [[p], []] ∧ Rejected E [] [[p], []]) ∧
    (Accepts [q] [[p, neg p], [q]] ∧ Rejected E [q] [[p, neg p], [q]]) ∧
    (Accepts [neg (neg q)] [[p], [neg p, neg (neg (neg (neg q)))]] ∧ Rejected E [neg (neg q)] [[p], [neg p, neg (neg (neg (neg q)))]]) := by
  unfold Accepts
  refine ⟨⟨?_, rejected_of_eval E ?_⟩, ⟨?_, rejected_of_eval E ?_⟩, ⟨?_, rejected_of_eval E ?_⟩, ⟨?_, rejected_of_eval E ?_⟩,
    ⟨?_, rejected_of_eval E ?_⟩, ⟨?_, rejected_of_eval E ?_⟩, ⟨?_, rejected_of_eval E ?_⟩⟩ <;> decide +kernel

/-- A step that has the same premise twice: the elaborated step has only one premise, which is rejected. -/
theorem c59_repeated_fails (E : TableEnv) : Accepts [p] [[p], [p]] ∧
    ∃ n, elabResolution (resStep [p]) (holes [[p]] ++ holes [[p]]) [] none = .ok n ∧ ¬ Derived E true (holes [[p]]) n := by
  refine ⟨by unfold Accepts; decide +kernel, ?_⟩
  have h : (match elabResolution (resStep [p]) (holes [[p]] ++ holes [[p]]) [] none with | .ok n => isRejected n | .error _ => false) = true := by
    decide +kernel
  split at h
  · next n hn => exact ⟨n, hn, not_derived h⟩
  · simp at h

/-- Steps that the checker accepts, and the elaborator panics: one that is accepted only by unit propagation (an error is returned, and
unwrapped by the caller), one where the double negation is missing rather than added, and one where the conclusion is repeated. -/
theorem c59_panics_fails :
    (Accepts [p] [[p], [q]] ∧ elabResolution (resStep [p]) (holes [[p], [q]]) [] none = err) ∧
    (Accepts [q] [[p], [neg p, neg (neg q)]] ∧ elabResolution (resStep [q]) (holes [[p], [neg p, neg (neg q)]]) [] none = panic) ∧
    (Accepts [neg (neg q), neg (neg q)] [[p], [neg p, q]] ∧
      elabResolution (resStep [neg (neg q), neg (neg q)]) (holes [[p], [neg p, q]]) [] none = panic) := by
  unfold Accepts
  refine ⟨⟨by decide +kernel, ?_⟩, ⟨by decide +kernel, panic_of_eval (by decide +kernel)⟩, by decide +kernel, panic_of_eval (by decide +kernel)⟩
  have h : (match elabResolution (resStep [p]) (holes [[p], [q]]) [] none with | .error .err => true | _ => false) = true := by decide +kernel
  split at h
  · next e => exact e
  · simp at h

/-! ## Examples -/

private theorem nodup_nodes {ps : List Node} (h : (ps.map Node.clause).Nodup) : ps.Nodup := List.Nodup.of_map _ h

private theorem noReturn_three {a b c : List Term} (h : ∀ l ∈ a, ∀ u ∈ b, l ∈ c → ¬ Complementary l u) : NoReturn [a, b, c] := by
  intro i j k x y z hij hjk hx hy hz
  have hk := (List.getElem?_eq_some_iff.1 hz).1
  simp only [List.length_cons, List.length_nil] at hk
  obtain ⟨rfl, rfl, rfl⟩ : i = 0 ∧ j = 1 ∧ k = 2 := by omega
  simp only [List.getElem?_cons_zero, List.getElem?_cons_succ, Option.some.injEq] at hx hy hz
  subst hx hy hz
  exact h

private theorem noReturn_two {a b : List Term} : NoReturn [a, b] := by
  intro i j k x y z hij hjk hx hy hz
  have hk := (List.getElem?_eq_some_iff.1 hz).1
  simp only [List.length_cons, List.length_nil] at hk
  omega

/-- The hypotheses of `c59_accepted_partial` are met by a chain of three premises. -/
example (E : TableEnv) (el : Bool) : ∃ n, elabResolution (resStep [r, s]) (holes [[p, r], [neg p, q], [s, neg q]]) [] none = .ok n ∧
    n.clause = [r, s] ∧ Derived E el (holes [[p, r], [neg p, q], [s, neg q]]) n := by
  refine c59_accepted_partial E el (qs := holes [[p, r], [neg p, q], [s, neg q]]) (r := ⟨false, [(p, true), (q, true)]⟩) [] none rfl
    (.inl (by simp [resStep])) (nodup_nodes (by decide)) (by decide) ⟨by decide +kernel, .inl rfl⟩ rfl ?_ ?_ rfl (by decide)
  · show NoTautology [[p, r], [neg p, q], [s, neg q]]
    simp [NoTautology, Complementary]
  · exact noReturn_three (a := [p, r]) (b := [neg p, q]) (c := [s, neg q]) (by simp [Complementary])

/-- They are met by premises that are only accepted in the reverse order. -/
example (E : TableEnv) (el : Bool) : ∃ n, elabResolution (resStep []) (holes [[p], [neg p, q], [neg p, neg q]]) [] none = .ok n ∧
    n.clause = [] ∧ Derived E el (holes [[p], [neg p, q], [neg p, neg q]]) n := by
  refine c59_accepted_partial E el (qs := (holes [[p], [neg p, q], [neg p, neg q]]).reverse) (r := ⟨false, [(q, false), (p, false)]⟩) [] none rfl
    (.inr ?_) (nodup_nodes (by decide)) (by decide) ⟨by decide +kernel, .inr ⟨rfl, by decide +kernel⟩⟩ rfl ?_ ?_ rfl (by decide)
  · decide
  · show NoTautology [[neg p, neg q], [neg p, q], [p]]
    simp [NoTautology, Complementary]
  · exact noReturn_three (a := [neg p, neg q]) (b := [neg p, q]) (c := [p]) (by simp)

/-- The hypotheses of `c59_not_not_partial` are met. -/
example (E : TableEnv) (el : Bool) : ∃ n, elabResolution (resStep [neg (neg q)]) (holes [[p], [neg p, q]]) [] none = .ok n ∧
    n.clause = [neg (neg q)] ∧ Derived E el (holes [[p], [neg p, q]]) n := by
  refine c59_not_not_partial E el (c := q) (qs := holes [[p], [neg p, q]]) (r := ⟨true, [(p, true)]⟩) [] none rfl rfl
    (nodup_nodes (by decide)) (by decide) ⟨by decide +kernel, .inl rfl⟩ rfl ?_ noReturn_two rfl (by decide) (by decide +kernel)
  show NoTautology [[p], [neg p, q]]
  simp [NoTautology, Complementary]

/-- `c59_exact` tells the two outcomes apart: the conditions on the pivots hold for the first step and not for the second. -/
example : greedyResolution [r] [[p, q], [neg p, r], [neg q, r]] true = .ok ⟨false, [(p, true), (q, true)]⟩ ∧
    greedyResolution [q, r, s] [[p, q], [neg p, r], [neg p, s]] true = .ok ⟨false, [(p, true), (p, true)]⟩ := by
  constructor <;> decide +kernel

/-- The premise `(not true)`. -/
example (E : TableEnv) (el : Bool) : ∃ n, elabResolution (resStep []) [.assume "h" 0 (neg .tru)] [] none = .ok n ∧ n.clause = [] ∧
    Derived E el [.assume "h" 0 (neg .tru)] n := c59_not_true E el [] none rfl rfl rfl

end

end Carcara
