import Verif.Lemmas.Parallel
import Verif.Model.RuleTable
import Verif.Props.C31

/-!
# C32: the parallel and the sequential checker agree

A verdict of the parallel checker depends on the order in which priority queues and hash sets are iterated (`O`) and on when the threads see that
another one has found an error. The theorems hold for all of these, and for every rule table, as long as the rules only depend on what the
checker passes to them. `Command.wfL` holds of all parsed proofs (C05).
-/

namespace Carcara

open Spec

namespace C32

private def p : Term := .var "p" .bool
private def np : Term := .op .not [p]

/-- `(assume h p) (assume g (not p)) (anchor :step t1) (assume t1.h p) (step t1 (cl (not p) p) :rule subproof :discharge (t1.h))
(step t2 (cl) :rule resolution :premises (h g))`. -/
private def small : List RawCommand :=
  [.assume "h" p, .assume "g" np, .anchor "t1" [], .assume "t1.h" p,
   .step ⟨"t1", [np, p], "subproof", [], [], ["t1.h"]⟩, .step ⟨"t2", [], "resolution", ["h", "g"], [], []⟩]

private def smallProof : List Command :=
  [.assume "h" p, .assume "g" np,
   .subproof [.assume "t1.h" p, .step ⟨"t1", [np, p], "subproof", [], [], [(1, 0)]⟩] [] 0,
   .step ⟨"t2", [], "resolution", [(0, 0), (0, 1)], [], []⟩]

/-- `(assume h p) (assume g (not p)) (anchor :step t1) (step t1.t1 (cl (= p p)) :rule eq_reflexive)
(step t1 (cl) :rule resolution :premises (h g))`. -/
private def inner : List RawCommand :=
  [.assume "h" p, .assume "g" np, .anchor "t1" [], .step ⟨"t1.t1", [.op .equals [p, p]], "eq_reflexive", [], [], []⟩,
   .step ⟨"t1", [], "resolution", ["h", "g"], [], []⟩]

private def innerProof : List Command :=
  [.assume "h" p, .assume "g" np,
   .subproof [.step ⟨"t1.t1", [.op .equals [p, p]], "eq_reflexive", [], [], []⟩, .step ⟨"t1", [], "resolution", [(0, 0), (0, 1)], [], []⟩] [] 0]

theorem small_accepted (E : TableEnv) : check (E.params {}) {} [p, np] smallProof = .ok false := by
  rw [check, checkLoop_start]
  rfl

theorem inner_accepted (E : TableEnv) : check (E.params {}) {} [p, np] innerProof = .ok false := by
  rw [check, checkLoop_start]
  rfl

end C32
open C32

variable {P : Params} {cfg : Config} {prem : List Term} {O : SchedOrder} {workers : Nat} {proof : List Command}

/-- If the proof can be scheduled then, whatever the interleaving, the parallel checker accepts exactly the proofs that the sequential checker
accepts and that conclude the empty clause outside of subproofs, with the same flag. -/
theorem c32_agree {loads : List Load} {usage : List Nat} (hwf : Command.wfL proof = true)
    (hs : schedule O workers proof = .ok (loads, usage)) {v : Res Bool} (hv : ParallelVerdict P cfg prem O workers proof v) (b : Bool) :
    v = .ok b ↔ check P cfg prem proof = .ok b ∧ ∃ s, Command.step s ∈ proof ∧ s.clause = [] := by
  cases hv with
  | failed h => rw [hs] at h; cases h
  | scheduled h hr =>
    obtain ⟨rs, -, hf, hp⟩ := c31_covers h
    rw [parallelRun_iff hwf (hf.imp fun _ _ h => h.1) hp hr, check_iff hwf]
    constructor
    · rintro ⟨h1, h2, s, hm, hs⟩
      refine ⟨⟨h1, h2, ?_⟩, s, hm, hs⟩
      obtain ⟨i, hi⟩ := List.getElem?_of_mem hm
      exact ⟨_, _, s, .top hi, hs, .inl rfl⟩
    · rintro ⟨⟨h1, h2, -⟩, h3⟩
      exact ⟨h1, h2, h3⟩

/-- There is a verdict. -/
theorem c32_verdict : ∃ v, ParallelVerdict P cfg prem O workers proof v := by
  cases h : schedule O workers proof with
  | error f => exact ⟨_, .failed h⟩
  | ok r =>
    refine ⟨_, .scheduled (loads := r.1) (usage := r.2) h (os := r.1.map (workerRun P cfg prem proof)) ?_⟩
    exact List.forall₂_map_right_iff.2 (List.forall₂_same.2 fun _ _ => .inl rfl)

/-- What the parallel checker accepts, the sequential checker accepts with the same flag. -/
theorem c32_sound (hwf : Command.wfL proof = true) {b : Bool} (h : ParallelVerdict P cfg prem O workers proof (.ok b)) :
    check P cfg prem proof = .ok b := by
  cases hs : schedule O workers proof with
  | ok r => exact ((c32_agree (loads := r.1) (usage := r.2) hwf hs h b).1 rfl).1
  | error f =>
    generalize hv : (.ok b : Res Bool) = v at h
    cases h with
    | failed h => cases hv
    | scheduled h _ => rw [hs] at h; cases h

/-- Acceptance and the flag do not depend on the interleaving. -/
theorem c32_interleaving (hwf : Command.wfL proof = true) {v v' : Res Bool} (h : ParallelVerdict P cfg prem O workers proof v)
    (h' : ParallelVerdict P cfg prem O workers proof v') (b : Bool) : v = .ok b ↔ v' = .ok b := by
  cases hs : schedule O workers proof with
  | ok r => rw [c32_agree (loads := r.1) (usage := r.2) hwf hs h b, c32_agree (loads := r.1) (usage := r.2) hwf hs h' b]
  | error f =>
    have key : ∀ {v : Res Bool}, ParallelVerdict P cfg prem O workers proof v → v = .error f := by
      intro v h
      cases h with
      | failed h => rw [hs] at h; cases h; rfl
      | scheduled h _ => rw [hs] at h; cases h
    rw [key h, key h']

/-- The full statement, `c32_agree` without the last conjunct and without `hs`, is false: see `c32_fails` and `c32_schedule_fails`. It holds for
one worker or without subproofs, if the empty clause is concluded outside of subproofs. -/
theorem c32_complete_partial (hwf : Command.wfL proof = true) (hN : NumberedContexts proof) (hw : weightSum proof < 2 ^ 64)
    (hcase : workers = 1 ∨ (0 < workers ∧ ∀ c ∈ proof, ∀ sub as n, c ≠ .subproof sub as n)) (htop : ∃ s, Command.step s ∈ proof ∧ s.clause = [])
    {b : Bool} (h : check P cfg prem proof = .ok b) : ∀ v, ParallelVerdict P cfg prem O workers proof v → v = .ok b := by
  intro v hv
  obtain ⟨s, hm, hs⟩ := htop
  have hne : leaves proof ≠ [] := by
    obtain ⟨i, hi⟩ := List.getElem?_of_mem hm
    have : ([], i) ∈ leaves proof := mem_leaves.2 ⟨_, hi, fun _ _ _ h => by cases h⟩
    exact List.ne_nil_of_mem this
  obtain ⟨r, hr⟩ : ∃ r, schedule O workers proof = .ok r := by
    refine c31_total_partial hN ?_ hw ?_
    · rcases hcase with rfl | h
      · exact Nat.one_pos
      · exact h.1
    · rcases hcase with rfl | h
      · exact .inl ⟨rfl, hne⟩
      · exact .inr h.2
  exact (c32_agree (loads := r.1) (usage := r.2) hwf hr hv b).2 ⟨h, s, hm, hs⟩

example (E : TableEnv) (O : SchedOrder) : ∀ v, ParallelVerdict (E.params {}) {} [.var "p" .bool, .op .not [.var "p" .bool]] O 1 smallProof v →
    v = .ok false :=
  c32_complete_partial (by decide) (by unfold NumberedContexts; decide) (by decide +kernel) (.inl rfl)
    ⟨⟨"t2", [], "resolution", [(0, 0), (0, 1)], [], []⟩, by simp [smallProof], rfl⟩ (small_accepted E)

/-- With two workers, both of which have something to do. -/
example (E : TableEnv) : ∃ loads usage, schedule .heap 2 smallProof = .ok (loads, usage) ∧ [] ∉ loads ∧
    ∀ v, ParallelVerdict (E.params {}) {} [.var "p" .bool, .op .not [.var "p" .bool]] .heap 2 smallProof v → v = .ok false := by
  have h : ∃ r, (schedule .heap 2 smallProof).toOption = some r ∧ [] ∉ r.1 := by
    refine ⟨(((schedule .heap 2 smallProof).toOption).getD ([], [])), ?_, ?_⟩ <;> decide_cbv
  obtain ⟨⟨loads, usage⟩, h1, h2⟩ := h
  have hs : schedule .heap 2 smallProof = .ok (loads, usage) := by
    cases h : schedule .heap 2 smallProof with
    | ok r => rw [h] at h1; cases h1; rfl
    | error f => rw [h] at h1; cases h1
  refine ⟨loads, usage, hs, h2, fun v hv => ?_⟩
  exact (c32_agree (by decide) hs hv false).2 ⟨small_accepted E, ⟨"t2", [], "resolution", [(0, 0), (0, 1)], [], []⟩, by simp [smallProof], rfl⟩

/-- The sequential checker accepts a parsed proof whose empty clause is the conclusion of a subproof. The parallel checker accepts it with no number
of workers. -/
theorem c32_fails (E : TableEnv) : parseProof inner = .ok innerProof ∧
    check (E.params {}) {} [.var "p" .bool, .op .not [.var "p" .bool]] innerProof = .ok false ∧
    ∀ O workers b, ¬ ParallelVerdict (E.params {}) {} [.var "p" .bool, .op .not [.var "p" .bool]] O workers innerProof (.ok b) := by
  refine ⟨by decide +kernel, inner_accepted E, fun O workers b h => ?_⟩
  cases hs : schedule O workers innerProof with
  | ok r =>
    obtain ⟨-, s, hm, -⟩ := (c32_agree (loads := r.1) (usage := r.2) (by decide) hs h b).1 rfl
    simp [innerProof] at hm
  | error f =>
    generalize hv : (.ok b : Res Bool) = v at h
    cases h with
    | failed h => cases hv
    | scheduled h _ => rw [hs] at h; cases h

/-- The sequential checker accepts a parsed proof on which the scheduler fails with 16 workers, so that there is no verdict of acceptance. -/
theorem c32_schedule_fails (E : TableEnv) : parseProof small = .ok smallProof ∧
    check (E.params {}) {} [.var "p" .bool, .op .not [.var "p" .bool]] smallProof = .ok false ∧
    ∀ b, ¬ ParallelVerdict (E.params {}) {} [.var "p" .bool, .op .not [.var "p" .bool]] .heap 16 smallProof (.ok b) := by
  refine ⟨by decide +kernel, small_accepted E, fun b h => ?_⟩
  have : (schedule .heap 16 smallProof).toOption = none := by decide_cbv
  generalize hv : (.ok b : Res Bool) = v at h
  cases h with
  | failed h => cases hv
  | scheduled h _ => rw [h] at this; cases this

end Carcara
