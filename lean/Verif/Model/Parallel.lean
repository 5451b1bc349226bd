import Verif.Model.Checker
import Verif.Model.Scheduler

/-!
# The parallel checker

Model of `checker/parallel/mod.rs`. A worker thread is a loop over its load. The threads share the contexts, which are modelled in
`Verif.Model.SharedContext`; here the context of a worker is the list of the anchor arguments that it has pushed. Besides, threads only
communicate through the flag `should_abort`: a thread may stop after any of its commands once another one has found an error. When this happens
depends on the interleaving, so that a parallel run is a relation.
-/

namespace Carcara

/-- `checker/shared.rs:92-141 check_step_core`, with what `StepCheckContext` gives it; the same function as `checkStepCore`. -/
def stepCore (P : Params) (cfg : Config) (isEnd : Bool) (sub : Option (List Command)) (depth : Nat) (a : RuleArgs) (s : Step) : Res Bool :=
  if s.rule ∈ cfg.allowed then .ok true
  else if s.discharge ≠ [] ∧ s.rule ≠ "subproof" then err
  else match P.rule s.rule with
    | none => if cfg.ignoreUnknown then .ok true else err
    | some r => do
      (do
        r a
        match isEnd, sub with
        | true, some sub => checkDischarge sub depth s.discharge
        | _, _ => .ok ())
      .ok (decide (s.rule = "hole" ∨ s.rule = "lia_generic"))

/-- `parallel/mod.rs:272-280`. -/
def workerPrevious (cfg : Config) (it : SIter) : Res (Option (List Term)) :=
  if it.isEndStep then
    match it.currentSubproof with
    | none => panic
    | some sub =>
      if sub.length < 2 then (if cfg.overflowChecks then panic else .ok none)
      else match sub[sub.length - 2]? with
        | some c => do .ok (some (← c.clause))
        | none => .ok none
  else .ok none

/-- `Premise::new(p, iter.get_premise(p))`, represented by its clause. -/
def workerPremise (it : SIter) (p : Nat × Nat) : Res (List Term) := do
  let c ← it.getPremise p
  c.clause

/-- `parallel/mod.rs:363-410 check_step`. -/
def workerArgs (cfg : Config) (it : SIter) (ctx : List (List AnchorArg)) (s : Step) : Res RuleArgs := do
  let prev ← workerPrevious cfg it
  let ps ← mapRes (workerPremise it) s.premises
  let ds ← mapRes it.getPremise s.discharge
  .ok { conclusion := s.clause, premises := ps, args := s.args, context := ctx, previous := prev, discharge := ds }

/-- Whether a command is a subproof. -/
def Command.isSubproof : Command → Bool
  | .subproof _ _ _ => true
  | _ => false

/-- The loop `parallel/mod.rs:256-265`; the number is `last_depth`. -/
def popLoop (depth : Nat) (isSub : Bool) : Nat → List (List AnchorArg) → List (List AnchorArg)
  | 0, ctx => if depth = 0 ∧ isSub = true then ctx.dropLast else ctx
  | last + 1, ctx => if depth < last + 1 ∨ (depth = last + 1 ∧ isSub = true) then popLoop depth isSub last ctx.dropLast else ctx

/-- One iteration of the loop `parallel/mod.rs:254-335`; `it` is the iterator after `next`. -/
def workerVisit (P : Params) (cfg : Config) (premises : List Term) (it : SIter) (last : Nat) (st : State) (c : Command) : Res State :=
  let ctx := popLoop it.depth c.isSubproof last st.context
  match c with
  | .step s => do
    let a ← workerArgs cfg it ctx s
    let h ← stepCore P cfg it.isEndStep it.currentSubproof it.depth a s
    .ok { context := ctx, reached := st.reached || (s.clause.isEmpty && ctx.isEmpty), holey := st.holey || h }
  | .subproof cs as n => do
    let _ ← Command.id (.subproof cs as n)
    .ok { st with context := ctx ++ [as] }
  | .assume _ t => do
    let r ← checkAssume P cfg premises it.isInSubproof t
    if r then .ok { st with context := ctx } else err

/-- The loop `parallel/mod.rs:254-335`, which stops after so many commands. -/
def workerLoop (P : Params) (cfg : Config) (premises : List Term) : Nat → SIter → Nat → State → Res State
  | 0, _, _, st => .ok st
  | n + 1, it, last, st => do
    match ← SIter.next it.stack it.done it.todo with
    | none => .ok st
    | some (c, it') => do
      let st' ← workerVisit P cfg premises it' last st c
      workerLoop P cfg premises n it' it'.depth st'

/-- `parallel/mod.rs:240-343 worker_thread_check`, when the thread does not see the flag. -/
def workerRun (P : Params) (cfg : Config) (premises : List Term) (proof : List Command) (load : Load) : Res State :=
  workerLoop P cfg premises (load.length + 1) (SIter.start proof load) 0 {}

/-- What a thread may return: the result of its whole load or, if the flag may be set, of a prefix (`parallel/mod.rs:331-334`). -/
def WorkerMay (P : Params) (cfg : Config) (premises : List Term) (proof : List Command) (flag : Prop) (load : Load) (o : Res State) : Prop :=
  o = workerRun P cfg premises proof load ∨
    (flag ∧ ∃ n, 0 < n ∧ o = workerLoop P cfg premises n (SIter.start proof load) 0 {})

/-- A run of all threads. Only a thread that returns an error sets the flag. -/
def ParallelRun (P : Params) (cfg : Config) (premises : List Term) (proof : List Command) (loads : List Load) (os : List (Res State)) : Prop :=
  List.Forall₂ (WorkerMay P cfg premises proof (err ∈ os)) loads os

/-- A flag of a thread that has returned. -/
def outcomeFlag (f : State → Bool) : Res State → Bool
  | .ok st => f st
  | .error _ => false

/-- `parallel/mod.rs:109-138`: a thread that has panicked makes the scope panic. -/
def mergeResults (os : List (Res State)) : Res Bool :=
  if panic ∈ os then panic
  else if err ∈ os then err
  else if os.any (outcomeFlag (·.reached)) then
    .ok (os.any (outcomeFlag (·.holey)))
  else err

/-- `ParallelProofChecker::check` after `Scheduler::new`: the possible verdicts. -/
inductive ParallelVerdict (P : Params) (cfg : Config) (premises : List Term) (O : SchedOrder) (workers : Nat) (proof : List Command) :
    Res Bool → Prop
  | scheduled {loads : List Load} {usage : List Nat} {os : List (Res State)} : schedule O workers proof = .ok (loads, usage) →
    ParallelRun P cfg premises proof loads os → ParallelVerdict P cfg premises O workers proof (mergeResults os)
  | failed {f : Fault} : schedule O workers proof = .error f → ParallelVerdict P cfg premises O workers proof (.error f)

end Carcara
