import Verif.Spec.SharedContext
import Verif.Spec.Scheduler
import Verif.Model.Parallel

/-! # Specification: what the workers of the parallel checker do to the shared contexts -/

namespace Carcara.Spec

/-- What a step or an assumption under `n` contexts may do to them. -/
def UsesBelow (n : Nat) (ops : List CtxOp) : Prop := ∀ op ∈ ops, (∃ k, op = .apply k ∧ k < n) ∨ (op = .look ∧ 0 < n)

/-- The operations of a worker that goes through some positions, when the contexts of a path are in its stack (`parallel/mod.rs:254-335`): it pops
the contexts down to those of the position, then pushes that of a subproof, or checks a step or an assumption, which may use the contexts. -/
inductive WorkerOps (proof : List Command) : List Nat → List (List Nat × Nat) → List CtxOp → Prop
  | nil {last : List Nat} : WorkerOps proof last [] []
  | leaf {last path : List Nat} {i : Nat} {ps : List (List Nat × Nat)} {c : Command} {uses ops : List CtxOp} :
    commandAt proof path i = some c → (∀ a b n, c ≠ .subproof a b n) → UsesBelow path.length uses → WorkerOps proof path ps ops →
    WorkerOps proof last ((path, i) :: ps) (List.replicate (last.length - path.length) .pop ++ (uses ++ ops))
  | sub {last path : List Nat} {i : Nat} {ps : List (List Nat × Nat)} {sub : List Command} {as : List AnchorArg} {n : Nat} {ops : List CtxOp} :
    commandAt proof path i = some (.subproof sub as n) → WorkerOps proof (path ++ [i]) ps ops →
    WorkerOps proof last ((path, i) :: ps) (List.replicate (last.length - path.length) .pop ++ .push n as :: ops)

end Carcara.Spec
