import Verif.Model.RuleTable
import Verif.Model.Node

/-! # Specification: what an elaboration has to produce -/

namespace Carcara.Spec

/-- `Chain a b es`: the pairs lead from `a` to `b`, each starting where the one before ends. -/
inductive Chain : Term → Term → List (Term × Term) → Prop where
  | nil (a : Term) : Chain a a []
  | cons {a b c : Term} {es : List (Term × Term)} : Chain c b es → Chain a b ((a, c) :: es)

/-- The pairs with the ones at the given positions turned around. -/
def orient (flips : List Nat) (es : List (Term × Term)) : List (Term × Term) :=
  es.zipIdx.map fun p => if p.2 ∈ flips then p.1.swap else p.1

/-- A step is accepted by its rule, which looks at nothing but the conclusion, the clauses of the premises and the
arguments. -/
def StepOK (E : TableEnv) (elaborated : Bool) (d : NodeData) (premises : List Node) : Prop :=
  ∃ r : Rule, getRule E elaborated d.rule = some r.lift ∧ r d.clause (premises.map Node.clause) d.args = .ok ()

/-- A node that is one of the given ones or is derived from them by accepted steps. -/
inductive Derived (E : TableEnv) (elaborated : Bool) (given : List Node) : Node → Prop where
  | given {n : Node} : n ∈ given → Derived E elaborated given n
  | step {d : NodeData} {ps dis : List Node} {prev : Option Node} :
      (∀ p ∈ ps, Derived E elaborated given p) → StepOK E elaborated d ps → Derived E elaborated given (.step d ps dis prev)

/-- `Uses n m`: `m` is `n` or, directly or not, a premise of `n`. -/
inductive Uses : Node → Node → Prop where
  | refl (n : Node) : Uses n n
  | premise {d : NodeData} {ps dis : List Node} {prev : Option Node} {p m : Node} :
      p ∈ ps → Uses p m → Uses (.step d ps dis prev) m

end Carcara.Spec
