import Verif.Spec.Elab
import Verif.Model.Subproof

/-! # Specification: subproofs that discharge assumptions -/

namespace Carcara.Spec

/-- `Reaches n m`: `m` is `n`, or one gets from `n` to `m` by premises, discharged assumptions, previous steps and the steps of subproofs. -/
inductive Reaches : Node → Node → Prop where
  | refl (n : Node) : Reaches n n
  | premise {d : NodeData} {ps dis : List Node} {prev : Option Node} {p m : Node} : p ∈ ps → Reaches p m → Reaches (.step d ps dis prev) m
  | discharge {d : NodeData} {ps dis : List Node} {prev : Option Node} {p m : Node} : p ∈ dis → Reaches p m → Reaches (.step d ps dis prev) m
  | previous {d : NodeData} {ps dis : List Node} {p m : Node} : Reaches p m → Reaches (.step d ps dis (some p)) m
  | last {l m : Node} {as : List AnchorArg} {ex : List Node} : Reaches l m → Reaches (.subproof l as ex) m
  | extra {l m e : Node} {as : List AnchorArg} {ex : List Node} : e ∈ ex → Reaches e m → Reaches (.subproof l as ex) m

/-- The step that closes a subproof is at least one level deep. -/
def Inside : Node → Prop
  | .subproof l _ _ => 0 < l.depth ∧ Inside l
  | _ => True

/-- The node is an assumption of the given depth. -/
def AssumptionAt (depth : Nat) (m : Node) : Prop := ∃ id t, m = .assume id depth t

/-- `Closes d as prev`: after the node `prev`, the rule `subproof` accepts the step `d` that discharges the assumptions `as` (given by name
and term), and there are no other assumptions of that depth. -/
structure Closes (d : NodeData) (as : List (String × Term)) (prev : Node) : Prop where
  rule : d.rule = "subproof"
  depth : prev.depth = d.depth
  accepted : ∀ Γ, subproof { conclusion := d.clause, context := Γ, previous := some prev.clause, discharge := as.map fun a => .assume a.1 a.2 } = .ok ()
  all : ∀ m, Reaches prev m → AssumptionAt d.depth m → m ∈ as.map fun a => Node.assume a.1 d.depth a.2

end Carcara.Spec
