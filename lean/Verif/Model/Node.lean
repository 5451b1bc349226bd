import Verif.Model.Proof

/-!
# Proof nodes

Model of `ast/node.rs:1-240` as far as the elaborator builds and takes apart nodes. Nodes are trees here: the code shares
them, and compares them by address, which is modelled where it matters. The outbound premises of subproofs are left out;
they only serve to order the commands when a forest is written back as a list.
-/

namespace Carcara

/-- Model of `ast/node.rs:187-214 struct StepNode` without the fields that hold nodes. -/
structure NodeData where
  id : String
  depth : Nat
  clause : List Term
  rule : String
  args : List Term := []
deriving DecidableEq

/-- Model of `ast/node.rs:13-26 enum ProofNode`. -/
inductive Node where
  | assume (id : String) (depth : Nat) (term : Term)
  | step (data : NodeData) (premises discharge : List Node) (previous : Option Node)
  | subproof (last : Node) (args : List AnchorArg) (extra : List Node)

namespace Node

/-- Model of `ast/node.rs:54-60 clause`. -/
def clause : Node → List Term
  | .assume _ _ t => [t]
  | .step d _ _ _ => d.clause
  | .subproof l _ _ => l.clause

/-- Model of `ast/node.rs:42-48 depth`. The last step of a subproof has positive depth (`node.rs:295-304`). -/
def depth : Node → Nat
  | .assume _ d _ => d
  | .step d _ _ _ => d.depth
  | .subproof l _ _ => l.depth - 1

/-- Model of `ast/node.rs:78-80 is_assume`. -/
def isAssume : Node → Bool
  | .assume _ _ _ => true
  | _ => false

end Node

/-- A step that the elaborator adds: no discharged assumptions, no previous step. -/
def Node.mk (d : NodeData) (premises : List Node) : Node := .step d premises [] none

end Carcara
