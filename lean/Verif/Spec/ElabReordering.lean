import Verif.Model.Node
import Verif.Model.Utils
import Verif.Spec.Resolution

/-! # Specification: steps whose conclusion is the one computed from the premises, up to the order of literals -/

namespace Carcara.Spec

mutual
/-- Every step of the tree satisfies `P`. -/
def AllSteps (P : NodeData → List Node → Prop) : Node → Prop
  | .assume _ _ _ => True
  | .step d ps dis prev => P d ps ∧ AllStepsL P ps ∧ AllStepsL P dis ∧ AllStepsO P prev
  | .subproof last _ extra => AllSteps P last ∧ AllStepsL P extra

def AllStepsL (P : NodeData → List Node → Prop) : List Node → Prop
  | [] => True
  | n :: ns => AllSteps P n ∧ AllStepsL P ns

def AllStepsO (P : NodeData → List Node → Prop) : Option Node → Prop
  | none => True
  | some n => AllSteps P n
end

/-- The conclusion of a step by one of the rules about clauses is, up to order, what the rule computes: the premise itself, an extension
of it, the premise without repetitions, the list of literals that is left after resolving on the pivots. -/
structure ExactStep (d : NodeData) (ps : List Node) : Prop where
  reordering : d.rule = "reordering" → ∃ p, ps = [p] ∧ d.clause.Perm p.clause
  weakening : d.rule = "weakening" → ∃ p, ps = [p] ∧ p.clause <+: d.clause
  contraction : d.rule = "contraction" → ∃ p, ps = [p] ∧ d.clause.Nodup ∧ ∀ t, t ∈ d.clause ↔ t ∈ p.clause
  resolution : d.rule = "resolution" ∨ d.rule = "th_resolution" ∨ d.rule = "strict_resolution" →
    ∃ p q rest e, ps = p :: q :: rest ∧ orderedResolve p.clause ((q :: rest).map Node.clause) d.args = some e ∧ d.clause.Perm e

end Carcara.Spec
