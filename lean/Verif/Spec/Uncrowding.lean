import Verif.Model.Uncrowding
import Verif.Spec.Elab
import Verif.Spec.Resolution

/-! # Specification: chains of steps that only manipulate clauses -/

namespace Carcara.Spec

/-- The conclusion of a step is what is left of the premises after resolving them, as lists, on the pivots, or the premise without some
repetitions, or an extension of it, or a permutation of it. -/
def ClauseStep (d : NodeData) (ps : List Node) : Prop :=
  (d.rule = "resolution" ∧ ∃ p q rest, ps = p :: q :: rest ∧
      orderedResolve p.clause ((q :: rest).map Node.clause) d.args = some d.clause) ∨
  (d.rule = "contraction" ∧ ∃ p, ps = [p] ∧ d.clause.Sublist p.clause ∧ ∀ t ∈ p.clause, t ∈ d.clause) ∨
  (d.rule = "weakening" ∧ ∃ p, ps = [p] ∧ p.clause <+: d.clause) ∨
  (d.rule = "reordering" ∧ ∃ p, ps = [p] ∧ d.clause.Perm p.clause)

/-- A node that is one of the given ones or is derived from them by such steps. -/
inductive Rechained (given : List Node) : Node → Prop where
  | given {n : Node} : n ∈ given → Rechained given n
  | step {d : NodeData} {ps : List Node} :
      (∀ p ∈ ps, Rechained given p) → ClauseStep d ps → Rechained given (.mk d ps)

end Carcara.Spec
