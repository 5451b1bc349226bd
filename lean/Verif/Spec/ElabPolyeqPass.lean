import Verif.Spec.ElabPolyeq
import Verif.Spec.ContextHistory

/-! # Accepted proofs inside anchors -/

namespace Carcara.Spec

/-- Accepted in elaborated mode inside the anchors `Γ`: `refl` steps may use the substitution of the anchors, whatever was done with it before. -/
inductive AcceptedIn (E : TableEnv) (Γ : List (List AnchorArg)) : Node → Prop where
  | anywhere {n : Node} : Accepted E true [] n → AcceptedIn E Γ n
  | refl {d : NodeData} : d.rule = "refl" → (∀ ok C, CtxHistory ok Γ C → ∃ C', strictRefl C d.clause = .ok C') → AcceptedIn E Γ (.step d [] [] none)
  | step {d : NodeData} {ps : List Node} : (∀ p ∈ ps, AcceptedIn E Γ p) → (∀ p ∈ ps, p.depth ≤ d.depth) → StepOK E true d ps →
      AcceptedIn E Γ (.step d ps [] none)

end Carcara.Spec
