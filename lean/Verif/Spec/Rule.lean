import Verif.Model.Cnf
import Verif.Spec.Semantics

/-! # Specification: soundness of a rule -/

namespace Carcara

/-- Every step the rule accepts concludes a clause entailed by its premises, for well-sorted clauses. -/
def SoundRule (r : Rule) : Prop :=
  ∀ (conclusion : List Term) (premises : List (List Term)) (args : List Term),
    r conclusion premises args = .ok () → ClauseOK conclusion → (∀ p ∈ premises, ClauseOK p) →
    Entails premises conclusion

end Carcara
