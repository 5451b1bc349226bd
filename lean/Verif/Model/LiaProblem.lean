import Verif.Model.SolverProblem
import Verif.Model.SharedPrinter

/-!
# The problem that is given to a solver for a step with the rule `lia_generic`

Model of `elaborator/lia_generic.rs:39-59 get_problem_string`, to characters. Unlike for a hole (`Model/SolverProblem.lean`), the literals are written with
sharing, and the logic is not changed.
-/

namespace Carcara

/-- `ast/printer.rs:416-424`. The names that are given in one assertion are used in the next ones. -/
def printNegatedShared (S : Sharing) : List Term → List Term → Res (List (List Char))
  | [], _ => .ok []
  | t :: ts, L => do
    let (t, L) ← printShared S true t L
    let ts ← printNegatedShared S ts L
    .ok (("(assert (not ".toList ++ t ++ "))".toList) :: ts)

/-- `elaborator/lia_generic.rs:39-59`; the prefix is set in `ast/printer.rs:56`. -/
def liaProblem (share : List Term → Term → Bool) (Q : Problem) (clause : List Term) : Res (List Char) := do
  let ls ← printPrelude Q
  let as ← printNegatedShared ⟨"p_", share⟩ (dedupNext clause) []
  .ok (("(set-option :produce-proofs true)".toList :: ls ++ as ++ ["(check-sat)".toList, "(get-proof)".toList, "(exit)".toList]).flatMap (· ++ ['\n']))

end Carcara
