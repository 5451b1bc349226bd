import Verif.Model.Checker
import Verif.Model.Polyeq

/-! # The `subproof` rule (`checker/rules/subproof.rs`) -/

namespace Carcara

/-- Model of `checker/rules/mod.rs assert_polyeq`. -/
def assertPolyeq (a b : Term) : Res Unit := do
  let r ← polyeq a b
  require (r = true)

/-- The loop over `discharge.iter().zip(conclusion)` (`subproof.rs:23-31`). -/
def dischargeLoop : List Command → List Term → Res Unit
  | .assume _ t :: ds, l :: ls => do
    let u ← l.removeNegErr
    assertPolyeq t u
    dischargeLoop ds ls
  | _ :: _, _ :: _ => err
  | _, _ => .ok ()

/-- `phi` (`subproof.rs:33-45`): what the last command of the subproof establishes. -/
def subproofPhi : List Term → Res Term
  | [] => .ok .fls
  | [t] => .ok t
  | _ => err

/-- Model of `checker/rules/subproof.rs:9-48 subproof`. -/
def subproof : RuleFn := fun a => do
  let prev ← orErr a.previous
  require (a.conclusion.length = a.discharge.length + 1)
  dischargeLoop a.discharge a.conclusion
  let phi ← subproofPhi prev
  let l ← orPanic a.conclusion.getLast?
  assertPolyeq l phi

end Carcara
