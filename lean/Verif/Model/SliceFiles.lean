import Verif.Model.Slice
import Verif.Model.SolverProblem

/-!
# The files that the command `slice` writes

Model of `cli/src/main.rs:676-735 slice_command` after the instance is read, to characters, with the option that turns sharing off in the proof. The names
of the files are left out.
-/

namespace Carcara

/-- `ast/printer.rs:81-85`; the printer has the flag `smt_lib_strict` (`printer.rs:79`), no defined constants, and no sharing (`main.rs:716`). -/
def printAssert (t : Term) : Res (List Char) := do
  let t ← printTerm true [] t
  .ok ("(assert ".toList ++ t ++ [')'])

/-- `cli/src/main.rs:707-719`. -/
def sliceProblem (Q : Problem) (asserts : List Term) : Res (List Char) := do
  let ls ← printPrelude Q
  let as ← mapRes printAssert asserts
  .ok ((ls ++ as ++ ["(check-sat)".toList, "(exit)".toList]).flatMap (· ++ ['\n']))

/-- `cli/src/main.rs:685-729`: the texts of the problem and of the proof, if the step is found. -/
def sliceFiles (Q : Problem) (P : ParsedProof) (id : String) (maxDistance : Nat) : Res (Option (List Char × List Char)) := do
  match ← slice P.commands id maxDistance with
  | none => .ok none
  | some (commands, asserts) => do
    let problem ← sliceProblem Q asserts
    let proof ← writeProof { P with commands }
    .ok (some (problem, proof ++ ['\n']))

end Carcara
