import Verif.Model.ProofPrinter

/-!
# The problem that is given to a solver

Model of what `elaborator/hole.rs` writes for a solver, to characters: the declarations of the problem, and the negation of each literal of the clause.
Terms are written without sharing, which is how `hole.rs` calls the printer (`elaborator/hole.rs:50`).
-/

namespace Carcara

/-- `ast/printer.rs:592-593`. -/
def printSortDeclaration (d : String × Nat) : Res (List Char) := do
  let x ← quoteSymbol d.1
  .ok ("(declare-sort ".toList ++ x ++ ' ' :: natChars d.2 ++ [')'])

/-- `ast/printer.rs:598-603`: the sorts of the arguments and of the result. The range `1..0` of a function without arguments panics. -/
def signatureChars : Srt → Res (List Char × List Char)
  | .fn [] _ => panic
  | .fn (a :: as) r => do
    let as ← Srt.charsL (a :: as)
    let r ← r.chars
    .ok (listChars as, r)
  | s => do
    let s ← s.chars
    .ok ("()".toList, s)

/-- `ast/printer.rs:596-604`. -/
def printFunDeclaration (d : String × Srt) : Res (List Char) := do
  let x ← quoteSymbol d.1
  let (as, r) ← signatureChars d.2
  .ok ("(declare-fun ".toList ++ x ++ ' ' :: as ++ ' ' :: r ++ [')'])

/-- `ast/printer.rs:587-607 Display` of the declarations of a problem. The name of the logic is written as it is. -/
def printPrelude (Q : Problem) : Res (List (List Char)) := do
  let ss ← mapRes printSortDeclaration Q.sorts
  let fs ← mapRes printFunDeclaration Q.functions
  .ok (("(set-logic ".toList ++ (Q.logic.getD "ALL").toList ++ [')']) :: (ss ++ fs))

/-- `Itertools::dedup`: a literal that is equal to the one before it is left out. -/
def dedupNext : List Term → List Term
  | [] => []
  | [t] => [t]
  | t :: u :: ts => if t = u then dedupNext (u :: ts) else t :: dedupNext (u :: ts)

/-- `ast/printer.rs:418-420`; the printer has the flag `smt_lib_strict` and no defined constants (`printer.rs:46-62`). -/
def printNegated (t : Term) : Res (List Char) := do
  let t ← printTerm true [] t
  .ok ("(assert (not ".toList ++ t ++ "))".toList)

/-- `elaborator/hole.rs:39-58 get_problem_string`. -/
def problemString (Q : Problem) (clause : List Term) : Res (List Char) := do
  let ls ← printPrelude Q
  let as ← mapRes printNegated (dedupNext clause)
  .ok (("(set-option :produce-proofs true)".toList :: ls ++ as ++ ["(check-sat)".toList, "(get-proof)".toList, "(exit)".toList]).flatMap (· ++ ['\n']))

/-- `elaborator/hole.rs:61-69`. -/
def holePrelude (Q : Problem) : Problem := if Q.logic = some "QF_LIA" then { Q with logic := some "QF_LIRA" } else Q

/-- The text that `elaborator/hole.rs:60-70` gives to the solver for a step with the conclusion `clause`. -/
def holeProblem (Q : Problem) (clause : List Term) : Res (List Char) := problemString (holePrelude Q) clause

end Carcara
