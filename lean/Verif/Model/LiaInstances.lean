import Verif.Model.LiaProblem
import Verif.Model.FileParser

/-!
# The problems that the command `generate-lia-problems` writes

Model of `carcara/src/lib.rs:281-327 generate_lia_smt_instances` after the instance is read, to characters. The names of the files, which are made from the
ids, are left out (`cli/src/main.rs:737-752`).
-/

namespace Carcara

/-- `carcara/src/lib.rs:304-321`. -/
def liaInstance (share : List Term → Term → Bool) (Q : Problem) (clause : List Term) : Res (List Char) := do
  let ls ← printPrelude Q
  let as ← printNegatedShared ⟨"p_", share⟩ (dedupNext clause) []
  .ok ((ls ++ as ++ ["(check-sat)".toList, "(exit)".toList]).flatMap (· ++ ['\n']))

/-- `carcara/src/lib.rs:291-325`. Which terms are shared depends on how often they are used at this point, so it may be another choice for each step. -/
def liaLoop (share : Step → List Term → Term → Bool) (Q : Problem) (it : Iter) : Res (List (String × List Char)) :=
  match h : it.next with
  | none => .ok []
  | some (.step s, it') =>
    if s.rule = "lia_generic" ∧ ¬ 0 < it'.depth then do
      let text ← liaInstance (share s) Q s.clause
      let rest ← liaLoop share Q it'
      .ok ((s.id, text) :: rest)
    else liaLoop share Q it'
  | some (_, it') => liaLoop share Q it'
termination_by it.remaining
decreasing_by all_goals exact Iter.next_remaining _ _ _ h

/-- `carcara/src/lib.rs:281-327`. -/
def liaInstances (share : Step → List Term → Term → Bool) (Q : Problem) (P : ParsedProof) : Res (List (String × List Char)) :=
  liaLoop share Q (Iter.start P.commands)

end Carcara
