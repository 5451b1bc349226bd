import Verif.Model.ElabTrans
import Verif.Model.Uncrowding
import Verif.Lemmas.Node

/-! # Elaboration of resolution steps (`elaborator/resolution.rs`) -/

namespace Carcara

/-- `premises.iter().dedup()` (`resolution.rs:54`, `utils.rs:29-63`), where `seen` is the set of nodes that came before. Nodes are shared
pointers that are compared by address; here two nodes are the same if they are equal. -/
def dedupNodes : List Node → List Node → List Node
  | _, [] => []
  | seen, p :: ps => if seen.any p.same then dedupNodes seen ps else p :: dedupNodes (p :: seen) ps

/-- `resolution.rs:57-62`: if the first attempt returns an error, the premises are tried in reverse order. -/
def greedyBothWays (conclusion : List Term) (premises : List Node) : Res (List Node × ResolutionTrace) :=
  match greedyResolution conclusion (premises.map Node.clause) true with
  | .ok r => .ok (premises, r)
  | .error .panic => panic
  | .error .err => do
    let r ← greedyResolution conclusion (premises.reverse.map Node.clause) true
    .ok (premises.reverse, r)

/-- `resolution.rs:64-67`. -/
def tracedArgs : List (Term × Bool) → List Term
  | [] => []
  | (pivot, polarity) :: rest => pivot :: (if polarity then .tru else .fls) :: tracedArgs rest

/-- `resolution.rs:99-142`. -/
def restoreNotNot (ids : IdHelper) (step : NodeData) (premises : List Node) : Res Node :=
  match step.clause with
  | [.op .not [.op .not [c]]] => do
    let not1 : Term := .op .not [c]
    let not2 : Term := .op .not [not1]
    let not4 : Term := .op .not [.op .not [not2]]
    let (id1, ids) ← ids.nextId
    let (id2, ids) ← ids.nextId
    let (id3, _) ← ids.nextId
    let first : Node := .mk { id := id1, depth := step.depth, clause := [not4, not1], rule := "not_not" } []
    let second : Node := .mk { id := id2, depth := step.depth, clause := [.op .not [not4], not2], rule := "not_not" } []
    .ok (.mk { id := id3, depth := step.depth, clause := [not2], rule := "resolution", args := [c, .tru, not4, .tru] }
      [.mk { step with clause := [c] } premises, first, second])
  | _ => panic

/-- `resolution.rs:15-36`: the step for a premise `(not true)`. -/
def elabNotTrue (d : NodeData) (ps : List Node) : Res Node := do
  let (id1, ids) ← (IdHelper.new d.id).nextId
  let (id2, _) ← ids.nextId
  let true_ : Node := .mk { id := id1, depth := d.depth, clause := [.tru], rule := "true" } []
  .ok (.mk { id := id2, depth := d.depth, clause := [], rule := "resolution", args := [.tru, .fls] } (ps ++ [true_]))

/-- `resolution.rs:54-145`. -/
def elabGreedy (d : NodeData) (ps : List Node) : Res Node := do
  let (qs, r) ← greedyBothWays d.clause (dedupNodes [] ps)
  let step : NodeData := { id := d.id, depth := d.depth, clause := d.clause, rule := "resolution", args := tracedArgs r.pivotTrace }
  if r.notNotAdded then restoreNotNot (.new d.id) step qs else .ok (.mk step qs)

/-- `resolution.rs:4-146 resolution`. An error is returned to `elaborate_local` (`elaborator/mod.rs:193`), which unwraps it: the elaborator
panics. -/
def elabResolution (d : NodeData) (ps dis : List Node) (prev : Option Node) : Res Node :=
  if d.args ≠ [] then .ok (.step d ps dis prev)
  else if d.clause = [] ∧ ps.map Node.clause = [[.op .not [.tru]]] then elabNotTrue d ps
  else if d.clause = [] ∧ ps.any (fun p => p.clause = []) then .ok (.step d ps dis prev)
  else elabGreedy d ps

end Carcara
