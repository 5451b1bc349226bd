import Verif.Model.ElabResolution

/-!
# Insertion of solver proofs

The part of `elaborator/lia_generic.rs` and `elaborator/hole.rs` that puts the proof found by a solver in place of a step. The solver, the
problem it is given and the check of its proof are not modelled.
-/

namespace Carcara

mutual
/-- `lia_generic.rs:149-166`, `hole.rs:163-180 increase_subproof_depth`. Nodes are trees here, so each copy of a shared node is changed. -/
def Node.moved (delta : Nat) (pre : String) : Node → Node
  | .assume id depth t => .assume (pre ++ "." ++ id) (depth + delta) t
  | .step d ps dis prev =>
    .step { d with id := pre ++ "." ++ d.id, depth := d.depth + delta } (movedAll delta pre ps) (movedAll delta pre dis) (movedOpt delta pre prev)
  | .subproof l as ex => .subproof (moved delta pre l) as (movedAll delta pre ex)
def Node.movedAll (delta : Nat) (pre : String) : List Node → List Node
  | [] => []
  | n :: ns => moved delta pre n :: movedAll delta pre ns
def Node.movedOpt (delta : Nat) (pre : String) : Option Node → Option Node
  | none => none
  | some n => some (moved delta pre n)
end

mutual
/-- The assumptions of a depth that `traverse` visits (`ast/node.rs:118-166`), with repetitions. The code
does not visit the extra steps of a subproof, but before the subproof its outbound premises, which include what the extra steps use from
outside. Nodes here do not have that field, so the extra steps are visited instead: the assumptions outside of the subproof are the same, but
their order may be another one. -/
def Node.assumesAt (k : Nat) : Node → List Node
  | .assume id depth t => if depth = k then [.assume id depth t] else []
  | .step _ ps dis prev => assumesAtAll k ps ++ assumesAtAll k dis ++ assumesAtOpt k prev
  | .subproof l _ ex => assumesAtAll k ex ++ assumesAt k l
def Node.assumesAtAll (k : Nat) : List Node → List Node
  | [] => []
  | n :: ns => assumesAt k n ++ assumesAtAll k ns
def Node.assumesAtOpt (k : Nat) : Option Node → List Node
  | none => []
  | some n => assumesAt k n
end

/-- `ast/node.rs:180-190 get_assumptions_of_depth`. -/
def Node.assumptionsAt (k : Nat) (n : Node) : List Node := dedupNodes [] (n.assumesAt k)

/-- `lia_generic.rs:201-207`: a hash map, where a later assumption with the same term replaces an earlier one. -/
def assumptionMap : List (Term × Node) → List Node → List (Term × Node)
  | m, [] => m
  | m, .assume id depth t :: ns => assumptionMap (mapInsert m t (.assume id depth t)) ns
  | m, _ :: ns => assumptionMap m ns

/-- `lia_generic.rs:215-232`. -/
def liaAssumptions (found : List (Term × Node)) (depth : Nat) : IdHelper → List Term → List Term → Res (List Node × IdHelper)
  | ids, _, [] => .ok ([], ids)
  | ids, covered, l :: ls =>
    match (if .op .not [l] ∈ covered then none else mapGet found (.op .not [l])) with
    | some n => do
      let (ns, ids) ← liaAssumptions found depth ids (setInsert covered (.op .not [l])) ls
      .ok (n :: ns, ids)
    | none => do
      let (id, ids) ← ids.nextId
      let (ns, ids) ← liaAssumptions found depth ids (setInsert covered (.op .not [l])) ls
      .ok (.assume id (depth + 1) (.op .not [l]) :: ns, ids)

/-- `lia_generic.rs:254-273`, `hole.rs:228-247`: the `not_not` steps. -/
def notNotSteps (depth : Nat) : IdHelper → List Term → Res (List Node × IdHelper)
  | ids, [] => .ok ([], ids)
  | ids, l :: ls => do
    let (id, ids) ← ids.nextId
    let (ns, ids) ← notNotSteps depth ids ls
    .ok (.mk { id, depth, clause := [.op .not [.op .not [.op .not [l]]], l], rule := "not_not" } [] :: ns, ids)

/-- `lia_generic.rs:184-189`, `hole.rs:198-203`. -/
def subproofClause (conclusion : List Term) : List Term := conclusion.map (fun l => .op .not [.op .not [l]]) ++ [.fls]

/-- `lia_generic.rs:234-294`, `hole.rs:208-268`: everything after the discharged assumptions are known. -/
def closeSolverProof (subproofId : String) (ids : IdHelper) (discharge : List Node) (proof : Node) (conclusion : List Term) (depth : Nat) :
    Res Node := do
  let last : Node := .step { id := subproofId, depth := depth + 1, clause := subproofClause conclusion, rule := "subproof" } [] discharge (some proof)
  let (notNots, ids) ← notNotSteps depth ids conclusion
  let (idf, ids) ← ids.nextId
  let (id, _) ← ids.nextId
  let false_ : Node := .mk { id := idf, depth, clause := [.op .not [.fls]], rule := "false" } []
  .ok (.mk { id, depth, clause := conclusion, rule := "resolution" } (.subproof last [] [] :: notNots ++ [false_]))

/-- `lia_generic.rs:168-295 insert_solver_proof`. -/
def insertLia (forest : List Node) (conclusion : List Term) (root : String) (depth : Nat) : Res Node := do
  let proof ← orPanic (forest.find? fun n => n.clause = [])
  let (subproofId, _) ← (IdHelper.new root).nextId
  let proof := proof.moved (depth + 1) subproofId
  let found := assumptionMap [] (proof.assumptionsAt (depth + 1))
  let (discharge, ids) ← liaAssumptions found depth (.new (subproofId ++ ".added")) [] conclusion
  closeSolverProof subproofId ids discharge proof conclusion depth

/-- `hole.rs:182-269 insert_solver_proof`. -/
def insertHole (forest : List Node) (conclusion : List Term) (root : String) (depth : Nat) : Res Node := do
  let proof ← orPanic (forest.find? fun n => n.clause = [])
  let (subproofId, ids) ← (IdHelper.new root).nextId
  let proof := proof.moved (depth + 1) root
  closeSolverProof subproofId ids (proof.assumptionsAt (depth + 1)) proof conclusion depth

end Carcara
