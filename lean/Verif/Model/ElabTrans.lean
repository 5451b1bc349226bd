import Verif.Model.Node
import Verif.Model.IdHelper
import Verif.Model.Equality

/-! # Elaboration of transitivity steps (`elaborator/transitivity.rs`) -/

namespace Carcara

variable {α : Type}

/-- `l.swap(i, j)`. -/
def swapAt (l : List α) (i j : Nat) : Res (List α) := do
  let a ← orPanic l[i]?
  let b ← orPanic l[j]?
  .ok ((l.set i b).set j a)

/-- The closure of `find_map` in `transitivity.rs:22-34`: the first equality with `a` on one side, its index, its other side
and whether it has to be flipped. -/
def findLink (a : Term) : List (Term × Term) → Option (Nat × Term × Bool)
  | [] => none
  | (t, u) :: ps =>
    if t = a then some (0, u, false)
    else if u = a then some (0, t, true)
    else (findLink a ps).map fun r => (r.1 + 1, r.2)

/-- What `find_and_trace_chain` returns and leaves in its mutable arguments. -/
structure Trace (α : Type) where
  reordered : Bool
  needed : Nat
  flips : List Nat
  equalities : List (Term × Term)
  premises : List α
deriving DecidableEq

/-- The loop of `transitivity.rs:17-47 find_and_trace_chain`. Every iteration increases `i`; the first argument is the number
of equalities from `i` on. -/
def traceChain : Nat → Nat → Term → Term → List (Term × Term) → List α → Bool → List Nat → Res (Trace α)
  | n, i, a, b, eqs, ps, reordered, flips =>
    if a = b then .ok ⟨reordered, i, flips, eqs, ps⟩
    else match findLink a (eqs.drop i), n with
      | some (j, c, flip), n + 1 => do
        let flips := if flip then flips ++ [i] else flips
        if j + i ≠ i then do
          let eqs ← swapAt eqs i (j + i)
          let ps ← swapAt ps i (j + i)
          traceChain n (i + 1) c b eqs ps true flips
        else traceChain n (i + 1) c b eqs ps reordered flips
      | _, _ => err

/-- `transitivity.rs:9-48 find_and_trace_chain`. -/
def findAndTraceChain (a b : Term) (eqs : List (Term × Term)) (ps : List α) : Res (Trace α) :=
  traceChain eqs.length 0 a b eqs ps false []

/-- `assert_eq!(clause.len(), 1)` and the only literal. -/
def single : List Term → Res Term
  | [t] => .ok t
  | _ => panic

/-- `elaborator/mod.rs:273-287 add_symm_step`. -/
def addSymm (n : Node) (id : String) : Res Node := do
  let t ← single n.clause
  match t with
  | .op .equals [a, b] => .ok (.mk { id, depth := n.depth, clause := [.op .equals [b, a]], rule := "symm" } [n])
  | _ => panic

/-- The loop `transitivity.rs:81-83`. -/
def flipPremises : IdHelper → List Nat → List Node → Res (List Node)
  | _, [], ps => .ok ps
  | ids, i :: is, ps => do
    let (id, ids) ← ids.nextId
    let p ← orPanic ps[i]?
    let q ← addSymm p id
    flipPremises ids is (ps.set i q)

/-- The equality a premise of `trans` concludes (`transitivity.rs:61-64`). -/
def nodeEq (n : Node) : Res (Term × Term) := do
  let t ← single n.clause
  match2 .equals t

/-- `transitivity.rs:50-89 trans`. -/
def elabTrans (d : NodeData) (premises discharge : List Node) (previous : Option Node) : Res Node := do
  let c ← single d.clause
  let (t, u) ← match2 .equals c
  let eqs ← collectRes nodeEq premises
  let r ← findAndTraceChain t u eqs premises
  let ps ← flipPremises (.new d.id) r.flips (r.premises.take r.needed)
  .ok (.step d ps discharge previous)

/-- `(not (= a b))`. -/
def neqTerm (a b : Term) : Term := .op .not [.op .equals [a, b]]

/-- The loop `transitivity.rs:121-127`. -/
def flipLiterals : List Nat → List Term → Res (List Term)
  | [], c => .ok c
  | i :: is, c => do
    let t ← orPanic c[i]?
    match t with
    | .op .not [.op .equals [a, b]] => flipLiterals is (c.set i (neqTerm b a))
    | _ => panic

/-- The steps `eq_symmetric` and `equiv2` for one flipped literal (`transitivity.rs:199-226`): the `equiv2` step, the pivot and
the introduced literal. -/
def flipSteps (depth : Nat) (clause : List Term) : IdHelper → List Nat → Res (List (Node × Term × Term) × IdHelper)
  | ids, [] => .ok ([], ids)
  | ids, i :: is => do
    let t ← orPanic clause[i]?
    match t with
    | .op .not [.op .equals [a, b]] => do
      let ab : Term := .op .equals [a, b]
      let ba : Term := .op .equals [b, a]
      let (id, ids) ← ids.nextId
      let symm := Node.mk { id, depth, clause := [.op .equals [ab, ba]], rule := "eq_symmetric" } []
      let (id, ids) ← ids.nextId
      let equiv := Node.mk { id, depth, clause := [ab, .op .not [ba]], rule := "equiv2" } [symm]
      let (rest, ids) ← flipSteps depth clause ids is
      .ok ((equiv, ab, .op .not [ba]) :: rest, ids)
    | _ => panic

/-- The literals whose index is not in the list (`transitivity.rs:229-241`). -/
def unflipped (clause : List Term) (flips : List Nat) : List Term :=
  (clause.zipIdx.filter fun p => decide (p.2 ∉ flips)).map (·.1)

/-- `transitivity.rs:191-266 flip_eq_transitive_premises`. -/
def flipEqTransitive (n : Node) (depth : Nat) (flips : List Nat) (ids : IdHelper) : Res (Node × IdHelper) := do
  let clause := n.clause
  let (steps, ids) ← flipSteps depth clause ids flips
  let (id, ids) ← ids.nextId
  .ok (.mk { id, depth, clause := unflipped clause flips ++ steps.map (·.2.2), rule := "resolution",
             args := steps.flatMap fun s => [s.2.1, .fls] } (n :: steps.map (·.1)), ids)

/-- `transitivity.rs:91-189 eq_transitive`. -/
def elabEqTransitive (d : NodeData) (premises discharge : List Node) (previous : Option Node) : Res Node := do
  if d.clause.length ≤ 2 then panic
  else do
    let last ← orPanic d.clause.getLast?
    let (t, u) ← match2 .equals last
    let eqs ← collectRes matchNeq d.clause.dropLast
    let r ← findAndTraceChain t u eqs d.clause.dropLast
    if r.reordered = false ∧ r.needed = d.clause.length - 1 ∧ r.flips = [] then .ok (.step d premises discharge previous)
    else do
      let literals ← flipLiterals r.flips (r.premises ++ [last])
      let (clause, notNeeded) := if r.needed = d.clause.length - 1 then (literals, [])
        else (literals.dropLast.take r.needed ++ [last], literals.dropLast.drop r.needed)
      let (id, ids) ← (IdHelper.new d.id).nextId
      let first := Node.mk { id, depth := d.depth, clause, rule := "eq_transitive" } []
      let (latest, ids) ← (if r.flips = [] then .ok (first, ids)
        else flipEqTransitive first d.depth r.flips ids : Res (Node × IdHelper))
      let latest ← (if notNeeded = [] then .ok latest
        else do
          let (id, _) ← ids.nextId
          .ok (.mk { id, depth := d.depth, clause := latest.clause ++ notNeeded, rule := "weakening" } [latest]) : Res Node)
      .ok (.mk { id := d.id, depth := d.depth, clause := d.clause, rule := "reordering" } [latest])

end Carcara
