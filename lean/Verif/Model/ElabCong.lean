import Verif.Model.ElabTrans
import Verif.Model.Uncrowding

/-! # Elaboration of congruence steps (`elaborator/congruence.rs`) -/

namespace Carcara

/-- `congruence.rs:28-63 check_cong`, with the array `flipped` as the result: for each premise, whether it is turned around. The argument
lists are zipped. -/
def congFlips : List (Term × Term) → List Term → List Term → Option (List Bool)
  | ps, f :: fs, g :: gs =>
    match ps with
    | (t, u) :: rest =>
      if f = t ∧ g = u then (congFlips rest fs gs).map (false :: ·)
      else if f = u ∧ g = t then (congFlips rest fs gs).map (true :: ·)
      else if f = g then congFlips ((t, u) :: rest) fs gs
      else none
    | [] => if f = g then congFlips [] fs gs else none
  | [], _, _ => some []
  | _ :: _, _, _ => none

/-- `congruence.rs:65-70 term_args`. -/
def termArgs : Term → Res (List Term)
  | .app _ as => .ok as
  | .op _ as => .ok as
  | .paramOp _ _ as => .ok as
  | _ => panic

/-- `match_term!((= a b) = clause[0]).unwrap()`. -/
def headEq : List Term → Res (Term × Term)
  | .op .equals [a, b] :: _ => .ok (a, b)
  | _ => panic

/-- The loop `congruence.rs:116-127`. -/
def flipMarked : IdHelper → List (Node × Bool) → Res (List Node)
  | _, [] => .ok []
  | ids, (p, false) :: ps => do
    let qs ← flipMarked ids ps
    .ok (p :: qs)
  | ids, (p, true) :: ps => do
    let (id, ids) ← ids.nextId
    let q ← addSymm p id
    let qs ← flipMarked ids ps
    .ok (q :: qs)

/-- `congruence.rs:102-132 flip_needed_premises`. -/
def flipNeeded (d : NodeData) (premises discharge : List Node) (previous : Option Node) : Res Node := do
  let (f, g) ← headEq d.clause
  let as ← termArgs f
  let bs ← termArgs g
  let eqs ← collectRes (fun p => headEq p.clause) premises
  let flipped ← orPanic (congFlips eqs as bs)
  if flipped.any id then do
    let ps ← flipMarked (.new d.id) (premises.zip flipped)
    .ok (.step d ps discharge previous)
  else .ok (.step d premises discharge previous)

/-- `elaborator/mod.rs:289-307 add_trans_step` of two nodes. -/
def addTrans (m n : Node) (id : String) : Res Node := do
  let (a, _) ← headEq m.clause
  let (_, b) ← headEq n.clause
  .ok (.mk { id, depth := m.depth, clause := [.op .equals [a, b]], rule := "trans" } [m, n])

/-- `congruence.rs:10-26 build_eq_symm_step`. -/
def eqSymmStep (a b : Term) (id : String) (depth : Nat) : Node :=
  .mk { id, depth, clause := [.op .equals [.op .equals [a, b], .op .equals [b, a]]], rule := "eq_symmetric" } []

/-- The `cong` steps that are built in `congruence.rs:166-175`, `182-191`. -/
def congStep (id : String) (depth : Nat) (a b c d : Term) : NodeData :=
  { id, depth, clause := [.op .equals [.op .equals [a, b], .op .equals [c, d]]], rule := "cong" }

/-- `congruence.rs:134-207 elaborate_cong_between_equalities`. -/
def elabCongEqs (d : NodeData) (premises discharge : List Node) (previous : Option Node) (f1 f2 g1 g2 : Term) : Res Node :=
  if 2 < premises.length then panic
  else if f1 = g2 ∧ f2 = g1 then .ok (.step { d with rule := "eq_symmetric" } [] discharge previous)
  else do
    let eqs ← collectRes (fun p => headEq p.clause) premises
    if (congFlips eqs [f1, f2] [g1, g2]).isSome then flipNeeded d premises discharge previous
    else if (congFlips eqs [f2, f1] [g1, g2]).isSome then do
      let (id, ids) ← (IdHelper.new d.id).nextId
      let symm := eqSymmStep f1 f2 id d.depth
      let (id, _) ← ids.nextId
      let cong ← flipNeeded (congStep id d.depth f2 f1 g1 g2) premises [] none
      addTrans symm cong d.id
    else if (congFlips eqs [f1, f2] [g2, g1]).isSome then do
      let (id, ids) ← (IdHelper.new d.id).nextId
      let symm := eqSymmStep g2 g1 id d.depth
      let (id, _) ← ids.nextId
      let cong ← flipNeeded (congStep id d.depth f1 f2 g2 g1) premises [] none
      addTrans cong symm d.id
    else if (congFlips eqs [f2, f1] [g2, g1]).isSome then
      if premises.length = 2 then flipNeeded d premises.reverse discharge previous else panic
    else panic

/-- The cases of `cong` (`congruence.rs:80-99`), for the two sides of the conclusion. -/
def elabCongSides (d : NodeData) (premises discharge : List Node) (previous : Option Node) (f g : Term) : Res Node :=
  if f = g then .ok (.step { d with rule := "refl" } [] discharge previous)
  else match f, g with
    | .op .equals [f1, f2], .op .equals [g1, g2] => elabCongEqs d premises discharge previous f1 f2 g1 g2
    | _, _ => flipNeeded d premises discharge previous

/-- `congruence.rs:72-100 cong`. -/
def elabCong (d : NodeData) (premises discharge : List Node) (previous : Option Node) : Res Node := do
  let c ← single d.clause
  if premises.length = 0 then panic
  else do
    let (f, g) ← match2 .equals c
    elabCongSides d premises discharge previous f g

/-! ## `eq_congruent` -/

/-- `match_term!((not (= t u)) = term).unwrap()`. -/
def neqOf : Term → Res (Term × Term)
  | .op .not [.op .equals [t, u]] => .ok (t, u)
  | _ => panic

/-- The pairs with the marked ones turned around. -/
def turn (eqs : List (Term × Term)) (flipped : List Bool) : List (Term × Term) :=
  (eqs.zip flipped).map fun p => if p.2 then p.1.swap else p.1

/-- The elements with the given mark. -/
def marked {α : Type} (b : Bool) (l : List α) (flags : List Bool) : List α :=
  ((l.zip flags).filter fun p => p.2 == b).map (·.1)

/-- The fixed `eq_congruent` step and the `contraction` after it (`congruence.rs:250-283`). -/
def fixedStep (d : NodeData) (clause : List Term) (ids : IdHelper) : Res (Node × IdHelper) := do
  let (id, ids) ← ids.nextId
  let first := Node.mk { id, depth := d.depth, clause, rule := "eq_congruent" } []
  if (dedup clause).length = clause.length then .ok (first, ids)
  else do
    let (id, ids) ← ids.nextId
    .ok (.mk { id, depth := d.depth, clause := dedup clause, rule := "contraction" } [first], ids)

/-- The steps `eq_symmetric` and `equiv1` for the flipped premises (`congruence.rs:285-319`). The set `seen_premises` is modelled by `dedup`
at the call. -/
def turnSteps (depth : Nat) : IdHelper → List (Term × Term) → Res (List Node × IdHelper)
  | ids, [] => .ok ([], ids)
  | ids, (u, t) :: es => do
    let (id, ids) ← ids.nextId
    let symm := eqSymmStep u t id depth
    let (id, ids) ← ids.nextId
    let equiv := Node.mk { id, depth, clause := [.op .not [.op .equals [u, t]], .op .equals [t, u]], rule := "equiv1" } [symm]
    let (rest, ids) ← turnSteps depth ids es
    .ok (equiv :: rest, ids)

/-- The `weakening` step (`congruence.rs:351-372`). The clause is computed as in `uncrowding.rs:196-209`. -/
def weakenStep (d : NodeData) (n : Node) (ids : IdHelper) : Res Node :=
  if d.clause.length = n.clause.length then .ok n
  else do
    let clause ← weakeningClause n.clause d.clause
    let (id, _) ← ids.nextId
    .ok (.mk { id, depth := d.depth, clause, rule := "weakening" } [n])

/-- `congruence.rs:229-383`: the premises marked in `flipped` are turned around. -/
def turnCongruent (d : NodeData) (eqs : List (Term × Term)) (last : Term) (flipped : List Bool) : Res Node := do
  let (first, ids) ← fixedStep d ((turn eqs flipped).map (fun e => neqTerm e.1 e.2) ++ [last]) (.new d.id)
  let toTurn := dedup (marked true eqs flipped)
  let (steps, ids) ← turnSteps d.depth ids toTurn
  let (id, ids) ← ids.nextId
  let clause := dedup (marked false d.clause (flipped ++ [false]) ++ marked true d.clause (flipped ++ [false]))
  let args := toTurn.flatMap fun e => [.op .equals [e.2, e.1], .fls]
  let weakened ← weakenStep d (.mk { id, depth := d.depth, clause, rule := "resolution", args } (first :: steps)) ids
  .ok (.mk { id := d.id, depth := d.depth, clause := d.clause, rule := "reordering" } [weakened])

/-- `congruence.rs:209-383 eq_congruent`. -/
def elabEqCongruent (d : NodeData) (premises discharge : List Node) (previous : Option Node) : Res Node :=
  if d.clause.length < 2 then panic
  else do
    let eqs ← collectRes neqOf d.clause.dropLast
    let last ← orPanic d.clause.getLast?
    let (f, g) ← match2 .equals last
    let as ← termArgs f
    let bs ← termArgs g
    let flipped ← orPanic (congFlips eqs as bs)
    if flipped.any id = false then .ok (.step d premises discharge previous) else turnCongruent d eqs last flipped

end Carcara
