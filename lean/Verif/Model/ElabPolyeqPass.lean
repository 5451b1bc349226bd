import Verif.Model.ElabPolyeq
import Verif.Model.ElabTrans
import Verif.Model.IteIntro
import Verif.Model.BfunElim
import Verif.Model.Quantifier
import Verif.Model.Context

/-!
# The pass that makes equality modulo reordering explicit (`elaborator/mod.rs:146-175 elaborate_polyeq`)

Model of the functions that the pass calls for the steps of single rules: `elaborator/subproof.rs`, `elaborator/tautology.rs`,
`elaborator/clausification.rs`, `elaborator/quantifiers.rs` and `elaborator/reflexivity.rs`. An error that they return is turned into a panic by
the pass (`mod.rs:167`). The proofs of equalities that need the renaming of bound variables (`is_alpha_equivalence = true`) are a parameter.
The code keeps one `Polyeq` for all comparisons of an `ite_intro` step; here every comparison starts afresh.
-/

namespace Carcara

/-- The two steps that are built in `elaborator/subproof.rs:24-46` (after the proof of the equality). -/
def replaceStep (e : NodeData) (qs es : List Node) (pv : Option Node) (depth : Nat) (previous last : Term) (eq : Node) (ids : IdHelper) : Res Node := do
  let (id1, ids) ← ids.nextId
  let (id2, _) ← ids.nextId
  let equiv := Node.mk { id := id1, depth, clause := [.op .not [previous], last], rule := "equiv1" } [eq]
  .ok (.mk { id := id2, depth, clause := [last], rule := "resolution", args := [previous, .fls] } [equiv, .step e qs es pv])

/-- `elaborator/subproof.rs:4-50 subproof`. -/
def elabSubproof (d : NodeData) (premises discharge : List Node) : Option Node → Res Node
  | some (.step e qs es pv) =>
    match e.clause with
    | [previous] =>
      match d.clause.getLast? with
      | none => panic
      | some last =>
        if last = previous then .ok (.step d premises discharge (some (.step e qs es pv)))
        else do
          let (eq, p) ← elaborateEq previous last (.new (.new d.id) d.depth)
          let r ← replaceStep e qs es pv d.depth previous last eq p.ids
          .ok (.step d premises discharge (some r))
    | _ => .ok (.step d premises discharge (some (.step e qs es pv)))
  | _ => panic

/-- `elaborator/tautology.rs:51-52`. -/
def iteDef (cond r1 r2 : Term) : Term :=
  .op .ite [cond, .op .equals [.op .ite [cond, r1, r2], r1], .op .equals [.op .ite [cond, r1, r2], r2]]

/-- `if a { x } else { y }`, where computing the condition may fail. -/
def ifRes {α : Type} (c : Res Bool) (x y : Res α) : Res α := do if ← c then x else y

/-- `elaborator/tautology.rs:28-52`, the body of the closure. -/
def expectedDef : Term → Res Term
  | .op .ite [cond, .op .equals [a, b], .op .equals [c, d]] =>
    ifRes (isValidIte cond a b c d) (.ok (iteDef cond a c)) <|
    ifRes (isValidIte cond b a c d) (.ok (iteDef cond b c)) <|
    ifRes (isValidIte cond a b d c) (.ok (iteDef cond a d)) <|
    ifRes (isValidIte cond b a d c) (.ok (iteDef cond b d)) panic
  | _ => panic

/-- `elaborator/tautology.rs:27-56`. -/
def expectedDefs : List Term → Res (List Term)
  | [] => .ok []
  | u :: us => do
    let e ← expectedDef u
    let es ← expectedDefs us
    .ok (e :: es)

/-- The end of `elaborator/tautology.rs:57-77`. -/
def elabIteFixed (d : NodeData) (premises discharge : List Node) (previous : Option Node) (root right fixed : Term) : Res Node :=
  if right = fixed then .ok (.step d premises discharge previous)
  else do
    let (id1, ids) ← (IdHelper.new d.id).nextId
    let (eq, _) ← elaborateEq fixed right (.new ids d.depth)
    addTrans (.mk { id := id1, depth := d.depth, clause := [.op .equals [root, fixed]], rule := "ite_intro" } []) eq d.id

/-- `elaborator/tautology.rs:4-78 ite_intro`. -/
def elabIteIntro (d : NodeData) (premises discharge : List Node) (previous : Option Node) : Res Node :=
  match d.clause with
  | [c] => do
    let (root, right) ← match2 .equals c
    ifRes (polyeq root right)
      (do
        let (n, _) ← elaborateEq root right (.new (.new d.id) d.depth)
        .ok n)
      (match right with
        | .op .and [] => panic
        | .op .and (_ :: us) => do
          let es ← expectedDefs us
          elabIteFixed d premises discharge previous root right (.op .and (root :: es))
        | _ => err)
  | _ => panic

/-- The steps that are built in `elaborator/clausification.rs:29-54` and `elaborator/quantifiers.rs:80-113`: `equiv1` from a proof of
`(= expected got)`, a step of the same rule that concludes `expected`, and their resolution. -/
def elabThrough (d : NodeData) (expected got : Term) (eq : Node) (rule : String) (premises : List Node) (args : List Term) (ids : IdHelper) : Res Node := do
  let (id1, ids) ← ids.nextId
  let (id2, _) ← ids.nextId
  let equiv := Node.mk { id := id1, depth := d.depth, clause := [.op .not [expected], got], rule := "equiv1" } [eq]
  let new := Node.mk { id := id2, depth := d.depth, clause := [expected], rule, args } premises
  .ok (.mk { id := d.id, depth := d.depth, clause := [got], rule := "resolution", args := [expected, .fls] } [equiv, new])

/-- `elaborator/clausification.rs:8-55 bfun_elim`. An empty premise makes the index out of bounds. -/
def elabBfunElim (d : NodeData) (premises discharge : List Node) (previous : Option Node) : Res Node :=
  match premises, d.clause with
  | [q], [got] =>
    match q.clause with
    | [] => panic
    | psi :: _ => do
      let expected ← bfunElimTerm psi
      if got = expected then .ok (.step d premises discharge previous)
      else do
        let (eq, p) ← elaborateEq expected got (.new (.new d.id) d.depth)
        elabThrough d expected got eq "bfun_elim" premises [] p.ids
  | _, _ => panic

/-- `PolyeqElaborator::new(ids, depth, !polyeq(l, r)).elaborate(l, r)` (`elaborator/reflexivity.rs:15-24`, `elaborator/quantifiers.rs:54-62`). -/
def elabEquality (alpha : ElabCall) (l r : Term) (ids : IdHelper) (depth : Nat) : Res (Node × IdHelper) := do
  let (n, p) ← ifRes (polyeq l r) (elaborateEq l r (.new ids depth)) (alpha l r (.new ids depth))
  .ok (n, p.ids)

/-- `elaborator/quantifiers.rs:49-113`: the instance is not exactly the expected one. -/
def elabInst (alpha : ElabCall) (d : NodeData) (quantified expected got : Term) : Res Node := do
  let (eq, ids) ← elabEquality alpha expected got (.new d.id) d.depth
  let or_ := Term.op .or [.op .not [quantified], expected]
  let or' := Term.op .or [.op .not [quantified], got]
  let (id, ids) ← ids.nextId
  let cong := Node.mk { id, depth := d.depth, clause := [.op .equals [or_, or']], rule := "cong" } [eq]
  elabThrough d or_ or' cong "forall_inst" [] d.args ids

/-- A failed `assert` panics. -/
def assertOr (p : Prop) [Decidable p] : Res Unit := if p then .ok () else panic

/-- `elaborator/quantifiers.rs:5-114 forall_inst`. The `assert_eq` on the sorts panics where `instMap` returns an error. -/
def elabForallInst (alpha : ElabCall) (d : NodeData) (premises discharge : List Node) (previous : Option Node) : Res Node :=
  match d.clause with
  | [c] => do
    let (l, got) ← match2 .or c
    let quantified ← match1 .not l
    let (bs, original) ← matchBinder .all quantified
    assertOr (d.args.length = bs.length)
    let m ← (match instMap bs d.args [] with
      | .ok m => .ok m
      | .error _ => panic : Res (List (Term × Term)))
    let σ ← Subst.new m
    let r ← σ.apply original
    if got = r.1 then .ok (.step d premises discharge previous) else elabInst alpha d quantified r.1 got
  | _ => panic

/-- `elaborator/mod.rs:254-271 add_refl_step`. -/
def reflStep (a b : Term) (id : String) (depth : Nat) : Node :=
  .mk { id, depth, clause := [.op .equals [a, b]], rule := "refl" } []

/-- `elaborator/mod.rs:289-307 add_trans_step` of three nodes. -/
def addTrans3 (m n o : Node) (id : String) : Res Node := do
  let (a, _) ← headEq m.clause
  let (_, b) ← headEq o.clause
  .ok (.mk { id, depth := m.depth, clause := [.op .equals [a, b]], rule := "trans" } [m, n, o])

/-- A `refl` step and the `symm` step that turns it round (`elaborator/reflexivity.rs:69-70`, `92-93`, `99-100`). -/
def reflSymm (a b : Term) (ids : IdHelper) (depth : Nat) : Res (Node × IdHelper) := do
  let (id1, ids) ← ids.nextId
  let (id2, ids) ← ids.nextId
  let n ← addSymm (reflStep a b id1 depth) id2
  .ok (n, ids)

/-- `elaborator/reflexivity.rs:67-77`: the context is applied to both sides. -/
def reflBoth (d : NodeData) (left right left' right' : Term) : Res Node := do
  let (id1, ids) ← (IdHelper.new d.id).nextId
  let (n, _) ← reflSymm right right' ids d.depth
  addTrans (reflStep left left' id1 d.depth) n d.id

/-- `elaborator/reflexivity.rs:84-88`. -/
def reflLeft (alpha : ElabCall) (d : NodeData) (left right left' : Term) : Res Node := do
  let (id1, ids) ← (IdHelper.new d.id).nextId
  let (eq, _) ← elabEquality alpha left' right ids d.depth
  addTrans (reflStep left left' id1 d.depth) eq d.id

/-- `elaborator/reflexivity.rs:89-94`. -/
def reflRight (alpha : ElabCall) (d : NodeData) (left right right' : Term) : Res Node := do
  let (eq, ids) ← elabEquality alpha left right' (.new d.id) d.depth
  let (n, _) ← reflSymm right right' ids d.depth
  addTrans eq n d.id

/-- `elaborator/reflexivity.rs:95-105`. -/
def reflSides (alpha : ElabCall) (d : NodeData) (left right left' right' : Term) : Res Node := do
  let (id1, ids) ← (IdHelper.new d.id).nextId
  let (eq, ids) ← elabEquality alpha left' right' ids d.depth
  let (n, _) ← reflSymm right right' ids d.depth
  addTrans3 (reflStep left left' id1 d.depth) eq n d.id

/-- `elaborator/reflexivity.rs:79-109`: the cases with equality modulo reordering. -/
def reflPoly (alpha : ElabCall) (d : NodeData) (left right left' right' : Term) : Res Node :=
  ifRes (alphaEquiv left right)
    (do
      let (n, _) ← elabEquality alpha left right (.new d.id) d.depth
      .ok n) <|
  ifRes (alphaEquiv left' right) (reflLeft alpha d left right left') <|
  ifRes (alphaEquiv left right') (reflRight alpha d left right right') <|
  ifRes (alphaEquiv left' right') (reflSides alpha d left right left' right') err

/-- `elaborator/reflexivity.rs:60-63`: the equality is turned round. -/
def reflFlip (d : NodeData) (right right' : Term) : Res Node := do
  let (id1, _) ← (IdHelper.new d.id).nextId
  addSymm (reflStep right right' id1 d.depth) d.id

/-- `elaborator/reflexivity.rs:26-110 refl`. -/
def elabRefl (alpha : ElabCall) (C : CtxStack) (d : NodeData) (premises discharge : List Node) (previous : Option Node) : Res Node :=
  match d.clause with
  | [c] => do
    let (left, right) ← match2 .equals c
    if left = right then .ok (.step d premises discharge previous)
    else do
      let (left', C) ← C.apply left
      if left' = right then .ok (.step d premises discharge previous)
      else do
        let (right', _) ← C.apply right
        if left = right' then reflFlip d right right'
        else if left' = right' then reflBoth d left right left' right'
        else reflPoly alpha d left right left' right'
  | _ => panic

end Carcara
