import Verif.Model.ElabCong
import Verif.Model.Polyeq

/-!
# Proofs that two terms are equal modulo reordering (`elaborator/polyeq.rs`), and elaboration of assumptions

Model of `PolyeqElaborator` without a context (`is_alpha_equivalence = false`) and of `elaborate_assume` (`elaborator/mod.rs:203-251`), the
caller that uses it that way. The code keeps one `Polyeq` for all comparisons of one elaboration; here every comparison starts afresh.
The recursion has a step counter. Running out of it is an ordinary error, which the code never returns.
-/

namespace Carcara

/-- `polyeq.rs:7-13 struct PolyeqElaborator`. -/
structure PolyElab where
  ids : IdHelper
  root : Nat
  cache : HashMapStack (Term × Term) Node

namespace PolyElab

/-- `polyeq.rs:16-26 new`. -/
def new (ids : IdHelper) (root : Nat) : PolyElab := ⟨ids, root, .new⟩

/-- `polyeq.rs:210-212 depth`. -/
def depth (p : PolyElab) : Nat := p.root + p.cache.height - 1

/-- A new step at the current depth with a new identifier. -/
def addStep (p : PolyElab) (clause : List Term) (rule : String) (premises : List Node) : Res (Node × PolyElab) := do
  let (id, ids) ← p.ids.nextId
  .ok (.mk { id, depth := p.depth, clause, rule } premises, { p with ids })

/-- `polyeq.rs:335-338 open_subproof`. -/
def openSubproof (p : PolyElab) : PolyElab := { p with cache := p.cache.pushScope, ids := p.ids.push }

/-- `polyeq.rs:340-359 close_subproof`. The depth of the last step is that of the open subproof. -/
def closeSubproof (p : PolyElab) (args : List AnchorArg) (clause : List Term) (rule : String) (premises : List Node) (previous : Node) :
    Res (Node × PolyElab) := do
  let cache ← p.cache.popScope
  let ids ← p.ids.pop
  let (id, ids) ← ids.nextId
  .ok (.subproof (.step { id, depth := p.depth, clause, rule } premises [] (some previous)) args [], { p with cache, ids })

end PolyElab

/-- A recursive call of `elaborate`. -/
abbrev ElabCall := Term → Term → PolyElab → Res (Node × PolyElab)

/-- The premises for the pairs that are not identical (`polyeq.rs:236-245`). The lists are zipped. -/
def differing (go : ElabCall) : List Term → List Term → PolyElab → Res (List Node × PolyElab)
  | a :: as, b :: bs, p =>
    if a = b then differing go as bs p
    else do
      let (n, p) ← go a b p
      let (ns, p) ← differing go as bs p
      .ok (n :: ns, p)
  | _, _, p => .ok ([], p)

/-- `polyeq.rs:229-255 build_cong`. -/
def buildCong (go : ElabCall) (a b : Term) (as bs : List Term) (p : PolyElab) : Res (Node × PolyElab) := do
  let (ns, p) ← differing go as bs p
  p.addStep [.op .equals [a, b]] "cong" ns

/-- The end of `flip_equality` (`polyeq.rs:325-333`). -/
def flipAfter (cong : Node) (x y y' x' : Term) (p : PolyElab) : Res (Node × PolyElab) := do
  let (symm, p) ← p.addStep [.op .equals [.op .equals [x, y], .op .equals [y', x']]] "eq_symmetric" []
  let (id, ids) ← p.ids.nextId
  let n ← addTrans cong symm id
  .ok (n, { p with ids })

/-- `polyeq.rs:257-333 flip_equality`. -/
def flipEquality (go : ElabCall) (al ar bl br : Term) (p : PolyElab) : Res (Node × PolyElab) :=
  if al = br ∧ ar = bl then
    p.addStep [.op .equals [.op .equals [al, ar], .op .equals [bl, br]]] "eq_symmetric" []
  else do
    let (cong, p) ← buildCong go (.op .equals [al, ar]) (.op .equals [br, bl]) [al, ar] [br, bl] p
    flipAfter cong br bl bl br p

/-- `ast/term.rs:910-912 is_const`. -/
def Term.isConst : Term → Bool
  | .const _ => true
  | _ => false

/-- `inner_eq.as_step().is_some_and(|s| s.depth == self.depth())` (`polyeq.rs:375`). -/
def Node.isStepAt (d : Nat) : Node → Bool
  | .step n _ _ _ => n.depth = d
  | _ => false

/-- `polyeq.rs:363-389 create_bind_subproof`. -/
def bindSubproof (go : ElabCall) (a b : Term) (p : PolyElab) : Res (Node × PolyElab) := do
  let (n, p) ← go a b p
  if n.isStepAt p.depth then .ok (n, p) else p.addStep [.op .equals [a, b]] "reordering" [n]

/-- The anchor of a `bind` step (`polyeq.rs:105-114`). -/
def bindAnchor (xs : List (String × Srt)) : List AnchorArg :=
  xs.map (fun x => .var x.1 x.2) ++ xs.map fun x => .assign x.1 x.2 (.var x.1 x.2)

/-- `polyeq.rs:100-158`: two binders. -/
def elabBinders (go : ElabCall) (q : Binder) (xs : List (String × Srt)) (a : Term) (q' : Binder) (ys : List (String × Srt)) (b : Term)
    (p : PolyElab) : Res (Node × PolyElab) :=
  if q = q' ∧ xs = ys then do
    let (prev, p) ← bindSubproof go a b p.openSubproof
    p.closeSubproof (bindAnchor xs) [.op .equals [.binder q xs a, .binder q' ys b]] "bind" [] prev
  else panic

/-- The anchor of a `bind_let` step (`polyeq.rs:163-166`). -/
def letAnchor : List (String × Term) → Res (List AnchorArg)
  | [] => .ok []
  | (x, v) :: bs => do
    let s ← orPanic (sortOf v)
    let as ← letAnchor bs
    .ok (.var x s :: as)

/-- The premises of a `bind_let` step (`polyeq.rs:171-182`). -/
def letDiffering (go : ElabCall) : List (String × Term) → List (String × Term) → PolyElab → Res (List Node × PolyElab)
  | (x, a) :: as, (y, b) :: bs, p =>
    if x ≠ y then panic
    else if a = b then letDiffering go as bs p
    else do
      let (n, p) ← go a b p
      let (ns, p) ← letDiffering go as bs p
      .ok (n :: ns, p)
  | _, _, p => .ok ([], p)

/-- `polyeq.rs:160-198`: two `let` terms. -/
def elabLets (go : ElabCall) (xs : List (String × Term)) (a : Term) (ys : List (String × Term)) (b : Term) (p : PolyElab) :
    Res (Node × PolyElab) :=
  if xs.length ≠ ys.length then panic
  else do
    let args ← letAnchor xs
    let (ns, p) ← letDiffering go xs ys p
    let (prev, p) ← bindSubproof go a b p.openSubproof
    p.closeSubproof args [.op .equals [.let_ xs a, .let_ ys b]] "bind_let" ns prev

/-- `binary.as_op()`: head and rest of a nested application (`polyeq.rs:468-477`). -/
def assocParts (o : Op) : Term → Res (Term × Term)
  | .op o' [l, r] => if o' = o then .ok (if o.naryCase = some .rightAssoc then (l, r) else (r, l)) else panic
  | _ => panic

/-- `polyeq.rs:444-486 get_assoc_premises`. The list has the n-ary arguments in the order in which they are taken: from the first for a
right-associative operator, from the last for the others. -/
def assocPremises (go : ElabCall) (o : Op) : List Term → Term → PolyElab → Res (List Node × List Term × PolyElab)
  | [], _, _ => panic
  | [a], b, p => do
    let (ns, p) ← differing go [a] [b] p
    .ok (ns, [b], p)
  | a :: as, b, p => do
    let (h, t) ← assocParts o b
    let (ns, p) ← differing go [a] [h] p
    let (ms, args, p) ← assocPremises go o as t p
    .ok (ns ++ ms, args ++ [h], p)

/-- `polyeq.rs:391-442 elaborate_assoc`. -/
def elabAssoc (go : ElabCall) (o : Op) (nary : List Term) (binary : Term) (p : PolyElab) : Res (Node × PolyElab) :=
  if o.naryCase = some .rightAssoc ∨ o.naryCase = some .leftAssoc then do
    let (ns, args, p) ← assocPremises go o (if o.naryCase = some .rightAssoc then nary else nary.reverse) binary p
    if ns.isEmpty then p.addStep [.op .equals [.op o nary, binary]] "nary_elim" []
    else do
      let normalized := Term.op o (if o.naryCase = some .rightAssoc then args.reverse else args)
      let (cong, p) ← p.addStep [.op .equals [.op o nary, normalized]] "cong" ns
      let (elim, p) ← p.addStep [.op .equals [normalized, binary]] "nary_elim" []
      let (id, ids) ← p.ids.nextId
      let n ← addTrans cong elim id
      .ok (n, { p with ids })
  else panic

/-- `polyeq.rs:75-92`: two applications of operators. -/
def elabOps (go : ElabCall) (o : Op) (as : List Term) (o' : Op) (bs : List Term) (p : PolyElab) : Res (Node × PolyElab) :=
  if o ≠ o' then panic
  else if as.length ≠ bs.length then
    if as.length = 2 then (if 2 < bs.length then elabAssoc go o bs (.op o as) p else panic)
    else if bs.length = 2 then (if 2 < as.length then elabAssoc go o as (.op o' bs) p else panic)
    else panic
  else buildCong go (.op o as) (.op o' bs) as bs p

/-- `polyeq.rs:69-207`: the cases by the shape of the terms. -/
def elabShapes (go : ElabCall) (p : PolyElab) : Term → Term → Res (Node × PolyElab)
  | .app f as, .app g bs => if f = g ∧ as.length = bs.length then buildCong go (.app f as) (.app g bs) as bs p else panic
  | .op o as, .op o' bs => elabOps go o as o' bs p
  | .binder .choice _ _, _ | .binder .lambda _ _, _ | _, .binder .choice _ _ | _, .binder .lambda _ _ => panic
  | .binder q xs a, .binder q' ys b => elabBinders go q xs a q' ys b p
  | .let_ xs a, .let_ ys b => elabLets go xs a ys b p
  | a, b =>
    if a.isConst || b.isConst then do
      let e ← polyeq a b
      if e then p.addStep [.op .equals [a, b]] "refl" [] else panic
    else panic

/-- `self.polyeq(a_left, b_right) && self.polyeq(a_right, b_left)` (`polyeq.rs:59-67`); false for other terms. -/
def swapped : Term → Term → Res Bool
  | .op .equals [al, ar], .op .equals [bl, br] => do
    let e ← polyeq al br
    if e then polyeq ar bl else .ok false
  | _, _ => .ok false

/-- The call of `flip_equality`, for terms that are both equalities. -/
def elabSwapped (go : ElabCall) (p : PolyElab) : Term → Term → Res (Node × PolyElab)
  | .op .equals [al, ar], .op .equals [bl, br] => flipEquality go al ar bl br p
  | _, _ => panic

/-- `polyeq.rs:48-208 elaborate_impl`. -/
def elabImpl (go : ElabCall) (a b : Term) (p : PolyElab) : Res (Node × PolyElab) :=
  if a = b then p.addStep [.op .equals [a, b]] "refl" []
  else do
    let e ← swapped a b
    if e then elabSwapped go p a b else elabShapes go p a b

/-- `polyeq.rs:30-46 elaborate`. -/
def elabEq : Nat → ElabCall
  | 0, _, _, _ => err
  | k + 1, a, b, p =>
    match p.cache.get (a, b) with
    | some n => .ok (n, p)
    | none => do
      let (n, p) ← elabImpl (elabEq k) a b p
      let cache ← p.cache.insert (a, b) n
      .ok (n, { p with cache })

/-- `PolyeqElaborator::elaborate` with enough steps. -/
def elaborateEq (a b : Term) (p : PolyElab) : Res (Node × PolyElab) := elabEq (a.size + b.size) a b p

/-- The first premise of the problem that the assumption matches (`elaborator/mod.rs:204-215`). -/
def findPremise (t : Term) : List Term → Res Term
  | [] => panic
  | q :: qs => do
    let e ← assumeEq t q
    if e then .ok q else findPremise t qs

/-- `elaborator/mod.rs:203-251 elaborate_assume`. -/
def elabAssume (premises : List Term) (id : String) (depth : Nat) (t : Term) : Res Node := do
  let q ← findPremise t premises
  let (eq, p) ← elaborateEq q t (.new (.new id) depth)
  let (id1, ids) ← p.ids.nextId
  let (id2, _) ← ids.nextId
  let equiv := Node.mk { id := id1, depth, clause := [.op .not [q], t], rule := "equiv1" } [eq]
  .ok (.mk { id := id2, depth, clause := [t], rule := "resolution", args := [q, .tru] } [.assume id depth q, equiv])

end Carcara
