import Verif.Model.Node
import Verif.Model.Base
import Verif.Model.Utils

/-!
# Removal of reordering steps

Model of `elaborator/reordering.rs` and of the traversal `elaborator/mod.rs:343-443 mutate_impl` it uses. The traversal visits
every node once, after the nodes it depends on, and remembers the result; here it is a recursion on the tree. Outbound premises are
left out, see `Model/Node.lean`.
-/

namespace Carcara

/-- `reordering.rs:43-48 recompute_weakening`. The slice panics if the premise is longer. -/
def recomputeWeakening (clause : List Term) (ps : List Node) : Res (List Term) := do
  let p ← orPanic ps.head?
  if clause.length < p.clause.length then panic else .ok (p.clause ++ clause.drop p.clause.length)

/-- `reordering.rs:50-54 recompute_contraction`. -/
def recomputeContraction (clause : List Term) (ps : List Node) : Res (List Term) := do
  let p ← orPanic ps.head?
  let new := dedup p.clause
  if clause.length = new.length then .ok new else panic

/-- `reordering.rs:58-66`: pivots and polarities. An odd number of arguments panics. -/
def naivePivots : List Term → Res (List (Term × Bool))
  | [] => .ok []
  | [_] => panic
  | p :: b :: rest => do
    let r ← naivePivots rest
    .ok ((p, b.isBoolTrue) :: r)

/-- `reordering.rs:77-83`: is this the literal to be removed? -/
def isPivot (pivot : Term) (polarity isCurrent : Bool) (x : Term) : Bool :=
  if isCurrent = polarity then x = pivot else x.removeNegation = some pivot

/-- `reordering.rs:88-96`: the literals of the next premise without the first one that is the pivot; `none` if there is none. -/
def removeFirst (f : Term → Bool) : List Term → Option (List Term)
  | [] => none
  | t :: ts => if f t then some ts else (removeFirst f ts).map (t :: ·)

/-- The loop `reordering.rs:76-97`. -/
def naiveLoop : List Term → List (List Term × (Term × Bool)) → Res (List Term)
  | cur, [] => .ok cur
  | cur, (premise, (pivot, polarity)) :: rest => do
    let cur ← orPanic (removeFirst (isPivot pivot polarity true) cur)
    let new ← orPanic (removeFirst (isPivot pivot polarity false) premise)
    naiveLoop (cur ++ new) rest

/-- `reordering.rs:70-100 apply_naive_resolution`. -/
def naiveResolution (premises : List (List Term)) (pivots : List (Term × Bool)) : Res (List Term) :=
  match premises with
  | first :: rest => if rest = [] ∨ pivots.length ≠ rest.length then panic else naiveLoop first (rest.zip pivots)
  | [] => panic

/-- `reordering.rs:56-68 recompute_resolution`. -/
def recomputeResolution (args : List Term) (ps : List Node) : Res (List Term) := do
  let pivots ← naivePivots args
  naiveResolution (ps.map Node.clause) pivots

/-- The function that `reordering.rs:4-29` passes to `mutate`, for steps. -/
def reorderStep (d : NodeData) (ps dis : List Node) (prev : Option Node) (changed : Bool) : Res Node :=
  if d.rule = "reordering" then orPanic ps.head?
  else if changed then
    if d.rule = "weakening" then do
      let c ← recomputeWeakening d.clause ps
      .ok (.step { d with clause := c } ps dis prev)
    else if d.rule = "contraction" then do
      let c ← recomputeContraction d.clause ps
      .ok (.step { d with clause := c } ps dis prev)
    else if d.rule = "resolution" ∨ d.rule = "th_resolution" ∨ d.rule = "strict_resolution" then do
      let c ← recomputeResolution d.args ps
      .ok (.step { d with clause := c } ps dis prev)
    else .ok (.step d ps dis prev)
  else .ok (.step d ps dis prev)

mutual
/-- `reordering.rs:4-29 remove_reorderings` on one node. A node has changed if it is another allocation: `mutate_impl` allocates every step
and subproof anew and keeps assumptions. -/
def removeReorderings : Node → Res Node
  | .assume id depth t => .ok (.assume id depth t)
  | .step d ps dis prev => do
    let ps' ← removeReorderingsL ps
    let dis' ← removeReorderingsL dis
    let prev' ← removeReorderingsO prev
    reorderStep d ps' dis' prev' ((ps ++ dis ++ prev.toList).any fun n => !n.isAssume)
  | .subproof last args extra => do
    let extra' ← removeReorderingsL extra
    let last' ← removeReorderings last
    .ok (.subproof last' args extra')

def removeReorderingsL : List Node → Res (List Node)
  | [] => .ok []
  | n :: ns => do
    let n' ← removeReorderings n
    let ns' ← removeReorderingsL ns
    .ok (n' :: ns')

def removeReorderingsO : Option Node → Res (Option Node)
  | none => .ok none
  | some n => do
    let n' ← removeReorderings n
    .ok (some n')
end

end Carcara
