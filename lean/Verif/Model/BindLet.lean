import Verif.Model.Context

/-!
# Model of `bind_let` (`checker/rules/extras.rs:113-157`)

The rule reads only the last command of the subproof and the premises. The anchor of the subproof is not consulted.
-/

namespace Carcara

/-- `extras.rs:135-139`: the premises, read as equalities. -/
def bindLetPremises : List (List Term) → Res (List (Term × Term))
  | [] => .ok []
  | p :: ps => do
    let t ← get1 p
    let e ← match2 .equals t
    let es ← bindLetPremises ps
    return e :: es

/-- `extras.rs:149 premises_iter.any(|p| p == …)`: skip premises until the equality is found, and return what is left. -/
def bindLetFind (e : Term × Term) : List (Term × Term) → Res (List (Term × Term))
  | [] => err
  | p :: ps => if p = e then .ok ps else bindLetFind e ps

/-- `extras.rs:147-149`: equal values need no premise. -/
def bindLetJustify (l r : Term) (es : List (Term × Term)) : Res (List (Term × Term)) :=
  if l = r then .ok es else bindLetFind (l, r) es

/-- `extras.rs:140-152`: names agree, values are equal or justified by a premise. The code compares the numbers of
bindings before (lines 130-132). -/
def bindLetPairs : List (Term × Term) → List (String × Term) → List (String × Term) → Res Unit
  | _, [], [] => .ok ()
  | es, l :: ls, r :: rs => do
    require (l.1 = r.1)
    let es ← bindLetJustify l.2 r.2 es
    bindLetPairs es ls rs
  | _, _, _ => err

/-- `extras.rs:113-157 bind_let`. -/
def bindLet (conclusion : List Term) (premises : List (List Term)) (previous : Option (List Term)) : Res Unit := do
  let prev ← orErr previous
  let c ← get1 conclusion
  let p ← get1 prev
  let (phi, phi') ← match2 .equals p
  let (l, r) ← match2 .equals c
  let (ls, left) ← asLetErr l
  let (rs, right) ← asLetErr r
  require (ls.length = rs.length)
  let es ← bindLetPremises premises
  bindLetPairs es ls rs
  assertEq left phi
  assertEq right phi'

end Carcara
