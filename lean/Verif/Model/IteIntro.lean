import Verif.Model.Subproof

/-!
# The rule `ite_intro`

Model of `checker/rules/tautology.rs:263-318`. The comparison of terms is that of `Verif.Model.Polyeq`.
-/

namespace Carcara

/-- `a && b`, where computing either may fail. -/
def andRes (a b : Res Bool) : Res Bool := do if ← a then b else .ok false

/-- `a || b`, where computing either may fail. -/
def orRes (a b : Res Bool) : Res Bool := do if ← a then .ok true else b

/-- `tautology.rs:295-305`: `s1`, `s2` and `(ite cond r1 r2)` are the same. -/
def isValidIte (cond r1 s1 r2 s2 : Term) : Res Bool :=
  andRes (polyeq s1 s2) <|
    match s1 with
    | .op .ite [a, b, c] => andRes (polyeq a cond) (andRes (polyeq b r1) (polyeq c r2))
    | _ => .ok false

/-- `tautology.rs:293-315`, the body of the loop. -/
def checkIteDef : Term → Res Unit
  | .op .ite [cond, .op .equals [a, b], .op .equals [c, d]] => do
    require ((← orRes (isValidIte cond a b c d) (orRes (isValidIte cond b a c d) (orRes (isValidIte cond a b d c) (isValidIte cond b a d c)))) = true)
  | _ => err

/-- The loop of `tautology.rs:292`. -/
def checkIteDefs : List Term → Res Unit
  | [] => .ok ()
  | u :: us => do
    checkIteDef u
    checkIteDefs us

/-- `tautology.rs:263-318`. -/
def iteIntro : Rule := fun conclusion _ _ => do
  let c0 ← get1 conclusion
  let (root, right) ← match2 .equals c0
  if ← polyeq root right then .ok ()
  else
    match right with
    | .op .and [] => panic
    | .op .and (u :: us) => do
      assertPolyeq u root
      checkIteDefs us
    | _ => err

end Carcara
