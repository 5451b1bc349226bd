import Verif.Model.Base

/-!
# CNF rules

Model of `checker/rules/tautology.rs` (`ite_intro` is in `Verif.Model.IteIntro`) and of
`checker/rules/clausification.rs` (`bfun_elim` is in `Verif.Model.BfunElim`). A rule maps the conclusion clause, the premise clauses and
the arguments to success, an error, or a panic.
-/

namespace Carcara

/-- A rule (`rules/mod.rs:13 type Rule`), for rules that look at nothing but the clauses and the arguments. -/
abbrev Rule := List Term → List (List Term) → List Term → Res Unit

/-- `ast/term.rs remove_negation_err`. -/
def Term.removeNegErr (t : Term) : Res Term := orErr t.removeNegation

theorem Term.removeNegErr_ok {t u : Term} : t.removeNegErr = .ok u ↔ t = .op .not [u] := by
  unfold removeNegErr removeNegation
  split
  · simp
  · next h => simp [orErr_ok]; exact fun e => h _ e

/-- `assert_eq` (`rules/mod.rs:103-112`). -/
def assertEq (a b : Term) : Res Unit := require (a = b)

/-- The loop `for (t, u) in ts.zip(us) { assert_eq(t, u)?; }`. -/
def assertEqs : List Term → List Term → Res Unit
  | t :: ts, u :: us => do assertEq t u; assertEqs ts us
  | _, _ => .ok ()

/-- The loop `for (t, u) in ts.zip(us) { assert_eq(t, u.remove_negation_err()?)?; }`. -/
def assertNegs : List Term → List Term → Res Unit
  | t :: ts, u :: us => do
    let u ← u.removeNegErr
    assertEq t u
    assertNegs ts us
  | _, _ => .ok ()

/-! ## tautology.rs -/

/-- `tautology.rs:7-16`. -/
def trueRule : Rule := fun conclusion _ _ => do
  let c0 ← get1 conclusion
  require (c0.isBoolTrue = true)

/-- `tautology.rs:18-25`. -/
def falseRule : Rule := fun conclusion _ _ => do
  let c0 ← get1 conclusion
  let t ← c0.removeNegErr
  require (t.isBoolFalse = true)

/-- `tautology.rs:27-32`. -/
def notNot : Rule := fun conclusion _ _ => do
  let (c0, c1) ← get2 conclusion
  let t ← match1 .not c0
  let t ← match1 .not t
  let p ← match1 .not t
  assertEq p c1

/-- `tautology.rs:34-46`. -/
def andPos : Rule := fun conclusion _ args => do
  let (c0, c1) ← get2 conclusion
  let a0 ← get1 args
  let t ← match1 .not c0
  let contents ← matchOp .and t
  let i ← a0.asUsizeErr
  let ti ← orErr contents[i]?
  assertEq c1 ti

/-- `tautology.rs:48-59`. -/
def andNeg : Rule := fun conclusion _ _ => do
  require (2 ≤ conclusion.length)
  match conclusion with
  | [] => panic
  | c0 :: rest => do
    let contents ← matchOp .and c0
    require (contents.length = rest.length)
    assertNegs contents rest

/-- `tautology.rs:61-71`. -/
def orPos : Rule := fun conclusion _ _ => do
  require (2 ≤ conclusion.length)
  match conclusion with
  | [] => panic
  | c0 :: rest => do
    let t ← match1 .not c0
    let contents ← matchOp .or t
    require (contents.length = rest.length)
    assertEqs contents rest

/-- `tautology.rs:73-86`. -/
def orNeg : Rule := fun conclusion _ args => do
  let (c0, c1) ← get2 conclusion
  let a0 ← get1 args
  let contents ← matchOp .or c0
  let other ← c1.removeNegErr
  let i ← a0.asUsizeErr
  let ti ← orErr contents[i]?
  assertEq other ti

/-- `tautology.rs:88-93`. -/
def xorPos1 : Rule := fun conclusion _ _ => do
  let (c0, c1, c2) ← get3 conclusion
  let t ← match1 .not c0
  let (phi1, phi2) ← match2 .xor t
  assertEq phi1 c1
  assertEq phi2 c2

/-- `tautology.rs:95-100`. -/
def xorPos2 : Rule := fun conclusion _ _ => do
  let (c0, c1, c2) ← get3 conclusion
  let t ← match1 .not c0
  let (phi1, phi2) ← match2 .xor t
  let n1 ← c1.removeNegErr
  assertEq phi1 n1
  let n2 ← c2.removeNegErr
  assertEq phi2 n2

/-- `tautology.rs:102-107`. -/
def xorNeg1 : Rule := fun conclusion _ _ => do
  let (c0, c1, c2) ← get3 conclusion
  let (phi1, phi2) ← match2 .xor c0
  assertEq phi1 c1
  let n2 ← c2.removeNegErr
  assertEq phi2 n2

/-- `tautology.rs:109-114`. -/
def xorNeg2 : Rule := fun conclusion _ _ => do
  let (c0, c1, c2) ← get3 conclusion
  let (phi1, phi2) ← match2 .xor c0
  let n1 ← c1.removeNegErr
  assertEq phi1 n1
  assertEq phi2 c2

/-- `tautology.rs:116-121`. -/
def impliesPos : Rule := fun conclusion _ _ => do
  let (c0, c1, c2) ← get3 conclusion
  let t ← match1 .not c0
  let (phi1, phi2) ← match2 .implies t
  let n1 ← c1.removeNegErr
  assertEq phi1 n1
  assertEq phi2 c2

/-- `tautology.rs:123-127`. -/
def impliesNeg1 : Rule := fun conclusion _ _ => do
  let (c0, c1) ← get2 conclusion
  let (phi1, _) ← match2 .implies c0
  assertEq phi1 c1

/-- `tautology.rs:129-133`. -/
def impliesNeg2 : Rule := fun conclusion _ _ => do
  let (c0, c1) ← get2 conclusion
  let (_, phi2) ← match2 .implies c0
  let n1 ← c1.removeNegErr
  assertEq phi2 n1

/-- `tautology.rs:135-140`. -/
def equivPos1 : Rule := fun conclusion _ _ => do
  let (c0, c1, c2) ← get3 conclusion
  let t ← match1 .not c0
  let (phi1, phi2) ← match2 .equals t
  assertEq phi1 c1
  let n2 ← c2.removeNegErr
  assertEq phi2 n2

/-- `tautology.rs:142-147`. -/
def equivPos2 : Rule := fun conclusion _ _ => do
  let (c0, c1, c2) ← get3 conclusion
  let t ← match1 .not c0
  let (phi1, phi2) ← match2 .equals t
  let n1 ← c1.removeNegErr
  assertEq phi1 n1
  assertEq phi2 c2

/-- `tautology.rs:149-154`. -/
def equivNeg1 : Rule := fun conclusion _ _ => do
  let (c0, c1, c2) ← get3 conclusion
  let (phi1, phi2) ← match2 .equals c0
  let n1 ← c1.removeNegErr
  assertEq phi1 n1
  let n2 ← c2.removeNegErr
  assertEq phi2 n2

/-- `tautology.rs:156-161`. -/
def equivNeg2 : Rule := fun conclusion _ _ => do
  let (c0, c1, c2) ← get3 conclusion
  let (phi1, phi2) ← match2 .equals c0
  assertEq phi1 c1
  assertEq phi2 c2

/-- `tautology.rs:163-168`. -/
def itePos1 : Rule := fun conclusion _ _ => do
  let (c0, c1, c2) ← get3 conclusion
  let t ← match1 .not c0
  let (phi1, _, phi3) ← match3 .ite t
  assertEq phi1 c1
  assertEq phi3 c2

/-- `tautology.rs:170-175`. -/
def itePos2 : Rule := fun conclusion _ _ => do
  let (c0, c1, c2) ← get3 conclusion
  let t ← match1 .not c0
  let (phi1, phi2, _) ← match3 .ite t
  let n1 ← c1.removeNegErr
  assertEq phi1 n1
  assertEq phi2 c2

/-- `tautology.rs:177-182`. -/
def iteNeg1 : Rule := fun conclusion _ _ => do
  let (c0, c1, c2) ← get3 conclusion
  let (phi1, _, phi3) ← match3 .ite c0
  assertEq phi1 c1
  let n2 ← c2.removeNegErr
  assertEq phi3 n2

/-- `tautology.rs:184-189`. -/
def iteNeg2 : Rule := fun conclusion _ _ => do
  let (c0, c1, c2) ← get3 conclusion
  let (phi1, phi2, _) ← match3 .ite c0
  let n1 ← c1.removeNegErr
  assertEq phi1 n1
  let n2 ← c2.removeNegErr
  assertEq phi2 n2

/-- `tautology.rs:191-198`. -/
def equiv1 : Rule := fun conclusion premises _ => do
  let p ← get1 premises
  let (c0, c1) ← get2 conclusion
  let t ← get1 p
  let (phi1, phi2) ← match2 .equals t
  let n0 ← c0.removeNegErr
  assertEq phi1 n0
  assertEq phi2 c1

/-- `tautology.rs:200-207`. -/
def equiv2 : Rule := fun conclusion premises _ => do
  let p ← get1 premises
  let (c0, c1) ← get2 conclusion
  let t ← get1 p
  let (phi1, phi2) ← match2 .equals t
  assertEq phi1 c0
  let n1 ← c1.removeNegErr
  assertEq phi2 n1

/-- `tautology.rs:209-216`. -/
def notEquiv1 : Rule := fun conclusion premises _ => do
  let p ← get1 premises
  let (c0, c1) ← get2 conclusion
  let t ← get1 p
  let t ← match1 .not t
  let (phi1, phi2) ← match2 .equals t
  assertEq phi1 c0
  assertEq phi2 c1

/-- `tautology.rs:218-225`. -/
def notEquiv2 : Rule := fun conclusion premises _ => do
  let p ← get1 premises
  let (c0, c1) ← get2 conclusion
  let t ← get1 p
  let t ← match1 .not t
  let (phi1, phi2) ← match2 .equals t
  let n0 ← c0.removeNegErr
  assertEq phi1 n0
  let n1 ← c1.removeNegErr
  assertEq phi2 n1

/-- `tautology.rs:227-234`. -/
def ite1 : Rule := fun conclusion premises _ => do
  let p ← get1 premises
  let (c0, c1) ← get2 conclusion
  let t ← get1 p
  let (phi1, _, phi3) ← match3 .ite t
  assertEq phi1 c0
  assertEq phi3 c1

/-- `tautology.rs:236-243`. -/
def ite2 : Rule := fun conclusion premises _ => do
  let p ← get1 premises
  let (c0, c1) ← get2 conclusion
  let t ← get1 p
  let (phi1, phi2, _) ← match3 .ite t
  let n0 ← c0.removeNegErr
  assertEq phi1 n0
  assertEq phi2 c1

/-- `tautology.rs:245-252`. -/
def notIte1 : Rule := fun conclusion premises _ => do
  let p ← get1 premises
  let (c0, c1) ← get2 conclusion
  let t ← get1 p
  let t ← match1 .not t
  let (phi1, _, phi3) ← match3 .ite t
  assertEq phi1 c0
  let n1 ← c1.removeNegErr
  assertEq phi3 n1

/-- `tautology.rs:254-261`. -/
def notIte2 : Rule := fun conclusion premises _ => do
  let p ← get1 premises
  let (c0, c1) ← get2 conclusion
  let t ← get1 p
  let t ← match1 .not t
  let (phi1, phi2, _) ← match3 .ite t
  let n0 ← c0.removeNegErr
  assertEq phi1 n0
  let n1 ← c1.removeNegErr
  assertEq phi2 n1

/-- `tautology.rs:320-361`. -/
def connectiveDef : Rule := fun conclusion _ _ => do
  let c0 ← get1 conclusion
  let (first, second) ← match2 .equals c0
  match first with
  | .op .xor [phi1, phi2] => do
    let (l, r) ← match2 .or second
    let (na, b) ← match2 .and l
    let a ← match1 .not na
    let (c, nd) ← match2 .and r
    let d ← match1 .not nd
    assertEq a phi1
    assertEq b phi2
    assertEq c phi1
    assertEq d phi2
  | .op .equals [phi1, phi2] => do
    let (l, r) ← match2 .and second
    let (a, b) ← match2 .implies l
    let (c, d) ← match2 .implies r
    assertEq a phi1
    assertEq b phi2
    assertEq c phi2
    assertEq d phi1
  | .op .ite [phi1, phi2, phi3] => do
    let (l, r) ← match2 .and second
    let (a, b) ← match2 .implies l
    let (nc, d) ← match2 .implies r
    let c ← match1 .not nc
    assertEq a phi1
    assertEq b phi2
    assertEq c phi1
    assertEq d phi3
  | .binder .all bs inner => do
    let e ← match1 .not second
    let (bs', ns) ← matchBinder .ex e
    let s ← match1 .not ns
    assertEq inner s
    require (bs = bs')
  | .binder .ex bs inner => do
    let e ← match1 .not second
    let (bs', ns) ← matchBinder .all e
    let s ← match1 .not ns
    assertEq inner s
    require (bs = bs')
  | _ => err

/-! ## clausification.rs -/

/-- One pair of `distinct_elim`: `t` must be `(not (= a b))` or `(not (= b a))`. -/
def distinctPair (a b t : Term) : Res Unit := do
  let e ← match1 .not t
  let (x, y) ← match2 .equals e
  require ((x = a ∧ y = b) ∨ (x = b ∧ y = a))

/-- The pairs `(i, j)` with `i < j`, in the order of the two nested loops (`clausification.rs:43-45`). -/
def pairs : List Term → List (Term × Term)
  | [] => []
  | a :: as => as.map (fun b => (a, b)) ++ pairs as

/-- The body of the two nested loops. -/
def distinctLoop : List (Term × Term) → List Term → Res Unit
  | (a, b) :: ps, t :: ts => do distinctPair a b t; distinctLoop ps ts
  | _, _ => .ok ()

/-- `clausification.rs:9-61`. The sort of an argument is computed by the pool; terms in a pool have a sort. -/
def distinctElim : Rule := fun conclusion _ _ => do
  let c0 ← get1 conclusion
  let (first, second) ← match2 .equals c0
  let args ← matchOp .distinct first
  match args with
  | [] => panic
  | [_] => panic
  | [a, b] => distinctPair a b second
  | a :: as =>
    if sortOf a = some .bool then require (second.isBoolFalse = true)
    else do
      let andArgs ← matchOp .and second
      require (andArgs.length = (as.length + 1) * as.length / 2)
      distinctLoop (pairs (a :: as)) andArgs

/-- `clausification.rs:63-77`. -/
def andRule : Rule := fun conclusion premises args => do
  let p ← get1 premises
  let a0 ← get1 args
  let c0 ← get1 conclusion
  let t ← get1 p
  let contents ← matchOp .and t
  let i ← a0.asUsizeErr
  let ti ← orErr contents[i]?
  assertEq c0 ti

/-- `clausification.rs:79-94`. -/
def notOr : Rule := fun conclusion premises args => do
  let p ← get1 premises
  let a0 ← get1 args
  let c0 ← get1 conclusion
  let t ← get1 p
  let t ← match1 .not t
  let contents ← matchOp .or t
  let n0 ← c0.removeNegErr
  let i ← a0.asUsizeErr
  let ti ← orErr contents[i]?
  assertEq n0 ti

/-- `clausification.rs:96-107`. -/
def orRule : Rule := fun conclusion premises _ => do
  let p ← get1 premises
  let t ← get1 p
  let contents ← matchOp .or t
  require (conclusion.length = contents.length)
  assertEqs contents conclusion

/-- `clausification.rs:109-121`. -/
def notAnd : Rule := fun conclusion premises _ => do
  let p ← get1 premises
  let t ← get1 p
  let t ← match1 .not t
  let contents ← matchOp .and t
  require (conclusion.length = contents.length)
  assertNegs contents conclusion

/-- `clausification.rs:123-132`. -/
def xor1 : Rule := fun conclusion premises _ => do
  let p ← get1 premises
  let (c0, c1) ← get2 conclusion
  let t ← get1 p
  let (phi1, phi2) ← match2 .xor t
  assertEq phi1 c0
  assertEq phi2 c1

/-- `clausification.rs:134-143`. -/
def xor2 : Rule := fun conclusion premises _ => do
  let p ← get1 premises
  let (c0, c1) ← get2 conclusion
  let t ← get1 p
  let (phi1, phi2) ← match2 .xor t
  let n0 ← c0.removeNegErr
  assertEq phi1 n0
  let n1 ← c1.removeNegErr
  assertEq phi2 n1

/-- `clausification.rs:145-154`. -/
def notXor1 : Rule := fun conclusion premises _ => do
  let p ← get1 premises
  let (c0, c1) ← get2 conclusion
  let t ← get1 p
  let t ← match1 .not t
  let (phi1, phi2) ← match2 .xor t
  assertEq phi1 c0
  let n1 ← c1.removeNegErr
  assertEq phi2 n1

/-- `clausification.rs:156-165`. -/
def notXor2 : Rule := fun conclusion premises _ => do
  let p ← get1 premises
  let (c0, c1) ← get2 conclusion
  let t ← get1 p
  let t ← match1 .not t
  let (phi1, phi2) ← match2 .xor t
  let n0 ← c0.removeNegErr
  assertEq phi1 n0
  assertEq phi2 c1

/-- `clausification.rs:167-176`. -/
def impliesRule : Rule := fun conclusion premises _ => do
  let p ← get1 premises
  let (c0, c1) ← get2 conclusion
  let t ← get1 p
  let (phi1, phi2) ← match2 .implies t
  let n0 ← c0.removeNegErr
  assertEq phi1 n0
  assertEq phi2 c1

/-- `clausification.rs:178-186`. -/
def notImplies1 : Rule := fun conclusion premises _ => do
  let p ← get1 premises
  let c0 ← get1 conclusion
  let t ← get1 p
  let t ← match1 .not t
  let (phi1, _) ← match2 .implies t
  assertEq phi1 c0

/-- `clausification.rs:188-196`. -/
def notImplies2 : Rule := fun conclusion premises _ => do
  let p ← get1 premises
  let c0 ← get1 conclusion
  let t ← get1 p
  let t ← match1 .not t
  let (_, phi2) ← match2 .implies t
  let n0 ← c0.removeNegErr
  assertEq phi2 n0

/-- `expand_assoc` (`clausification.rs:210-236`) for right associative operators. -/
def expandRight (o : Op) : List Term → Res Term
  | [] => panic
  | [t] => .ok t
  | t :: ts => do
    let nested ← expandRight o ts
    pure (.op o [t, nested])

/-- `expand_assoc` for left associative operators. The code peels off the last element; folding from the left
builds the same term. -/
def expandLeft (o : Op) : List Term → Res Term
  | [] => panic
  | t :: ts => .ok (ts.foldl (fun acc u => .op o [acc, u]) t)

/-- `args.windows(2)` wrapped in the operator (`clausification.rs:254-258`). -/
def windows (o : Op) : List Term → List Term
  | a :: b :: l => .op o [a, b] :: windows o (b :: l)
  | _ => []

/-- The term `nary_elim` expects (`clausification.rs:245-262`). -/
def naryExpected (o : Op) (args : List Term) : Res Term :=
  match o with
  | .equals => .ok (.op .and (windows .equals args))
  | .add => expandLeft .add args
  | .sub => expandLeft .sub args
  | .mult => expandLeft .mult args
  | .implies => expandRight .implies args
  | _ => err

/-- `clausification.rs:198-264`. -/
def naryElim : Rule := fun conclusion _ _ => do
  let c0 ← get1 conclusion
  let (original, result) ← match2 .equals c0
  match original with
  | .op o args => do
    require (2 ≤ args.length)
    let expected ← naryExpected o args
    require (result = expected)
  | _ => err

end Carcara
