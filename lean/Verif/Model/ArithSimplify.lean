import Verif.Model.Simplify

/-!
# Simplification of arithmetic terms

Model of the arithmetic part of `checker/rules/simplification.rs` and of `mod_simplify` (`checker/rules/extras.rs`).
-/

namespace Carcara

/-- `if f().is_ok() { return Ok(()) } g()`: an error of the first attempt is dropped, a panic is not. -/
def tryOr (x y : Res Unit) : Res Unit :=
  match x with
  | .ok u => .ok u
  | .error .panic => panic
  | .error .err => y

theorem tryOr_ok {x y : Res Unit} {u : Unit} : tryOr x y = .ok u ↔ x = .ok u ∨ (x = err ∧ y = .ok u) := by
  unfold tryOr
  split
  · simp [err]
  · simp [err, panic]
  · simp [err]

/-- `Term::new_bool`, `pool.bool_constant`. -/
def Term.ofBool (b : Bool) : Term := if b then .tru else .fls

/-! ## `div_simplify`, `mod_simplify` -/

/-- The two operands of a division and whether it is `div` (`simplification.rs:424-427`). -/
def matchDivision : Term → Res (Term × Term × Bool)
  | .op .intDiv [n, d] => .ok (n, d, true)
  | .op .realDiv [n, d] => .ok (n, d, false)
  | _ => err

/-- The value of a division of literals (`simplification.rs:443-449`). -/
def divisionValue (int : Bool) (n d : Rat) : Res Rat :=
  if int then
    if n.den = 1 ∧ d.den = 1 then .ok ((n.num / d.num : Int) : Rat) else panic
  else .ok (n / d)

/-- `simplification.rs:410-456`. -/
def divSimplify : Rule := fun conclusion _ _ => do
  let c ← get1 conclusion
  let (l, r) ← match2 .equals c
  match l with
  | .const _ => match r with
    | .const (.real _) => assertEq l r
    | _ => err
  | _ => do
    let (n, d, int) ← matchDivision l
    if n = d then do
      let q ← orErr r.asSignedNumber
      require (q = 1)
    else if d.asNumber = some 1 then assertEq r n
    else do
      let dv ← orErr d.asSignedNumber
      if dv = 0 then err
      else do
        let nv ← orErr n.asSignedNumber
        let e ← divisionValue int nv dv
        let f ← r.asFraction
        let q ← orErr f
        require (q = e)

/-- `checker/rules/extras.rs:232-238`. -/
def integerLiteral (t : Term) : Res Int := do
  let q ← orErr t.asSignedNumber
  if q.den = 1 then .ok q.num else err

/-- `checker/rules/extras.rs:226-255`. `rug`'s `modulo` is the Euclidean remainder. -/
def modSimplify : Rule := fun conclusion _ _ => do
  let c ← get1 conclusion
  let (l, r) ← match2 .equals c
  let (t1, t2) ← match2 .mod l
  let a ← integerLiteral t1
  let b ← integerLiteral t2
  let q ← orErr r.asSignedNumber
  if b = 0 then err
  else require (q = ((a % b : Int) : Rat))

/-! ## `sum_simplify`, `prod_simplify` -/

/-- `iter().any(|t| t.as_fraction().is_some())`. -/
def anyFraction : List Term → Res Bool
  | [] => .ok false
  | t :: ts => do
    let f ← t.asFraction
    if f.isSome then .ok true else anyFraction ts

/-- The neutral element of the operator. -/
def foldIdentity (k : Op) : Rat := if k = .add then 0 else 1

/-- The operation on constants. -/
def foldConst (k : Op) (p q : Rat) : Rat := if k = .add then p + q else p * q

/-- A term that is not an application of the operator (`simplification.rs:492-498`). -/
def leadingAtom (k : Op) (u : Term) : Res (Rat × List Term) := do
  match ← u.asFraction with
  | some c => .ok (c, [])
  | none => .ok (foldIdentity k, [u])

/-- The leading constant and the other arguments (`simplification.rs:474-500`). `args[1..]` panics on an empty
argument list. -/
def leadingConst (k : Op) (u : Term) : Res (Rat × List Term) :=
  match u with
  | .op o args =>
    if o = k then
      match args with
      | [] => panic
      | a :: rest => do
        if ← anyFraction rest then err
        else match ← a.asFraction with
          | some c => if c = foldIdentity k then err else .ok (c, rest)
          | none => .ok (foldIdentity k, a :: rest)
    else leadingAtom k u
  | _ => leadingAtom k u

/-- The loop of `simplification.rs:513-531`: the constants are combined and the other terms collected. -/
def collectConsts (k : Op) : List Term → Rat → List Term → Res (Rat × List Term)
  | [], total, res => .ok (total, res)
  | t :: ts, total, res => do
    match ← t.asFraction with
    | some r =>
      if k = .mult ∧ foldConst k total r = 0 then .ok (foldConst k total r, [])
      else collectConsts k ts (foldConst k total r) res
    | none => collectConsts k ts total (res ++ [t])

/-- `simplification.rs:460-554 generic_sum_prod_simplify_rule`. -/
def sumProdCheck (k : Op) (ts u : Term) : Res Unit := do
  let (uc, uargs) ← leadingConst k u
  let args ← matchOp k ts
  let (total, res) ← collectConsts k args (foldIdentity k) []
  if total = foldIdentity k ∧ res = [u] then .ok ()
  else require (uc = total ∧ uargs = res)

/-- `simplification.rs:556-566`, `simplification.rs:630-640`. -/
def sumProdSimplify (k : Op) : Rule := fun conclusion _ _ => do
  let c ← get1 conclusion
  let (l, r) ← match2 .equals c
  tryOr (sumProdCheck k r l) (sumProdCheck k l r)

/-- `simplification.rs:556-566`. -/
def prodSimplify : Rule := sumProdSimplify .mult

/-- `simplification.rs:630-640`. -/
def sumSimplify : Rule := sumProdSimplify .add

/-! ## `minus_simplify` -/

/-- `simplification.rs:571-584 try_unary_minus_simplify`. -/
def tryUnaryMinus (t u : Term) : Bool :=
  (match t with
    | .op .sub [.op .sub [v]] => decide (v = u)
    | _ => false) ||
  (match t.asSignedNumber, u.asSignedNumber with
    | some p, some q => decide (p = q)
    | _, _ => false)

/-- `simplification.rs:586-609 check`. -/
def minusCheck (t1 t2 u : Term) : Res Unit :=
  if t1 = t2 then do
    let q ← orErr u.asNumber
    require (q = 0)
  else if t2.asSignedNumber = some 0 then assertEq u t1
  else if t1.asSignedNumber = some 0 then do
    let v ← match1 .sub u
    assertEq v t2
  else match t1.asSignedNumber, t2.asSignedNumber with
    | some p, some q => do
      let r ← orErr u.asSignedNumber
      require (r = p - q)
    | _, _ => err

/-- `simplification.rs:568-628`. -/
def minusSimplify : Rule := fun conclusion _ _ => do
  let c ← get1 conclusion
  let (l, r) ← match2 .equals c
  if tryUnaryMinus l r || tryUnaryMinus r l then .ok ()
  else
    tryOr (do let (t1, t2) ← match2 .sub r; minusCheck t1 t2 l)
      (do let (t1, t2) ← match2 .sub l; minusCheck t1 t2 r)

/-! ## `comp_simplify` -/

/-- `simplification.rs:644-678`. -/
def compRewrite : Term → Res (Option Term)
  | .op .lt [a, b] => do
    let p ← a.asFraction
    let q ← b.asFraction
    match p, q with
    | some p, some q => .ok (some (Term.ofBool (decide (p < q))))
    | _, _ => if a = b then .ok (some .fls) else .ok (some (.op .not [.op .le [b, a]]))
  | .op .le [a, b] => do
    let p ← a.asFraction
    let q ← b.asFraction
    match p, q with
    | some p, some q => .ok (some (Term.ofBool (decide (p ≤ q))))
    | _, _ => if a = b then .ok (some .tru) else .ok none
  | .op .ge [a, b] => .ok (some (.op .le [b, a]))
  | .op .gt [a, b] => .ok (some (.op .not [.op .le [a, b]]))
  | _ => .ok none

/-- `simplification.rs:642-680`. -/
def compSimplify : Rule := genericSimplify compRewrite

end Carcara
