import Verif.Model.Linear

/-!
# Polynomials

Model of `checker/rules/polynomial.rs`. A monomial is a vector of terms sorted by the addresses of the terms
(`Rc::as_ptr`). The model takes the addresses as a parameter `addr`; the theorems hold for all of them. As in
`Verif.Model.Linear`, an `IndexMap` is a list of pairs.
-/

namespace Carcara

/-- Insertion of a term into a monomial. -/
def monoInsert (addr : Term → Nat) (t : Term) : List Term → List Term
  | [] => [t]
  | u :: us => if addr t ≤ addr u then t :: u :: us else u :: monoInsert addr t us

/-- `sort_unstable_by_key(Rc::as_ptr)`. -/
def monoSort (addr : Term → Nat) : List Term → List Term
  | [] => []
  | t :: ts => monoInsert addr t (monoSort addr ts)

/-- `polynomial.rs:16-20`. -/
def monoMul (addr : Term → Nat) (a b : List Term) : List Term := monoSort addr (a ++ b)

/-- `polynomial.rs:23-24`. -/
structure Polynom where
  /-- coefficients of the monomials -/
  terms : List (List Term × Rat)
  /-- constant -/
  const : Rat
deriving DecidableEq

namespace Polynom

/-- `polynomial.rs:27-29`. -/
def zero : Polynom := ⟨[], 0⟩

/-- `polynomial.rs:111-126`. -/
def insert (p : Polynom) (m : List Term) (v : Rat) : Polynom := ⟨coeffAdd p.terms m v, p.const⟩

/-- The inner loop of `polynomial.rs:98-103`. -/
def mulMono (addr : Term → Nat) (x : List Term) (c : Rat) (q : Polynom) (r : Polynom) : Polynom :=
  (q.terms.foldl (fun r e => r.insert (monoMul addr x e.1) (c * e.2)) r).insert x (c * q.const)

/-- `polynomial.rs:96-109 mul`. -/
def mul (addr : Term → Nat) (p q : Polynom) : Polynom :=
  let r := p.terms.foldl (fun r e => mulMono addr e.1 e.2 q r) zero
  let r := q.terms.foldl (fun r e => r.insert e.1 (e.2 * p.const)) r
  ⟨r.terms, r.const + p.const * q.const⟩

/-- `polynomial.rs:59-65`: a polynomial is added with a coefficient. -/
def addScaled (p q : Polynom) (c : Rat) : Polynom :=
  let r := q.terms.foldl (fun r e => r.insert e.1 (e.2 * c)) p
  ⟨r.terms, r.const + c * q.const⟩

/-- The last arm of `add_term` (`polynomial.rs:81-92`). -/
def addAtom (t : Term) (c : Rat) (p : Polynom) : Res Polynom := do
  match ← t.asFraction with
  | some r => .ok ⟨p.terms, p.const + r * c⟩
  | none => match t with
    | .const (.bv v _) => .ok ⟨p.terms, p.const + (v : Rat) * c⟩
    | _ => .ok (p.insert [t] c)

mutual
/-- `polynomial.rs:41-95 add_term`. `args[0]` and `reduce(..).unwrap()` panic on an empty argument list. -/
def addTerm (addr : Term → Nat) : Term → Rat → Polynom → Res Polynom
  | .op .add as, c, p => addTerms addr as c p
  | .op .bvAdd as, c, p => addTerms addr as c p
  | .op .sub [], _, _ => panic
  | .op .sub [a], c, p => addTerm addr a (-c) p
  | .op .sub (a :: as), c, p => do
    let p ← addTerm addr a c p
    addTerms addr as (-c) p
  | .op .bvNeg [a], c, p => addTerm addr a (-c) p
  | .op .bvSub [], _, _ => panic
  | .op .bvSub (a :: as), c, p => do
    let p ← addTerm addr a c p
    addTerms addr as (-c) p
  | .op .mult as, c, p => do
    let q ← product addr as
    .ok (p.addScaled q c)
  | .op .bvMul as, c, p => do
    let q ← product addr as
    .ok (p.addScaled q c)
  | .op .realDiv [a, b], c, p => do
    match ← b.asFraction with
    | some r => if r = 0 then .ok (p.insert [.op .realDiv [a, b]] c) else addTerm addr a (c / r) p
    | none => addAtom (.op .realDiv [a, b]) c p
  | .op .toReal [], _, _ => panic
  | .op .toReal (a :: _), c, p => addTerm addr a c p
  | .op .intDiv [a, b], c, p => do
    match ← b.asFraction with
    | some r => if r = 0 then .ok (p.insert [.op .intDiv [a, b]] c) else addAtom (.op .intDiv [a, b]) c p
    | none => addAtom (.op .intDiv [a, b]) c p
  | t, c, p => addAtom t c p
/-- The arguments of a sum. -/
def addTerms (addr : Term → Nat) : List Term → Rat → Polynom → Res Polynom
  | [], _, p => .ok p
  | t :: ts, c, p => do
    let p ← addTerm addr t c p
    addTerms addr ts c p
/-- `args.iter().map(Self::from_term).reduce(Self::mul).unwrap()` (`polynomial.rs:60`). -/
def product (addr : Term → Nat) : List Term → Res Polynom
  | [] => panic
  | t :: ts => do
    let p ← addTerm addr t 1 zero
    productFrom addr p ts
/-- The rest of the `reduce`. -/
def productFrom (addr : Term → Nat) (p : Polynom) : List Term → Res Polynom
  | [] => .ok p
  | t :: ts => do
    let q ← addTerm addr t 1 zero
    productFrom addr (mul addr p q) ts
end

/-- `polynomial.rs:34-38`. -/
def fromTerm (addr : Term → Nat) (t : Term) : Res Polynom := addTerm addr t 1 zero

/-- `polynomial.rs:132-138`. -/
def add (p q : Polynom) : Polynom := ⟨q.terms.foldl (fun m e => coeffAdd m e.1 e.2) p.terms, p.const + q.const⟩

/-- `polynomial.rs:140-145`. -/
def neg (p : Polynom) : Polynom := ⟨p.terms.map fun e => (e.1, -e.2), -p.const⟩

/-- `polynomial.rs:147-150`. -/
def sub (p q : Polynom) : Polynom := p.add q.neg

/-- One coefficient of `polynomial.rs:152-165`. -/
def modCoeff (n : Int) (c : Rat) : Option Rat := if c.den = 1 then some ((c.num % n : Int) : Rat) else none

/-- The coefficients of `polynomial.rs:152-165`. -/
def modTerms (n : Int) : List (List Term × Rat) → Option (List (List Term × Rat))
  | [] => some []
  | e :: m => match modCoeff n e.2, modTerms n m with
    | some c, some m => some ((e.1, c) :: m)
    | _, _ => none

/-- `polynomial.rs:152-165 modulo`. -/
def modulo (p : Polynom) (n : Int) : Option Polynom :=
  match modTerms n p.terms, modCoeff n p.const with
  | some m, some c => some ⟨m, c⟩
  | _, _ => none

/-- `polynomial.rs:128-130`. -/
def isZero (p : Polynom) : Bool := p.terms.isEmpty && p.const = 0

end Polynom

/-- `polynomial.rs:168-185`. `pool.sort` is `sortOf`; the model panics on terms without a sort, which the parser does
not produce. -/
def polySimp (addr : Term → Nat) : Rule := fun conclusion _ _ => do
  let c ← get1 conclusion
  let (t, s) ← match2 .equals c
  let p ← Polynom.fromTerm addr t
  let q ← Polynom.fromTerm addr s
  match sortOf t with
  | none => panic
  | some (.bv w) => do
    let p ← orPanic (p.modulo (2 ^ w))
    let q ← orPanic (q.modulo (2 ^ w))
    require ((p.sub q).isZero = true)
  | some _ => require ((p.sub q).isZero = true)

/-- The pattern `(bvmul c (bvsub x y))`. -/
def matchBvScaled : Term → Option (Term × Term × Term)
  | .op .bvMul [c, .op .bvSub [x, y]] => some (c, x, y)
  | _ => none

/-- The pattern `(- x y)` under an optional `to_real` (`polynomial.rs:217-220`). -/
def matchDifference : Term → Res (Term × Term)
  | .op .toReal [.op .sub [x, y]] => .ok (x, y)
  | .op .sub [x, y] => .ok (x, y)
  | _ => err

/-- A bit-vector constant with an odd value (`polynomial.rs:202-205`). -/
def assertOddBv : Term → Res Unit
  | .const (.bv v _) => require (v % 2 = 1)
  | _ => err

/-- The numeric case of `polynomial.rs:216-258`. -/
def polySimpRelNum (l r conclusion : Term) : Res Unit := do
  let (c1, xs) ← match2 .mult l
  let (c2, ys) ← match2 .mult r
  let (x1, x2) ← matchDifference xs
  let (y1, y2) ← matchDifference ys
  let k1 ← orErr (← c1.asFraction)
  let k2 ← orErr (← c2.asFraction)
  require (k1 ≠ 0)
  require (k2 ≠ 0)
  let (left, right) ← match2 .equals conclusion
  match left, right with
  | .op o [l1, l2], .op o' [r1, r2] =>
    if (o = .lt ∨ o = .le ∨ o = .equals ∨ o = .ge ∨ o = .gt) ∧ o' = o then do
      require (o = .equals ∨ (0 < k1 ↔ 0 < k2))
      assertEq l1 x1
      assertEq l2 x2
      assertEq r1 y1
      assertEq r2 y2
    else err
  | _, _ => err

/-- `polynomial.rs:187-258`. -/
def polySimpRel : Rule := fun conclusion premises _ => do
  let prem ← premiseTerm premises
  let c ← get1 conclusion
  match prem with
  | .op .equals [l, r] => match matchBvScaled l, matchBvScaled r with
    | some (c1, x1, x2), some (c2, y1, y2) => do
      match sortOf c1 with
      | some (.bv _) => do
        assertOddBv c1
        assertOddBv c2
        let (left, right) ← match2 .equals c
        let (l1, l2) ← match2 .equals left
        let (r1, r2) ← match2 .equals right
        assertEq l1 x1
        assertEq l2 x2
        assertEq r1 y1
        assertEq r2 y2
      | _ => panic
    | _, _ => polySimpRelNum l r c
  | _ => err

end Carcara
