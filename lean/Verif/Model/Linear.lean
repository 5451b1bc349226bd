import Verif.Model.ArithSimplify

/-!
# Linear arithmetic rules

Model of `checker/rules/linear_arithmetic.rs` and of `la_mult_pos`, `la_mult_neg` (`checker/rules/extras.rs`).

`IndexMap` is modelled by a list of pairs with distinct keys. The real map changes the order of its entries when one is
removed (`swap_remove`); the model keeps the order. The order cannot be observed: the only results read from the map
are its emptiness and the greatest common divisor of its values.
-/

namespace Carcara

/-- `IndexMap::entry` as used in `linear_arithmetic.rs:127-142` (`LinearComb::insert`) and `polynomial.rs:111-126`
(`Polynomial::insert`). -/
def coeffInsert {α : Type} [DecidableEq α] (k : α) (v : Rat) : List (α × Rat) → List (α × Rat)
  | [] => [(k, v)]
  | e :: m => if e.1 = k then (if e.2 + v = 0 then m else (k, e.2 + v) :: m) else e :: coeffInsert k v m

/-- `linear_arithmetic.rs:127-142`: nothing happens if the value is zero. -/
def coeffAdd {α : Type} [DecidableEq α] (m : List (α × Rat)) (k : α) (v : Rat) : List (α × Rat) :=
  if v = 0 then m else coeffInsert k v m

/-- `linear_arithmetic.rs:64-65`. -/
structure LinComb where
  /-- coefficients of the atoms -/
  terms : List (Term × Rat)
  /-- constant -/
  const : Rat
deriving DecidableEq

namespace LinComb

/-- `linear_arithmetic.rs:68-70`. -/
def zero : LinComb := ⟨[], 0⟩

/-- `linear_arithmetic.rs:127-142`. -/
def insert (lc : LinComb) (k : Term) (v : Rat) : LinComb := ⟨coeffAdd lc.terms k v, lc.const⟩

mutual
/-- `linear_arithmetic.rs:74-116 add_term`. `args[0]` panics on an empty argument list. -/
def addTerm : Term → Rat → LinComb → Res LinComb
  | .op .add as, c, lc => addTerms as c lc
  | .op .sub [], _, _ => panic
  | .op .sub [a], c, lc => addTerm a (-c) lc
  | .op .sub (a :: as), c, lc => do
    let lc ← addTerm a c lc
    addTerms as (-c) lc
  | .op .mult [a, b], c, lc => do
    let p ← a.asFraction
    let q ← b.asFraction
    match p, q with
    | none, some k => addTerm a (k * c) lc
    | some k, _ => addTerm b (k * c) lc
    | none, none => .ok (lc.insert (.op .mult [a, b]) c)
  | t, c, lc => do
    match ← t.asFraction with
    | some r => .ok ⟨lc.terms, lc.const + r * c⟩
    | none => .ok (lc.insert t c)
/-- The arguments of a sum. -/
def addTerms : List Term → Rat → LinComb → Res LinComb
  | [], _, lc => .ok lc
  | t :: ts, c, lc => do
    let lc ← addTerm t c lc
    addTerms ts c lc
end

/-- `linear_arithmetic.rs:121-125`. -/
def fromTerm (t : Term) : Res LinComb := addTerm t 1 zero

/-- `linear_arithmetic.rs:144-150`. -/
def add (a b : LinComb) : LinComb :=
  ⟨b.terms.foldl (fun m e => coeffAdd m e.1 e.2) a.terms, a.const + b.const⟩

/-- `linear_arithmetic.rs:152-167`. The case of scalar 1 is an optimisation. -/
def mul (a : LinComb) (s : Rat) : LinComb :=
  if s = 0 then zero else if s = 1 then a else ⟨a.terms.map fun e => (e.1, e.2 * s), a.const * s⟩

/-- `linear_arithmetic.rs:169-174`. -/
def neg (a : LinComb) : LinComb := ⟨a.terms.map fun e => (e.1, -e.2), -a.const⟩

/-- `linear_arithmetic.rs:176-179`. -/
def sub (a b : LinComb) : LinComb := a.add b.neg

/-- The loop of `linear_arithmetic.rs:189-198`. -/
def gcdLoop : List (Term × Rat) → Int → Int
  | [], g => max 1 g
  | e :: m, g => if g = 1 then 1 else if e.2.den = 1 then gcdLoop m (Int.gcd g e.2.num) else 1

/-- `linear_arithmetic.rs:183-203 coefficients_gcd`. -/
def coefficientsGcd (a : LinComb) : Int := if a.const.den = 1 then gcdLoop a.terms a.const.num else 1

end LinComb

/-- `linear_arithmetic.rs:31-39`. -/
def negateOperator : Op → Option Op
  | .lt => some .ge
  | .gt => some .le
  | .le => some .gt
  | .ge => some .lt
  | _ => none

/-- `linear_arithmetic.rs:41-50`. -/
def negatedComparison (t : Term) : Option (Op × List Term) :=
  match t.removeNegation with
  | some (.op o as) => if o = .ge ∨ o = .le ∨ o = .gt ∨ o = .lt ∨ o = .equals then some (o, as) else none
  | _ => match t with
    | .op o as => (negateOperator o).map fun o' => (o', as)
    | _ => none

/-- `linear_arithmetic.rs:28-59 negate_disequality`. -/
def negateDisequality (t : Term) : Res (Op × LinComb × LinComb) := do
  let (o, as) ← orErr (negatedComparison t)
  match as with
  | [a, b] => do
    let l ← LinComb.fromTerm a
    let r ← LinComb.fromTerm b
    .ok (o, l, r)
  | _ => err

/-- `linear_arithmetic.rs:275-285`: everything is moved to the left side, constants to the right side, and `<`, `<=`
are flipped (also `linear_arithmetic.rs:430-444`). -/
def normalizeDisequality (t : Term) : Res (Op × LinComb) := do
  let (o, s1, s2) ← negateDisequality t
  let d := s1.sub s2
  let d : LinComb := ⟨d.terms, -d.const⟩
  if o = .lt then .ok (.gt, d.neg)
  else if o = .le then .ok (.ge, d.neg)
  else .ok (o, d)

/-- `linear_arithmetic.rs:206-257 strengthen`. -/
def strengthen (o : Op) (d : LinComb) (a : Rat) : Res (Op × LinComb) :=
  let isInt : Bool := if a = 0 then true else if a = 1 then d.const.den = 1 else (d.const * a).den = 1
  match o with
  | .ge => if isInt then .ok (.ge, d) else .ok (.ge, ⟨d.terms, (d.const.floor : Rat) + 1⟩)
  | .gt =>
    if isInt then
      let d' : LinComb := ⟨d.terms, (d.const.floor : Rat)⟩
      .ok (.ge, ⟨d.terms, d'.const + (d'.coefficientsGcd : Rat)⟩)
    else .ok (.ge, ⟨d.terms, (d.const.floor : Rat) + 1⟩)
  | .lt | .le => panic
  | _ => .ok (o, d)

/-- One literal with its coefficient (`linear_arithmetic.rs:273-300`). -/
def scaledDisequality (t : Term) (a : Rat) : Res (Op × LinComb) := do
  let (o, d) ← normalizeDisequality t
  let (o, d) ← strengthen o d a
  let a := if o = .equals then a else if a < 0 then -a else a
  .ok (o, d.mul a)

/-- The operator of a sum (`linear_arithmetic.rs:308-312`). -/
def sumOperator (acc o : Op) : Op :=
  if o = .ge then .ge else if acc = .equals ∧ o = .gt then .gt else acc

/-- `linear_arithmetic.rs:269-316`. -/
def sumDisequalities : List (Term × Rat) → Op → LinComb → Res (Op × LinComb)
  | [], o, lc => .ok (o, lc)
  | (t, a) :: l, o, lc => do
    let (o', d) ← scaledDisequality t a
    sumDisequalities l (sumOperator o o') (lc.add d)

/-- `linear_arithmetic.rs:320-331`: the comparison of zero with the right side. -/
def zeroCompares (o : Op) (r : Rat) : Bool :=
  if 0 < r then o = .lt || o = .le
  else if r = 0 then o = .le || o = .ge || o = .equals
  else o = .gt || o = .ge

/-- `linear_arithmetic.rs:263-343`. -/
def laGeneric : Rule := fun conclusion _ args => do
  require (args.length = conclusion.length)
  let as ← mapRes (fun a => do orErr (← a.asFraction)) args
  let (o, d) ← sumDisequalities (conclusion.zip as) .equals .zero
  require (d.terms = [] ∧ zeroCompares o d.const = false)

/-- `linear_arithmetic.rs:9-20`. -/
def laRwEq : Rule := fun conclusion _ _ => do
  let c ← get1 conclusion
  let (l, r) ← match2 .equals c
  let (t1, u1) ← match2 .equals l
  let (p, q) ← match2 .and r
  let (t2, u2) ← match2 .le p
  let (u3, t3) ← match2 .le q
  assertEq t1 t2
  assertEq t2 t3
  assertEq u1 u2
  assertEq u2 u3

/-- `linear_arithmetic.rs:345-355`. -/
def laDisequality : Rule := fun conclusion _ _ => do
  let c ← get1 conclusion
  let (p, q, r) ← match3 .or c
  let (t1, u1) ← match2 .equals p
  let q ← match1 .not q
  let (t2, u2) ← match2 .le q
  let r ← match1 .not r
  let (u3, t3) ← match2 .le r
  assertEq t1 t2
  assertEq t2 t3
  assertEq u1 u2
  assertEq u2 u3

/-- `linear_arithmetic.rs:357-365`. -/
def laTotality : Rule := fun conclusion _ _ => do
  let c ← get1 conclusion
  let (p, q) ← match2 .or c
  let (t1, u1) ← match2 .le p
  let (u2, t2) ← match2 .le q
  assertEq t1 t2
  assertEq u1 u2

/-- `linear_arithmetic.rs:367-373 assert_less_than`. -/
def assertLessThan (a b : Term) : Res Unit := do
  let p ← orErr a.asSignedNumber
  let q ← orErr b.asSignedNumber
  require (p < q)

/-- `linear_arithmetic.rs:375-381 assert_less_eq`. -/
def assertLessEq (a b : Term) : Res Unit := do
  let p ← orErr a.asSignedNumber
  let q ← orErr b.asSignedNumber
  require (p ≤ q)

/-- The five cases of `linear_arithmetic.rs:386-426`. -/
def tautologyCase : Term → Term → Res Unit
  | .op .not [.op .le [s1, d1]], .op .le [s2, d2] => do assertEq s1 s2; assertLessEq d1 d2
  | .op .le [s1, d1], .op .not [.op .le [s2, d2]] => do assertEq s1 s2; assertEq d1 d2
  | .op .not [.op .ge [s1, d1]], .op .ge [s2, d2] => do assertEq s1 s2; assertLessEq d2 d1
  | .op .ge [s1, d1], .op .not [.op .ge [s2, d2]] => do assertEq s1 s2; assertEq d1 d2
  | .op .not [.op .le [s1, d1]], .op .not [.op .ge [s2, d2]] => do assertEq s1 s2; assertLessThan d1 d2
  | _, _ => err

/-- `linear_arithmetic.rs:383-459`. -/
def laTautology : Rule := fun conclusion _ _ => do
  let c ← get1 conclusion
  match c with
  | .op .or [a, b] => tautologyCase a b
  | _ => do
    let (o, d) ← normalizeDisequality c
    require (d.terms = [] ∧ (0 < d.const ∨ (o = .gt ∧ d.const = 0)))

/-- The comparison after multiplying with a negative number (`extras.rs:201-212`); anything else panics. -/
def mirrorOperator : Op → Res Op
  | .equals => .ok .equals
  | .lt => .ok .gt
  | .gt => .ok .lt
  | .le => .ok .ge
  | .ge => .ok .le
  | _ => panic

/-- `extras.rs:170-182 match_comparison_term`; an operator that is no comparison panics. -/
def matchComparison (o : Op) (t : Term) : Res (Term × Term) :=
  if o = .equals ∨ o = .lt ∨ o = .gt ∨ o = .le ∨ o = .ge then match2 o t else panic

/-- `extras.rs:167-224 la_mult_generic`. -/
def laMult (pos : Bool) : Rule := fun conclusion _ _ => do
  let c ← get1 conclusion
  let (p, scaled) ← match2 .implies c
  let (cmp, original) ← match2 .and p
  let (m, zero) ← match2 (if pos then .gt else .lt) cmp
  let z ← orErr zero.asNumber
  require (z = 0)
  match original with
  | .op o [l, r] => do
    let o ← (if pos then .ok o else mirrorOperator o : Res Op)
    let (ml, mr) ← matchComparison o scaled
    let (m1, l1) ← match2 .mult ml
    let (m2, r2) ← match2 .mult mr
    assertEq m m1
    assertEq m m2
    assertEq l l1
    assertEq r r2
  | _ => err

/-- `extras.rs:159-161`. -/
def laMultPos : Rule := laMult true
/-- `extras.rs:163-165`. -/
def laMultNeg : Rule := laMult false

end Carcara
