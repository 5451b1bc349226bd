import Verif.Model.Bitvectors
import Verif.Model.CuttingPlanes

/-!
# Model: pseudo-Boolean blasting (`checker/rules/pb_blasting.rs`)

Numerals in patterns match integer and real constants (`ast/macros.rs:228-238`). The conversion of a position to `u32` in `pbblast_pbbconst` is
left out: it fails only for vectors of length `2 ^ 32`.
-/

namespace Carcara

/-- `match_term_err!((o a b c d) = t)`. -/
def match4 (o : Op) : Term → Res (Term × Term × Term × Term)
  | .op o' [a, b, c, d] => if o' = o then .ok (a, b, c, d) else err
  | _ => err

/-- `match_term!(((_ int_of idx) bv) = t)`. -/
def matchIntOf : Term → Option (Term × Term)
  | .paramOp .bvIntOf [idx] [bv] => some (idx, bv)
  | _ => none

/-- `match_term!((pbbterm ...) = t)`. -/
def matchPbb : Term → Option (List Term)
  | .op .bvPBbTerm as => some as
  | _ => none

/-- A numeral in a pattern. -/
def matchNum (q : Rat) (t : Term) : Res Unit := require (t.asNumber = some q)

/-- `pb_blasting.rs:9-17 get_bit_width`. -/
def getBitWidth (x : Term) : Res Nat :=
  match sortOf x with
  | some (.bv n) => .ok n
  | some _ => err
  | none => panic

/-- `pb_blasting.rs:39-59`: coefficient, index and bit-vector of the summand at position `i`. -/
def pbSummand (i : Nat) (element : Term) : Res (Int × Term × Term) :=
  match (matchProd element).bind fun p => (matchIntOf p.2).map fun q => (p.1, q.1, q.2) with
  | some (c, idx, bv) => do
    let c ← c.asIntegerErr
    .ok (c, idx, bv)
  | none =>
    if i = 0 then
      match matchIntOf element with
      | some (idx, bv) => .ok (1, idx, bv)
      | none => err
    else err

/-- `pb_blasting.rs:38-78`: the summands from position `i` on. -/
def pbSumLoop (bitvector : Term) : Nat → List Term → Res Unit
  | _, [] => .ok ()
  | i, e :: es => do
    let (c, idx, bv) ← pbSummand i e
    let idx ← idx.asIntegerErr
    require (c = 2 ^ i)
    require (idx = i)
    require (bv = bitvector)
    pbSumLoop bitvector (i + 1) es

/-- `pb_blasting.rs:19-80 check_pbblast_sum`. -/
def checkPbSum (bitvector : Term) (sum : List Term) : Res Unit := do
  let width ← getBitWidth bitvector
  require (sum.length ≤ width)
  pbSumLoop bitvector 0 sum

/-- `pb_blasting.rs:96-108`: coefficient and bit of the summand at position `i`. -/
def pbShortSummand (i : Nat) (element : Term) : Res (Int × Term) :=
  match matchProd element with
  | some (c, bv) => do
    let c ← c.asIntegerErr
    .ok (c, bv)
  | none => if i = 0 then .ok (1, element) else err

/-- `pb_blasting.rs:95-117`: the summands from position `i` on, with the bits from there on. -/
def pbShortLoop : Nat → List Term → List Term → Res Unit
  | _, _, [] => .ok ()
  | _, [], _ => panic
  | i, b :: bs, e :: es => do
    let (c, bv) ← pbShortSummand i e
    require (c = 2 ^ i)
    assertEq bv b
    pbShortLoop (i + 1) bs es

/-- `pb_blasting.rs:82-119 check_pbblast_sum_short_circuit`. -/
def checkPbShort (pbbterm sum : List Term) : Res Unit := do
  require (sum.length ≤ pbbterm.length)
  pbShortLoop 0 pbbterm sum

/-- `pb_blasting.rs:121-140 check_pbblast_constraint`. -/
def checkPbConstraint (leftBv rightBv : Term) (leftSum rightSum : List Term) : Res Unit :=
  match matchPbb leftBv with
  | some l => do
    let r ← orErr (matchPbb rightBv)
    checkPbShort l leftSum
    checkPbShort r rightSum
  | none => do
    checkPbSum leftBv leftSum
    checkPbSum rightBv rightSum

/-- The pattern `(= (p x y) (q (- a b) k))` of the unsigned rules. -/
def matchPbUnsigned (p q : Op) (k : Rat) (conclusion : List Term) : Res (Term × Term × Term × Term) := do
  let c ← orPanic conclusion.head?
  let (l, r) ← match2 .equals c
  let (x, y) ← match2 p l
  let (d, n) ← match2 q r
  let (a, b) ← match2 .sub d
  matchNum k n
  .ok (x, y, a, b)

/-- The rules that compare the sum of `x` to the sum of `y`, in this order. -/
def pbUnsigned (p q : Op) (k : Rat) : Rule := fun conclusion _ _ => do
  let (x, y, sumX, sumY) ← matchPbUnsigned p q k conclusion
  checkPbConstraint x y (splitSummation sumX) (splitSummation sumY)

/-- The rules that compare the sum of `y` to the sum of `x`, in this order. -/
def pbUnsignedRev (p q : Op) (k : Rat) : Rule := fun conclusion _ _ => do
  let (x, y, sumY, sumX) ← matchPbUnsigned p q k conclusion
  checkPbConstraint y x (splitSummation sumY) (splitSummation sumX)

/-- `pb_blasting.rs:142-156 pbblast_bveq`. -/
def pbBveq : Rule := pbUnsigned .equals .equals 0
/-- `pb_blasting.rs:158-171 pbblast_bvult`. -/
def pbBvult : Rule := pbUnsignedRev .bvULt .ge 1
/-- `pb_blasting.rs:173-187 pbblast_bvugt`. -/
def pbBvugt : Rule := pbUnsigned .bvUGt .ge 1
/-- `pb_blasting.rs:189-202 pbblast_bvuge`. -/
def pbBvuge : Rule := pbUnsigned .bvUGe .ge 0
/-- `pb_blasting.rs:204-217 pbblast_bvule`. -/
def pbBvule : Rule := pbUnsignedRev .bvULe .ge 0

/-- `n - 1` for unsigned `n`: underflow panics where overflow checks are on. -/
def predPanic : Nat → Res Nat
  | 0 => panic
  | m + 1 => .ok m

/-- `pb_blasting.rs:219-261 check_pbblast_signed_relation`. -/
def checkPbSign (n : Nat) (sign bitvector : Term) : Res Unit :=
  match matchPbb bitvector with
  | some pbb => do
    let last ← orErr pbb.getLast?
    let (coeff, bit) ← match2 .mult sign
    let coeff ← coeff.asIntegerErr
    let m ← predPanic n
    require (coeff = 2 ^ m)
    assertEq bit last
  | none => do
    let (coeff, t) ← match2 .mult sign
    let (idx, bv) ← orErr (matchIntOf t)
    let coeff ← coeff.asIntegerErr
    let idx ← idx.asIntegerErr
    let m ← predPanic n
    require (coeff = 2 ^ m)
    require (idx = m)
    require (bv = bitvector)

/-- The pattern `(= (p x y) (>= (+ (- a b) (- c d)) k))` of the signed rules. -/
def matchPbSigned (p : Op) (k : Rat) (conclusion : List Term) : Res (Term × Term × Term × Term × Term × Term) := do
  let t ← orPanic conclusion.head?
  let (l, r) ← match2 .equals t
  let (x, y) ← match2 p l
  let (s, n) ← match2 .ge r
  let (u, v) ← match2 .add s
  let (a, b) ← match2 .sub u
  let (c, d) ← match2 .sub v
  matchNum k n
  .ok (x, y, a, b, c, d)

/-- The rules that compare `x` to `y`, in this order. -/
def pbSigned (p : Op) (k : Rat) : Rule := fun conclusion _ _ => do
  let (x, y, sumX, signX, signY, sumY) ← matchPbSigned p k conclusion
  let n ← getBitWidth x
  checkPbSign n signX x
  checkPbSign n signY y
  checkPbConstraint x y (splitSummation sumX) (splitSummation sumY)

/-- The rules that compare `y` to `x`, in this order. -/
def pbSignedRev (p : Op) (k : Rat) : Rule := fun conclusion _ _ => do
  let (x, y, sumY, signY, signX, sumX) ← matchPbSigned p k conclusion
  let n ← getBitWidth x
  checkPbSign n signY y
  checkPbSign n signX x
  checkPbConstraint y x (splitSummation sumY) (splitSummation sumX)

/-- `pb_blasting.rs:263-282 pbblast_bvslt`. -/
def pbBvslt : Rule := pbSignedRev .bvSLt 1
/-- `pb_blasting.rs:284-303 pbblast_bvsgt`. -/
def pbBvsgt : Rule := pbSigned .bvSGt 1
/-- `pb_blasting.rs:305-324 pbblast_bvsge`. -/
def pbBvsge : Rule := pbSigned .bvSGe 0
/-- `pb_blasting.rs:326-346 pbblast_bvsle`. -/
def pbBvsle : Rule := pbSignedRev .bvSLe 0

/-- `pb_blasting.rs:352-368`: the bits from position `i` on. -/
def pbVarLoop (x : Term) : Nat → List Term → Res Unit
  | _, [] => .ok ()
  | i, pb :: pbs => do
    let (idx, bv) ← orErr (matchIntOf pb)
    let idx ← idx.asIntegerErr
    require (idx = i)
    require (bv = x)
    pbVarLoop x (i + 1) pbs

/-- `pb_blasting.rs:348-370 pbblast_pbbvar`. -/
def pbVar : Rule := fun conclusion _ _ => do
  let c ← orPanic conclusion.head?
  let (x, r) ← match2 .equals c
  let pbs ← orErr (matchPbb r)
  pbVarLoop x 0 pbs

/-- `Integer::to_i32_wrapping`. -/
def toI32Wrapping (z : Int) : Int := (z + 2 ^ 31) % 2 ^ 32 - 2 ^ 31

/-- `pb_blasting.rs:389-413`: the value of the bits from position `i` on, added to `acc`. -/
def pbConstLoop : Int → Nat → List Term → Res Int
  | acc, _, [] => .ok acc
  | acc, i, t :: ts => do
    let z ← orErr t.asInteger
    if toI32Wrapping z = 0 then pbConstLoop acc (i + 1) ts
    else if toI32Wrapping z = 1 then pbConstLoop (acc + 2 ^ i) (i + 1) ts
    else err

/-- `pb_blasting.rs:372-423 pbblast_pbbconst`. -/
def pbConst : Rule := fun conclusion _ _ => do
  let c ← orPanic conclusion.head?
  let (bv, r) ← match2 .equals c
  let pbs ← orErr (matchPbb r)
  match bv with
  | .const (.bv m w) => do
    require (pbs.length = w)
    let v ← pbConstLoop 0 0 pbs
    require (v = m)
  | _ => err

/-- `((_ int_of i) t)` (`pb_blasting.rs:438-443`). -/
def intOf (t : Term) (i : Nat) : Term := .paramOp .bvIntOf [.const (.int i)] [t]

/-- `pb_blasting.rs:425-446 get_bitvector_terms`. -/
def getBitvectorTerms (bv : Term) : Res (List Term) :=
  match matchPbb bv with
  | some xs => .ok xs
  | none =>
    match sortOf bv with
    | some (.bv n) => .ok ((List.range n).map (intOf bv))
    | _ => panic

/-- The variable `z` of the choice terms. -/
def pbZ : Term := .var "z" .int

/-- `pb_blasting.rs:460-469`: the bound variable. -/
def checkPbBinding (bs : List (String × Srt)) : Res Unit := do
  let b ← orPanic bs.head?
  require (b.1 = "z")
  require (b.2 = .int)

/-- `pb_blasting.rs:471-505`: the four constraints between the bits `x`, `y` and `z`. -/
def checkXorConstraints (x y z c1 c2 c3 c4 : Term) : Res Unit := do
  let (s, z1) ← match2 .ge c1
  let (x1, y1) ← match2 .add s
  assertEq x1 x
  assertEq y1 y
  assertEq z1 z
  let (s, y2) ← match2 .ge c2
  let (z2, x2) ← match2 .add s
  assertEq x2 x
  assertEq y2 y
  assertEq z2 z
  let (s, x3) ← match2 .ge c3
  let (z3, y3) ← match2 .add s
  assertEq x3 x
  assertEq y3 y
  assertEq z3 z
  let (n, s) ← match2 .ge c4
  matchNum 2 n
  let (z4, x4, y4) ← match3 .add s
  assertEq x4 x
  assertEq y4 y
  assertEq z4 z

/-- `pb_blasting.rs:457-506`. -/
def checkXorBit (bc x y : Term) : Res Unit := do
  let (bs, body) ← matchBinder .choice bc
  let (c1, c2, c3, c4) ← match4 .and body
  checkPbBinding bs
  checkXorConstraints x y pbZ c1 c2 c3 c4

/-- `pb_blasting.rs:534-557`: the three constraints between the bits `x`, `y` and `z`. -/
def checkAndConstraints (x y z c1 c2 c3 : Term) : Res Unit := do
  let (x1, z1) ← match2 .ge c1
  assertEq x1 x
  assertEq z1 z
  let (y2, z2) ← match2 .ge c2
  assertEq y2 y
  assertEq z2 z
  let (s, t) ← match2 .ge c3
  let (z3, n) ← match2 .add s
  matchNum 1 n
  let (x3, y3) ← match2 .add t
  assertEq z3 z
  assertEq x3 x
  assertEq y3 y

/-- `pb_blasting.rs:520-558`. -/
def checkAndBit (bc x y : Term) : Res Unit := do
  let (bs, body) ← matchBinder .choice bc
  let (c1, c2, c3) ← match3 .and body
  checkPbBinding bs
  checkAndConstraints x y pbZ c1 c2 c3

/-- `bit_constraints.iter().zip(xs.iter()).zip(ys.iter())` (`pb_blasting.rs:457`, `520`). -/
def checkPbBits (f : Term → Term → Term → Res Unit) : List Term → List Term → List Term → Res Unit
  | bc :: bcs, x :: xs, y :: ys => do
    f bc x y
    checkPbBits f bcs xs ys
  | _, _, _ => .ok ()

/-- `pb_blasting.rs:449-457`, `512-520`: a bitwise operation. -/
def pbBitwise (o : Op) (f : Term → Term → Term → Res Unit) : Rule := fun conclusion _ _ => do
  let c ← orPanic conclusion.head?
  let (l, r) ← match2 .equals c
  let (x, y) ← match2 o l
  let bcs ← orErr (matchPbb r)
  let xs ← getBitvectorTerms x
  let ys ← getBitvectorTerms y
  checkPbBits f bcs xs ys

/-- `pb_blasting.rs:448-509 pbblast_bvxor`. -/
def pbBvxor : Rule := pbBitwise .bvXor checkXorBit
/-- `pb_blasting.rs:511-561 pbblast_bvand`. -/
def pbBvand : Rule := pbBitwise .bvAnd checkAndBit

/-- `pb_blasting.rs:575-580`. -/
def xorChoice (x y : Term) : Term :=
  .binder .choice [("z", .int)] (.op .and [.op .ge [.op .add [x, y], pbZ], .op .ge [.op .add [pbZ, x], y],
    .op .ge [.op .add [pbZ, y], x], .op .ge [.const (.int 2), .op .add [pbZ, x, y]]])

/-- `pb_blasting.rs:563-607 pbblast_bvxor_ith_bit`. -/
def pbBvxorIthBit : Rule := fun conclusion _ args => do
  let (x, y) ← get2 args
  let c ← orPanic conclusion.head?
  let (c1, c2, c3, c4) ← match4 .and c
  checkXorConstraints x y (xorChoice x y) c1 c2 c3 c4

/-- `pb_blasting.rs:621-625`. -/
def andChoice (x y : Term) : Term :=
  .binder .choice [("z", .int)] (.op .and [.op .ge [x, pbZ], .op .ge [y, pbZ],
    .op .ge [.op .add [pbZ, .const (.int 1)], .op .add [x, y]]])

/-- `pb_blasting.rs:609-644 pbblast_bvand_ith_bit`. -/
def pbBvandIthBit : Rule := fun conclusion _ args => do
  let (x, y) ← get2 args
  let c ← orPanic conclusion.head?
  let (c1, c2, c3) ← match3 .and c
  checkAndConstraints x y (andChoice x y) c1 c2 c3

end Carcara
