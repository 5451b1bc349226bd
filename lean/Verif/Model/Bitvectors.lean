import Verif.Model.Cnf

/-!
# Bit-blasting rules

Model of `checker/rules/bitvectors.rs`. Vectors are lists with the least significant bit first. Reading beyond the end
of a vector, `size - 1` for `size = 0` and the `unreachable!` after a sort that is no bit-vector are panics.
-/

namespace Carcara

/-! ## Terms built by `build_term!` -/

/-- `(and a b)`. -/
def mkAnd (a b : Term) : Term := .op .and [a, b]
/-- `(or a b)`. -/
def mkOr (a b : Term) : Term := .op .or [a, b]
/-- `(xor a b)`. -/
def mkXor (a b : Term) : Term := .op .xor [a, b]
/-- `(= a b)`. -/
def mkEq (a b : Term) : Term := .op .equals [a, b]
/-- `(not a)`. -/
def mkNot (a : Term) : Term := .op .not [a]
/-- `(bbterm a₀ a₁ …)`. -/
def mkBb (as : List Term) : Term := .op .bvBbTerm as
/-- `((_ bit_of i) t)` (`bitvectors.rs:14-19`). -/
def bitOf (t : Term) (i : Nat) : Term := .paramOp .bvBitOf [.const (.int i)] [t]

/-! ## Sizes and vectors -/

/-- `let Sort::BitVec(size) = pool.sort(t).as_sort().unwrap() else { unreachable!() }`. -/
def bvSizeOf (t : Term) : Res Nat :=
  match sortOf t with
  | some (.bv w) => .ok w
  | _ => panic

/-- `build_term_vec` (`bitvectors.rs:8-24`): the arguments of a `bbterm`, whatever their number, or the first `size`
bits of any other term. -/
def buildTermVec (t : Term) (size : Nat) : List Term :=
  match t with
  | .op .bvBbTerm args => args
  | _ => (List.range size).map (bitOf t)

/-- Reading the entries `x[0], …, x[size - 1]` panics if the vector is too short. -/
def readable (x : List Term) (size : Nat) : Res Unit := if size ≤ x.length then .ok () else panic

/-- The entry `x[i]`; used after `readable`. -/
def bitAt (x : List Term) (i : Nat) : Term := (x[i]?).getD .fls

/-- The vector of a term, with the check that its first `size` entries exist. -/
def bitsOf (t : Term) (size : Nat) : Res (Nat → Term) := do
  let x := buildTermVec t size
  readable x size
  .ok (bitAt x)

/-- `(0..size).map(f).collect()`. -/
def tabulate (size : Nat) (f : Nat → Term) : List Term := (List.range size).map f

/-! ## Adder and multiplier -/

/-- The vector `carries` of an adder (`bitvectors.rs:35-51`, `500-508`), starting with `c`. -/
def carryAt (x y : Nat → Term) (c : Term) : Nat → Term
  | 0 => c
  | i + 1 => mkOr (mkAnd (x i) (y i)) (mkAnd (mkXor (x i) (y i)) (carryAt x y c i))

/-- The bits of a sum (`bitvectors.rs:53-60`, `510-517`). -/
def sumAt (x y : Nat → Term) (c : Term) (i : Nat) : Term := mkXor (mkXor (x i) (y i)) (carryAt x y c i)

/-- `ripple_carry_adder` (`bitvectors.rs:26-63`). -/
def rippleCarryAdder (size : Nat) (x y : Term) : Res Term := do
  let x ← bitsOf x size
  let y ← bitsOf y size
  .ok (mkBb (tabulate size (sumAt x y .fls)))

/-- `shift[j][i]` (`bitvectors.rs:75-88`). -/
def shiftAt (x y : Nat → Term) (j i : Nat) : Term := if j ≤ i then mkAnd (y j) (x (i - j)) else .fls

/-- `carry[j][i]` for `1 ≤ j` (`bitvectors.rs:95-111`), from the rows `res[j - 1]` and `shift[j]`. The inner test
`j < i` for `prev_carry` repeats the outer one. -/
def mulCarryAt (r s : Nat → Term) (j : Nat) : Nat → Term
  | 0 => .fls
  | i + 1 => if j < i + 1 then mkOr (mkAnd (r i) (s i)) (mkAnd (mkXor (r i) (s i)) (mulCarryAt r s j i)) else .fls

/-- `res[j][i]`, read from the rows computed so far. -/
def cell (rows : List (List Term)) (j i : Nat) : Term := bitAt ((rows[j]?).getD []) i

/-- The row `res[j]` for `1 ≤ j` (`bitvectors.rs:114-124`). -/
def mulRow (size : Nat) (x y : Nat → Term) (rows : List (List Term)) (j : Nat) : List Term :=
  tabulate size fun i =>
    if i = 0 then shiftAt x y 0 0
    else if j > i then cell rows i i
    else mkXor (mkXor (cell rows (j - 1) i) (shiftAt x y j i)) (mulCarryAt (cell rows (j - 1)) (shiftAt x y j) j i)

/-- The rows `res[0], …, res[j]` (`bitvectors.rs:90-125`). -/
def mulRows (size : Nat) (x y : Nat → Term) : Nat → List (List Term)
  | 0 => [tabulate size (shiftAt x y 0)]
  | j + 1 => mulRows size x y j ++ [mulRow size x y (mulRows size x y j) (j + 1)]

/-- `shift_add_multiplier` (`bitvectors.rs:65-128`). For `size = 0`, `res[size - 1]` panics. -/
def shiftAddMultiplier (size : Nat) (x y : Term) : Res Term := do
  let x ← bitsOf x size
  let y ← bitsOf y size
  if size = 0 then panic
  else .ok (mkBb (tabulate size (cell (mulRows size x y (size - 1)) (size - 1))))

/-! ## Rules -/

/-- The loop of `value` (`bitvectors.rs:140-151`): the value of the constants from position `i` on, added to `n`. -/
def bbValue : List Term → Nat → Nat → Res Nat
  | [], _, n => .ok n
  | a :: as, i, n => if a = .tru then bbValue as (i + 1) (n + 2 ^ i) else if a = .fls then bbValue as (i + 1) n else err

/-- `value` (`bitvectors.rs:130-164`). -/
def bbValueRule : Rule := fun conclusion _ _ => do
  let c ← get1 conclusion
  let (v, r) ← match2 .equals c
  let args ← matchOp .bvBbTerm r
  match v with
  | .const (.bv m size) => do
    require (size = args.length)
    let n ← bbValue args 0 0
    require (m = n)
  | _ => err

/-- `var` (`bitvectors.rs:166-179`). -/
def bbVar : Rule := fun conclusion _ _ => do
  let c ← get1 conclusion
  let (x, res) ← match2 .equals c
  match sortOf x with
  | some (.bv size) => assertEq (mkBb (buildTermVec x size)) res
  | some _ => err
  | none => panic

/-- The loop checking that all arguments have the size of the first (`bitvectors.rs:189-199`). -/
def sameSizes (size : Nat) : List Term → Res Unit
  | [] => .ok ()
  | a :: as => do
    let s ← bvSizeOf a
    require (s = size)
    sameSizes size as

/-- The loop combining the arguments from left to right (`bitvectors.rs:205-219`, `453-456`). -/
def combine (f : Term → Term → Res Term) : Term → List Term → Res Term
  | t, [] => .ok t
  | t, a :: as => do
    let t' ← f t a
    combine f t' as

/-- The common shape of `and`, `or`, `xor`, `add` and `mult`. -/
def bbNary (o : Op) (f : Nat → Term → Term → Res Term) : Rule := fun conclusion _ _ => do
  let c ← get1 conclusion
  let (l, res) ← match2 .equals c
  let args ← matchOp o l
  match args with
  | [] => panic
  | a :: as => do
    let size ← bvSizeOf a
    sameSizes size (a :: as)
    let t ← combine (f size) a as
    assertEq t res

/-- One step of the loop in `and`, `or` and `xor` (`bitvectors.rs:206-217`). -/
def bitwise (g : Term → Term → Term) (size : Nat) (x y : Term) : Res Term := do
  let x ← bitsOf x size
  let y ← bitsOf y size
  .ok (mkBb (tabulate size fun i => g (x i) (y i)))

/-- `and` (`bitvectors.rs:181-222`). -/
def bbAnd : Rule := bbNary .bvAnd (bitwise mkAnd)
/-- `or` (`bitvectors.rs:224-266`). -/
def bbOr : Rule := bbNary .bvOr (bitwise mkOr)
/-- `xor` (`bitvectors.rs:268-310`). -/
def bbXor : Rule := bbNary .bvXor (bitwise mkXor)
/-- `add` (`bitvectors.rs:430-458`). -/
def bbAdd : Rule := bbNary .bvAdd rippleCarryAdder
/-- `mult` (`bitvectors.rs:460-488`). -/
def bbMult : Rule := bbNary .bvMul shiftAddMultiplier

/-- The common start of the rules for binary operators: the two arguments, their bits and the right-hand side. -/
def bbBinary (o : Op) (conclusion : List Term) : Res (Nat × (Nat → Term) × (Nat → Term) × Term) := do
  let c ← get1 conclusion
  let (l, res) ← match2 .equals c
  let (x, y) ← match2 o l
  let size ← bvSizeOf x
  let x ← bitsOf x size
  let y ← bitsOf y size
  .ok (size, x, y, res)

/-- `xnor` (`bitvectors.rs:312-335`). -/
def bbXnor : Rule := fun conclusion _ _ => do
  let (size, x, y, res) ← bbBinary .bvXNor conclusion
  assertEq (mkBb (tabulate size fun i => mkEq (x i) (y i))) res

/-- The common start of `not` and `neg`. -/
def bbUnary (o : Op) (conclusion : List Term) : Res (Nat × (Nat → Term) × Term) := do
  let c ← get1 conclusion
  let (l, res) ← match2 .equals c
  let x ← match1 o l
  let size ← bvSizeOf x
  let x ← bitsOf x size
  .ok (size, x, res)

/-- `not` (`bitvectors.rs:337-359`). -/
def bbNot : Rule := fun conclusion _ _ => do
  let (size, x, res) ← bbUnary .bvNot conclusion
  assertEq (mkBb (tabulate size fun i => mkNot (x i))) res

/-- `neg` (`bitvectors.rs:490-522`): the sum of `(not x)`, zero and the carry `true`. -/
def bbNeg : Rule := fun conclusion _ _ => do
  let (size, x, res) ← bbUnary .bvNeg conclusion
  assertEq (mkBb (tabulate size (sumAt (fun i => mkNot (x i)) (fun _ => .fls) .tru))) res

/-- The term `expected_res` of `ult` after the bits `0, …, i` (`bitvectors.rs:372-381`). -/
def ultAt (x y : Nat → Term) : Nat → Term
  | 0 => mkAnd (mkNot (x 0)) (y 0)
  | i + 1 => mkOr (mkAnd (mkEq (x (i + 1)) (y (i + 1))) (ultAt x y i)) (mkAnd (mkNot (x (i + 1))) (y (i + 1)))

/-- `ult` (`bitvectors.rs:361-384`). For `size = 0`, `x[0]` panics. -/
def bbUlt : Rule := fun conclusion _ _ => do
  let (size, x, y, res) ← bbBinary .bvULt conclusion
  if size = 0 then panic else assertEq (ultAt x y (size - 1)) res

/-- `slt` (`bitvectors.rs:386-428`). -/
def bbSlt : Rule := fun conclusion _ _ => do
  let (size, x, y, res) ← bbBinary .bvSLt conclusion
  if size = 0 then panic
  else if size = 1 then assertEq (mkAnd (x 0) (mkNot (y 0))) res
  else assertEq (mkOr (mkAnd (mkEq (x (size - 1)) (y (size - 1))) (ultAt x y (size - 2)))
    (mkAnd (x (size - 1)) (mkNot (y (size - 1))))) res

/-- The conjunction of `equality` and `comp` (`bitvectors.rs:534-546`). For `size = 0`, `expected_res_args[0]` panics. -/
def bbEqTerm (size : Nat) (x y : Nat → Term) : Res Term :=
  match tabulate size fun i => mkEq (x i) (y i) with
  | [] => panic
  | [e] => .ok e
  | es => .ok (.op .and es)

/-- `equality` (`bitvectors.rs:524-549`). -/
def bbEqual : Rule := fun conclusion _ _ => do
  let (size, x, y, res) ← bbBinary .equals conclusion
  let t ← bbEqTerm size x y
  assertEq t res

/-- `comp` (`bitvectors.rs:551-577`). -/
def bbComp : Rule := fun conclusion _ _ => do
  let (size, x, y, res) ← bbBinary .bvComp conclusion
  let t ← bbEqTerm size x y
  assertEq (mkBb [t]) res

/-- The first loop of `extract` (`bitvectors.rs:589-593`). -/
def extractArgs (args : List Term) : Nat → List Term → Res Unit
  | _, [] => .ok ()
  | i, r :: rs => do
    let a ← orPanic args[i]?
    assertEq a r
    extractArgs args (i + 1) rs

/-- The second loop of `extract` (`bitvectors.rs:597-606`). -/
def extractBits (x : Term) : Nat → List Term → Res Unit
  | _, [] => .ok ()
  | i, r :: rs => do
    assertEq (bitOf x i) r
    extractBits x (i + 1) rs

/-- `extract` (`bitvectors.rs:580-608`). An index that is no natural number cannot be parsed; it is a panic here. -/
def bbExtract : Rule := fun conclusion _ _ => do
  let c ← get1 conclusion
  let (l, r) ← match2 .equals c
  match l with
  | .paramOp .bvExtract [_, j] [x] => do
    let right ← matchOp .bvBbTerm r
    match j with
    | .const (.int (.ofNat j)) =>
      match x with
      | .op .bvBbTerm args => extractArgs args j right
      | _ => extractBits x j right
    | _ => panic
  | _ => err

/-- The loop of `concat` (`bitvectors.rs:624-642`) over the arguments in reverse: the bits and the total size. -/
def concatVec : List Term → List Term → Nat → Res (List Term × Nat)
  | [], bits, size => .ok (bits, size)
  | a :: as, bits, size => do
    let s ← bvSizeOf a
    concatVec as (bits ++ buildTermVec a s) (size + s)

/-- `concat` (`bitvectors.rs:610-655`). Without arguments, `concat_args.len() - 1` panics. -/
def bbConcat : Rule := fun conclusion _ _ => do
  let c ← get1 conclusion
  let (l, r) ← match2 .equals c
  let args ← matchOp .bvConcat l
  let resArgs ← matchOp .bvBbTerm r
  match args.reverse with
  | [] => panic
  | a :: as => do
    let size ← bvSizeOf a
    let (bits, size) ← concatVec as (buildTermVec a size) size
    require (resArgs.length = size)
    assertEq (mkBb bits) (mkBb resArgs)

/-- `sign_extend` (`bitvectors.rs:657-677`). -/
def bbSignExtend : Rule := fun conclusion _ _ => do
  let c ← get1 conclusion
  let (l, res) ← match2 .equals c
  match l with
  | .paramOp .signExtend [i] [x] =>
    match i with
    | .const (.int (.ofNat i)) =>
      if i = 0 then assertEq x res
      else do
        let size ← bvSizeOf x
        let xs := buildTermVec x size
        if size = 0 then panic
        else do
          let b ← orPanic xs[size - 1]?
          assertEq (mkBb (xs ++ List.replicate i b)) res
    | _ => panic
  | _ => err

end Carcara
