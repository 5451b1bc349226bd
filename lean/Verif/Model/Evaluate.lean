import Verif.Model.Cnf

/-!
# Evaluation of terms

Model of `ast/evaluate.rs` and of the rule `evaluate` (`checker/rules/extras.rs:256-260`). The cache only avoids repeated work and is left out.
Casts of widths to `u32` are left out. `rug` integers are two's complement: `keep_bits(n)` is the remainder modulo `2 ^ n`, which is not
negative, `>>` rounds down, and `/` and `%` round towards zero and panic if the divisor is zero. Results of bitwise operators are only used through
`keep_bits`, and are modelled on the kept bits.
-/

namespace Carcara

/-- `ast/evaluate.rs:8-14 enum Value`. -/
inductive Value where
  | bool (b : Bool)
  | int (z : Int)
  | real (q : Rat)
  | str (s : String)
  | bv (v : Int) (w : Nat)
deriving DecidableEq

/-- A computation that may panic and that may return `None` early. -/
abbrev Ev (α : Type) := OptionT (Except Fault) α

namespace Ev

def panics {α : Type} : Ev α := OptionT.lift panic
def none {α : Type} : Ev α := OptionT.mk (.ok Option.none)
/-- The `?` operator. -/
def opt {α : Type} (o : Option α) : Ev α := OptionT.mk (.ok o)
/-- Indexing and `unwrap`. -/
def unwrap {α : Type} (o : Option α) : Ev α := OptionT.lift (orPanic o)

end Ev

namespace Value

/-- `ast/evaluate.rs:18-25 from_constant`. -/
def ofConst : Const → Value
  | .int z => .int z
  | .real q => .real q
  | .str s => .str s
  | .bv v w => .bv v w

/-- `ast/evaluate.rs:28-35 from_term`. -/
def ofTerm : Term → Option Value
  | .const c => some (ofConst c)
  | .op .tru _ => some (.bool true)
  | .op .fls _ => some (.bool false)
  | _ => none

/-- `ast/evaluate.rs:88-97 into_term`. -/
def toTerm : Value → Term
  | .bool true => .op .tru []
  | .bool false => .op .fls []
  | .int z => .const (.int z)
  | .real q => .const (.real q)
  | .str s => .const (.str s)
  | .bv v w => .const (.bv v w)

/-- `Integer::keep_bits`. -/
def keepBits (v : Int) (n : Nat) : Int := v % 2 ^ n

/-- `Integer::get_bit`. -/
def getBit (v : Int) (i : Nat) : Bool := v / 2 ^ i % 2 == 1

/-- `ast/evaluate.rs:39-41 new_bitvec`. -/
def newBv (v : Int) (w : Nat) : Value := .bv (keepBits v w) w

/-- `ast/evaluate.rs:44-49`. -/
def asBool : Value → Option Bool
  | .bool b => some b
  | _ => none

/-- `ast/evaluate.rs:52-57`. -/
def asInt : Value → Option Int
  | .int z => some z
  | _ => none

/-- `ast/evaluate.rs:60-65`. -/
def asReal : Value → Option Rat
  | .real q => some q
  | _ => none

/-- `ast/evaluate.rs:68-73`. -/
def asBv : Value → Option (Int × Nat)
  | .bv v w => some (v, w)
  | _ => none

/-- `ast/evaluate.rs:76-85 as_signed_bitvec`. The subtraction is one of `usize`. -/
def asSignedBv (x : Value) : Ev (Int × Nat) := do
  let (v, w) ← Ev.opt x.asBv
  if w = 0 then Ev.panics
  else if getBit v (w - 1) then pure (2 ^ w - v, w)
  else pure (v, w)

end Value

/-- `Integer::to_usize`. -/
def toUsize (z : Int) : Option Nat := if 0 ≤ z ∧ z < 2 ^ 64 then some z.toNat else none

/-- `ast/evaluate.rs:159-173 mixed_type_arith!`. -/
def mixedArith (real : Bool) (fi : Int → Int → Res Int) (fr : Rat → Rat → Res Rat) : Value → Value → Ev Value
  | .int l, .int r =>
    if real then OptionT.lift (fr l r >>= fun q => .ok (.real q)) else OptionT.lift (fi l r >>= fun z => .ok (.int z))
  | .int l, .real r => OptionT.lift (fr l r >>= fun q => .ok (.real q))
  | .real l, .int r => OptionT.lift (fr l r >>= fun q => .ok (.real q))
  | .real l, .real r => OptionT.lift (fr l r >>= fun q => .ok (.real q))
  | _, _ => Ev.none

/-- The loop of `arith_op!`. -/
def arithFold (real : Bool) (fi : Int → Int → Res Int) (fr : Rat → Rat → Res Rat) : Value → List Value → Ev Value
  | acc, [] => pure acc
  | acc, a :: as => do
    let acc ← mixedArith real fi fr acc a
    arithFold real fi fr acc as

/-- `ast/evaluate.rs:175-188 arith_op!`. -/
def arithOp (real : Bool) (fi : Int → Int → Res Int) (fr : Rat → Rat → Res Rat) : List Value → Ev Value
  | [] => Ev.panics
  | .int z :: as => arithFold real fi fr (.int z) as
  | .real q :: as => arithFold real fi fr (.real q) as
  | _ :: _ => Ev.none

/-- Division of integers. -/
def divInt (a b : Int) : Res Int := if b = 0 then panic else .ok (a.tdiv b)

/-- Division of rationals. -/
def divRat (a b : Rat) : Res Rat := if b = 0 then panic else .ok (a / b)

/-- Remainder of integers. -/
def modInt (a b : Int) : Res Int := if b = 0 then panic else .ok (a.tmod b)

/-- The loop of `bitvec_op!`; `f` is the operator followed by `keep_bits`. -/
def bvFold (f : Int → Int → Nat → Int) (w : Nat) : Int → List Value → Ev Int
  | acc, [] => pure acc
  | acc, a :: as => do
    let (b, _) ← Ev.opt a.asBv
    bvFold f w (f acc b w) as

/-- `ast/evaluate.rs:190-202 bitvec_op!`. -/
def bvOp (f : Int → Int → Nat → Int) : List Value → Ev Value
  | [] => Ev.panics
  | .bv v w :: as => do
    let r ← bvFold f w v as
    pure (Value.newBv r w)
  | _ :: _ => Ev.none

/-- `ast/evaluate.rs:206-214 compare`. -/
def compareValues (p : Rat → Rat → Bool) : Value → Value → Option Bool
  | .int l, .int r => some (p l r)
  | .int l, .real r => some (p l r)
  | .real l, .int r => some (p l r)
  | .real l, .real r => some (p l r)
  | _, _ => none

/-- `ast/evaluate.rs:204-221 comparison_op!`; the first conjunct that is false ends the comparisons. -/
def compareChain (p : Rat → Rat → Bool) : Bool → List Value → Option Bool
  | acc, a :: b :: as => do
    let r ← if acc then compareValues p a b else some false
    compareChain p r (b :: as)
  | acc, _ => some acc

/-- `ast/evaluate.rs:229-233 bitvec_comparison_op!`. -/
def bvCompare (p : Int → Int → Bool) (args : List Value) : Ev Value := do
  let a ← Ev.unwrap args[0]?
  let (a, _) ← Ev.opt a.asBv
  let b ← Ev.unwrap args[1]?
  let (b, _) ← Ev.opt b.asBv
  pure (.bool (p a b))

/-- `ast/evaluate.rs:224-228 bitvec_comparison_op!` with the flag `signed`. -/
def bvCompareSigned (p : Int → Int → Bool) (args : List Value) : Ev Value := do
  let a ← Ev.unwrap args[0]?
  let (a, _) ← a.asSignedBv
  let b ← Ev.unwrap args[1]?
  let (b, _) ← b.asSignedBv
  pure (.bool (p a b))

/-- Two arguments that are bit-vectors, as in `ast/evaluate.rs:375`. -/
def twoBvs (args : List Value) : Ev (Int × Int × Nat) := do
  let a ← Ev.unwrap args[0]?
  let (a, w) ← Ev.opt a.asBv
  let b ← Ev.unwrap args[1]?
  let (b, _) ← Ev.opt b.asBv
  pure (a, b, w)

/-- Two arguments that are signed bit-vectors, as in `ast/evaluate.rs:371`. -/
def twoSignedBvs (args : List Value) : Ev (Int × Int × Nat) := do
  let a ← Ev.unwrap args[0]?
  let (a, w) ← a.asSignedBv
  let b ← Ev.unwrap args[1]?
  let (b, _) ← b.asSignedBv
  pure (a, b, w)

/-- The first argument, which is a bit-vector. -/
def oneBv (args : List Value) : Ev (Int × Nat) := do
  let a ← Ev.unwrap args[0]?
  Ev.opt a.asBv

/-- The first argument, which is a signed bit-vector. -/
def oneSignedBv (args : List Value) : Ev (Int × Nat) := do
  let a ← Ev.unwrap args[0]?
  a.asSignedBv

/-- An argument that is an integer. -/
def intArg (args : List Value) (i : Nat) : Ev Int := do
  let a ← Ev.unwrap args[i]?
  Ev.opt a.asInt

/-- An argument that is a real. -/
def realArg (args : List Value) (i : Nat) : Ev Rat := do
  let a ← Ev.unwrap args[i]?
  Ev.opt a.asReal

def bitAnd (a b : Int) (w : Nat) : Int := ((a % 2 ^ w).toNat &&& (b % 2 ^ w).toNat : Nat)
def bitOr (a b : Int) (w : Nat) : Int := ((a % 2 ^ w).toNat ||| (b % 2 ^ w).toNat : Nat)
def bitXor (a b : Int) (w : Nat) : Int := ((a % 2 ^ w).toNat ^^^ (b % 2 ^ w).toNat : Nat)

/-- `ast/evaluate.rs:242-248`. -/
def evalImplies : List Value → Ev Value
  | [] => Ev.panics
  | args => do
    let left ← Ev.opt (args.dropLast.foldlM (fun acc a => if acc then some true else a.asBool.map (!·)) false)
    let last ← Ev.unwrap args.getLast?
    let right ← Ev.opt last.asBool
    pure (.bool (left || right))

/-- `ast/evaluate.rs:261`. -/
def allEqual : List Value → Bool
  | a :: b :: l => decide (a = b) && allEqual (b :: l)
  | _ => true

/-- `ast/evaluate.rs:442-446`. -/
def concatFold : Int × Nat → List Value → Option (Int × Nat)
  | acc, [] => some acc
  | (a, i), v :: vs => do
    let (b, j) ← v.asBv
    concatFold (a * 2 ^ j + b, i + j) vs

/-- `ast/evaluate.rs:475-478` and `483-486`: the bits, least significant first. -/
def bitsValue (f : Value → Option Bool) : List Value → Option Int
  | [] => some 0
  | v :: vs => do
    let b ← f v
    let r ← bitsValue f vs
    some ((if b then 1 else 0) + 2 * r)

/-- `ast/evaluate.rs:570-577 rotate_right`; the remainder panics if `w` is zero. -/
def rotateRight (v : Int) (w r : Nat) : Ev Int :=
  if w = 0 then Ev.panics
  else pure (Value.keepBits v (r % w) * 2 ^ (w - r % w) + v / 2 ^ (r % w))

/-- `ast/evaluate.rs:535-539`. -/
def repeatBits (v : Int) (w : Nat) : Nat → Int → Int
  | 0, acc => acc
  | n + 1, acc => repeatBits v w n (acc * 2 ^ w + v)

/-- The operators of `ast/evaluate.rs:238-493`, on values. -/
def evalOpValues (o : Op) (args : List Value) : Ev Value :=
  match o with
  | .tru => pure (.bool true)
  | .fls => pure (.bool false)
  | .not => do
    let a ← Ev.unwrap args[0]?
    let a ← Ev.opt a.asBool
    pure (.bool (!a))
  | .implies => evalImplies args
  | .and => do
    let r ← Ev.opt (args.foldlM (fun acc a => if acc then a.asBool else some false) true)
    pure (.bool r)
  | .or => do
    let r ← Ev.opt (args.foldlM (fun acc a => if acc then some true else a.asBool) false)
    pure (.bool r)
  | .xor => do
    let r ← Ev.opt (args.foldlM (fun acc a => a.asBool.map fun b => acc != b) false)
    pure (.bool r)
  | .equals => pure (.bool (allEqual args))
  | .distinct => pure (.bool (decide args.Nodup))
  | .ite => do
    let c ← Ev.unwrap args[0]?
    let c ← Ev.opt c.asBool
    if c then Ev.unwrap args[1]? else Ev.unwrap args[2]?
  | .add => arithOp false (fun a b => .ok (a + b)) (fun a b => .ok (a + b)) args
  | .sub => match args with
    | [.int z] => pure (.int (-z))
    | [.real q] => pure (.real (-q))
    | [_] => Ev.none
    | _ => arithOp false (fun a b => .ok (a - b)) (fun a b => .ok (a - b)) args
  | .mult => arithOp false (fun a b => .ok (a * b)) (fun a b => .ok (a * b)) args
  | .intDiv => arithOp false divInt divRat args
  | .realDiv => arithOp true divInt divRat args
  | .mod => do
    let a ← intArg args 0
    let b ← intArg args 1
    let r ← OptionT.lift (modInt a b)
    pure (.int r)
  | .abs => do
    let a ← Ev.unwrap args[0]?
    match a with
    | .int z => pure (.int z.natAbs)
    | .real q => pure (.real (if q < 0 then -q else q))
    | _ => Ev.none
  | .pow2 => do
    let v ← intArg args 0
    if v < 0 then pure (.int 0)
    else do
      let v ← Ev.opt (toUsize v)
      pure (.int (2 ^ v))
  | .log2 => do
    let v ← intArg args 0
    if v ≤ 0 then pure (.int 0) else pure (.int v.toNat.log2)
  | .isPow2 => do
    let v ← intArg args 0
    pure (.bool (decide (0 < v ∧ v = 2 ^ v.toNat.log2)))
  | .lt => do
    let r ← Ev.opt (compareChain (fun a b => decide (a < b)) true args)
    pure (.bool r)
  | .gt => do
    let r ← Ev.opt (compareChain (fun a b => decide (a > b)) true args)
    pure (.bool r)
  | .le => do
    let r ← Ev.opt (compareChain (fun a b => decide (a ≤ b)) true args)
    pure (.bool r)
  | .ge => do
    let r ← Ev.opt (compareChain (fun a b => decide (a ≥ b)) true args)
    pure (.bool r)
  | .toReal => do
    let z ← intArg args 0
    pure (.real z)
  | .toInt => do
    let q ← realArg args 0
    pure (.int q.floor)
  | .isInt => do
    let q ← realArg args 0
    pure (.bool (decide (q.den = 1)))
  | .bvNot => do
    let (v, w) ← oneBv args
    pure (Value.newBv (-v - 1) w)
  | .bvNeg => do
    let (v, w) ← oneBv args
    pure (Value.newBv (-v) w)
  | .bvAnd => bvOp bitAnd args
  | .bvOr => bvOp bitOr args
  | .bvXor => bvOp bitXor args
  | .bvAdd => bvOp (fun a b w => Value.keepBits (a + b) w) args
  | .bvMul => bvOp (fun a b w => Value.keepBits (a * b) w) args
  | .bvSub => do
    let (a, b, w) ← twoSignedBvs args
    pure (Value.newBv (a - b) w)
  | .bvUDiv => do
    let (a, b, w) ← twoBvs args
    pure (Value.newBv (if b = 0 then 2 ^ w - 1 else a.tdiv b) w)
  | .bvURem => do
    let (a, b, w) ← twoBvs args
    pure (Value.newBv (if b = 0 then a else a.tmod b) w)
  | .bvSDiv => do
    let (a, b, w) ← twoSignedBvs args
    if b = 0 then Ev.none else pure (Value.newBv (a.tdiv b) w)
  | .bvSRem => do
    let (a, b, w) ← twoSignedBvs args
    if b = 0 then Ev.none else pure (Value.newBv ((a.natAbs : Int).tmod b.natAbs * a.sign) w)
  | .bvSMod => do
    let (a, b, w) ← twoSignedBvs args
    if b = 0 then Ev.none else pure (Value.newBv ((a.natAbs : Int).tmod b.natAbs * b.sign) w)
  | .bvShl => do
    let (a, b, w) ← twoBvs args
    let b ← Ev.opt (toUsize b)
    pure (Value.newBv (a * 2 ^ b) w)
  | .bvLShr => do
    let (a, b, w) ← twoBvs args
    let b ← Ev.opt (toUsize b)
    pure (Value.newBv (a / 2 ^ b) w)
  | .bvAShr => do
    let (a, b, w) ← twoBvs args
    let b ← Ev.unwrap (toUsize b)
    if w = 0 then Ev.panics
    else if Value.getBit a (w - 1) then
      if w < b then Ev.panics
      else pure (Value.newBv (bitOr (a / 2 ^ b) ((2 ^ b - 1) * 2 ^ (w - b)) w) w)
    else pure (Value.newBv (a / 2 ^ b) w)
  | .bvULt => bvCompare (fun a b => decide (a < b)) args
  | .bvULe => bvCompare (fun a b => decide (a ≤ b)) args
  | .bvUGt => bvCompare (fun a b => decide (a > b)) args
  | .bvUGe => bvCompare (fun a b => decide (a ≥ b)) args
  | .bvSLt => bvCompareSigned (fun a b => decide (a < b)) args
  | .bvSLe => bvCompareSigned (fun a b => decide (a ≤ b)) args
  | .bvSGt => bvCompareSigned (fun a b => decide (a > b)) args
  | .bvSGe => bvCompareSigned (fun a b => decide (a ≥ b)) args
  | .bvConcat => do
    let (v, w) ← Ev.opt (concatFold (0, 0) args)
    pure (Value.newBv v w)
  | .bvNAnd => do
    let (a, b, w) ← twoBvs args
    pure (Value.newBv (-bitAnd a b w - 1) w)
  | .bvNOr => do
    let (a, b, w) ← twoBvs args
    pure (Value.newBv (-bitOr a b w - 1) w)
  | .bvXNor => do
    let (a, b, w) ← twoBvs args
    pure (Value.newBv (-bitXor a b w - 1) w)
  | .bvComp => do
    let (a, b, _) ← twoBvs args
    pure (Value.newBv (if a = b then 1 else 0) 1)
  | .ubvToInt => do
    let (v, _) ← oneBv args
    pure (.int v)
  | .sbvToInt => do
    let (v, _) ← oneSignedBv args
    pure (.int v)
  | .bvSize => do
    let (_, w) ← oneBv args
    pure (.int w)
  | .bvConst => do
    let v ← intArg args 0
    let w ← intArg args 1
    let w ← Ev.unwrap (toUsize w)
    pure (Value.newBv v w)
  | .bvBbTerm => do
    let v ← Ev.opt (bitsValue Value.asBool args)
    pure (.bv v args.length)
  | .bvPBbTerm => do
    let v ← Ev.opt (bitsValue (fun a => a.asInt.map fun z => z == 1) args)
    pure (.bv v args.length)
  | _ => Ev.none

/-- The indexed operators of `ast/evaluate.rs:503-566`, on values. -/
def evalPopValues (o : ParamOp) (ps args : List Value) : Ev Value :=
  match o with
  | .bvExtract => do
    let i ← intArg ps 0
    let i ← Ev.unwrap (toUsize i)
    let j ← intArg ps 1
    let j ← Ev.unwrap (toUsize j)
    let (v, _) ← oneBv args
    if i < j then Ev.panics else pure (Value.newBv (Value.keepBits v i / 2 ^ j) (i - j + 1))
  | .zeroExtend => do
    let i ← intArg ps 0
    let i ← Ev.unwrap (toUsize i)
    let (v, w) ← oneBv args
    pure (Value.newBv v (w + i))
  | .signExtend => do
    let i ← intArg ps 0
    let i ← Ev.unwrap (toUsize i)
    let (v, w) ← oneSignedBv args
    pure (Value.newBv v (w + i))
  | .rotateLeft => do
    let i ← intArg ps 0
    let i ← Ev.unwrap (toUsize i)
    let (v, w) ← oneBv args
    if w < i then Ev.panics
    else do
      let r ← rotateRight v w (w - i)
      pure (Value.newBv r w)
  | .rotateRight => do
    let i ← intArg ps 0
    let i ← Ev.unwrap (toUsize i)
    let (v, w) ← oneBv args
    let r ← rotateRight v w i
    pure (Value.newBv r w)
  | .repeat => do
    let i ← intArg ps 0
    let i ← Ev.unwrap (toUsize i)
    let (v, w) ← oneBv args
    pure (Value.newBv (repeatBits v w i 0) (w * i))
  | .intToBv => do
    let w ← intArg ps 0
    let w ← Ev.unwrap (toUsize w)
    let v ← intArg args 0
    pure (Value.newBv v w)
  | .bvConst => do
    let v ← intArg ps 0
    let w ← intArg ps 1
    let w ← Ev.unwrap (toUsize w)
    pure (Value.newBv v w)
  | .bvBitOf => do
    let i ← intArg ps 0
    let i ← Ev.unwrap (toUsize i)
    let (v, _) ← oneBv args
    pure (.bool (Value.getBit v i))
  | .bvIntOf => do
    let i ← intArg ps 0
    let i ← Ev.unwrap (toUsize i)
    let (v, _) ← oneBv args
    pure (.int (if Value.getBit v i then 1 else 0))
  | _ => Ev.none

/-- All terms are values. -/
def valuesOf : List Term → Option (List Value)
  | [] => some []
  | t :: ts => do
    let v ← Value.ofTerm t
    let vs ← valuesOf ts
    some (v :: vs)

/-- `ast/evaluate.rs:236-493 eval_op`. -/
def evalOpTerms (o : Op) (args : List Term) : Res (Option Value) :=
  match valuesOf args with
  | some vs => (evalOpValues o vs).run
  | none => .ok none

/-- `ast/evaluate.rs:495-567 eval_param_op`. -/
def evalPopTerms (o : ParamOp) (ps args : List Term) : Res (Option Value) :=
  match valuesOf ps, valuesOf args with
  | some ps, some vs => (evalPopValues o ps vs).run
  | _, _ => .ok none

mutual
/-- `ast/evaluate.rs:107-157 evaluate`. -/
def evaluate : Term → Res Term
  | .const c => .ok (.const c)
  | .op o args => do
    let args ← evaluateL args
    let r ← evalOpTerms o args
    .ok ((r.map Value.toTerm).getD (.op o args))
  | .paramOp o ps args => do
    let ps ← evaluateL ps
    let args ← evaluateL args
    let r ← evalPopTerms o ps args
    .ok ((r.map Value.toTerm).getD (.paramOp o ps args))
  | .var x s => .ok (.var x s)
  | .app f as => .ok (.app f as)
  | .binder b bs t => .ok (.binder b bs t)
  | .let_ bs t => .ok (.let_ bs t)
def evaluateL : List Term → Res (List Term)
  | [] => .ok []
  | t :: ts => do
    let t ← evaluate t
    let ts ← evaluateL ts
    .ok (t :: ts)
end

/-- `checker/rules/extras.rs:256-260 evaluate`. -/
def evaluateRule : Rule := fun concl _ _ => do
  let c ← get1 concl
  let p ← match2 .equals c
  let r ← evaluate p.1
  require (r = p.2)

end Carcara
