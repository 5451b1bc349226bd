import Verif.Model.Printer
import Verif.Model.Substitution

/-!
# The parser of terms

Model of the functions of `parser/mod.rs` that read terms, sorts and clauses. The input is the list of tokens that the lexer still has to
deliver; at the end of the list the current token is `Eof`.

* The symbol table is an association list that is handed down, since every scope that is pushed is popped again. What follows an error is not
  modelled.
* A failure is an error, a panic, or one of two faults that the code does not have: `fuel` if the step counter of the model is too small, and
  `unmodelled` if the code goes on with something that the model has no term or sort for: `(as const …)`, the sort `Type`, a variable or a
  function whose sort is a bit vector of unknown width, the spellings of integers with signs or underscores after `bv`, and substitution
  into terms that are not well sorted.
* `usize` has 64 bits. Sums and products of widths do not overflow.
* Stack overflow is not modelled.
-/

namespace Carcara

/-- How reading a term can fail. -/
inductive PFault where
  | err | panic | fuel | unmodelled
deriving DecidableEq, Repr

abbrev PRes := Except PFault

instance {α : Type} [DecidableEq α] : DecidableEq (PRes α) := fun a b =>
  match a, b with
  | .ok x, .ok y => if h : x = y then .isTrue (by rw [h]) else .isFalse (by simpa using h)
  | .error x, .error y => if h : x = y then .isTrue (by rw [h]) else .isFalse (by simpa using h)
  | .ok _, .error _ => .isFalse (by simp)
  | .error _, .ok _ => .isFalse (by simp)

namespace PRes

/-- An error unless `p`. -/
def need (p : Prop) [Decidable p] : PRes Unit := if p then .ok () else .error .err

/-- `ok_or`. -/
def getErr {α : Type} : Option α → PRes α
  | some a => .ok a
  | none => .error .err

/-- `unwrap`, and indices. -/
def getPanic {α : Type} : Option α → PRes α
  | some a => .ok a
  | none => .error .panic

/-- The result of a function modelled elsewhere. -/
def ofRes {α : Type} : Res α → PRes α
  | .ok a => .ok a
  | .error .err => .error .err
  | .error .panic => .error .panic

/-- The elements in order, up to the first failure. -/
def all {α : Type} : List (PRes α) → PRes (List α)
  | [] => .ok []
  | x :: xs => do
    let a ← x
    let as ← all xs
    .ok (a :: as)

end PRes

open PRes

/-! ## Names of operators -/

def Op.all : List Op := [.tru, .fls, .not, .implies, .and, .or, .xor, .equals, .distinct, .ite, .add, .sub, .mult, .intDiv, .realDiv, .mod, .abs, .lt,
  .gt, .le, .ge, .toReal, .toInt, .isInt, .select, .store, .strConcat, .strLen, .strLessThan, .strLessEq, .charAt, .substring, .prefixOf,
  .suffixOf, .contains, .indexOf, .replace, .replaceAll, .replaceRe, .replaceReAll, .strIsDigit, .strToCode, .strFromCode, .strToInt,
  .strFromInt, .strToRe, .strInRe, .reNone, .reAll, .reAllChar, .reConcat, .reUnion, .reInter, .reStar, .reComp, .reDiff, .rePlus, .reOpt,
  .reRange, .bvNot, .bvNeg, .bvAnd, .bvOr, .bvAdd, .bvMul, .bvUDiv, .bvURem, .bvShl, .bvLShr, .bvULt, .bvConcat, .bvNAnd, .bvNOr, .bvXor,
  .bvXNor, .bvComp, .bvSub, .bvSDiv, .bvSRem, .bvSMod, .bvAShr, .bvULe, .bvUGt, .bvUGe, .bvSLt, .bvSLe, .bvSGt, .bvSGe, .ubvToInt, .sbvToInt,
  .bvPBbTerm, .bvBbTerm, .bvConst, .bvSize, .pow2, .isPow2, .log2, .rareList, .cl, .delete]

/-- `Operator::from_str`, generated from the table of names (`ast/macros.rs:352-374`, `ast/term.rs:531-644`). -/
def Op.ofName (s : String) : Option Op := Op.all.find? fun o => o.name == s

def ParamOp.all : List ParamOp := [.bvExtract, .bvBitOf, .bvIntOf, .zeroExtend, .signExtend, .rotateLeft, .rotateRight, .repeat, .bvConst, .intToBv,
  .rePower, .reLoop, .arrayConst]

/-- `ParamOperator::from_str`, generated from the table of names (`ast/term.rs:646-663`). -/
def ParamOp.ofName (s : String) : Option ParamOp := ParamOp.all.find? fun o => o.name == s

/-! ## Sorts of terms -/

/-- A sort as the pool computes it: one of our sorts, or the sort of bit vectors whose width is a term
(`ParamSort([width], Var("BitVec"))`), the only polymorphic sort that reading a term can produce. -/
inductive PSrt where
  | known (s : Srt)
  | param
deriving DecidableEq

/-- `Integer::to_usize` followed by `unwrap`. -/
def unwrapUsize (z : Int) : PRes Nat := if 0 ≤ z ∧ z < 2 ^ 64 then .ok z.toNat else .error .panic

/-- `ast/term.rs:871-876 as_signed_integer`. -/
def Term.asSignedInteger : Term → Option Int
  | .op .sub [t] => t.asInteger.map (- ·)
  | t => t.asInteger

/-- `ast/pool/mod.rs:209-218`: is one of the arguments a real? -/
def anyReal : List (PRes PSrt) → PRes Bool
  | [] => .ok false
  | x :: xs => do
    if (← x) = .known .real then .ok true else anyReal xs

/-- `ast/pool/mod.rs:166-206`: the width of a concatenation, if it is known. -/
def concatWidth : List (PRes PSrt) → PRes (Option Nat)
  | [] => .ok (some 0)
  | x :: xs => do
    match ← x with
    | .known (.bv w) => do
      let r ← concatWidth xs
      .ok (r.map (w + ·))
    | .param => do
      let _ ← concatWidth xs
      .ok none
    | _ => .error .panic

/-- The argument at an index, and its sort. -/
def argSort (ss : List (PRes PSrt)) (i : Nat) : PRes PSrt := do (← getPanic ss[i]?)

/-- `ast/pool/mod.rs:86-261`. The list holds the sorts of the arguments, which are only looked at on demand. -/
def opPoolSort (o : Op) (as : List Term) (ss : List (PRes PSrt)) : PRes PSrt :=
  match o with
  | .tru | .fls | .not | .implies | .and | .or | .xor | .equals | .distinct | .lt | .gt | .le | .ge | .isInt | .strLessThan | .strLessEq
  | .prefixOf | .suffixOf | .contains | .strIsDigit | .strInRe | .bvULt | .bvULe | .bvUGt | .bvUGe | .bvSLt | .bvSLe | .bvSGt | .bvSGe
  | .cl | .delete | .isPow2 => .ok (.known .bool)
  | .bvSize | .ubvToInt | .sbvToInt => .ok (.known .int)
  | .bvAdd | .bvSub | .bvNot | .bvNeg | .bvAnd | .bvOr | .bvMul | .bvUDiv | .bvURem | .bvShl | .bvLShr | .bvNAnd | .bvNOr | .bvXor | .bvXNor
  | .bvSDiv | .bvSRem | .bvSMod | .bvAShr => do
    match ← argSort ss 0 with
    | .known (.bv w) => .ok (.known (.bv w))
    | .param => .ok .param
    | _ => .error .panic
  | .bvComp => .ok (.known (.bv 1))
  | .bvBbTerm | .bvPBbTerm => .ok (.known (.bv as.length))
  | .bvConst => do
    match ← getPanic as[1]? with
    | .const (.int w) => do
      let w ← unwrapUsize w
      .ok (.known (.bv w))
    | _ => .ok .param
  | .bvConcat => do
    match ← concatWidth ss with
    | some w => .ok (.known (.bv w))
    | none => .ok .param
  | .ite => argSort ss 1
  | .add | .sub | .mult | .abs => do .ok (.known (if ← anyReal ss then .real else .int))
  | .realDiv | .toReal => .ok (.known .real)
  | .intDiv | .mod | .toInt => .ok (.known .int)
  | .select => do
    match ← argSort ss 0 with
    | .known (.array _ e) => .ok (.known e)
    | _ => .error .panic
  | .store => argSort ss 0
  | .strLen | .indexOf | .strToCode | .strToInt => .ok (.known .int)
  | .strConcat | .charAt | .substring | .replace | .replaceAll | .replaceRe | .replaceReAll | .strFromCode | .strFromInt =>
    .ok (.known .string)
  | .strToRe | .reNone | .reAll | .reAllChar | .reConcat | .reUnion | .reInter | .reStar | .reComp | .reDiff | .rePlus | .reOpt | .reRange =>
    .ok (.known .regLan)
  | .pow2 | .log2 => .ok (.known .int)
  | .rareList => .ok (.known .rareList)

/-- An index of an operator, which the code takes to be an integer constant. -/
def indexAt (ps : List Term) (i : Nat) : PRes Int := do getPanic (← getPanic ps[i]?).asInteger

/-- `ast/pool/mod.rs:313-350`. -/
def popPoolSort (o : ParamOp) (ps : List Term) (ss : List (PRes PSrt)) : PRes PSrt :=
  match o with
  | .bvExtract => do
    let i ← unwrapUsize (← indexAt ps 0)
    let j ← unwrapUsize (← indexAt ps 1)
    if j ≤ i then .ok (.known (.bv (i - j + 1))) else .error .panic
  | .zeroExtend | .signExtend => do
    let i ← unwrapUsize (← indexAt ps 0)
    match ← argSort ss 0 with
    | .known (.bv w) => .ok (.known (.bv (i + w)))
    | _ => .error .panic
  | .rotateLeft | .rotateRight => argSort ss 0
  | .repeat => do
    let i ← indexAt ps 0
    match ← argSort ss 0 with
    | .known (.bv w) => do
      let w ← unwrapUsize (i * w)
      .ok (.known (.bv w))
    | _ => .error .panic
  | .bvConst => .error .panic
  | .intToBv => do
    let w ← unwrapUsize (← indexAt ps 0)
    .ok (.known (.bv w))
  | .bvBitOf => .ok (.known .bool)
  | .bvIntOf => .ok (.known .int)
  | .rePower | .reLoop => .ok (.known .regLan)
  | .arrayConst => .error .unmodelled

mutual
/-- `ast/pool/mod.rs:73-356 compute_sort`; the cache is left out. -/
def poolSort : Term → PRes PSrt
  | .const c => .ok (.known c.sort)
  | .var _ s => .ok (.known s)
  | .op o as => opPoolSort o as (poolSorts as)
  | .app f _ => do
    match ← poolSort f with
    | .known (.fn _ r) => .ok (.known r)
    | _ => .error .panic
  | .binder b bs t =>
    match b with
    | .all | .ex => .ok (.known .bool)
    | .choice => do .ok (.known (← getPanic bs.head?).2)
    | .lambda => do
      match ← poolSort t with
      | .known r => .ok (.known (.fn (bs.map (·.2)) r))
      | .param => .error .unmodelled
  | .let_ _ t => poolSort t
  | .paramOp o ps as => popPoolSort o ps (poolSorts as)
def poolSorts : List Term → List (PRes PSrt)
  | [] => []
  | t :: ts => poolSort t :: poolSorts ts
end

/-! ## Checks on sorts, `parser/error.rs:157-285` -/

/-- `SortError::assert_eq`. -/
def assertSort (expected got : PSrt) : PRes Unit := need (expected = got ∨ expected = .param ∨ got = .param)

/-- `SortError::assert_eq` for each of a list. -/
def assertSorts (expected : PSrt) : List PSrt → PRes Unit
  | [] => .ok ()
  | s :: ss => do
    assertSort expected s
    assertSorts expected ss

/-- `SortError::assert_all_eq`: neighbours are compared. -/
def assertAllEq : List PSrt → PRes Unit
  | s :: s' :: ss => do
    assertSort s s'
    assertAllEq (s' :: ss)
  | _ => .ok ()

/-- `SortError::assert_one_of(&[Sort::Int, Sort::Real], …)`. -/
def assertNumeric (s : PSrt) : PRes Unit := need (s = .known .int ∨ s = .known .real ∨ s = .param)

def assertNumerics : List PSrt → PRes Unit
  | [] => .ok ()
  | s :: ss => do
    assertNumeric s
    assertNumerics ss

/-- `SortError::assert_array_sort`; the sort of the array is not `ParamSort(_, Var("Array"))`. -/
def assertArray (key value : Option PSrt) (got : PSrt) : PRes Unit :=
  match got with
  | .known (.array i e) => need (key.all (· = .known i) ∧ value.all (· = .known e))
  | _ => .error .err

/-- `matches!(s, Sort::BitVec(_)) || s.is_polymorphic()`. -/
def PSrt.isBv : PSrt → Bool
  | .known (.bv _) | .param => true
  | _ => false

def assertBvs : List PSrt → PRes Unit
  | [] => .ok ()
  | s :: ss => do
    need (s.isBv = true)
    assertBvs ss

/-! ## Building terms -/

/-- `define-fun` with parameters `params`, `parser/mod.rs:104-107`. -/
structure FunDef where
  params : List (String × Srt)
  body : Term
deriving DecidableEq

/-- `parser/mod.rs:143-148`. -/
structure SortDef where
  params : List String
  body : Srt
deriving DecidableEq

/-- What the parser knows while it reads a term: the configuration (`parser/mod.rs:29-55`), whether integers are read as reals (`239-241`), and the
tables (`150-158`) that do not change. -/
structure PEnv where
  strict : Bool := false
  expandLets : Bool := false
  subtyping : Bool := false
  intsAsReals : Bool := false
  sortDecls : List (String × Nat) := []
  sortDefs : List (String × SortDef) := []
  vars : List (String × Srt) := []
deriving DecidableEq

/-- `insert_sorted_var` in a new scope, for a list of variables. -/
def PEnv.bind (E : PEnv) (bs : List (String × Srt)) : PEnv := { E with vars := bs.reverse ++ E.vars }

/-- `Substitution::new(…).unwrap().apply(…)`, for a map that is collected from `m`. -/
def substituted (m : List (Term × Term)) (body : Term) : PRes Term :=
  if m.any fun p => poolSort p.2 = .ok .param then .error .panic
  else if m.any (fun p => (sortOf p.2).isNone) || (sortOf body).isNone then .error .unmodelled
  else do
    let σ ← getPanic (Subst.new (m.foldl (fun m p => mapInsert m p.1 p.2) [])).toOption
    .ok (← ofRes (σ.apply body)).1

/-- The sorts of the arguments are those of the parameters, in order. -/
def assertParams : List Srt → List Term → PRes Unit
  | s :: ss, t :: ts => do
    assertSort (.known s) (← poolSort t)
    assertParams ss ts
  | _, _ => .ok ()

/-- `parser/mod.rs:109-137 FunctionDef::apply`. -/
def FunDef.apply (f : FunDef) (args : List Term) : PRes Term := do
  need (args.length = f.params.length)
  if args.isEmpty then .ok f.body
  else do
    assertParams (f.params.map (·.2)) args
    substituted ((f.params.map fun p => Term.var p.1 p.2).zip args) f.body

/-- An argument of `/` that is an integer, `parser/mod.rs:532-538`. -/
def PEnv.literal (E : PEnv) : Term → Option Int
  | .const (.int z) => some z
  | .const (.real q) => if E.intsAsReals ∧ q.den = 1 then some q.num else none
  | _ => none

/-- `parser/mod.rs:527-546 interpret_div_as_real_lit`. -/
def PEnv.divLiteral (E : PEnv) (a b : Term) : Option Term := do
  let a ← E.literal a
  let b ← E.literal b
  if 0 < a ∧ 0 < b ∧ ¬ (a = 1 ∧ b = 1) ∧ Int.gcd a b = 1 then some (.const (.real (a / b))) else none

/-- The checks of `parser/mod.rs:247-523`, on the sorts of the arguments. Between `assert_num_args` and the use of an index, the index is in range. -/
def checkOp (E : PEnv) (o : Op) (ss : List PSrt) : PRes Unit :=
  let n := ss.length
  let at_ (i : Nat) : PRes PSrt := getPanic ss[i]?
  let sort (i : Nat) (s : Srt) : PRes Unit := do assertSort (.known s) (← at_ i)
  match o with
  | .tru | .fls => need (n = 0)
  | .not => do
    need (n = 1)
    sort 0 .bool
  | .implies => do
    need (2 ≤ n)
    assertSorts (.known .bool) ss
  | .or | .and | .xor => do
    need ((if E.strict then 2 else 1) ≤ n)
    assertSorts (.known .bool) ss
  | .equals | .distinct => do
    need (2 ≤ n)
    assertAllEq ss
  | .ite => do
    need (n = 3)
    sort 0 .bool
    assertSort (← at_ 1) (← at_ 2)
  | .add | .sub | .mult => do
    need ((if o = .sub then 1 else 2) ≤ n)
    if E.subtyping then assertNumerics ss
    else do
      assertNumeric (← at_ 0)
      assertAllEq ss
  | .intDiv => do
    need (2 ≤ n)
    sort 0 .int
    assertAllEq ss
  | .realDiv => do
    need (2 ≤ n)
    if E.subtyping then assertNumerics ss
    else do
      sort 0 .real
      assertAllEq ss
  | .mod => do
    need (n = 2)
    sort 0 .int
    sort 1 .int
  | .abs => do
    need (n = 1)
    if E.subtyping then do assertNumeric (← at_ 0) else sort 0 .int
  | .lt | .gt | .le | .ge => do
    need (2 ≤ n)
    assertNumerics ss
  | .toReal => do
    need (n = 1)
    sort 0 .int
  | .toInt | .isInt => do
    need (n = 1)
    sort 0 .real
  | .select => do
    need (n = 2)
    assertArray (some (← at_ 1)) none (← at_ 0)
  | .store => do
    need (n = 3)
    assertArray (some (← at_ 1)) (some (← at_ 2)) (← at_ 0)
  | .strConcat => do
    need (2 ≤ n)
    assertSorts (.known .string) ss
  | .strLen | .strIsDigit | .strToCode | .strToInt | .strToRe => do
    need (n = 1)
    sort 0 .string
  | .strLessThan | .strLessEq | .prefixOf | .suffixOf | .contains | .reRange => do
    need (n = 2)
    sort 0 .string
    sort 1 .string
  | .charAt => do
    need (n = 2)
    sort 0 .string
    sort 1 .int
  | .substring => do
    need (n = 3)
    sort 0 .string
    sort 1 .int
    sort 2 .int
  | .indexOf => do
    need (n = 3)
    sort 0 .string
    sort 1 .string
    sort 2 .int
  | .replace | .replaceAll => do
    need (n = 3)
    sort 0 .string
    sort 1 .string
    sort 2 .string
  | .strFromCode | .strFromInt => do
    need (n = 1)
    sort 0 .int
  | .strInRe => do
    need (n = 2)
    sort 0 .string
    sort 1 .regLan
  | .reNone | .reAll | .reAllChar => need (n = 0)
  | .reConcat | .reUnion | .reInter | .reDiff => do
    need (2 ≤ n)
    assertSorts (.known .regLan) ss
  | .reStar | .reComp | .rePlus | .reOpt => do
    need (n = 1)
    sort 0 .regLan
  | .replaceRe | .replaceReAll => do
    need (n = 3)
    sort 0 .string
    sort 1 .regLan
    sort 2 .string
  | .bvNot | .bvNeg | .bvSize | .ubvToInt | .sbvToInt => do
    need (n = 1)
    assertBvs ss
  | .bvBbTerm => do
    need (1 ≤ n)
    sort 0 .bool
    assertAllEq ss
  | .bvPBbTerm => do
    need (1 ≤ n)
    sort 0 .int
    assertAllEq ss
  | .bvConst => do
    need (n = 2)
    sort 0 .int
    sort 1 .int
  | .bvConcat => do
    need (2 ≤ n)
    assertBvs ss
  | .cl => .ok ()
  | .delete => do
    sort 0 .bool
    need (n = 1)
  | .bvAdd | .bvMul | .bvAnd | .bvOr | .bvXor => do
    need (2 ≤ n)
    need ((← at_ 0).isBv = true)
    assertAllEq ss
  | .bvUDiv | .bvURem | .bvShl | .bvLShr | .bvULt | .bvNAnd | .bvNOr | .bvXNor | .bvComp | .bvSub | .bvSDiv | .bvSRem | .bvSMod | .bvAShr
  | .bvULe | .bvUGt | .bvUGe | .bvSLt | .bvSLe | .bvSGt | .bvSGe => do
    need (n = 2)
    need ((← at_ 0).isBv = true)
    assertAllEq ss
  | .pow2 | .log2 | .isPow2 => do
    need (n = 1)
    sort 0 .int
  | .rareList => assertAllEq ss

/-- `parser/mod.rs:244-525 make_op`. -/
def makeOp (E : PEnv) (o : Op) (args : List Term) : PRes Term := do
  let ss ← PRes.all (poolSorts args)
  checkOp E o ss
  match o, args with
  | .realDiv, a :: b :: _ => .ok ((E.divLiteral a b).getD (.op .realDiv args))
  | _, _ => .ok (.op o args)

/-- `parser/mod.rs:549-594 make_app`. -/
def makeApp (f : Term) (args : List Term) : PRes Term := do
  match ← poolSort f with
  | .known (.fn ss _) => do
    need (args.length = ss.length)
    assertParams ss args
    .ok (.app f args)
  | _ => .error .err

/-- `parser/mod.rs:226-236 make_var`. -/
def makeVar (E : PEnv) (x : String) : PRes Term := do .ok (.var x (← getErr (E.vars.lookup x)))

/-- `assert_indexed_op_args_value(…, 0..)`, `parser/error.rs:172-186`. -/
def assertIndices : List Term → PRes Unit
  | [] => .ok ()
  | p :: ps => do
    need (p.asInteger.all (0 ≤ ·))
    assertIndices ps

/-- The indices are integer constants, e.g. `parser/mod.rs:1596-1602`. -/
def assertConstants : List Term → PRes Unit
  | [] => .ok ()
  | .const c :: ps => do
    assertSort (.known .int) (.known c.sort)
    assertConstants ps
  | _ :: _ => .error .err

/-- `matches!(s, Sort::BitVec(_))`. -/
def assertKnownBv : PSrt → PRes Nat
  | .known (.bv w) => .ok w
  | _ => .error .err

/-- `parser/mod.rs:1561-1667 make_indexed_op`. -/
def makeIndexedOp (o : ParamOp) (ps args : List Term) : PRes Term := do
  let ss ← PRes.all (poolSorts args)
  match o with
  | .bvConst => do
    need (ps.length = 2)
    need (args.length = 0)
    let v ← indexAt ps 0
    let w ← indexAt ps 1
    let w' ← unwrapUsize w
    need (0 ≤ v)
    need (1 ≤ w)
    .ok (.const (.bv v w'))
  | .bvExtract => do
    need (ps.length = 2)
    need (args.length = 1)
    let m ← assertKnownBv (← getPanic ss[0]?)
    assertConstants ps
    assertIndices ps
    let i ← unwrapUsize (← indexAt ps 0)
    let j ← unwrapUsize (← indexAt ps 1)
    need (i < m ∧ j ≤ i)
    .ok (.paramOp o ps args)
  | .intToBv => do
    need (ps.length = 1)
    need (args.length = 1)
    assertConstants ps
    assertSort (.known .int) (← getPanic ss[0]?)
    .ok (.paramOp o ps args)
  | .bvBitOf | .bvIntOf | .zeroExtend | .signExtend | .rotateLeft | .rotateRight | .repeat => do
    need (ps.length = 1)
    need (args.length = 1)
    assertConstants ps
    let _ ← assertKnownBv (← getPanic ss[0]?)
    assertIndices ps
    .ok (.paramOp o ps args)
  | .rePower => do
    need (ps.length = 1)
    need (args.length = 1)
    assertConstants ps
    assertSort (.known .regLan) (← getPanic ss[0]?)
    assertIndices ps
    .ok (.paramOp o ps args)
  | .reLoop => do
    need (ps.length = 2)
    need (args.length = 1)
    assertConstants ps
    assertSort (.known .regLan) (← getPanic ss[0]?)
    assertIndices ps
    .ok (.paramOp o ps args)
  | .arrayConst => .error .err

/-! ## Building sorts -/

mutual
/-- `Substitution::apply` on sorts, `ast/substitution.rs:196-262`. -/
def Srt.subst (m : List (Srt × Srt)) : Srt → Srt
  | .array i e => (mapGet m (.array i e)).getD (.array (i.subst m) (e.subst m))
  | .fn as r => (mapGet m (.fn as r)).getD (.fn (Srt.substL m as) (r.subst m))
  | .atom n as => (mapGet m (.atom n as)).getD (.atom n (Srt.substL m as))
  | s => (mapGet m s).getD s
def Srt.substL (m : List (Srt × Srt)) : List Srt → List Srt
  | [] => []
  | s :: ss => s.subst m :: Srt.substL m ss
end

/-- `parser/mod.rs:1826-1889 make_sort`, without polymorphic sorts. -/
def makeSort (E : PEnv) (name : String) (args : List Srt) : PRes Srt :=
  if (name = "Bool" ∨ name = "Int" ∨ name = "Real" ∨ name = "String" ∨ name = "RegLan") ∧ args ≠ [] then .error .err
  else if name = "Bool" then .ok .bool
  else if name = "Int" then .ok .int
  else if name = "Real" then .ok .real
  else if name = "String" then .ok .string
  else if name = "RegLan" then .ok .regLan
  else if name = "Type" then .error .unmodelled
  else if name = "Array" then
    match args with
    | [x, y] => .ok (.array x y)
    | _ => .error .err
  else match E.sortDefs.lookup name with
    | some d => do
      need (d.params.length = args.length)
      .ok (if d.params.isEmpty then d.body
        else d.body.subst (((d.params.map fun p => Srt.atom p []).zip args).foldl (fun m p => mapInsert m p.1 p.2) []))
    | none => match E.sortDecls.lookup name with
      | some arity => do
        need (arity = args.length)
        .ok (.atom name args)
      | none => .error .err

/-- `parser/mod.rs:1891-1911 make_indexed_sort`. -/
def makeIndexedSort (name : String) (args : List Term) : PRes Srt :=
  if name = "BitVec" then
    match args with
    | [a] => match a.asInteger with
      | some w => do .ok (.bv (← unwrapUsize w))
      | none => .error .err
    | _ => .error .err
  else .error .err

/-! ## Reading -/

/-- What changes while a term is read: the remaining tokens, and the function definitions, to which `:named` adds. -/
structure ReadState where
  toks : List Token
  defs : List (String × FunDef) := []
deriving DecidableEq

/-- A reader. -/
def Reader (α : Type) : Type := ReadState → PRes (α × ReadState)

namespace Reader

instance : Monad Reader where
  pure a := fun st => .ok (a, st)
  bind r f := fun st => match r st with
    | .ok (a, st) => f a st
    | .error e => .error e

def fail {α : Type} (e : PFault) : Reader α := fun _ => .error e

/-- A result that does not depend on the input. -/
def lift {α : Type} (r : PRes α) : Reader α := fun st => match r with
  | .ok a => .ok (a, st)
  | .error e => .error e

/-- `self.current_token`. -/
def current : Reader Token := fun st => .ok (st.toks.headD .eof, st)

/-- `parser/mod.rs:201-208 next_token`. -/
def next : Reader Token := fun st => .ok (st.toks.headD .eof, { st with toks := st.toks.tail })

/-- `self.state.function_defs.get(s)`. -/
def definition (s : String) : Reader (Option FunDef) := fun st => .ok (st.defs.lookup s, st)

/-- `self.state.function_defs.insert(s, f)`. -/
def define (s : String) (f : FunDef) : Reader Unit := fun st => .ok ((), { st with defs := mapInsert st.defs s f })

/-- `parser/mod.rs:597-604 expect_token`. -/
def expect (t : Token) : Reader Unit := do
  if (← next) = t then pure () else fail .err

/-- `parser/mod.rs:608-613 expect_symbol`. -/
def expectSymbol : Reader String := do
  match ← next with
  | .symbol s => pure s
  | _ => fail .err

/-- `parser/mod.rs:617-622 expect_keyword`. -/
def expectKeyword : Reader String := do
  match ← next with
  | .keyword s => pure s
  | _ => fail .err

end Reader

open Reader

/-- `parser/mod.rs:657-673 read_until_close_parens`; the number of open parentheses is one more than the counter. -/
def skipClose : Nat → List Token → PRes (List Token)
  | _, [] | _, .eof :: _ => .error .err
  | 0, .closeParen :: ts => .ok ts
  | d + 1, .closeParen :: ts => skipClose d ts
  | d, .openParen :: ts => skipClose (d + 1) ts
  | d, _ :: ts => skipClose d ts

/-- `parser/mod.rs:676-679 ignore_until_close_parens`. -/
def ignoreUntilClose : Reader Unit := fun st => match skipClose 0 st.toks with
  | .ok ts => .ok ((), { st with toks := ts })
  | .error e => .error e

/-- `value.parse::<Integer>().unwrap()`, `parser/mod.rs:1507`. -/
def parseBvValue (cs : List Char) : PRes Int :=
  if cs ≠ [] ∧ cs.all Char.isDigit then .ok (ofDigits 10 cs)
  else if cs.any fun c => !(c.isDigit || c == '+' || c == '-' || c == '_' || isWhiteSpace c) then .error .panic
  else if cs = [] then .error .panic
  else .error .unmodelled

/-- The operator of an indexed term, `parser/mod.rs:1506-1531`: a bit vector with its value, or another operator. -/
def indexedHead (s : String) : PRes (ParamOp × List Term) :=
  match s.toList with
  | 'b' :: 'v' :: cs => do .ok (.bvConst, [.const (.int (← parseBvValue cs))])
  | _ => do .ok (← getErr (ParamOp.ofName s), [])

/-- `parser/mod.rs:1510-1519, 1532-1542`. -/
def constantArgs : List Term → PRes (List Term)
  | [] => .ok []
  | t :: ts => do
    let z ← getErr t.asSignedInteger
    let zs ← constantArgs ts
    .ok (.const (.int z) :: zs)

/-- `parse_sequence` with `non_empty`: what was read may not be empty. -/
def nonEmpty {α : Type} (as : List α) : Reader (List α) := if as.isEmpty then fail .err else pure as

/-- One attribute of an annotated term, `parser/mod.rs:1464-1496`. -/
def parseAttribute (inner : Term) : Reader Unit := do
  let a ← expectKeyword
  if a = "named" then do
    let s ← expectSymbol
    define s ⟨[], inner⟩
  else do
    match ← current with
    | .openParen => do
      let _ ← next
      ignoreUntilClose
    | .keyword _ | .closeParen | .eof => pure ()
    | _ => do
      let _ ← next
      pure ()

/-- The attributes of an annotated term up to the parenthesis. -/
def parseAttributes (inner : Term) : Nat → Reader (List Unit)
  | 0 => fail .fuel
  | n + 1 => do
    if (← current) = .closeParen then do
      let _ ← next
      pure []
    else do
      parseAttribute inner
      let us ← parseAttributes inner n
      pure (() :: us)

/-- The variables of a `let`, with the sorts of their values. -/
def letVars : List (String × Term) → PRes (List (String × Srt))
  | [] => .ok []
  | (x, t) :: bs => do
    match ← poolSort t with
    | .known s => do
      let bs ← letVars bs
      .ok ((x, s) :: bs)
    | .param => .error .unmodelled

/-- The substitution of a `let`, `parser/mod.rs:1440-1449`. -/
def letMap : List (String × Term) → PRes (List (Term × Term))
  | [] => .ok []
  | (x, t) :: bs => do
    match ← poolSort t with
    | .known s => do
      let bs ← letMap bs
      .ok ((.var x s, t) :: bs)
    | .param => .error .unmodelled

mutual
/-- `parser/mod.rs:1328-1355 parse_term`. -/
def parseTerm : Nat → PEnv → Reader Term
  | 0, _ => fail .fuel
  | n + 1, E => do
    match ← next with
    | .bitvector v w => pure (.const (.bv v w))
    | .numeral z => pure (.const (if E.intsAsReals then .real z else .int z))
    | .decimal q => pure (.const (.real q))
    | .str s => pure (.const (.str s))
    | .symbol s => do
      match ← definition s with
      | some f => lift (f.apply [])
      | none => match Op.ofName s with
        | some o => lift (makeOp E o [])
        | none => lift (makeVar E s)
    | .openParen => parseApplication n E
    | _ => fail .err

/-- `parser/mod.rs:637-654 parse_sequence` of terms. -/
def parseTerms : Nat → PEnv → Reader (List Term)
  | 0, _ => fail .fuel
  | n + 1, E => do
    if (← current) = .closeParen then do
      let _ ← next
      pure []
    else do
      let t ← parseTerm n E
      let ts ← parseTerms n E
      pure (t :: ts)

/-- `parser/mod.rs:1371-1378 parse_term_expecting_sort`. -/
def parseSorted : Nat → PEnv → Srt → Reader Term
  | 0, _, _ => fail .fuel
  | n + 1, E, s => do
    let t ← parseTerm n E
    lift (do assertSort (.known s) (← poolSort t))
    pure t

/-- `parser/mod.rs:1319-1325 parse_sorted_var`. -/
def parseSortedVar : Nat → PEnv → Reader (String × Srt)
  | 0, _ => fail .fuel
  | n + 1, E => do
    expect .openParen
    let x ← expectSymbol
    let s ← parseSort n E
    expect .closeParen
    pure (x, s)

/-- The variables of a binder, `parser/mod.rs:1390-1397`. The sort of a variable may mention the variables before it (in the width of a bit
vector), so they are added one by one. -/
def parseSortedVars : Nat → PEnv → Reader (List (String × Srt))
  | 0, _ => fail .fuel
  | n + 1, E => do
    if (← current) = .closeParen then do
      let _ ← next
      pure []
    else do
      let b ← parseSortedVar n E
      let bs ← parseSortedVars n (E.bind [b])
      pure (b :: bs)

/-- `parser/mod.rs:1381-1406 parse_binder`. -/
def parseBinder : Nat → PEnv → Binder → Reader Term
  | 0, _, _ => fail .fuel
  | n + 1, E, b => do
    expect .openParen
    let bs ← (if b = .choice then do
        let v ← parseSortedVar n E
        expect .closeParen
        pure [v]
      else do
        let bs ← parseSortedVars n E
        nonEmpty bs)
    let t ← (if b = .lambda then parseTerm n (E.bind bs) else parseSorted n (E.bind bs) .bool)
    expect .closeParen
    pure (.binder b bs t)

/-- The bindings of a `let`, `parser/mod.rs:1415-1424`. -/
def parseBindings : Nat → PEnv → Reader (List (String × Term))
  | 0, _ => fail .fuel
  | n + 1, E => do
    if (← current) = .closeParen then do
      let _ ← next
      pure []
    else do
      expect .openParen
      let x ← expectSymbol
      let t ← parseTerm n E
      expect .closeParen
      let bs ← parseBindings n E
      pure ((x, t) :: bs)

/-- `parser/mod.rs:1410-1456 parse_let_term`; `expand` tells whether the `let` is eliminated. -/
def parseLet : Nat → PEnv → Bool → Reader Term
  | 0, _, _ => fail .fuel
  | n + 1, E, expand => do
    expect .openParen
    let bs ← parseBindings n E
    let bs ← nonEmpty bs
    let vs ← lift (letVars bs)
    let t ← parseTerm n (E.bind vs)
    expect .closeParen
    if expand then lift (do substituted (← letMap bs) t) else pure (.let_ bs t)

/-- `parser/mod.rs:1461-1501 parse_annotated_term`. -/
def parseAnnotated : Nat → PEnv → Reader Term
  | 0, _ => fail .fuel
  | n + 1, E => do
    let t ← parseTerm n E
    let us ← parseAttributes t n
    let _ ← nonEmpty us
    pure t

/-- `parser/mod.rs:1503-1545 parse_indexed_operator`. -/
def parseIndexed : Nat → PEnv → Reader (ParamOp × List Term)
  | 0, _ => fail .fuel
  | n + 1, E => do
    let s ← expectSymbol
    let (o, vs) ← lift (indexedHead s)
    let ts ← parseTerms n E
    let ts ← nonEmpty ts
    let zs ← lift (constantArgs ts)
    pure (o, vs ++ zs)

/-- `parser/mod.rs:1696-1824 parse_application`, after the parenthesis. -/
def parseApplication : Nat → PEnv → Reader Term
  | 0, _ => fail .fuel
  | n + 1, E => do
    match ← current with
    | .reserved r => do
      let _ ← next
      match r with
      | .underscore => do
        let (o, ps) ← parseIndexed n E
        lift (makeIndexedOp o ps [])
      | .as => fail .unmodelled
      | .exists => parseBinder n E .ex
      | .forall => parseBinder n E .all
      | .choice => parseBinder n E .choice
      | .lambda => parseBinder n E .lambda
      | .bang => parseAnnotated n E
      | .let => parseLet n E E.expandLets
      | .cl => do
        let args ← parseTerms n E
        lift (makeOp E .cl args)
      | _ => fail .err
    | .symbol s => do
      match Op.ofName s with
      | some o => do
        let _ ← next
        let args ← parseTerms n E
        let args ← nonEmpty args
        lift (makeOp E o args)
      | none =>
        if s = "eo" then do
          let _ ← next
          let _ ← expectKeyword
          expect (.keyword "define")
          parseLet n E true
        else do
          match ← definition s with
          | some _ => do
            let _ ← next
            let args ← parseTerms n E
            let args ← nonEmpty args
            let f ← definition s
            lift (do (← getPanic f).apply args)
          | none => do
            let f ← parseTerm n E
            let args ← parseTerms n E
            let args ← nonEmpty args
            lift (makeApp f args)
    | .openParen => do
      let _ ← next
      match ← current with
      | .reserved .underscore => do
        let _ ← next
        let (o, ps) ← parseIndexed n E
        let args ← parseTerms n E
        let args ← nonEmpty args
        lift (makeIndexedOp o ps args)
      | .reserved .as => fail .unmodelled
      | _ => do
        let f ← parseApplication n E
        let args ← parseTerms n E
        let args ← nonEmpty args
        lift (makeApp f args)
    | _ => do
      let f ← parseTerm n E
      let args ← parseTerms n E
      let args ← nonEmpty args
      lift (makeApp f args)

/-- `parser/mod.rs:1914-1954 parse_sort`, without polymorphic sorts. -/
def parseSort : Nat → PEnv → Reader Srt
  | 0, _ => fail .fuel
  | n + 1, E => do
    match ← next with
    | .symbol s => lift (makeSort E s [])
    | .openParen => do
      if (← current) = .reserved .underscore then do
        let _ ← next
        let name ← expectSymbol
        let args ← parseTerms n E
        let args ← nonEmpty args
        lift (makeIndexedSort name args)
      else do
        let name ← expectSymbol
        let args ← parseSorts n E
        let args ← nonEmpty args
        lift (makeSort E name args)
    | _ => fail .err

/-- `parser/mod.rs:637-654 parse_sequence` of sorts. -/
def parseSorts : Nat → PEnv → Reader (List Srt)
  | 0, _ => fail .fuel
  | n + 1, E => do
    if (← current) = .closeParen then do
      let _ ← next
      pure []
    else do
      let s ← parseSort n E
      let ss ← parseSorts n E
      pure (s :: ss)
end

/-- The literals of a clause, `parser/mod.rs:1315`. -/
def parseLiterals : Nat → PEnv → Reader (List Term)
  | 0, _ => fail .fuel
  | n + 1, E => do
    if (← current) = .closeParen then do
      let _ ← next
      pure []
    else do
      let t ← parseSorted n E .bool
      let ts ← parseLiterals n E
      pure (t :: ts)

/-- `parser/mod.rs:1312-1316 parse_clause`. -/
def parseClause (n : Nat) (E : PEnv) : Reader (List Term) := do
  expect .openParen
  expect (.reserved .cl)
  parseLiterals n E

end Carcara
