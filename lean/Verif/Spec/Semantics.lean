import Mathlib.Data.Real.Basic
import Mathlib.Algebra.Order.Archimedean.Real.Basic
import Verif.Model.Sorts

/-!
# Specification: the meaning of terms, clauses and entailment

This file is independent of the checker: it is the many-sorted semantics of SMT-LIB, for the syntax of
`Verif.Model.Term`.
-/

namespace Carcara

open Classical

/-- Semantic values over a type `U` of "all other" objects (arrays, functions, uninterpreted sorts, …). -/
inductive Val (U : Type) where
  | bool (b : Bool)
  | int (z : ℤ)
  | real (r : ℝ)
  | str (s : String)
  | bv (w : ℕ) (v : BitVec w)
  | other (u : U)

namespace Val
variable {U : Type}

/-- The Boolean value of a proposition. -/
noncomputable def prop (p : Prop) : Val U := .bool (decide p)

/-- "is the value true". -/
def T : Val U → Prop
  | .bool true => True
  | _ => False

@[simp] theorem T_prop (p : Prop) : (prop p : Val U).T ↔ p := by
  by_cases h : p <;> simp [prop, T, h]

@[simp] theorem T_bool (b : Bool) : (Val.bool b : Val U).T ↔ b = true := by
  cases b <;> simp [T]

/-- The numeric value of an integer or real. -/
noncomputable def num : Val U → Option ℝ
  | .int z => some z
  | .real r => some r
  | _ => none

/-- All values are integers. -/
def asInts : List (Val U) → Option (List ℤ)
  | [] => some []
  | .int z :: vs => (asInts vs).map (z :: ·)
  | _ => none

/-- All values are numbers. -/
noncomputable def asNums : List (Val U) → Option (List ℝ)
  | [] => some []
  | v :: vs => match v.num, asNums vs with
    | some r, some rs => some (r :: rs)
    | _, _ => none

/-- All values are bit-vectors of width `w`. -/
def asBvs (w : ℕ) : List (Val U) → Option (List (BitVec w))
  | [] => some []
  | .bv w' v :: vs => if h : w' = w then (asBvs w vs).map ((h ▸ v) :: ·) else none
  | _ => none

end Val

/-- Assignment of values to sorted variables. Globals (declared constants and functions) and bound variables
live in the same name space, as in the code (`Term::Var(name, sort)`). -/
abbrev Env (U : Type) := String → Srt → Val U

/-- Update of a sorted variable. -/
def Env.set {U} (ρ : Env U) (x : String) (s : Srt) (v : Val U) : Env U :=
  fun y t => if y = x ∧ t = s then v else ρ y t

/-- Simultaneous update along a binding list (a later binding of the same variable wins). -/
def Env.setMany {U} (ρ : Env U) : List (String × Srt) → List (Val U) → Env U
  | (x, s) :: bs, v :: vs => (ρ.set x s v).setMany bs vs
  | _, _ => ρ

/-- An interpretation: everything except the values of the variables. `dom s v` says that `v` belongs to the
carrier of the sort `s`. -/
structure Interp where
  /-- objects that are not booleans, numbers, strings or bit-vectors -/
  U : Type
  /-- carriers -/
  dom : Srt → Val U → Prop
  dom_bool : ∀ v, dom .bool v ↔ ∃ b, v = .bool b
  dom_int : ∀ v, dom .int v ↔ ∃ z, v = .int z
  dom_real : ∀ v, dom .real v ↔ ∃ r, v = .real r
  dom_string : ∀ v, dom .string v ↔ ∃ r, v = .str r
  dom_bv : ∀ w v, dom (.bv w) v ↔ ∃ b, v = .bv w b
  dom_nonempty : ∀ s, ∃ v, dom s v
  /-- application of a function value -/
  app : Val U → List (Val U) → Val U
  app_dom : ∀ ss r f vs, dom (.fn ss r) f → List.Forall₂ dom ss vs → dom r (app f vs)
  /-- meaning of operators where the standard fixes none -/
  op : Op → List (Val U) → Val U
  op_dom : ∀ o ss r vs, opSort o ss = some r → List.Forall₂ dom ss vs → dom r (op o vs)
  /-- meaning of indexed operators where the standard fixes none -/
  pop : ParamOp → List (Val U) → List (Val U) → Val U
  pop_dom : ∀ o ps vs, o = .rePower ∨ o = .reLoop → dom .regLan (pop o ps vs)
  /-- integer division, modulus and real division by zero are arbitrary functions -/
  divZero : ℤ → ℤ
  modZero : ℤ → ℤ
  realDivZero : ℝ → ℝ
  /-- Hilbert choice -/
  eps : Srt → (Val U → Prop) → Val U
  eps_dom : ∀ s P, dom s (eps s P)
  eps_spec : ∀ s (P : Val U → Prop) v, dom s v → P v → P (eps s P)
  /-- function values of lambda terms -/
  lam : List Srt → (List (Val U) → Val U) → Val U
  lam_dom : ∀ ss r f, (∀ vs, List.Forall₂ dom ss vs → dom r (f vs)) → dom (.fn ss r) (lam ss f)

namespace Interp
variable (I : Interp)

/-- SMT-LIB integer division: Euclidean; arbitrary for divisor 0. -/
def idiv (a b : ℤ) : ℤ := if b = 0 then I.divZero a else a / b

/-- SMT-LIB modulus: Euclidean; arbitrary for divisor 0. -/
def imod (a b : ℤ) : ℤ := if b = 0 then I.modZero a else a % b

/-- SMT-LIB real division; arbitrary for divisor 0. -/
noncomputable def rdiv (a b : ℝ) : ℝ := if b = 0 then I.realDivZero a else a / b

end Interp

namespace Sem
variable {U : Type}

/-- Right-associative implication. -/
def impl : List (Val U) → Prop
  | [] => True
  | [a] => a.T
  | a :: as => a.T → impl as

/-- Exclusive or: an odd number of true arguments. -/
def xorL : List (Val U) → Prop
  | [] => False
  | a :: as => ¬ (a.T ↔ xorL as)

/-- A relation holds between all neighbours. -/
def chain {α : Type} (r : α → α → Prop) : List α → Prop
  | a :: b :: l => r a b ∧ chain r (b :: l)
  | _ => True

end Sem

open Val Sem

/-- A binary operation on two bit-vectors of the same width. -/
def bvBin {U} (f : (w : ℕ) → BitVec w → BitVec w → Val U) : List (Val U) → Option (Val U)
  | [.bv w a, .bv w' b] => if h : w' = w then some (f w a (h ▸ b)) else none
  | _ => none

/-- An associative operation on one or more bit-vectors of the same width. -/
def bvNary {U} (f : (w : ℕ) → BitVec w → BitVec w → BitVec w) : List (Val U) → Option (Val U)
  | .bv w a :: vs => (asBvs w vs).map fun bs => .bv w (bs.foldl (f w) a)
  | _ => none

/-- One step of concatenation. -/
def concatStep {U} : Option (Val U) → Val U → Option (Val U)
  | some (.bv w a), .bv w' b => some (.bv (w + w') (a ++ b))
  | _, _ => none

/-- Concatenation of one or more bit-vectors, most significant first. -/
def bvConcat {U} : List (Val U) → Option (Val U)
  | [] => none
  | v :: vs => vs.foldl concatStep (some v)

/-- An operation on exactly one bit-vector. -/
def bvUn {U} (f : (w : ℕ) → BitVec w → Val U) : List (Val U) → Option (Val U)
  | [.bv w a] => some (f w a)
  | _ => none

/-- Meaning of `+`: integer if all arguments are integers, real if all are numbers. -/
noncomputable def stdAdd {U} (vs : List (Val U)) : Option (Val U) :=
  match asInts vs, asNums vs with
  | some zs, _ => some (.int zs.sum)
  | none, some rs => some (.real rs.sum)
  | _, _ => none

/-- Left-associated subtraction; negation for one argument. -/
def subL {α : Type} [Sub α] [Neg α] [Zero α] : List α → α
  | [] => 0
  | [z] => -z
  | z :: zs => zs.foldl (· - ·) z

/-- Meaning of `-`. -/
noncomputable def stdSub {U} (vs : List (Val U)) : Option (Val U) :=
  if vs = [] then none else
  match asInts vs, asNums vs with
  | some zs, _ => some (.int (subL zs))
  | none, some rs => some (.real (subL rs))
  | _, _ => none

/-- Meaning of `*`. -/
noncomputable def stdMult {U} (vs : List (Val U)) : Option (Val U) :=
  match asInts vs, asNums vs with
  | some zs, _ => some (.int zs.prod)
  | none, some rs => some (.real rs.prod)
  | _, _ => none

/-- Meaning of the chainable comparisons. -/
noncomputable def stdCmp {U} (r : ℝ → ℝ → Prop) (vs : List (Val U)) : Option (Val U) :=
  (asNums vs).map fun rs => prop (chain r rs)

/-- The fixed meaning of the theory operators. `none`: not fixed (wrong argument types, or an operator that
this model does not interpret); such applications get an arbitrary value from `Interp.op`. -/
noncomputable def stdOp (I : Interp) (o : Op) (vs : List (Val I.U)) : Option (Val I.U) :=
  match o with
  -- core theory
  | .tru => match vs with
    | [] => some (.bool true)
    | _ => none
  | .fls => match vs with
    | [] => some (.bool false)
    | _ => none
  | .not => match vs with
    | [a] => some (prop (¬ a.T))
    | _ => none
  | .implies => some (prop (impl vs))
  | .and => some (prop (∀ v ∈ vs, v.T))
  | .or => some (prop (∃ v ∈ vs, v.T))
  | .cl => some (prop (∃ v ∈ vs, v.T))
  | .xor => some (prop (xorL vs))
  | .equals => some (prop (chain (· = ·) vs))
  | .distinct => some (prop (vs.Pairwise (· ≠ ·)))
  | .ite => match vs with
    | [c, t, e] => some (if c.T then t else e)
    | _ => none
  -- arithmetic
  | .add => stdAdd vs
  | .sub => stdSub vs
  | .mult => stdMult vs
  | .intDiv => match asInts vs with
    | some (z :: zs) => some (.int (zs.foldl I.idiv z))
    | _ => none
  | .realDiv => match asNums vs with
    | some (r :: rs) => some (.real (rs.foldl I.rdiv r))
    | _ => none
  | .mod => match vs with
    | [.int a, .int b] => some (.int (I.imod a b))
    | _ => none
  | .abs => match vs with
    | [.int a] => some (.int |a|)
    | [.real a] => some (.real |a|)
    | _ => none
  | .lt => stdCmp (· < ·) vs
  | .gt => stdCmp (· > ·) vs
  | .le => stdCmp (· ≤ ·) vs
  | .ge => stdCmp (· ≥ ·) vs
  | .toReal => match vs with
    | [.int z] => some (.real z)
    | [.real z] => some (.real z)
    | _ => none
  | .toInt => match vs with
    | [.real r] => some (.int ⌊r⌋)
    | _ => none
  | .isInt => match vs with
    | [.real r] => some (prop (∃ z : ℤ, (z : ℝ) = r))
    | _ => none
  -- bit-vectors
  | .bvNot => bvUn (fun w a => .bv w (~~~a)) vs
  | .bvNeg => bvUn (fun w a => .bv w (-a)) vs
  | .bvAnd => bvNary (fun _ a b => a &&& b) vs
  | .bvOr => bvNary (fun _ a b => a ||| b) vs
  | .bvXor => bvNary (fun _ a b => a ^^^ b) vs
  | .bvAdd => bvNary (fun _ a b => a + b) vs
  | .bvMul => bvNary (fun _ a b => a * b) vs
  | .bvNAnd => bvBin (fun w a b => .bv w (~~~(a &&& b))) vs
  | .bvNOr => bvBin (fun w a b => .bv w (~~~(a ||| b))) vs
  | .bvXNor => bvBin (fun w a b => .bv w (~~~(a ^^^ b))) vs
  | .bvComp => bvBin (fun _ a b => .bv 1 (if a = b then 1#1 else 0#1)) vs
  | .bvSub => bvBin (fun w a b => .bv w (a - b)) vs
  | .bvUDiv => bvBin (fun w a b => .bv w (a.smtUDiv b)) vs
  | .bvURem => bvBin (fun w a b => .bv w (a.umod b)) vs
  | .bvSDiv => bvBin (fun w a b => .bv w (a.smtSDiv b)) vs
  | .bvSRem => bvBin (fun w a b => .bv w (a.srem b)) vs
  | .bvSMod => bvBin (fun w a b => .bv w (a.smod b)) vs
  | .bvShl => bvBin (fun w a b => .bv w (a <<< b)) vs
  | .bvLShr => bvBin (fun w a b => .bv w (a >>> b)) vs
  | .bvAShr => bvBin (fun w a b => .bv w (a.sshiftRight' b)) vs
  | .bvConcat => bvConcat vs
  | .bvULt => bvBin (fun _ a b => prop (a.toNat < b.toNat)) vs
  | .bvULe => bvBin (fun _ a b => prop (a.toNat ≤ b.toNat)) vs
  | .bvUGt => bvBin (fun _ a b => prop (a.toNat > b.toNat)) vs
  | .bvUGe => bvBin (fun _ a b => prop (a.toNat ≥ b.toNat)) vs
  | .bvSLt => bvBin (fun _ a b => prop (a.toInt < b.toInt)) vs
  | .bvSLe => bvBin (fun _ a b => prop (a.toInt ≤ b.toInt)) vs
  | .bvSGt => bvBin (fun _ a b => prop (a.toInt > b.toInt)) vs
  | .bvSGe => bvBin (fun _ a b => prop (a.toInt ≥ b.toInt)) vs
  | .ubvToInt => bvUn (fun _ a => .int a.toNat) vs
  | .sbvToInt => bvUn (fun _ a => .int a.toInt) vs
  | .bvSize => bvUn (fun w _ => .int w) vs
  | .bvBbTerm => some (.bv vs.length ((BitVec.ofBoolListLE (vs.map fun v => decide v.T)).cast (by simp)))
  | .bvPBbTerm => (asInts vs).map fun zs => .bv _ (BitVec.ofBoolListLE (zs.map fun z => decide (z = 1)))
  | .bvConst => match vs with
    | [.int v, .int w] => if 0 ≤ w then some (.bv w.toNat (BitVec.ofInt w.toNat v)) else none
    | _ => none
  -- extensions of cvc5
  | .pow2 => match vs with
    | [.int z] => some (.int (if 0 ≤ z then 2 ^ z.toNat else 0))
    | _ => none
  | .log2 => match vs with
    | [.int z] => some (.int (if 0 < z then (Nat.log2 z.toNat : ℕ) else 0))
    | _ => none
  | .isPow2 => match vs with
    | [.int z] => some (prop (∃ k : ℕ, z = 2 ^ k))
    | _ => none
  | _ => none

/-- The fixed meaning of the indexed operators. -/
noncomputable def stdPop (I : Interp) (o : ParamOp) (ps vs : List (Val I.U)) : Option (Val I.U) :=
  match o with
  | .bvExtract => match ps, vs with
    | [.int i, .int j], [.bv _ a] =>
      if 0 ≤ j ∧ j ≤ i then
        some (.bv (i.toNat - j.toNat + 1) (a.extractLsb' j.toNat (i.toNat - j.toNat + 1)))
      else none
    | _, _ => none
  | .bvBitOf => match ps, vs with
    | [.int i], [.bv _ a] => if 0 ≤ i then some (prop (a.getLsbD i.toNat = true)) else none
    | _, _ => none
  | .bvIntOf => match ps, vs with
    | [.int i], [.bv _ a] => if 0 ≤ i then some (.int (if a.getLsbD i.toNat then 1 else 0)) else none
    | _, _ => none
  | .zeroExtend => match ps, vs with
    | [.int i], [.bv w a] => if 0 ≤ i then some (.bv (i.toNat + w) (a.setWidth _)) else none
    | _, _ => none
  | .signExtend => match ps, vs with
    | [.int i], [.bv w a] => if 0 ≤ i then some (.bv (i.toNat + w) (a.signExtend _)) else none
    | _, _ => none
  | .rotateLeft => match ps, vs with
    | [.int i], [.bv w a] => if 0 ≤ i then some (.bv w (a.rotateLeft i.toNat)) else none
    | _, _ => none
  | .rotateRight => match ps, vs with
    | [.int i], [.bv w a] => if 0 ≤ i then some (.bv w (a.rotateRight i.toNat)) else none
    | _, _ => none
  | .repeat => match ps, vs with
    | [.int i], [.bv w a] => if 0 ≤ i then some (.bv (w * i.toNat) (a.replicate i.toNat)) else none
    | _, _ => none
  | .intToBv => match ps, vs with
    | [.int w], [.int v] => if 0 ≤ w then some (.bv w.toNat (BitVec.ofInt w.toNat v)) else none
    | _, _ => none
  | _ => none

/-- Meaning of an operator application. -/
noncomputable def evalOp (I : Interp) (o : Op) (vs : List (Val I.U)) : Val I.U :=
  (stdOp I o vs).getD (I.op o vs)

/-- Meaning of an indexed operator application. -/
noncomputable def evalPop (I : Interp) (o : ParamOp) (ps vs : List (Val I.U)) : Val I.U :=
  (stdPop I o ps vs).getD (I.pop o ps vs)

/-- Meaning of constants. -/
noncomputable def evalConst {U : Type} : Const → Val U
  | .int z => .int z
  | .real q => .real q
  | .str s => .str s
  | .bv v w => .bv w (BitVec.ofInt w v)

/-- `vs` is a tuple of values for the binding list `bs`. -/
def Interp.Tuple (I : Interp) (bs : List (String × Srt)) (vs : List (Val I.U)) : Prop :=
  List.Forall₂ (fun b v => I.dom b.2 v) bs vs

/-- Update of a `let`-bound name: the name is rebound at the sort of the value. -/
noncomputable def Interp.letSet (I : Interp) (ρ : Env I.U) (x : String) (v : Val I.U) : Env I.U :=
  fun y s => if y = x ∧ I.dom s v then v else ρ y s

/-- Parallel update of `let`-bound names. -/
noncomputable def Interp.letMany (I : Interp) (ρ : Env I.U) : List (String × Val I.U) → Env I.U
  | [] => ρ
  | (x, v) :: bs => I.letMany (I.letSet ρ x v) bs

/-- Meaning of binders, given the meaning of the body as a function of the environment. -/
noncomputable def evalBinder (I : Interp) (b : Binder) (bs : List (String × Srt))
    (body : Env I.U → Val I.U) (ρ : Env I.U) : Val I.U :=
  match b with
  | .all => prop (∀ vs, I.Tuple bs vs → (body (ρ.setMany bs vs)).T)
  | .ex => prop (∃ vs, I.Tuple bs vs ∧ (body (ρ.setMany bs vs)).T)
  | .choice => match bs with
    | (x, s) :: _ => I.eps s (fun v => I.dom s v ∧ (body (ρ.set x s v)).T)
    | [] => .bool false
  | .lambda => I.lam (bs.map (·.2)) (fun vs => if I.Tuple bs vs then body (ρ.setMany bs vs) else .bool false)

mutual
/-- Meaning of terms. -/
noncomputable def eval (I : Interp) : Term → Env I.U → Val I.U
  | .const c, _ => evalConst c
  | .var x s, ρ => ρ x s
  | .app f as, ρ => I.app (eval I f ρ) (evalL I as ρ)
  | .op o as, ρ => evalOp I o (evalL I as ρ)
  | .binder b bs t, ρ => evalBinder I b bs (eval I t) ρ
  | .let_ bs t, ρ => eval I t (I.letMany ρ (evalB I bs ρ))
  | .paramOp o ps as, ρ => evalPop I o (evalL I ps ρ) (evalL I as ρ)
/-- Meaning of lists of terms. -/
noncomputable def evalL (I : Interp) : List Term → Env I.U → List (Val I.U)
  | [], _ => []
  | t :: ts, ρ => eval I t ρ :: evalL I ts ρ
/-- Meaning of `let` bindings. -/
noncomputable def evalB (I : Interp) : List (String × Term) → Env I.U → List (String × Val I.U)
  | [], _ => []
  | (x, t) :: bs, ρ => (x, eval I t ρ) :: evalB I bs ρ
end

@[simp] theorem evalL_eq_map (I : Interp) (ts : List Term) (ρ : Env I.U) :
    evalL I ts ρ = ts.map (eval I · ρ) := by
  induction ts with
  | nil => rfl
  | cons t ts ih => simp [evalL, ih]

@[simp] theorem evalB_eq_map (I : Interp) (bs : List (String × Term)) (ρ : Env I.U) :
    evalB I bs ρ = bs.map (fun b => (b.1, eval I b.2 ρ)) := by
  induction bs with
  | nil => rfl
  | cons b bs ih => obtain ⟨x, t⟩ := b; simp [evalB, ih]

/-! ## Truth, clauses, entailment -/

/-- A model: an interpretation together with a sort-respecting value for every variable. -/
structure Model where
  I : Interp
  env : Env I.U
  env_dom : ∀ x s, I.dom s (env x s)

namespace Model

/-- Value of a term in a model. -/
noncomputable def val (M : Model) (t : Term) : Val M.I.U := eval M.I t M.env

/-- A formula is true in a model. -/
def Holds (M : Model) (t : Term) : Prop := (M.val t).T

/-- A clause (disjunction of literals; `[]` is falsity) is true in a model. -/
def Sat (M : Model) (c : List Term) : Prop := ∃ l ∈ c, M.Holds l

/-- A term denotes a Boolean. -/
def IsBool (M : Model) (t : Term) : Prop := ∃ b, M.val t = .bool b

end Model

/-- Entailment between a list of premise clauses and a conclusion clause. -/
def Entails (ps : List (List Term)) (c : List Term) : Prop :=
  ∀ M : Model, (∀ p ∈ ps, M.Sat p) → M.Sat c

/-- Validity of a clause. -/
def Valid (c : List Term) : Prop := ∀ M : Model, M.Sat c

end Carcara
