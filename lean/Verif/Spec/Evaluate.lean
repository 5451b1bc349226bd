import Verif.Spec.Semantics

/-!
# Specification: arguments on which evaluation agrees with the standard

For each operator, a condition on the values of the arguments. It only restricts operators that the code computes with the
wrong rounding or the wrong sign.
-/

namespace Carcara
open Val

/-- No division in the chain rounds a negative number. -/
def DivSafe : ℤ → List ℤ → Prop
  | _, [] => True
  | a, b :: bs => (0 ≤ a ∨ b ∣ a) ∧ DivSafe (a / b) bs

/-- Conditions on the arguments of operators. -/
def SafeOp {U : Type} (o : Op) (vs : List (Val U)) : Prop :=
  match o with
  | .intDiv => ∀ z zs, asInts vs = some (z :: zs) → DivSafe z zs
  | .mod => ∀ a b, vs = [.int a, .int b] → 0 ≤ a ∨ b ∣ a
  | .bvSub | .bvSMod | .bvSLt | .bvSLe | .bvSGt | .bvSGe =>
    ∀ w (a b : BitVec w), vs = [.bv w a, .bv w b] → a.msb = false ∧ b.msb = false
  | .bvSDiv => ∀ w (a b : BitVec w), vs = [.bv w a, .bv w b] → a.msb = b.msb
  | .bvSRem => ∀ w (a b : BitVec w), vs = [.bv w a, .bv w b] → a.msb = false
  | .sbvToInt => ∀ w (a : BitVec w), vs = [.bv w a] → a.msb = false
  | _ => True

/-- Conditions on the arguments of indexed operators. -/
def SafePop {U : Type} (o : ParamOp) (ps vs : List (Val U)) : Prop :=
  match o with
  | .bvExtract => ∀ i j w (a : BitVec w), ps = [.int i, .int j] → vs = [.bv w a] → a.getLsbD i.toNat = false
  | .signExtend => ∀ w (a : BitVec w), vs = [.bv w a] → a.msb = false
  | _ => True

/-- The value of a bit-vector constant fits its width. -/
def Const.InRange : Const → Prop
  | .bv v w => 0 ≤ v ∧ v < 2 ^ w
  | _ => True

mutual
/-- The conditions hold in a model for every application outside of functions, binders and `let`. -/
def SafeTerm (M : Model) : Term → Prop
  | .const c => c.InRange
  | .op o as => SafeOp o (as.map M.val) ∧ SafeTermL M as
  | .paramOp o ps as => SafePop o (ps.map M.val) (as.map M.val) ∧ SafeTermL M ps ∧ SafeTermL M as
  | _ => True
def SafeTermL (M : Model) : List Term → Prop
  | [] => True
  | t :: ts => SafeTerm M t ∧ SafeTermL M ts
end

/-- Operators whose evaluation has one of the defects. -/
def Op.Rounds : Op → Bool
  | .intDiv | .mod | .bvSub | .bvSDiv | .bvSRem | .bvSMod | .bvSLt | .bvSLe | .bvSGt | .bvSGe | .sbvToInt => true
  | _ => false

mutual
/-- No defective operator and no constant that does not fit, outside of functions, binders and `let`. -/
def PlainTerm : Term → Prop
  | .const c => c.InRange
  | .op o as => o.Rounds = false ∧ PlainTermL as
  | .paramOp o ps as => o ≠ .bvExtract ∧ o ≠ .signExtend ∧ PlainTermL ps ∧ PlainTermL as
  | _ => True
def PlainTermL : List Term → Prop
  | [] => True
  | t :: ts => PlainTerm t ∧ PlainTermL ts
end

end Carcara
