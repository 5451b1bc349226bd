import Verif.Model.Sorts

/-!
# What `aci_simp` is about

The operands of a term with respect to an operator, and the neutral elements. Nothing here refers to the code.
-/

namespace Carcara

mutual
/-- The operands of a term with respect to an operator: nested applications of the operator are opened. -/
def operands (o : Op) : Term → List Term
  | .op o' as => if o' = o then operandsL o as else [.op o' as]
  | t => [t]
/-- The operands of several terms. -/
def operandsL (o : Op) : List Term → List Term
  | [] => []
  | t :: ts => operands o t ++ operandsL o ts
end

/-- The literal for the neutral element of an operator at a sort. -/
def neutral : Op → Srt → Option Term
  | .and, _ => some (.op .tru [])
  | .or, _ => some (.op .fls [])
  | .add, .int => some (.const (.int 0))
  | .add, .real => some (.const (.real 0))
  | .mult, .int => some (.const (.int 1))
  | .mult, .real => some (.const (.real 1))
  | .bvAdd, .bv w | .bvOr, .bv w | .bvXor, .bv w => some (.const (.bv 0 w))
  | .bvMul, .bv w => some (.const (.bv 1 w))
  | .bvAnd, .bv w => some (.const (.bv (2 ^ w - 1) w))
  | _, _ => none

/-- The operands that are not the neutral element. -/
def properOperands (o : Op) (s : Srt) (t : Term) : List Term :=
  (operands o t).filter fun u => some u ≠ neutral o s

/-- The operator of a term, if it is one of the ten operators the rule knows. -/
def aciTop : Term → Option Op
  | .op o _ => match o with
    | .and | .or | .add | .mult | .bvAdd | .bvOr | .bvMul | .bvAnd | .bvXor | .bvConcat => some o
    | _ => none
  | _ => none

end Carcara
