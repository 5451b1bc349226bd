import Verif.Spec.Arith
import Verif.Spec.Rule

/-!
# Specification: pseudo-Boolean constraints

A constraint is `(>= s k)` where `s` is a sum of terms `(* c l)` or `(* c (- 1 l))`; the literals `l` stand for 0 or 1.
-/

namespace Carcara.Spec

/-- The numeral one. -/
def isOne : Term → Bool
  | .const (.int z) => z == 1
  | .const (.real q) => q == 1
  | _ => false

/-- The coefficient of an addend, whether the literal is negated, and the literal. -/
def pbAddend : Term → Option (ℤ × Bool × Term)
  | .op .mult [.const (.int c), .op .sub [a, l]] => if isOne a then some (c, true, l) else some (c, false, .op .sub [a, l])
  | .op .mult [.const (.int c), l] => some (c, false, l)
  | _ => none

/-- The addends of a constraint. -/
def pbAddends : Term → List (ℤ × Bool × Term)
  | .op .ge [.op .add as, _] => as.filterMap pbAddend
  | .op .ge [t, _] => (pbAddend t).toList
  | _ => []

/-- The literals of a constraint. -/
def pbLiterals (t : Term) : List Term := (pbAddends t).map (·.2.2)

/-- The literals of a constraint have the values 0 and 1. -/
def ZeroOne (M : Model) (t : Term) : Prop := ∀ l ∈ pbLiterals t, M.numv l = 0 ∨ M.numv l = 1

/-- No literal occurs twice with the same sign. -/
def DistinctLiterals (t : Term) : Prop := ((pbAddends t).map (·.2)).Nodup

/-- The literals of the constraints are printed differently, and not like negated literals. -/
structure NamesApart (pr : Term → String) (ts : List Term) : Prop where
  inj : ∀ t ∈ ts, ∀ t' ∈ ts, ∀ l ∈ pbLiterals t, ∀ l' ∈ pbLiterals t', pr l = pr l' → l = l'
  plain : ∀ t ∈ ts, ∀ l ∈ pbLiterals t, (pr l).toList.head? ≠ some '~'

/-- Every step the rule accepts concludes a clause that holds in the models in which the premises hold and the literals are 0 or 1. -/
def PbSound (r : Rule) : Prop :=
  ∀ (conclusion : List Term) (premises : List (List Term)) (args : List Term), r conclusion premises args = .ok () →
    ClauseOK conclusion → (∀ p ∈ premises, ClauseOK p) →
    ∀ M : Model, (∀ t ∈ (conclusion :: premises).flatten, ZeroOne M t) → (∀ p ∈ premises, M.Sat p) → M.Sat conclusion

/-! ## Constraints to be normalized -/

mutual
/-- No unary minus in nested sums and differences. -/
def noUnaryMinus : Term → Bool
  | .op .add as => noUnaryMinusL as
  | .op .sub [_] => false
  | .op .sub as => noUnaryMinusL as
  | _ => true
def noUnaryMinusL : List Term → Bool
  | [] => true
  | a :: as => noUnaryMinus a && noUnaryMinusL as
end

/-- A term `(- 1 (- 1 l))`. -/
def doubleMinus : Term → Bool
  | .op .sub [a, .op .sub [b, _]] => isOne a && isOne b
  | _ => false

/-- An addend `(- 1 (- 1 l))`, perhaps with a coefficient. -/
def doubleAddend : Term → Bool
  | .op .mult [a, b] => doubleMinus a || doubleMinus b
  | t => doubleMinus t

/-- No addend of the sum is `(- 1 (- 1 l))`. -/
def noDoubleMinus : Term → Bool
  | .op .add as => as.all fun a => !doubleAddend a
  | t => !doubleAddend t

end Carcara.Spec
