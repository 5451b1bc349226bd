import Verif.Spec.Rule

/-!
# Conditions on arithmetic terms

`Term::as_fraction` reads `(div 7 2)` as the rational number 7/2, but its value is 3. The conditions below exclude such
terms; they are stated on the terms only.
-/

namespace Carcara
namespace Term

/-- The integer denoted by a numeral or by a negated numeral. -/
def intLit : Term → Option ℤ
  | .const (.int z) => some z
  | .op .sub [.const (.int z)] => some (-z)
  | _ => none

mutual
/-- Every integer division of two literals that occurs among the nested operator applications leaves no remainder. -/
def exactDivs : Term → Bool
  | .op o as =>
    (match o, as with
      | .intDiv, [a, b] => match a.intLit, b.intLit with
        | some p, some q => decide (q ∣ p)
        | _, _ => true
      | _, _ => true) && exactDivsL as
  | _ => true
/-- All terms of the list. -/
def exactDivsL : List Term → Bool
  | [] => true
  | t :: ts => exactDivs t && exactDivsL ts
end

theorem exactDivsL_iff {ts : List Term} : exactDivsL ts = true ↔ ∀ t ∈ ts, t.exactDivs = true := by
  induction ts with
  | nil => simp [exactDivsL]
  | cons t ts ih => simp [exactDivsL, ih]

end Term

/-- The numeric value of a term; 0 if the term is no number. -/
noncomputable def Model.numv (M : Model) (t : Term) : ℝ := (M.val t).num.getD 0

end Carcara

namespace Carcara
namespace Term

mutual
/-- All numerals among the nested sums, differences and products are integers, and none of their operands is a quotient. -/
def integralNumerals : Term → Bool
  | .const (.real q) => q.den == 1
  | .op .realDiv _ => false
  | .op .add as | .op .sub as | .op .mult as => integralNumeralsL as
  | _ => true
/-- All terms of the list. -/
def integralNumeralsL : List Term → Bool
  | [] => true
  | t :: ts => integralNumerals t && integralNumeralsL ts
end

theorem integralNumeralsL_iff {ts : List Term} :
    integralNumeralsL ts = true ↔ ∀ t ∈ ts, t.integralNumerals = true := by
  induction ts with
  | nil => simp [integralNumeralsL]
  | cons t ts ih => simp [integralNumeralsL, ih]

/-- A numeral or negated numeral with an integral value. -/
def integerNumeral : Term → Bool
  | .const (.int _) => true
  | .const (.real q) => q.den == 1
  | .op .sub [.const (.int _)] => true
  | .op .sub [.const (.real q)] => q.den == 1
  | _ => false

end Term

/-- Literals whose negation is a strict comparison of `a` and `b`. -/
def strictNegation (a b : Term) : List Term :=
  [.op .le [a, b], .op .ge [a, b], .op .not [.op .lt [a, b]], .op .not [.op .gt [a, b]]]

/-- Literals whose negation is a weak comparison of `a` and `b`. -/
def weakNegation (a b : Term) : List Term :=
  [.op .lt [a, b], .op .gt [a, b], .op .not [.op .le [a, b]], .op .not [.op .ge [a, b]]]

/-- A literal with a coefficient for which the rounding in `la_generic` is harmless: a negated equality, a literal with
strict negation between integer terms, or a literal with weak negation between terms with integral numerals if the
coefficient is an integer. -/
inductive FarkasOK : Term → Term → Prop
  | eq (a b k : Term) : FarkasOK (.op .not [.op .equals [a, b]]) k
  | strict (a b k : Term) {t : Term} (ht : t ∈ strictNegation a b) (ha : sortOf a = some .int)
      (hb : sortOf b = some .int) : FarkasOK t k
  | weak (a b k : Term) {t : Term} (ht : t ∈ weakNegation a b) (ha : a.integralNumerals = true)
      (hb : b.integralNumerals = true) (hk : k.integerNumeral = true) : FarkasOK t k

end Carcara
