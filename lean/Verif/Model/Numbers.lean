import Verif.Model.Base

/-! # Numbers in terms (`ast/term.rs:818-911`) -/

namespace Carcara
namespace Term

/-- Model of `ast/term.rs:833-839 as_number`. -/
def asNumber : Term → Option Rat
  | .const (.real q) => some q
  | .const (.int z) => some (z : Rat)
  | _ => none

/-- Model of `ast/term.rs:818-820 is_number`. -/
def isNumber (t : Term) : Bool := t.asNumber.isSome

/-- Model of `ast/term.rs:861-866 as_signed_number`. -/
def asSignedNumber : Term → Option Rat
  | .op .sub [x] => x.asNumber.map (- ·)
  | t => t.asNumber

/-- Model of `ast/term.rs:824-829 is_signed_number`. -/
def isSignedNumber : Term → Bool
  | .op .sub [x] => x.isNumber
  | t => t.isNumber

/-- Model of `ast/term.rs:894-901 as_unsigned_fraction`. The `?` on the divisor comes before the division; dividing a
`rug::Rational` by zero panics. -/
def asUnsignedFraction : Term → Res (Option Rat)
  | .op .intDiv [a, b] | .op .realDiv [a, b] => match a.asSignedNumber, b.asSignedNumber with
    | some p, some q => if q = 0 then panic else .ok (some (p / q))
    | _, _ => .ok none
  | t => .ok t.asNumber

/-- Model of `ast/term.rs:893-907 as_fraction`. -/
def asFraction : Term → Res (Option Rat)
  | .op .sub [x] => do
    let r ← x.asUnsignedFraction
    .ok (r.map (- ·))
  | t => t.asUnsignedFraction

end Term
end Carcara
