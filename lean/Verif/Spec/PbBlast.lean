import Verif.Spec.FreeVars
import Verif.Spec.Rule

/-!
# Specification: pseudo-Boolean blasting

`((_ int_of i) x)` is bit `i` of `x` as an integer, `(pbbterm b₀ … bₙ)` the vector whose bits are the integers `b₀`, …, `bₙ`. What a `pbbterm`
means when some `bᵢ` is neither 0 nor 1 is not laid down; the conditions below exclude it.
-/

namespace Carcara.Spec

/-- If the term is a `pbbterm`, its arguments are 0 or 1. -/
def ZeroOneBits (M : Model) (t : Term) : Prop :=
  ∀ as, t = .op .bvPBbTerm as → ∀ a ∈ as, M.val a = .int 0 ∨ M.val a = .int 1

/-- The number of addends of a sum. -/
def addends : Term → ℕ
  | .op .add as => as.length
  | _ => 1

/-- The conclusion `(= (p x y) (q (- a b) n))` of a rule for equality and the unsigned comparisons. -/
def unsignedStep (p q : Op) (x y a b n : Term) : Term := .op .equals [.op p [x, y], .op q [.op .sub [a, b], n]]

/-- The conclusion `(= (p x y) (>= (+ (- a b) (- c d)) n))` of a rule for the signed comparisons. -/
def signedStep (p : Op) (x y a b c d n : Term) : Term :=
  .op .equals [.op p [x, y], .op .ge [.op .add [.op .sub [a, b], .op .sub [c, d]], n]]

/-- The variable `z` of sort Int does not occur free. -/
def NoZ (t : Term) : Prop := ("z", Srt.int) ∉ t.fv

/-- The conclusions that satisfy the condition and that the rule accepts hold: both sides are equal in the given model. -/
def SoundWhen (r : Rule) (C : Model → Term → Prop) : Prop :=
  ∀ (c : Term) (rest : List Term) (premises : List (List Term)) (args : List Term), r (c :: rest) premises args = .ok () →
    ClauseOK (c :: rest) → ∀ M : Model, C M c → M.Holds c

/-- The vectors on the left-hand side have bits 0 and 1, and each sum has an addend for every bit. -/
def FullSums (M : Model) (c : Term) : Prop :=
  ∀ p q x y a b n, c = unsignedStep p q x y a b n →
    ZeroOneBits M x ∧ ZeroOneBits M y ∧ ∀ w, sortOf x = some (.bv w) → addends a = w ∧ addends b = w

/-- The vectors on the left-hand side have bits 0 and 1, and the two sums have an addend for every bit but the sign bit. The sums are the outer two of
the four terms. -/
def FullSigned (M : Model) (c : Term) : Prop :=
  ∀ p x y a b c' d n, c = signedStep p x y a b c' d n →
    ZeroOneBits M x ∧ ZeroOneBits M y ∧ ∀ w, sortOf x = some (.bv w) → addends a + 1 = w ∧ addends d + 1 = w

/-- The operands of the operation on the left-hand side have bits 0 and 1, and `z` is not free in them. -/
def GoodOperands (M : Model) (c : Term) : Prop :=
  ∀ o x y r, c = .op .equals [.op o [x, y], r] → ZeroOneBits M x ∧ ZeroOneBits M y ∧ NoZ x ∧ NoZ y

/-- The entries of the `pbbterm` fit into 32 bits. -/
def SmallEntries (_ : Model) (c : Term) : Prop :=
  ∀ t as, c = .op .equals [t, .op .bvPBbTerm as] → ∀ z : ℤ, .const (.int z) ∈ as → -2 ^ 31 ≤ z ∧ z < 2 ^ 31

end Carcara.Spec
