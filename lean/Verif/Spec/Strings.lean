import Mathlib.Computability.Language
import Verif.Spec.FreeVars
import Verif.Spec.Polyeq
import Verif.Spec.Rule

/-!
# Specification: the theory of strings

The meaning of the operators on strings and regular languages, after the SMT-LIB theory `Strings`. Concatenations, unions and intersections of any
number of arguments have their usual meaning.
-/

namespace Carcara.Spec

open Computability

/-- `str.substr`: at most `n` characters from position `m`. -/
def substr (w : List Char) (m n : ℤ) : List Char := if 0 ≤ m ∧ 0 < n then (w.drop m.toNat).take n.toNat else []

/-- The string of a list of characters. -/
def strV {U : Type} (w : List Char) : Val U := .str (String.ofList w)

/-- The interpretation gives the operators their standard meaning; `L` is the language of an object of sort `RegLan`. -/
structure StringTheory (I : Interp) (L : Val I.U → Language Char) : Prop where
  concat : ∀ ws : List (List Char), I.op .strConcat (ws.map strV) = strV ws.flatten
  len : ∀ w : List Char, I.op .strLen [strV w] = .int w.length
  substr : ∀ (w : List Char) (m n : ℤ), I.op .substring [strV w, .int m, .int n] = strV (substr w m n)
  inRe : ∀ (w : List Char) (r : Val I.U), I.dom .regLan r → I.op .strInRe [strV w, r] = Val.prop (w ∈ L r)
  toRe : ∀ w : List Char, L (I.op .strToRe [strV w]) = {w}
  none : L (I.op .reNone []) = 0
  all : L (I.op .reAll []) = ⊤
  allChar : ∀ w : List Char, w ∈ L (I.op .reAllChar []) ↔ w.length = 1
  range : ∀ a b w : List Char, w ∈ L (I.op .reRange [strV a, strV b]) ↔ ∃ c d e : Char, a = [c] ∧ b = [d] ∧ w = [e] ∧ c ≤ e ∧ e ≤ d
  reConcat : ∀ rs : List (Val I.U), (∀ r ∈ rs, I.dom .regLan r) → L (I.op .reConcat rs) = (rs.map L).prod
  union : ∀ rs : List (Val I.U), (∀ r ∈ rs, I.dom .regLan r) → ∀ w, w ∈ L (I.op .reUnion rs) ↔ ∃ r ∈ rs, w ∈ L r
  inter : ∀ rs : List (Val I.U), (∀ r ∈ rs, I.dom .regLan r) → ∀ w, w ∈ L (I.op .reInter rs) ↔ ∀ r ∈ rs, w ∈ L r
  star : ∀ r : Val I.U, I.dom .regLan r → L (I.op .reStar [r]) = (L r)∗

/-- The interpretation is one of the theory of strings. -/
def Interp.HasStrings (I : Interp) : Prop := ∃ L, StringTheory I L

/-- Entailment in the theory of strings. -/
def EntailsStr (ps : List (List Term)) (c : List Term) : Prop :=
  ∀ M : Model, Interp.HasStrings M.I → (∀ p ∈ ps, M.Sat p) → M.Sat c

/-- Steps that satisfy the condition and that the rule accepts conclude a clause entailed by the premises. -/
def SoundStr (r : Rule) (C : List Term → List (List Term) → List Term → Prop) : Prop :=
  ∀ (conclusion : List Term) (premises : List (List Term)) (args : List Term), r conclusion premises args = .ok () →
    ClauseOK conclusion → (∀ p ∈ premises, ClauseOK p) → (∀ a ∈ args, (sortOf a).isSome = true) → C conclusion premises args →
    EntailsStr premises conclusion

/-- No condition. -/
def Always (_ : List Term) (_ : List (List Term)) (_ : List Term) : Prop := True

/-- The terms of a step can be compared (`Verif.Spec.Polyeq`), also with the literal zero. -/
def ComparableStep (conclusion : List Term) (premises : List (List Term)) (args : List Term) : Prop :=
  Compatible false (.const (.int 0) :: (conclusion ++ premises.flatten ++ args))

mutual
/-- Built from string constants. -/
def allConst : Term → Bool
  | .const (.str _) => true
  | .op .strConcat as => allConstL as
  | _ => false
/-- All terms of a list are. -/
def allConstL : List Term → Bool
  | [] => true
  | t :: ts => allConst t && allConstL ts
end

/-- The first part of a concatenation, otherwise the term itself. -/
def firstPart : Term → Term
  | .op .strConcat (t :: _) => t
  | t => t

/-- Condition for `concat_cprop_prefix`: the middle of the left-hand side and the first part of the right-hand side are constant. -/
def ConstantPrefix (_ : List Term) (premises : List (List Term)) (_ : List Term) : Prop :=
  ∀ a b c s rest, premises = [.op .equals [.op .strConcat [a, b, c], s]] :: rest → allConst b = true ∧ allConst (firstPart s) = true

/-- Condition for `concat_cprop_suffix`: the middle of the left-hand side and the last part of the right-hand side are constant, and the right-hand
side is a constant or has two parts. -/
def ConstantSuffix (_ : List Term) (premises : List (List Term)) (_ : List Term) : Prop :=
  ∀ a b c s rest, premises = [.op .equals [.op .strConcat [a, b, c], s]] :: rest → allConst b = true ∧
    ((∃ w, s = .const (.str w)) ∨ ∃ x y, s = .op .strConcat [x, y] ∧ allConst y = true)

/-- Condition for `string_decompose`: the first part is asked for, and the length is not negative. -/
def DecomposeFirst (conclusion : List Term) (premises : List (List Term)) (args : List Term) : Prop :=
  ComparableStep conclusion premises args ∧ args = [.op .fls []] ∧
    ∀ t n, premises = [[.op .ge [.op .strLen [t], n]]] → ∀ M : Model, Interp.HasStrings M.I → ∃ k : ℕ, M.val n = .int k

/-- Condition for `re_unfold_neg`: the variable the rule binds does not occur free in the premise. -/
def NoCapture (_ : List Term) (premises : List (List Term)) (_ : List Term) : Prop :=
  ∀ p ∈ premises, ∀ t ∈ p, ("L", Srt.int) ∉ t.fv

/-- Condition for `re_concat_unfold_pos`: a concatenation of constants. -/
def ConcatOfConstants (_ : List Term) (premises : List (List Term)) (_ : List Term) : Prop :=
  ∀ t as, premises = [[.op .strInRe [t, .op .reConcat as]]] → ∀ a ∈ as, ∃ s, a = .op .strToRe [s]

end Carcara.Spec
