import Verif.Model.Polyeq
import Verif.Lemmas.Sorts

/-!
# Specification: when the comparison of terms is meant to be sound

Two terms have the same meaning if they have the same value in every model. The comparison of `ast/polyeq.rs` relates
some terms that do not; the predicates below describe the terms for which it does not.
-/

namespace Carcara

mutual
/-- All subterms of a term, including itself. -/
def Term.subterms : Term → List Term
  | .const c => [.const c]
  | .var x s => [.var x s]
  | .app f as => .app f as :: (f.subterms ++ Term.subtermsL as)
  | .op o as => .op o as :: Term.subtermsL as
  | .binder b bs t => .binder b bs t :: t.subterms
  | .let_ bs t => .let_ bs t :: (Term.subtermsB bs ++ t.subterms)
  | .paramOp o ps as => .paramOp o ps as :: (Term.subtermsL ps ++ Term.subtermsL as)
/-- All subterms of a list of terms. -/
def Term.subtermsL : List Term → List Term
  | [] => []
  | t :: ts => t.subterms ++ Term.subtermsL ts
/-- All subterms of the values of a `let` binding list. -/
def Term.subtermsB : List (String × Term) → List Term
  | [] => []
  | (_, t) :: bs => t.subterms ++ Term.subtermsB bs
end

/-- Two terms have the same value in every interpretation, for every sort-respecting assignment. -/
def Same (a b : Term) : Prop :=
  ∀ (I : Interp) (ρ : Env I.U), I.EnvOK ρ → eval I a ρ = eval I b ρ

/-- Associative operators whose n-ary form this semantics interprets. -/
def Op.folds : Op → Bool
  | .implies | .and | .or | .xor | .add | .sub | .mult | .intDiv | .realDiv | .bvAnd | .bvOr | .bvAdd | .bvMul => true
  | _ => false

/-- N-ary operators whose n-ary form this semantics leaves open: strings, regular languages, clauses. -/
def Op.uninterpretedNary : Op → Bool
  | .strConcat | .strLessThan | .strLessEq | .reConcat | .reUnion | .reInter | .reDiff | .cl | .delete => true
  | _ => false

/-- Restrictions on a node:
* a quotient of two literals has no third argument;
* if n-ary expansion is on: no unary minus, and the operators of `Op.uninterpretedNary` are only used with two
  arguments. -/
def Term.cleanNode (nary : Bool) : Term → Bool
  | .op .realDiv (.const _ :: .const _ :: _ :: _) => false
  | .op o as =>
    !nary || ((o != .sub || decide (as.length ≠ 1)) &&
      (!o.uninterpretedNary || decide (as.length = 2)))
  | _ => true

/-- All nodes satisfy the restrictions. -/
def Term.clean (nary : Bool) (t : Term) : Prop := ∀ u ∈ t.subterms, u.cleanNode nary = true

/-- Restriction on pairs of literals: an integer literal and a real literal do not have the same absolute value (for
the real one: of the numerator). -/
def sepNode : Term → Term → Bool
  | .const (.int i), .const (.real q) => decide (i.natAbs ≠ q.num.natAbs)
  | .const (.real q), .const (.int i) => decide (i.natAbs ≠ q.num.natAbs)
  | _, _ => true

/-- No integer literal of one term can be confused with a real literal of the other. -/
def Term.separate (a b : Term) : Prop := ∀ u ∈ a.subterms, ∀ v ∈ b.subterms, sepNode u v = true

instance (nary : Bool) (t : Term) : Decidable (t.clean nary) := by unfold Term.clean; infer_instance
instance (a b : Term) : Decidable (a.separate b) := by unfold Term.separate; infer_instance

/-- The conditions under which the comparison is sound: both terms are well sorted, clean, and separate. -/
structure Comparable (nary : Bool) (a b : Term) : Prop where
  sort_left : (sortOf a).isSome = true
  sort_right : (sortOf b).isSome = true
  clean_left : a.clean nary
  clean_right : b.clean nary
  separate : a.separate b

/-- A set of terms in which any two are comparable. -/
def Compatible (nary : Bool) (ts : List Term) : Prop :=
  (∀ t ∈ ts, (sortOf t).isSome = true ∧ t.clean nary) ∧ ∀ t ∈ ts, ∀ u ∈ ts, t.separate u

instance (nary : Bool) (ts : List Term) : Decidable (Compatible nary ts) := by unfold Compatible; infer_instance

end Carcara
