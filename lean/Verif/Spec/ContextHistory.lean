import Verif.Model.Context
import Verif.Spec.Context
import Verif.Spec.Alpha
import Verif.Spec.Polyeq

/-!
# Specification: context stacks in use

The substitutions of a context stack are computed on demand and remember earlier results, so the rules see a stack with
a history.
-/

namespace Carcara

/-- The stacks that arise inside the anchors `Γ` when the substitution is only applied to terms that are `ok`. -/
inductive CtxHistory (ok : List (List AnchorArg) → Term → Prop) : List (List AnchorArg) → CtxStack → Prop where
  | empty : CtxHistory ok [] .empty
  | push {Γ C} (h : CtxHistory ok Γ C) (as : List AnchorArg) : CtxHistory ok (Γ ++ [as]) (C.push as)
  | pop {Γ C} (h : CtxHistory ok Γ C) : CtxHistory ok Γ.dropLast C.pop
  | apply {Γ C C' t t'} (h : CtxHistory ok Γ C) (ht : ok Γ t) (e : C.apply t = .ok (t', C')) : CtxHistory ok Γ C'
  | applyPrevious {Γ C C' t t'} (h : CtxHistory ok Γ C) (ht : ok Γ t) (e : C.applyPrevious t = .ok (t', C')) :
      CtxHistory ok Γ C'

/-- A well-sorted term to which substitutions can be applied safely. -/
def Term.substSafe (t : Term) : Bool := (sortOf t).isSome && t.quoteSafe

/-- Histories in which the substitution was only used inside anchors that do not interfere, on safe terms. -/
abbrev CleanHistory : List (List AnchorArg) → CtxStack → Prop :=
  CtxHistory fun Γ t => FreshAnchors Γ ∧ t.substSafe = true

/-- Histories without restrictions apart from well-sortedness. -/
abbrev AnyHistory : List (List AnchorArg) → CtxStack → Prop :=
  CtxHistory fun Γ t => (∀ as ∈ Γ, ∀ a ∈ as, a.ok = true) ∧ (sortOf t).isSome = true

/-- The comparison modulo renaming can be trusted on these terms (see C24). -/
def alphaSafe (a b : Term) : Bool :=
  decide (a = b) || ((sortOf a).isSome && (sortOf b).isSome && decide (a.clean false) && decide (b.clean false) &&
    decide (a.separate b) && a.aligned b && a.barendregt && b.barendregt)

/-- The outcome of the comparison can be trusted. -/
def alphaTrust (a b : Term) : Bool := decide (alphaEquiv a b ≠ .ok true) || alphaSafe a b

/-- Every comparison of `refl` can be trusted. -/
def reflSafe (C : CtxStack) (l r : Term) : Bool := alphaTrust l r && (match C.apply l with
  | .ok (l', C) => alphaTrust l' r && (match C.apply r with
    | .ok (r', _) => alphaTrust l r' && alphaTrust l' r'
    | .error _ => true)
  | .error _ => true)

/-- Every comparison and every substitution in the loop of the skolemization rules can be trusted. -/
def skoSafe (q : Binder) (m : List (Term × Term)) : List (String × Srt) → Term → Bool
  | [], _ => true
  | (x, s) :: bs, phi => phi.substSafe && (match mapGet m (.var x s) with
    | none => true
    | some t => t.substSafe && (
      let inner := if bs.isEmpty then phi else .binder q bs phi
      let inner := if q = .all then .op .not [inner] else inner
      alphaSafe t (.binder .choice [(x, s)] inner)) &&
      (match (do let σ ← Subst.new [(.var x s, t)]; σ.apply phi : Res (Term × Subst)) with
      | .ok r => skoSafe q m bs r.1
      | .error _ => true))

end Carcara
