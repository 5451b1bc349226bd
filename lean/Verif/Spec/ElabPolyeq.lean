import Verif.Spec.Elab
import Verif.Spec.Polyeq
import Verif.Model.BindLet

/-! # Specification: proofs of equality with `refl`, `bind` and `bind_let` steps -/

namespace Carcara.Spec

/-- A node that is one of the given ones, or is derived from them by steps that are accepted in every context. Premises are not deeper than
the step that uses them, and the step that a subproof ends with follows a step of that subproof. -/
inductive Accepted (E : TableEnv) (elaborated : Bool) (given : List Node) : Node → Prop where
  | given {n : Node} : n ∈ given → Accepted E elaborated given n
  | step {d : NodeData} {ps : List Node} : (∀ p ∈ ps, Accepted E elaborated given p) → (∀ p ∈ ps, p.depth ≤ d.depth) →
      StepOK E elaborated d ps → Accepted E elaborated given (.step d ps [] none)
  | refl {d : NodeData} : d.rule = "refl" →
      (∀ C, (if elaborated then strictRefl C d.clause else Carcara.refl C d.clause) = .ok C) →
      Accepted E elaborated given (.step d [] [] none)
  | bind {d e : NodeData} {ps dis : List Node} {pv : Option Node} {args : List AnchorArg} : d.rule = "bind" →
      Accepted E elaborated given (.step e ps dis pv) → 0 < d.depth → e.depth = d.depth →
      (∀ context, bindRule d.clause (context ++ [args]) (some e.clause) = .ok ()) →
      Accepted E elaborated given (.subproof (.step d [] [] (some (.step e ps dis pv))) args [])
  | bindLet {d e : NodeData} {qs ps dis : List Node} {pv : Option Node} {args : List AnchorArg} : d.rule = "bind_let" →
      (∀ q ∈ qs, Accepted E elaborated given q) → (∀ q ∈ qs, q.depth < d.depth) →
      Accepted E elaborated given (.step e ps dis pv) → 0 < d.depth → e.depth = d.depth →
      bindLet d.clause (qs.map Node.clause) (some e.clause) = .ok () →
      Accepted E elaborated given (.subproof (.step d qs [] (some (.step e ps dis pv))) args [])

/-- A literal that is zero. -/
def zeroLit : Term → Bool
  | .const (.int i) => i = 0
  | .const (.real r) => r.num = 0
  | _ => false

/-- No quotient has fewer than two arguments or a zero literal among the first two (comparing such a quotient with a literal may panic). -/
def divSafe : Term → Bool
  | .op .realDiv (a :: b :: _) => !zeroLit a && !zeroLit b
  | .op .realDiv _ => false
  | _ => true

/-- A literal that can also be written as a term: a negative one, or a quotient of literals. -/
def ambiguousLit : Term → Bool
  | .const (.int i) => i < 0
  | .const (.real r) => r < 0
  | .op .realDiv (.const _ :: .const _ :: _) => true
  | _ => false

/-- Nodes for which the elaborator has a case: no indexed operators, no `choice` or `lambda`, no applications of terms that are not symbols;
the values of a `let` have a sort. -/
def supported : Term → Bool
  | .app (.var _ _) _ => true
  | .app _ _ => false
  | .binder q _ _ => q = .all ∨ q = .ex
  | .let_ bs _ => bs.all fun b => (sortOf b.2).isSome
  | .paramOp _ _ _ => false
  | _ => true

/-- Conditions on all subterms. In elaborated mode literals must also be written in one way. -/
def elaborable (elaborated : Bool) (t : Term) : Prop :=
  ∀ u ∈ t.subterms, divSafe u = true ∧ supported u = true ∧ (elaborated = true → ambiguousLit u = false)

instance (el : Bool) (t : Term) : Decidable (elaborable el t) := by unfold elaborable; infer_instance

end Carcara.Spec

namespace Carcara.Spec

/-- `Nested o right as t`: `t` is the application of `o` to `as` written with two arguments at a time, nested to the right or to the left. -/
inductive Nested (o : Op) (right : Bool) : List Term → Term → Prop where
  | one (a : Term) : Nested o right [a] a
  | toRight {a t : Term} {as : List Term} : right = true → Nested o right as t → Nested o right (a :: as) (.op o [a, t])
  | toLeft {a t : Term} {as : List Term} : right = false → Nested o right as t → Nested o right (as ++ [a]) (.op o [t, a])

end Carcara.Spec
