import Verif.Model.Rare
import Verif.Spec.PlainSubst
import Verif.Spec.Rule

/-!
# Specification: rules with list parameters

A list parameter stands for any number of arguments. So the instance of a rule is the term in which every list stands
for its elements.
-/

namespace Carcara

mutual
/-- Put the elements of lists in place of the lists, wherever lists are arguments of a function or an operator. -/
def Term.splice : Term → Term
  | .const c => .const c
  | .var x s => .var x s
  | .app f as => .app f.splice (Term.spliceL as)
  | .op o as => .op o (Term.spliceL as)
  | .binder b bs t => .binder b bs t.splice
  | .let_ bs t => .let_ bs t.splice
  | .paramOp o ps as => .paramOp o (Term.spliceEach ps) (Term.spliceEach as)
/-- The same for arguments. -/
def Term.spliceL : List Term → List Term
  | [] => []
  | .op .rareList bs :: as => Term.spliceL bs ++ Term.spliceL as
  | a :: as => a.splice :: Term.spliceL as
/-- The same for arguments that cannot be lists. -/
def Term.spliceEach : List Term → List Term
  | [] => []
  | a :: as => a.splice :: Term.spliceEach as
end

mutual
/-- No conjunction or disjunction is empty (outside the values of `let`). -/
def Term.filled : Term → Bool
  | .const _ => true
  | .var _ _ => true
  | .app f as => f.filled && Term.filledL as
  | .op o as => (decide (o = .and ∨ o = .or → as ≠ [])) && Term.filledL as
  | .binder _ _ t => t.filled
  | .let_ _ t => t.filled
  | .paramOp _ ps as => Term.filledL ps && Term.filledL as
/-- The same for lists of terms. -/
def Term.filledL : List Term → Bool
  | [] => true
  | t :: ts => t.filled && Term.filledL ts
end

mutual
/-- There are no lists (outside the values of `let`). -/
def Term.listFree : Term → Bool
  | .const _ => true
  | .var _ _ => true
  | .app f as => f.listFree && Term.listFreeL as
  | .op o as => decide (o ≠ .rareList) && Term.listFreeL as
  | .binder _ _ t => t.listFree
  | .let_ _ t => t.listFree
  | .paramOp _ ps as => Term.listFreeL ps && Term.listFreeL as
/-- The same for lists of terms. -/
def Term.listFreeL : List Term → Bool
  | [] => true
  | t :: ts => t.listFree && Term.listFreeL ts
end

mutual
/-- None of the five equations applies anywhere (outside the values of `let`): no lists, no `(or)`, `(or true)`, `(and)`,
`(and false)`. -/
def Term.settled : Term → Bool
  | .const _ => true
  | .var _ _ => true
  | .app f as => f.settled && Term.settledL as
  | .op o as => decide (o ≠ .rareList ∧ (o = .or → as ≠ [] ∧ as ≠ [.op .tru []]) ∧ (o = .and → as ≠ [] ∧ as ≠ [.op .fls []])) &&
      Term.settledL as
  | .binder _ _ t => t.settled
  | .let_ _ t => t.settled
  | .paramOp _ ps as => Term.settledL ps && Term.settledL as
/-- The same for lists of terms. -/
def Term.settledL : List Term → Bool
  | [] => true
  | t :: ts => t.settled && Term.settledL ts
end

/-- The argument of a step that belongs to a name: the first one, if the name is repeated. -/
def argOf : List String → List Term → String → Option Term
  | x :: xs, t :: ts, y => if x = y then some t else argOf xs ts y
  | _, _, _ => none

/-- What the arguments of a step say about the parameters of a rule. -/
def RareRule.inst (r : RareRule) (args : List Term) (v : String × Srt) : Term :=
  if (mapGet r.params v.1).map (·.sort) = some v.2 then (argOf r.args args v.1).getD (.var v.1 v.2) else .var v.1 v.2

/-- A rule without binders is valid: each of its well-sorted instances is. Only the parameters are replaced. -/
def RareRule.Valid (r : RareRule) : Prop :=
  ∀ (f : String × Srt → Term) (M : Model),
    (∀ v : String × Srt, (mapGet r.params v.1).map (·.sort) ≠ some v.2 → f v = .var v.1 v.2) →
    (∀ p ∈ r.conclusion :: r.premises, sortOf (p.put f).splice = some .bool) →
    (∀ p ∈ r.premises, M.Holds (p.put f).splice) → M.Holds (r.conclusion.put f).splice

/-- A rule that is no schema: the parameters have sorts without sort variables, and the formulas are well-sorted, without
binders, lists, and empty conjunctions and disjunctions. -/
def RareRule.FirstOrder (r : RareRule) : Prop :=
  (∀ p ∈ r.params, p.2.poly = false) ∧
    ∀ t ∈ r.conclusion :: r.premises, sortOf t = some .bool ∧ t.plain = true ∧ t.listFree = true ∧ t.filled = true

end Carcara
