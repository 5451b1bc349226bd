import Verif.Model.Term

/-! # Vocabulary for statements about resolution -/

namespace Carcara.Spec

/-- Two literals of which one is the other with one negation added. -/
def Complementary (l u : Term) : Prop := u = .op .not [l] ∨ l = .op .not [u]

/-- No clause contains two complementary literals. -/
def NoTautology (premises : List (List Term)) : Prop :=
  ∀ c ∈ premises, ∀ l ∈ c, ∀ u ∈ c, ¬ Complementary l u

/-- No literal comes back after its complement: there are no three clauses, in order, of which the first and the
third contain the same literal and the second a complement of it. -/
def NoReturn (premises : List (List Term)) : Prop :=
  ∀ (i j k : Nat) (c d e : List Term), i < j → j < k →
    premises[i]? = some c → premises[j]? = some d → premises[k]? = some e →
    ∀ l ∈ c, ∀ u ∈ d, l ∈ e → ¬ Complementary l u

/-- `e` is the set of literals of the resolvent of the clause with literals `c` and the clause `d` on the literal
`l` of the first and `u` of the second. All copies of `l` go away, but only one copy of `u`. -/
def Resolvent (c : Term → Prop) (d : List Term) (l u : Term) (e : Term → Prop) : Prop :=
  c l ∧ u ∈ d ∧ ∀ x, e x ↔ (c x ∧ x ≠ l) ∨ x ∈ d.erase u

/-- `ResChain c ds args e`: resolving the clause with literals `c` with the clauses `ds` in order, on the pivots
and polarities `args`, gives the clause with literals `e`. -/
inductive ResChain : (Term → Prop) → List (List Term) → List Term → (Term → Prop) → Prop where
  | done {c e : Term → Prop} : (∀ x, c x ↔ e x) → ResChain c [] [] e
  | pos {c e f : Term → Prop} {d : List Term} {ds args} {pivot : Term} :
    Resolvent c d pivot (.op .not [pivot]) e → ResChain e ds args f →
    ResChain c (d :: ds) (pivot :: .tru :: args) f
  | neg {c e f : Term → Prop} {d : List Term} {ds args} {pivot : Term} :
    Resolvent c d (.op .not [pivot]) pivot e → ResChain e ds args f →
    ResChain c (d :: ds) (pivot :: .fls :: args) f

/-- Resolution of clauses as lists: the first occurrence of the pivot is taken out of the clause obtained so far, the first occurrence
of its complement out of the next one, and what is left is put together in order. -/
def orderedResolve : List Term → List (List Term) → List Term → Option (List Term)
  | c, [], [] => some c
  | c, d :: ds, pivot :: polarity :: args =>
    if polarity = .tru then
      if pivot ∈ c ∧ .op .not [pivot] ∈ d then orderedResolve (c.erase pivot ++ d.erase (.op .not [pivot])) ds args else none
    else if polarity = .fls then
      if .op .not [pivot] ∈ c ∧ pivot ∈ d then orderedResolve (c.erase (.op .not [pivot]) ++ d.erase pivot) ds args else none
    else none
  | _, _, _ => none

end Carcara.Spec
