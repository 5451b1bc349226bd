import Verif.Model.Substitution
import Verif.Model.Subproof

/-!
# The rule `bfun_elim`

Model of `checker/rules/clausification.rs:266-405`. The memo table of `apply_bfun_elim` is left out: it holds results for the same
terms, and the result depends on nothing but the term.

`apply_bfun_elim` recurses on instances of the body of a quantifier, so the model carries a step counter; running out of it is an error.
`c12_bfun_elim_term_partial` includes that the counter that `bfunElim` starts with is enough.
-/

namespace Carcara

/-- `clausification.rs:267-287 bfun_elim_first_step`, for the reversed binding list: the instances of the body for all values of the
variables of sort `Bool`, false before true. -/
def bfunInstances : List (String × Srt) → Term → Res (List Term)
  | [], t => .ok [t]
  | (x, s) :: bs, t =>
    if s = .bool then do
      let σ ← Subst.new [(.var x s, .fls)]
      let (t0, _) ← σ.apply t
      let l0 ← bfunInstances bs t0
      let σ ← Subst.new [(.var x s, .tru)]
      let (t1, _) ← σ.apply t
      let l1 ← bfunInstances bs t1
      .ok (l0 ++ l1)
    else bfunInstances bs t

/-- `clausification.rs:291-318 bfun_elim_second_step`: the arguments that have been processed, and the others. -/
def bfunExpand (f : Term) : List Term → List Term → Res Term
  | done, [] => .ok (.app f done)
  | done, a :: as => do
    let s ← orPanic (sortOf a)
    if s = .bool ∧ a ≠ .fls ∧ a ≠ .tru then do
      let t ← bfunExpand f (done ++ [.tru]) as
      let e ← bfunExpand f (done ++ [.fls]) as
      .ok (.op .ite [a, t, e])
    else bfunExpand f (done ++ [a]) as

/-- `args.iter().map(…).collect()`. -/
def bfunList (g : Term → Res Term) : List Term → Res (List Term)
  | [] => .ok []
  | t :: ts => do
    let t' ← g t
    let ts' ← bfunList g ts
    .ok (t' :: ts')

/-- The conjunction or disjunction of `clausification.rs:359-363`. -/
def bfunJoin (o : Op) : List Term → Term
  | [t] => t
  | ts => .op o ts

/-- `clausification.rs:345-376`, for quantifiers. -/
def bfunQuant (g : Term → Res Term) (o : Op) (b : Binder) (bs : List (String × Srt)) (t : Term) : Res Term := do
  let ts ← bfunInstances bs.reverse t
  let r ← g (bfunJoin o ts)
  let bs' := bs.filter fun p => decide (p.2 ≠ .bool)
  .ok (if bs'.isEmpty then r else .binder b bs' r)

/-- `clausification.rs:321-386 apply_bfun_elim`. -/
def bfunGo : Nat → Term → Res Term
  | 0, _ => err
  | n + 1, t =>
    match t with
    | .app f as => do
      let as' ← bfunList (bfunGo n) as
      bfunExpand f [] as'
    | .op o as => do
      let as' ← bfunList (bfunGo n) as
      .ok (.op o as')
    | .binder .all bs t => bfunQuant (bfunGo n) .and .all bs t
    | .binder .ex bs t => bfunQuant (bfunGo n) .or .ex bs t
    | .binder b bs t => do
      let t' ← bfunGo n t
      .ok (.binder b bs t')
    | .let_ bs t => do
      let t' ← bfunGo n t
      .ok (.let_ bs t')
    | t => .ok t

/-- `clausification.rs:321-386 apply_bfun_elim`. A quantifier takes two steps. -/
def bfunElimTerm (t : Term) : Res Term := bfunGo (2 * t.size) t

/-- `clausification.rs:388-405 bfun_elim`. -/
def bfunElim : Rule := fun conclusion premises _ => do
  let psi ← premiseTerm premises
  let c ← get1 conclusion
  let expected ← bfunElimTerm psi
  assertPolyeq c expected

end Carcara
