import Verif.Model.Cnf
import Verif.Model.Utils

/-!
# Equality rules and clause manipulation

Model of `checker/rules/transitivity.rs`, `checker/rules/congruence.rs`, of `eq_reflexive`
(`checker/rules/reflexivity.rs:4-8`) and of the first half of `checker/rules/extras.rs`.
-/

namespace Carcara

/-- `.map(f).collect::<Result<Vec<_>, _>>()`. -/
def collectRes {α β : Type} (f : α → Res β) : List α → Res (List β)
  | [] => .ok []
  | a :: l => do
    let b ← f a
    let bs ← collectRes f l
    pure (b :: bs)

/-- `match_term_err!((= t u) = get_premise_term(premise)?)`. -/
def premiseEq (clause : List Term) : Res (Term × Term) := do
  let t ← get1 clause
  match2 .equals t

/-- `match_term_err!((not (= t u)) = term)`. -/
def matchNeq (t : Term) : Res (Term × Term) := do
  let e ← match1 .not t
  match2 .equals e

/-! ## transitivity.rs -/

/-- The closure of the `find_map` in `transitivity.rs:18-28`: the first premise with `a` on one side, its index and
its other side. -/
def findEq (a : Term) : Nat → List (Term × Term) → Option (Nat × Term)
  | _, [] => none
  | i, (t, u) :: ps => if t = a then some (i, u) else if u = a then some (i, t) else findEq a (i + 1) ps

/-- `premises.swap(0, i)` followed by `&premises[1..]` (`transitivity.rs:36, 41`). -/
def swapTail {α : Type} (l : List α) (i : Nat) : List α :=
  match l with
  | [] => []
  | a :: _ => (l.set i a).tail

/-- `transitivity.rs:6-42 find_chain`. Every call has one premise less; the first argument is their number. -/
def findChain : Nat → Term → Term → List (Term × Term) → Res Unit
  | n, a, b, ps =>
    if a = b then .ok ()
    else match findEq a 0 ps, n with
      | some (i, c), n + 1 => findChain n c b (swapTail ps i)
      | _, _ => err

/-- `transitivity.rs:44-60`. -/
def eqTransitive : Rule := fun conclusion _ _ => do
  require (3 ≤ conclusion.length)
  let last ← orPanic conclusion.getLast?
  let (t, u) ← match2 .equals last
  let ps ← collectRes matchNeq conclusion.dropLast
  findChain ps.length t u ps

/-- `transitivity.rs:62-72`. -/
def trans : Rule := fun conclusion premises _ => do
  let c0 ← get1 conclusion
  let (t, u) ← match2 .equals c0
  let ps ← collectRes premiseEq premises
  findChain ps.length t u ps

/-! ## congruence.rs -/

/-- The two argument lists of applications of the same function or operator (`congruence.rs:51-64`). -/
def sameHead : Term → Term → Res (List Term × List Term)
  | .app f as, .app g bs => if f = g then .ok (as, bs) else err
  | .op f as, .op g bs => if f = g then .ok (as, bs) else err
  | _, _ => err

/-- The loop `congruence.rs:80-89`; the lists have the same length. -/
def justify : List (Term × Term) → List Term → List Term → Res Unit
  | (t, u) :: ps, f :: fs, g :: gs => do
    require ((f = t ∧ g = u) ∨ (f = u ∧ g = t))
    justify ps fs gs
  | _, _, _ => .ok ()

/-- `congruence.rs:42-91 generic_congruent_rule`, given the argument equalities. -/
def genericCongruent (eqs : List Term) (p q : Term) : Res Unit := do
  let ps ← collectRes (match2 .equals) eqs
  let (as, bs) ← sameHead p q
  require (as.length = bs.length)
  require (ps.length = as.length)
  justify ps as bs

/-- `congruence.rs:6-15`. -/
def eqCongruent : Rule := fun conclusion _ _ => do
  require (2 ≤ conclusion.length)
  let last ← orPanic conclusion.getLast?
  let (f, g) ← match2 .equals last
  let eqs ← collectRes Term.removeNegErr conclusion.dropLast
  genericCongruent eqs f g

/-- `congruence.rs:28-31`: the two literals, one of which is negated. -/
def predPair (p q : Term) : Res (Term × Term) :=
  match p.removeNegation with
  | some p => .ok (p, q)
  | none => do
    let q ← q.removeNegErr
    pure (p, q)

/-- `congruence.rs:17-34`. -/
def eqCongruentPred : Rule := fun conclusion _ _ => do
  require (3 ≤ conclusion.length)
  let init := conclusion.take (conclusion.length - 2)
  let (p, q) ← get2 (conclusion.drop (conclusion.length - 2))
  let (p, q) ← predPair p q
  let eqs ← collectRes Term.removeNegErr init
  genericCongruent eqs p q

/-- `congruence.rs:95-135 check_cong`. The argument lists are zipped. -/
def checkCong : List (Term × Term) → List Term → List Term → Res Unit
  | ps, f :: fs, g :: gs =>
    match ps with
    | (t, u) :: rest =>
      if (f = t ∧ g = u) ∨ (f = u ∧ g = t) then checkCong rest fs gs
      else if f = g then checkCong ((t, u) :: rest) fs gs
      else err
    | [] => if f = g then checkCong [] fs gs else err
  | [], _, _ => .ok ()
  | _ :: _, _, _ => err

/-- `result.is_ok()`. -/
def Res.isOk {α : Type} : Res α → Bool
  | .ok _ => true
  | .error _ => false

/-- The argument lists in `cong` (`congruence.rs:170-204`). -/
def congArgs : Term → Term → Res (List Term × List Term)
  | .paramOp f ps as, .paramOp g qs bs => if f ≠ g ∨ ps ≠ qs then err else .ok (as, bs)
  | f, g => sameHead f g

/-- The general case `congruence.rs:170-210`. -/
def congGeneral (ps : List (Term × Term)) (f g : Term) : Res Unit := do
  let (as, bs) ← congArgs f g
  require (as.length = bs.length)
  checkCong ps as bs

/-- `congruence.rs:137-210`. -/
def cong : Rule := fun conclusion premises _ => do
  let c0 ← get1 conclusion
  require (1 ≤ premises.length)
  let ps ← collectRes premiseEq premises
  let (f, g) ← match2 .equals c0
  match f, g with
  | .op .equals [a, b], .op .equals [c, d] =>
    if (checkCong ps [a, b] [c, d]).isOk || (checkCong ps [b, a] [c, d]).isOk
      || (checkCong ps [a, b] [d, c]).isOk || (checkCong ps [b, a] [d, c]).isOk then .ok ()
    else checkCong ps [a, b] [c, d]
  | f, g => congGeneral ps f g

/-- `congruence.rs:212-238`. -/
def hoCong : Rule := fun conclusion premises _ => do
  let c0 ← get1 conclusion
  require (1 ≤ premises.length)
  let ps ← collectRes premiseEq premises
  let (f, g) ← match2 .equals c0
  match f, g with
  | .app f as, .app g bs => do
    require (as.length = bs.length)
    checkCong ps (f :: as) (g :: bs)
  | _, _ => err

/-! ## reflexivity.rs and extras.rs -/

/-- `reflexivity.rs:4-8`. -/
def eqReflexive : Rule := fun conclusion _ _ => do
  let c0 ← get1 conclusion
  let (a, b) ← match2 .equals c0
  assertEq a b

/-- `extras.rs:13-26`. -/
def reordering : Rule := fun conclusion premises _ => do
  let p ← get1 premises
  require (conclusion.length = p.length)
  require ((MultiSet.ofList conclusion).symmetricDifference (MultiSet.ofList p) = .none)

/-- `extras.rs:28-48`. -/
def shuffle : Rule := fun conclusion _ _ => do
  let c0 ← get1 conclusion
  let (l, r) ← match2 .equals c0
  match l, r with
  | .op o as, .op o' bs => do
    require (o = o')
    require (o = .add ∨ o = .mult ∨ o = .and ∨ o = .or)
    require ((MultiSet.ofList as).eq (MultiSet.ofList bs) = true)
  | _, _ => err

/-- `extras.rs:50-59`. -/
def symm : Rule := fun conclusion premises _ => do
  let p ← get1 premises
  let c0 ← get1 conclusion
  let t ← get1 p
  let (p1, q1) ← match2 .equals t
  let (q2, p2) ← match2 .equals c0
  assertEq p1 p2
  assertEq q1 q2

/-- `extras.rs:61-70`. -/
def notSymm : Rule := fun conclusion premises _ => do
  let p ← get1 premises
  let c0 ← get1 conclusion
  let t ← get1 p
  let (p1, q1) ← matchNeq t
  let (q2, p2) ← matchNeq c0
  assertEq p1 p2
  assertEq q1 q2

/-- `extras.rs:72-77`. -/
def eqSymmetric : Rule := fun conclusion _ _ => do
  let c0 ← get1 conclusion
  let (a, b) ← match2 .equals c0
  let (t1, u1) ← match2 .equals a
  let (u2, t2) ← match2 .equals b
  assertEq t1 t2
  assertEq u1 u2

/-- `extras.rs:79-87`. -/
def weakening : Rule := fun conclusion premises _ => do
  let p ← get1 premises
  require (p.length ≤ conclusion.length)
  assertEqs p conclusion

/-- The loop `extras.rs:98-109`; the lists have the same length. -/
def andIntroLoop : List Term → List (List Term) → Res Unit
  | t :: ts, p :: ps => do
    match p with
    | [u] => assertEq t u
    | _ => assertEq t (.op .or p)
    andIntroLoop ts ps
  | _, _ => .ok ()

/-- `extras.rs:89-111`. -/
def andIntro : Rule := fun conclusion premises _ => do
  let c0 ← get1 conclusion
  let contents ← matchOp .and c0
  require (premises.length = contents.length)
  andIntroLoop contents premises

end Carcara
