import Verif.Model.Numbers
import Verif.Model.Equality
import Verif.Model.Polyeq

/-!
# Simplification of formulas

Model of the Boolean part of `checker/rules/simplification.rs`. The `simplify!` macro tries its patterns in order; a
pattern whose guard fails is skipped. Here every pattern is a partial function and `firstOf` tries them in order.
-/

namespace Carcara

/-- One simplification. -/
abbrev Rewrite := Term → Option Term

/-- `simplify!` (`simplification.rs:13-42`). -/
def firstOf (rs : List Rewrite) : Rewrite := fun t => rs.findSome? (· t)

/-- `simplification.rs:51-70 simplify_until_fixed_point`. The first argument bounds the number of rounds of the
`loop`; `Term.size t + 3` is enough for the rewrite functions below (see `c14_loop_terminates`). -/
def simplifyFix (f : Term → Res (Option Term)) (goal : Term) : Nat → List Term → Term → Res Term
  | 0, _, _ => err
  | n + 1, seen, t =>
    if t ∈ seen then err
    else do
      match ← f t with
      | some u => if u = goal then .ok u else simplifyFix f goal n (t :: seen) u
      | none => .ok t

/-- The number of rounds given to `simplifyFix`. -/
def simplifyRounds (t : Term) : Nat := t.size + 3

/-- `simplification.rs:44-86 generic_simplify_rule`. -/
def genericSimplify (f : Term → Res (Option Term)) : Rule := fun conclusion _ _ => do
  let c ← get1 conclusion
  let (l, r) ← match2 .equals c
  let u ← simplifyFix f r (simplifyRounds l) [] l
  if u = r then .ok ()
  else do
    let v ← simplifyFix f l (simplifyRounds r) [] r
    require (v = l)

/-- `simplification.rs:90-141`. -/
def iteRewrites : List Rewrite := [
  fun | .op .ite [.op .tru [], a, _] => some a | _ => none,
  fun | .op .ite [.op .fls [], _, b] => some b | _ => none,
  fun | .op .ite [_, a, b] => if a = b then some a else none | _ => none,
  fun | .op .ite [p, .op .tru [], .op .fls []] => some p | _ => none,
  fun | .op .ite [p, .op .fls [], .op .tru []] => some (.op .not [p]) | _ => none,
  fun | .op .ite [.op .not [p], a, b] => some (.op .ite [p, b, a]) | _ => none,
  fun | .op .ite [p, .op .ite [q, a, _], c] => if p = q then some (.op .ite [p, a, c]) else none | _ => none,
  fun | .op .ite [p, a, .op .ite [q, _, c]] => if p = q then some (.op .ite [p, a, c]) else none | _ => none,
  fun | .op .ite [p, .op .tru [], q] => some (.op .or [p, q]) | _ => none,
  fun | .op .ite [p, q, .op .fls []] => some (.op .and [p, q]) | _ => none,
  fun | .op .ite [p, .op .fls [], q] => some (.op .and [.op .not [p], q]) | _ => none,
  fun | .op .ite [p, q, .op .tru []] => some (.op .or [.op .not [p], q]) | _ => none]

/-- `simplification.rs:88-142`. -/
def iteSimplify : Rule := genericSimplify fun t => .ok (firstOf iteRewrites t)

/-- `simplification.rs:146-162`. -/
def eqRewrites : List Rewrite := [
  fun | .op .equals [a, b] => if a = b then some .tru else none | _ => none,
  fun
    | .op .equals [a, b] => match a.asSignedNumber, b.asSignedNumber with
      | some p, some q => if p ≠ q then some .fls else none
      | _, _ => none
    | _ => none,
  fun | .op .not [.op .equals [a, b]] => if a = b ∧ a.isSignedNumber then some .fls else none | _ => none]

/-- `simplification.rs:144-163`. -/
def eqSimplify : Rule := genericSimplify fun t => .ok (firstOf eqRewrites t)

/-- `simplification.rs:275-285`. -/
def notRewrites : List Rewrite := [
  fun | .op .not [.op .not [a]] => some a | _ => none,
  fun | .op .not [.op .fls []] => some .tru | _ => none,
  fun | .op .not [.op .tru []] => some .fls | _ => none]

/-- `simplification.rs:273-286`. -/
def notSimplify : Rule := genericSimplify fun t => .ok (firstOf notRewrites t)

/-- `simplification.rs:290-322`. -/
def impliesRewrites : List Rewrite := [
  fun | .op .implies [.op .not [a], .op .not [b]] => some (.op .implies [b, a]) | _ => none,
  fun | .op .implies [.op .fls [], _] => some .tru | _ => none,
  fun | .op .implies [_, .op .tru []] => some .tru | _ => none,
  fun | .op .implies [.op .tru [], b] => some b | _ => none,
  fun | .op .implies [a, .op .fls []] => some (.op .not [a]) | _ => none,
  fun | .op .implies [a, b] => if a = b then some .tru else none | _ => none,
  fun | .op .implies [a, b] => if a.removeNegation = some b ∨ b.removeNegation = some a then some b else none
      | _ => none,
  fun | .op .implies [.op .implies [a, b], c] => if b = c then some (.op .or [a, b]) else none | _ => none]

/-- `simplification.rs:288-323`. -/
def impliesSimplify : Rule := genericSimplify fun t => .ok (firstOf impliesRewrites t)

/-- `simplification.rs:327-354`. -/
def equivRewrites : List Rewrite := [
  fun | .op .equals [.op .not [a], .op .not [b]] => some (.op .equals [a, b]) | _ => none,
  fun | .op .equals [a, b] => if a = b then some .tru else none | _ => none,
  fun | .op .equals [a, .op .not [b]] => if a = b then some .fls else none | _ => none,
  fun | .op .equals [.op .not [a], b] => if a = b then some .fls else none | _ => none,
  fun | .op .equals [.op .tru [], b] => some b | _ => none,
  fun | .op .equals [a, .op .tru []] => some a | _ => none,
  fun | .op .equals [.op .fls [], b] => some (.op .not [b]) | _ => none,
  fun | .op .equals [a, .op .fls []] => some (.op .not [a]) | _ => none]

/-- `simplification.rs:325-355`. -/
def equivSimplify : Rule := genericSimplify fun t => .ok (firstOf equivRewrites t)

/-- `simplification.rs:359-395`. -/
def boolRewrites : List Rewrite := [
  fun | .op .not [.op .implies [a, b]] => some (.op .and [a, .op .not [b]]) | _ => none,
  fun | .op .not [.op .or [a, b]] => some (.op .and [.op .not [a], .op .not [b]]) | _ => none,
  fun | .op .not [.op .and [a, b]] => some (.op .or [.op .not [a], .op .not [b]]) | _ => none,
  fun | .op .implies [a, .op .implies [b, c]] => some (.op .implies [.op .and [a, b], c]) | _ => none,
  fun | .op .implies [.op .implies [a, b], c] => if b = c then some (.op .or [a, b]) else none | _ => none,
  fun | .op .and [a, .op .implies [b, c]] => if a = b then some (.op .and [a, c]) else none | _ => none,
  fun | .op .and [.op .implies [a, b], c] => if a = c then some (.op .and [a, b]) else none | _ => none]

/-- `simplification.rs:357-396`. -/
def boolSimplify : Rule := genericSimplify fun t => .ok (firstOf boolRewrites t)

/-! ## `and_simplify`, `or_simplify` -/

/-- `Term::is_bool_constant` (`ast/term.rs:996-1001`). -/
def Term.isBoolConstant (t : Term) (b : Bool) : Bool := if b then t.isBoolTrue else t.isBoolFalse

/-- The arguments of an application of `k`, or the term itself as the only argument
(`simplification.rs:198-201`). -/
def argsOrSelf (k : Op) (t : Term) : List Term :=
  match t with
  | .op o as => if o = k then as else [t]
  | _ => [t]

/-- `simplification.rs:203-211`: the outer application is dropped if its only argument is an application of the same
operator. -/
def unnestOne (k : Op) (phis : List Term) : List Term :=
  match phis with
  | [.op o as] => if o = k then as else phis
  | _ => phis

/-- The test of the loop in `simplification.rs:236-250`. -/
def shortCircuits (sc : Bool) (phis : List Term) : Bool :=
  phis.any fun t =>
    let p := t.removeAllNegationsPol
    (phis.any fun u => u.removeAllNegationsPol = (!p.1, p.2)) || t.isBoolConstant sc

/-- `simplification.rs:165-263 generic_and_or_simplify`; `skip` is the constant that can be left out. -/
def andOrSimplify (k : Op) (skip : Bool) : Rule := fun conclusion _ _ => do
  let c ← get1 conclusion
  let (lhs, result) ← match2 .equals c
  let phis ← matchOp k lhs
  let res := argsOrSelf k result
  let phis := (unnestOne k phis).filter fun t => !t.isBoolConstant skip
  if res = phis then .ok ()
  else
    let phis := dedup phis
    if res = phis then .ok ()
    else if shortCircuits (!skip) phis then
      match res with
      | [t] => require (t.isBoolConstant (!skip) = true)
      | _ => err
    else if phis = [] then
      match res with
      | [t] => require (t.isBoolConstant skip = true)
      | _ => err
    else require (res = phis)

/-- `simplification.rs:265-267`. -/
def andSimplify : Rule := andOrSimplify .and true

/-- `simplification.rs:269-271`. -/
def orSimplify : Rule := andOrSimplify .or false

/-! ## `ac_simp` -/

/-- The flattened and deduplicated application (`simplification.rs:691-719`). -/
def acJoin (o : Op) (as : List Term) : Term :=
  match dedup (as.flatMap (argsOrSelf o)) with
  | [t] => t
  | us => .op o us

mutual
/-- `simplification.rs:682-732 apply_ac_simp`. The cache is left out: it is indexed by the term, and the result depends
on nothing else. -/
def acSimpTerm : Term → Term
  | .op .and as => acJoin .and (acSimpL as)
  | .op .or as => acJoin .or (acSimpL as)
  | .op o as => .op o (acSimpL as)
  | .app f as => .app f (acSimpL as)
  | .binder b bs t => .binder b bs (acSimpTerm t)
  | .let_ bs t => .let_ bs (acSimpTerm t)
  | t => t
/-- The arguments of an application. -/
def acSimpL : List Term → List Term
  | [] => []
  | t :: ts => acSimpTerm t :: acSimpL ts
end

/-- `simplification.rs:734-742`. -/
def acSimp : Rule := fun conclusion _ _ => do
  let c ← get1 conclusion
  let (l, r) ← match2 .equals c
  assertEq r (acSimpTerm l)

/-! ## `qnt_simplify` -/

/-- `simplification.rs:398-408`. -/
def qntSimplify : Rule := fun conclusion _ _ => do
  let c ← get1 conclusion
  let (l, r) ← match2 .equals c
  match l with
  | .binder .all _ body | .binder .ex _ body => do
    require (body.isBoolFalse = true ∨ body.isBoolTrue = true)
    assertEq r body
  | _ => err

end Carcara
