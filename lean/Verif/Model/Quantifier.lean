import Verif.Model.Simplify
import Verif.Model.Substitution
import Verif.Model.Utils

/-!
# Quantifier rules

Model of `checker/rules/quantifier.rs`. The table that memoises the results of `negation_normal_form` is left out; it
maps a term and a polarity to the result of the same computation.
-/

namespace Carcara

/-- `Term::as_quant_err`. -/
def asQuantErr : Term → Res (Binder × List (String × Srt) × Term)
  | .binder .all bs t => .ok (.all, bs, t)
  | .binder .ex bs t => .ok (.ex, bs, t)
  | _ => err

/-- The map of `quantifier.rs:20-28`. -/
def instMap : List (String × Srt) → List Term → List (Term × Term) → Res (List (Term × Term))
  | (x, s) :: bs, v :: vs, m => do
    require (sortOf v = some s)
    instMap bs vs (mapInsert m (.var x s) v)
  | _, _, m => .ok m

/-- `quantifier.rs:8-36`. -/
def forallInst : Rule := fun conclusion _ args => do
  let c ← get1 conclusion
  let (l, result) ← match2 .or c
  let q ← match1 .not l
  let (bs, original) ← matchBinder .all q
  require (args.length = bs.length)
  let m ← instMap bs args []
  let σ ← Subst.new m
  let r ← σ.apply original
  let eq ← alphaEquiv result r.1
  require (eq = true)

/-- `quantifier.rs:38-61`. -/
def qntJoin : Rule := fun conclusion _ _ => do
  let c ← get1 conclusion
  let (l, r) ← match2 .equals c
  let (q1, bs1, l) ← asQuantErr l
  let (q2, bs2, l) ← asQuantErr l
  let (q3, bs3, r) ← asQuantErr r
  require (q1 = q2)
  require (q2 = q3)
  assertEq l r
  require (bs3 = dedup (bs1 ++ bs2))

/-- `quantifier.rs:63-105`. -/
def qntRmUnused : Rule := fun conclusion _ _ => do
  let c ← get1 conclusion
  let (l, r) ← match2 .equals c
  let (q1, left, phi1) ← asQuantErr l
  let fv := freeVars phi1
  if (left.all fun v => decide (v ∉ fv)) = true ∧ phi1 = r then .ok ()
  else do
    let (q2, right, phi2) ← asQuantErr r
    require (q1 = q2)
    assertEq phi1 phi2
    require (∀ v ∈ right, v ∈ left)
    require (∀ v ∈ left, v ∉ right → v ∉ fv)

/-- `quantifier.rs:119-127`. -/
def flipOp (o : Op) (polarity : Bool) : Op :=
  if polarity then o else if o = .and then .or else .and

/-- `!quant`, for the two quantifiers. -/
def flipQuant (b : Binder) (polarity : Bool) : Binder :=
  if polarity then b else if b = .all then .ex else .all

/-- `(and (or a b) (or c d))`, or its dual. -/
def nnfPair (polarity : Bool) (a b c d : Term) : Term :=
  .op (flipOp .and polarity) [.op (flipOp .or polarity) [a, b], .op (flipOp .or polarity) [c, d]]

/-- A literal. -/
def nnfLit (polarity : Bool) (t : Term) : Term := if polarity then t else .op .not [t]

mutual
/-- `quantifier.rs:108-175 negation_normal_form`. -/
def nnf : Term → Bool → Term
  | .op .not [t], pol => nnf t !pol
  | .op .and as, pol => .op (flipOp .and pol) (nnfL as pol)
  | .op .or as, pol => .op (flipOp .or pol) (nnfL as pol)
  | .op .implies [p, q], pol => .op (flipOp .or pol) [nnf p !pol, nnf q pol]
  | .op .ite [p, q, r], pol => nnfPair pol (nnf p !pol) (nnf q pol) (nnf p pol) (nnf r pol)
  | .binder .all bs t, pol => .binder (flipQuant .all pol) bs (nnf t pol)
  | .binder .ex bs t, pol => .binder (flipQuant .ex pol) bs (nnf t pol)
  | .op .equals [l, r], pol =>
    if sortOf l = some .bool then nnfPair pol (nnf l !pol) (nnf r pol) (nnf r !pol) (nnf l pol)
    else nnfLit pol (.op .equals [l, r])
  | t, pol => nnfLit pol t
/-- The arguments of a connective. -/
def nnfL : List Term → Bool → List Term
  | [], _ => []
  | t :: ts, pol => nnf t pol :: nnfL ts pol
end

/-- `quantifier.rs:192-218`. -/
def distribute : List (List (List Term)) → Res (List (List Term))
  | [] => panic
  | [f] => .ok f
  | head :: tail => do
    let tail ← distribute tail
    .ok (head.flatMap fun h => tail.map fun t => h ++ t)

mutual
/-- `quantifier.rs:220-241 prenex_forall`: the bindings found, in order, and the remaining term. -/
def prenex : Term → List (String × Srt) × Term
  | .op .and as => ((prenexL as).1, .op .and (prenexL as).2)
  | .op .or as => ((prenexL as).1, .op .or (prenexL as).2)
  | .binder .all bs t => (bs ++ (prenex t).1, (prenex t).2)
  | t => ([], t)
/-- The arguments of a connective. -/
def prenexL : List Term → List (String × Srt) × List Term
  | [] => ([], [])
  | t :: ts => ((prenex t).1 ++ (prenexL ts).1, (prenex t).2 :: (prenexL ts).2)
end

mutual
/-- `quantifier.rs:243-262 conjunctive_normal_form`. -/
def toCnf : Term → Res (List (List Term))
  | .op .and as => do
    let fs ← toCnfL as
    .ok fs.flatten
  | .op .or as => do
    let fs ← toCnfL as
    distribute fs
  | t => .ok [[t]]
/-- The arguments of a connective. -/
def toCnfL : List Term → Res (List (List (List Term)))
  | [] => .ok []
  | t :: ts => do
    let f ← toCnf t
    let fs ← toCnfL ts
    .ok (f :: fs)
end

/-- The terms for the clauses (`quantifier.rs:286-290`). -/
def cnfClause : List Term → Res Term
  | [] => panic
  | [t] => .ok t
  | c => .ok (.op .or c)

/-- `quantifier.rs:264-328`. -/
def qntCnf : Rule := fun conclusion _ _ => do
  let c ← get1 conclusion
  let (nl, r) ← match2 .or c
  let l ← match1 .not nl
  let (lq, lbs, phi) ← asQuantErr l
  let (rq, rbs, phi') ← asQuantErr r
  require (lq = .all)
  require (rq = .all)
  let pre := prenex (nnf phi true)
  let newBs := setOf (lbs ++ pre.1)
  let cnf ← toCnf pre.2
  let clauses ← mapRes cnfClause cnf
  require (∀ b ∈ rbs, b ∈ newBs)
  require (phi' ∈ clauses)
  require (∀ b ∈ newBs, b ∉ rbs → b ∉ freeVars phi')

/-- `match_term!((= (q ... (o ...)) (o ...)) = t)`. -/
def matchMini (q : Binder) (o : Op) (c : Term) : Res (List (String × Srt) × List Term × List Term) := do
  let (l, r) ← match2 .equals c
  let (bs, body) ← matchBinder q l
  let phis ← matchOp o body
  let rs ← matchOp o r
  .ok (bs, phis, rs)

/-- The loop of `quantifier.rs:342-351`. -/
def miniDistLoop (q : Binder) (bs : List (String × Srt)) : List Term → List Term → Res Unit
  | phi :: phis, r :: rs => do
    let (b, inner) ← matchBinder q r
    require (bs = b)
    assertEq phi inner
    miniDistLoop q bs phis rs
  | _, _ => .ok ()

/-- `quantifier.rs:330-353`. -/
def miniscopeDistribute : Rule := fun conclusion _ _ => do
  let c ← get1 conclusion
  let (q, bs, phis, rs) ← (match matchMini .all .and c with
    | .ok (bs, phis, rs) => .ok (Binder.all, bs, phis, rs)
    | .error _ => do
      let (bs, phis, rs) ← matchMini .ex .or c
      .ok (Binder.ex, bs, phis, rs) : Res _)
  require (rs.length = phis.length)
  miniDistLoop q bs phis rs

/-- The removals of `quantifier.rs:383-387`. -/
def removeBindings : List (String × Srt) → List (String × Srt) → Res (List (String × Srt))
  | set, [] => .ok set
  | set, b :: bs => if (setRemove set b).2 then removeBindings (setRemove set b).1 bs else err

/-- The loop of `quantifier.rs:367-388`. -/
def miniSplitLoop (q : Binder) : List (String × Srt) → List Term → List Term → Res Unit
  | set, phi :: phis, r :: rs =>
    if phi = r then miniSplitLoop q set phis rs
    else do
      let (inner, body) ← matchBinder q r
      assertEq phi body
      let set ← removeBindings set inner
      miniSplitLoop q set phis rs
  | _, _, _ => .ok ()

/-- `quantifier.rs:355-399`. -/
def miniscopeSplit : Rule := fun conclusion _ _ => do
  let c ← get1 conclusion
  let (q, o, bs, phis, rs) ← (match matchMini .all .or c with
    | .ok (bs, phis, rs) => .ok (Binder.all, Op.or, bs, phis, rs)
    | .error _ => do
      let (bs, phis, rs) ← matchMini .ex .and c
      .ok (Binder.ex, Op.and, bs, phis, rs) : Res _)
  require (rs.length = phis.length)
  miniSplitLoop q (setOf bs) phis rs
  require (∀ v ∈ bs, v ∉ freeVars (.op o rs))

/-- `quantifier.rs:401-426`. -/
def miniscopeIte : Rule := fun conclusion _ _ => do
  let c ← get1 conclusion
  let (l, r) ← match2 .equals c
  let (bs1, body) ← matchBinder .all l
  let (p1, p2, p3) ← match3 .ite body
  let (q1, r2, r3) ← match3 .ite r
  let (bs2, q2) ← matchBinder .all r2
  let (bs3, q3) ← matchBinder .all r3
  assertEq p1 q1
  assertEq p2 q2
  assertEq p3 q3
  require (bs1 = bs2)
  require (bs1 = bs3)
  require (∀ v ∈ bs1, v ∉ freeVars p1)

end Carcara
