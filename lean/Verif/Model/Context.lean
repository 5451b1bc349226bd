import Verif.Model.Quantifier
import Verif.Model.Subproof

/-!
# Contexts and the rules that use them

Model of `ast/context.rs`, of `checker/rules/reflexivity.rs` and of the rules of `checker/rules/subproof.rs` that close
a subproof with anchor arguments. The context stack is modelled as one thread sees it: a context is created by `push`
and dropped by `pop`. Sets are lists. The points of `onepoint` are visited in the order in which they are found; the
Rust code visits them in the order of a hash set.
-/

namespace Carcara

/-- `ast/context.rs:32-41 ContextStack`: the open contexts (outermost first), each with its cumulative substitution once
that is computed, and the number of substitutions computed. -/
structure CtxStack where
  /-- arguments and cumulative substitution of every open context -/
  stack : List (List AnchorArg × Option Subst)
  /-- `num_cumulative_calculated` -/
  num : Nat
deriving DecidableEq

namespace CtxStack

/-- `ast/context.rs:44-46`. -/
def empty : CtxStack := ⟨[], 0⟩

/-- `ast/context.rs:103-106`. -/
def push (C : CtxStack) (as : List AnchorArg) : CtxStack := { C with stack := C.stack ++ [(as, none)] }

/-- `ast/context.rs:126-145`. -/
def pop (C : CtxStack) : CtxStack :=
  let stack := C.stack.dropLast
  ⟨stack, min C.num stack.length⟩

/-- The loop over the arguments of one anchor (`ast/context.rs:176-192`). The `unwrap` panics when the variable and the
value have different sorts. -/
def extend : Subst → List AnchorArg → Res Subst
  | σ, [] => .ok σ
  | σ, .var x s :: as => extend (σ.remove (.var x s)) as
  | σ, .assign x s t :: as => do
    let (t', σ) ← σ.apply t
    let σ ← (match σ.insert (.var x s) t' with
      | .ok σ => .ok σ
      | .error _ => panic : Res Subst)
    extend σ as

/-- One iteration of `ast/context.rs:148-199`: compute the cumulative substitution of context `i`. -/
def compute (C : CtxStack) (i : Nat) : Res CtxStack := do
  let e ← orPanic C.stack[i]?
  let base ← (if i = 0 then .ok .empty else do
    let p ← orPanic C.stack[i - 1]?
    orPanic p.2 : Res Subst)
  let σ ← extend base e.1
  .ok ⟨C.stack.set i (e.1, some σ), i + 1⟩

/-- `n` iterations, starting with context `i`. -/
def computeFrom : Nat → Nat → CtxStack → Res CtxStack
  | 0, _, C => .ok C
  | n + 1, i, C => do
    let C ← C.compute i
    computeFrom n (i + 1) C

/-- `ast/context.rs:147-200 catch_up_cumulative`. -/
def catchUp (C : CtxStack) (upTo : Nat) : Res CtxStack :=
  computeFrom (max (upTo + 1) C.stack.length - C.num) C.num C

/-- Apply the cumulative substitution of context `i` (`ast/context.rs:208-216`, `224-232`). -/
def applyAt (C : CtxStack) (i : Nat) (t : Term) : Res (Term × CtxStack) := do
  let C ← C.catchUp i
  let e ← orPanic C.stack[i]?
  let σ ← orPanic e.2
  let (t', σ) ← σ.apply t
  .ok (t', { C with stack := C.stack.set i (e.1, some σ) })

/-- `ast/context.rs:202-217`. -/
def applyPrevious (C : CtxStack) (t : Term) : Res (Term × CtxStack) :=
  if C.stack.length < 2 then .ok (t, C) else C.applyAt (C.stack.length - 2) t

/-- `ast/context.rs:219-234`. -/
def apply (C : CtxStack) (t : Term) : Res (Term × CtxStack) :=
  if C.stack.length = 0 then .ok (t, C) else C.applyAt (C.stack.length - 1) t

end CtxStack

/-- `checker/rules/reflexivity.rs:10-48`. Returns the stack with the substitutions computed on the way. -/
def refl (C : CtxStack) (conclusion : List Term) : Res CtxStack := do
  let c ← get1 conclusion
  let (l, r) ← match2 .equals c
  if ← alphaEquiv l r then .ok C
  else do
    require (C.stack.length ≠ 0)
    let (l', C) ← C.apply l
    if ← alphaEquiv l' r then .ok C
    else do
      let (r', C) ← C.apply r
      if ← alphaEquiv l r' then .ok C
      else do
        let e ← alphaEquiv l' r'
        require (e = true)
        .ok C

/-- `checker/rules/reflexivity.rs:50-71`. -/
def strictRefl (C : CtxStack) (conclusion : List Term) : Res CtxStack := do
  let c ← get1 conclusion
  let (l, r) ← match2 .equals c
  if l = r then .ok C
  else do
    require (C.stack.length ≠ 0)
    let (l', C) ← C.apply l
    require (l' = r)
    .ok C

/-- `Term::as_binder_err`. -/
def asBinderErr : Term → Res (Binder × List (String × Srt) × Term)
  | .binder b bs t => .ok (b, bs, t)
  | _ => err

/-- The arguments of the innermost anchor: `context.last().unwrap()`. -/
def lastArgs (context : List (List AnchorArg)) : Res (List AnchorArg) := orPanic context.getLast?

/-- The loop of `subproof.rs:96-112`: the assigned variables and the declared ones. A declaration after an assignment is
an error. -/
def bindArgs : List AnchorArg → List (String × Srt) → List (String × Srt) →
    Res (List (String × Srt) × List (String × Srt))
  | [], xs, ys => .ok (xs, ys)
  | .var y s :: as, xs, ys => if xs.isEmpty then bindArgs as xs (setInsert ys (y, s)) else err
  | .assign x s _ :: as, xs, ys => bindArgs as (setInsert xs (x, s)) ys

/-- `subproof.rs:50-134 bind`. The set of lines 119-122 for the right-hand side is the difference of a set with itself,
as in the code. -/
def bindRule (conclusion : List Term) (context : List (List AnchorArg)) (previous : Option (List Term)) : Res Unit := do
  let prev ← orErr previous
  let c ← get1 conclusion
  let p ← get1 prev
  let (phi, phi') ← match2 .equals p
  let (l, r) ← match2 .equals c
  let (b1, bs1, l) ← asBinderErr l
  let (b2, bs2, r) ← asBinderErr r
  require (b1 = b2)
  let bs1 := setOf bs1
  let bs2 := setOf bs2
  assertEq l phi
  assertEq r phi'
  require (∀ y ∈ bs2, y ∈ freeVars phi → y ∈ bs1)
  let as ← lastArgs context
  let (xs, ys) ← bindArgs as [] []
  require (bs1.length = bs2.length)
  let l' := bs1.filter fun b => decide (b ∉ bs2)
  let r' := bs2.filter fun b => decide (b ∉ bs2)
  require (∀ x ∈ l', x ∈ xs)
  require (∀ y ∈ r', y ∈ ys)

/-- The mappings of `subproof.rs:153-160`. The sort of the variable is that of the value. -/
def letMappings : List AnchorArg → List (Term × Term) → Res (List (Term × Term))
  | [], m => .ok m
  | .var _ _ :: as, m => letMappings as m
  | .assign x _ t :: as, m => do
    let s ← orPanic (sortOf t)
    letMappings as (mapInsert m (.var x s) t)

/-- The pairs of `subproof.rs:180-190`: the value in the anchor and the value in the `let`. -/
def letPairs (m : List (Term × Term)) : List (String × Term) → Res (List (Term × Term))
  | [] => .ok []
  | (x, t) :: bs => do
    let s ← orPanic (sortOf t)
    let v ← orErr (mapGet m (.var x s))
    let ps ← letPairs m bs
    .ok ((v, t) :: ps)

/-- The loop of `subproof.rs:195-204`. -/
def letPremises : List (List Term) → List (Term × Term) → Res Unit
  | p :: ps, (s, t) :: st => do
    let p ← get1 p
    let (a, b) ← match2 .equals p
    require ((a, b) = (s, t) ∨ (a, b) = (t, s))
    letPremises ps st
  | _, _ => .ok ()

/-- `Term::Let`. -/
def asLetErr : Term → Res (List (String × Term) × Term)
  | .let_ bs t => .ok (bs, t)
  | _ => err

/-- `subproof.rs:136-206 let`. -/
def letRule (conclusion : List Term) (premises : List (List Term)) (context : List (List AnchorArg))
    (previous : Option (List Term)) : Res Unit := do
  let prev ← orErr previous
  let c ← get1 conclusion
  let as ← lastArgs context
  let m ← letMappings as []
  let (l, u') ← match2 .equals c
  let (bs, u) ← asLetErr l
  let p ← get1 prev
  let (pu, pu') ← match2 .equals p
  assertEq u pu
  assertEq u' pu'
  require (bs.length = m.length)
  let pairs ← letPairs m bs
  let pairs := pairs.filter fun p => decide (p.1 ≠ p.2)
  require (premises.length = pairs.length)
  letPremises premises pairs

mutual
/-- `subproof.rs:209-253 find_points`. The table of terms already seen only saves work: the points of a term are in the
result once it has been seen. -/
def findPoints : Term → Bool → List (String × Term)
  | .op .not [t], p => findPoints t (!p)
  | .binder .all _ t, p => findPoints t p
  | .binder .ex _ t, p => findPoints t p
  | .op .equals [a, b], true => (a.asVar.toList.map fun x => (x, b)) ++ (b.asVar.toList.map fun y => (y, a))
  | .op .and as, true => findPointsL as true
  | .op .implies [p, q], false => findPoints p true ++ findPoints q false
  | .op .or as, false => findPointsL as false
  | _, _ => []
/-- The points of a list of terms. -/
def findPointsL : List Term → Bool → List (String × Term)
  | [], _ => []
  | t :: ts, p => findPoints t p ++ findPointsL ts p
end

/-- `subproof.rs:300-303`: the substitution applied to the points. -/
def applyPoints : CtxStack → List (String × Term) → Res (List (String × Term) × CtxStack)
  | C, [] => .ok ([], C)
  | C, (x, t) :: ps => do
    let (t', C) ← C.apply t
    let (ps', C) ← applyPoints C ps
    .ok ((x, t') :: ps', C)

/-- The declared variables. -/
def varArgs (as : List AnchorArg) : List (String × Srt) :=
  as.filterMap fun | .var x s => some (x, s) | .assign _ _ _ => none

/-- The assignments, as names and values (`AnchorArg::as_assign`). -/
def assignArgs (as : List AnchorArg) : List (String × Term) :=
  as.filterMap fun | .var _ _ => none | .assign x _ t => some (x, t)

/-- `subproof.rs:336-338`: the assigned variables, with the sorts of the values. -/
def pointVars : List (String × Term) → Res (List (String × Srt))
  | [] => .ok []
  | (x, t) :: ps => do
    let s ← orPanic (sortOf t)
    let vs ← pointVars ps
    .ok ((x, s) :: vs)

/-- `Term::as_quant`, with no bindings for other terms (`subproof.rs:276-284`). -/
def onepointRight (q : Binder) (t : Term) : Res (List (String × Srt) × Term) :=
  match asQuantErr t with
  | .ok (q', bs, u) => do
    require (q' = q)
    .ok (bs, u)
  | .error _ => .ok ([], t)

/-- `subproof.rs:261-357 onepoint`. -/
def onepoint (C : CtxStack) (conclusion : List Term) (previous : Option (List Term)) : Res CtxStack := do
  let prev ← orErr previous
  let c ← get1 conclusion
  let (l, r) ← match2 .equals c
  let (q, lbs, l) ← asQuantErr l
  let (rbs, r) ← onepointRight q r
  let p ← get1 prev
  let e ← match2 .equals p
  require (e = (l, r) ∨ e = (r, l))
  let (points, C) ← applyPoints C (findPoints l (decide (q = .ex)))
  let as ← lastArgs (C.stack.map (·.1))
  require (∀ m ∈ assignArgs as, m ∈ points)
  let pv ← pointVars (assignArgs as)
  require (varArgs as = rbs)
  require ((∀ b ∈ lbs, b ∈ varArgs as ++ pv) ∧ ∀ b ∈ varArgs as ++ pv, b ∈ lbs)
  .ok C

/-- The loop of `subproof.rs:400-435`. -/
def skoLoop (q : Binder) (m : List (Term × Term)) : List (String × Srt) → Term → Res Unit
  | [], _ => .ok ()
  | (x, s) :: bs, phi => do
    let t ← orErr (mapGet m (.var x s))
    let inner := if bs.isEmpty then phi else .binder q bs phi
    let inner := if q = .all then .op .not [inner] else inner
    let e ← alphaEquiv t (.binder .choice [(x, s)] inner)
    require (e = true)
    let σ ← Subst.new [(.var x s, t)]
    let r ← σ.apply phi
    skoLoop q m bs r.1

/-- `subproof.rs:359-437 generic_skolemization_rule`. -/
def skolemize (q : Binder) (C : CtxStack) (conclusion : List Term) (previous : Option (List Term)) : Res CtxStack := do
  let prev ← orErr previous
  let c ← get1 conclusion
  let (l, psi) ← match2 .equals c
  let (q', bs, phi) ← asQuantErr l
  require (q' = q)
  let p ← get1 prev
  let e ← match2 .equals p
  assertEq e.1 phi
  assertEq e.2 psi
  let (cur, C) ← (if 2 ≤ C.stack.length then C.applyPrevious phi else .ok (phi, C) : Res (Term × CtxStack))
  let as ← lastArgs (C.stack.map (·.1))
  let m ← letMappings as []
  skoLoop q m bs cur
  .ok C

end Carcara
