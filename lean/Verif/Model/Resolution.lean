import Verif.Model.Base
import Verif.Model.Collections

/-!
# Resolution

Model of `carcara/src/resolution.rs` and `carcara/src/checker/rules/resolution.rs`. Clauses of premises are
passed directly instead of inside `Premise`.
-/

namespace Carcara

/-- `resolution.rs:23 Literal`: number of leading negations (`u32` in the code, which wraps only for terms
with 2³² nested negations) and the term below them. -/
abbrev Lit := Nat × Term

/-- `resolution.rs:26-30 trait ClauseCollection`. -/
class ClauseColl (C : Type) where
  /-- `FromIterator` -/
  ofList : List Lit → C
  /-- `insert_term` -/
  insertTerm : C → Lit → C
  /-- `remove_term` -/
  removeTerm : C → Lit → C × Bool
  /-- contents, in iteration order -/
  toList : C → List Lit

/-- `Vec` as a clause collection. -/
structure VecClause where
  lits : List Lit

/-- `IndexSet` as a clause collection. -/
structure SetClause where
  lits : List Lit

/-- `resolution.rs:32-45 impl ClauseCollection for Vec`: removal takes out the first occurrence. -/
instance : ClauseColl VecClause where
  ofList l := ⟨l⟩
  insertTerm c l := ⟨c.lits ++ [l]⟩
  removeTerm c l := if l ∈ c.lits then (⟨c.lits.erase l⟩, true) else (c, false)
  toList c := c.lits

/-- `resolution.rs:47-55 impl ClauseCollection for IndexSet`. -/
instance : ClauseColl SetClause where
  ofList l := ⟨setOf l⟩
  insertTerm c l := ⟨setInsert c.lits l⟩
  removeTerm c l := (⟨(setRemove c.lits l).1⟩, (setRemove c.lits l).2)
  toList c := c.lits

open ClauseColl

/-- `n` negations in front of a term (the loop of `literal_to_term`). -/
def notN : Nat → Term → Term
  | 0, t => t
  | n + 1, t => .op .not [notN n t]

/-- `resolution.rs:57-65 literal_to_term`. -/
def literalToTerm (l : Lit) : Term := notN l.1 l.2

/-- The loop `rules/resolution.rs:189-197` over the next premise: returns whether the pivot was found and the
extended clause. -/
def insertRest {C : Type} [ClauseColl C] (pivot : Lit) : Bool → C → List Term → Bool × C
  | found, c, [] => (found, c)
  | found, c, t :: ts =>
    let l := t.removeAllNegations
    if !found ∧ l = pivot then insertRest pivot true c ts
    else insertRest pivot found (insertTerm c l) ts

/-- `rules/resolution.rs:171-203 binary_resolution`. -/
def binaryResolution {C : Type} [ClauseColl C] (cur : C) (next : List Term) (pivot : Lit)
    (inCurrent : Bool) : Res C :=
  let neg : Lit := (pivot.1 + 1, pivot.2)
  let (pc, pn) := if inCurrent then (pivot, neg) else (neg, pivot)
  let (cur, removed) := removeTerm cur pc
  if !removed then err
  else
    let (found, cur) := insertRest pn false cur next
    if !found then err else .ok cur

/-- `rules/resolution.rs:142-156`: pairs of pivot and polarity. An odd last argument cannot occur, the number
of arguments was checked before. -/
def parsePivots : List Term → Res (List (Lit × Bool))
  | p :: b :: rest =>
    if b.isBoolTrue then do let r ← parsePivots rest; pure ((p.removeAllNegations, true) :: r)
    else if b.isBoolFalse then do let r ← parsePivots rest; pure ((p.removeAllNegations, false) :: r)
    else err
  | [_] => panic
  | [] => .ok []

/-- The loop `rules/resolution.rs:164-166`. -/
def resolveAll {C : Type} [ClauseColl C] : C → List (List Term × (Lit × Bool)) → Res C
  | cur, [] => .ok cur
  | cur, (next, (pivot, pol)) :: rest => do
    let cur ← binaryResolution cur next pivot pol
    resolveAll cur rest

/-- `rules/resolution.rs:133-169 apply_generic_resolution`. -/
def applyGenericResolution (C : Type) [ClauseColl C] (premises : List (List Term)) (args : List Term) :
    Res C := do
  require (2 ≤ premises.length)
  require (args.length = (premises.length - 1) * 2)
  let pivots ← parsePivots args
  match premises with
  | [] => panic
  | first :: rest => resolveAll (ofList (first.map Term.removeAllNegations)) (rest.zip pivots)

/-- `rules/resolution.rs:84-102 resolution_with_args`. -/
def resolutionWithArgs (conclusion : List Term) (premises : List (List Term)) (args : List Term) :
    Res Unit := do
  let r ← applyGenericResolution SetClause premises args
  let concl := setOf (conclusion.map Term.removeAllNegations)
  require (∀ l ∈ concl, l ∈ r.lits)
  require (∀ l ∈ r.lits, l ∈ concl)

/-- `rules/resolution.rs:104-131 strict_resolution`. The comparison `t != u.remove_all_negations()` and then
`assert_eq(literal_to_term(t), u)` is modelled literally. -/
def strictResolution (conclusion : List Term) (premises : List (List Term)) (args : List Term) :
    Res Unit := do
  let r ← applyGenericResolution VecClause premises args
  require (conclusion.length = r.lits.length)
  require (∀ p ∈ r.lits.zip conclusion,
    p.1 = p.2.removeAllNegations ∨ literalToTerm p.1 = p.2)

/-! ## RUP -/

/-- Literal with polarity. -/
abbrev PLit := Bool × Term

/-- The opposite literal. -/
def PLit.neg (l : PLit) : PLit := (!l.1, l.2)

/-- `clauses.iter().min_by_key(|c| c.len())`: the first clause of minimal length. -/
def minByLen : List (List PLit) → Option (List PLit)
  | [] => none
  | c :: cs => match minByLen cs with
    | none => some c
    | some d => if d.length < c.length then some d else some c

/-- The loop `rules/resolution.rs:60-81`. Every iteration that continues removes at least one clause; the first
argument bounds the number of iterations (`rupLoop_fuel` shows that it is never exhausted). -/
def rupLoop : Nat → List (List PLit) → Bool
  | 0, _ => false
  | fuel + 1, clauses =>
    match minByLen clauses with
    | none => false
    | some [] => true
    | some [l] =>
      rupLoop fuel ((clauses.filter (fun c => l ∉ c)).map fun c => (setRemove c l.neg).1)
    | some _ => false

/-- `rules/resolution.rs:43-82 rup_resolution`. -/
def rupResolution (conclusion : List Term) (premises : List (List Term)) : Bool :=
  let clauses := premises.map (fun p => setOf (p.map Term.removeAllNegationsPol)) ++
    conclusion.map (fun t => let (p, u) := t.removeAllNegationsPol; [(!p, u)])
  rupLoop (clauses.length + 1) clauses

/-! ## Greedy resolution -/

/-- Literal with a signed negation count (`n as i32` in the code). -/
abbrev ILit := Int × Term

/-- `remove_all_negations` followed by the cast to `i32` (`resolution.rs:94-98, 119-120`). -/
def iLit (t : Term) : ILit := let (n, u) := t.removeAllNegations; ((n : Int), u)

/-- State of the loop of `greedy_resolution`. -/
structure Greedy where
  /-- `working_clause` -/
  working : List ILit := []
  /-- `pivots` -/
  pivots : List (ILit × Bool) := []
  /-- `pivot_trace` -/
  trace : List (Term × Bool) := []
  /-- `eliminated_clause_pivot` -/
  elim : Bool := false
deriving DecidableEq

/-- One iteration of the inner loop `resolution.rs:118-174`. Outcome `panic` is the overflow of
`n as u32 - 1` in line 152 (shown to be impossible, `greedyTerm_no_panic`). -/
def greedyTerm (concl : List ILit) (tracing : Bool) (s : Greedy) (term : Term) : Res Greedy :=
  let (n, inner) := iLit term
  let below : ILit := (n - 1, inner)
  let above : ILit := (n + 1, inner)
  if (n, inner) ∈ concl ∧ (n, inner) ∉ s.working then
    .ok { s with working := setInsert s.working (n, inner) }
  else if !s.elim ∧ (mapGet s.pivots below).isSome then
    let s := { s with pivots := mapInsert s.pivots below true, elim := true }
    if tracing then
      if n = 0 then panic
      else .ok { s with trace := s.trace ++ [(literalToTerm ((n - 1).toNat, inner), true)] }
    else .ok s
  else if !s.elim ∧ (mapGet s.pivots above).isSome then
    let s := { s with pivots := mapInsert s.pivots above true, elim := true }
    .ok (if tracing then { s with trace := s.trace ++ [(term, false)] } else s)
  else if (n, inner) ∈ concl then
    .ok { s with working := setInsert s.working (n, inner) }
  else
    .ok { s with pivots := mapOrInsert s.pivots (n, inner) false }

/-- The loop over one premise. -/
def greedyPremise (concl : List ILit) (tracing : Bool) : Greedy → List Term → Res Greedy
  | s, [] => .ok s
  | s, t :: ts => do
    let s ← greedyTerm concl tracing s t
    greedyPremise concl tracing s ts

/-- The outer loop `resolution.rs:110-175`. -/
def greedyLoop (concl : List ILit) (tracing : Bool) : Greedy → List (List Term) → Res Greedy
  | s, [] => .ok s
  | s, p :: ps => do
    let s ← greedyPremise concl tracing { s with elim := false } p
    greedyLoop concl tracing s ps

/-- `resolution.rs:67-70 ResolutionTrace`. -/
structure ResolutionTrace where
  notNotAdded : Bool
  pivotTrace : List (Term × Bool)
deriving DecidableEq

/-- The final part `resolution.rs:177-226`. -/
def greedyFinish (concl : List ILit) (s : Greedy) : Res ResolutionTrace :=
  match s.pivots.filter (fun p => !p.2) with
  | [] => do
    require (∀ l ∈ concl, l ∈ s.working)
    pure ⟨false, s.trace⟩
  | [((i, pivot), _)] =>
    if concl = [] ∧ i = 0 ∧ pivot.isBoolFalse then .ok ⟨false, s.trace⟩
    else match concl with
      | [(j, c)] => if c = pivot ∧ i % 2 = j % 2 then .ok ⟨true, s.trace⟩ else err
      | _ => err
  | _ => err

/-- `resolution.rs:72-227 greedy_resolution`. -/
def greedyResolution (conclusion : List Term) (premises : List (List Term)) (tracing : Bool) :
    Res ResolutionTrace := do
  let concl := setOf (conclusion.map iLit)
  let s ← greedyLoop concl tracing {} premises
  greedyFinish concl s

/-- `rules/resolution.rs:8-41 resolution`. -/
def resolution (conclusion : List Term) (premises : List (List Term)) (args : List Term) : Res Unit :=
  if args ≠ [] then resolutionWithArgs conclusion premises args
  else if conclusion = [] ∧ premises = [[.op .not [.tru]]] then .ok ()
  else do
    require (2 ≤ premises.length)
    match greedyResolution conclusion premises false with
    | .ok _ => pure ()
    | .error .panic => panic
    | .error .err => if rupResolution conclusion premises then pure () else err

/-! ## Tautology and contraction -/

/-- The loop `rules/resolution.rs:213-218`. -/
def tautologyLoop : List PLit → List PLit → Bool
  | _, [] => false
  | seen, l :: ls => if l.neg ∈ seen then true else tautologyLoop (setInsert seen l) ls

/-- `rules/resolution.rs:205-220 tautology`. -/
def tautology (conclusion : List Term) (premises : List (List Term)) : Res Unit := do
  let p ← get1 premises
  let c ← get1 conclusion
  require (c.isBoolTrue)
  require (tautologyLoop [] (p.map Term.removeAllNegationsPol))

end Carcara
