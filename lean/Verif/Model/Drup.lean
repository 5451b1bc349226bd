import Verif.Model.Resolution

/-!
# DRUP and DRAT

Model of `carcara/src/drup.rs` and `carcara/src/checker/rules/drup.rs`. The recorded story (`RupAddition`,
`DRupStory`), which is not used when checking, is left out.

`HashMap<u64, _>` is an association list; the order in which its entries are visited is a parameter
(`order`, called with the number of the argument being processed), and so is the hash function.
-/

namespace Carcara

/-- A clause with its two watched literals (`drup.rs:64`). -/
structure WClause where
  w1 : Option PLit
  w2 : Option PLit
  lits : List PLit
deriving DecidableEq

/-- `drup.rs:11-16 Implied`, without the clauses. -/
inductive Implied where
  | pivot (l : PLit)
  | bottom
  | notUnsat
deriving DecidableEq

/-- `drup.rs:102-108` and `120-126`: make a literal watched unless it is already. -/
def setWatch (w : Option PLit × Option PLit) (l : PLit) : Option PLit × Option PLit :=
  if w.1 ≠ some l ∧ w.2 ≠ some l then
    if w.1.isSome then (some l, w.2) else if w.2.isSome then (w.1, some l) else w
  else w

/-- State of the scan over one clause: watches, `unset_literal`, `not_unit`. -/
structure Scan where
  w : Option PLit × Option PLit
  unset : Option PLit
  notUnit : Bool
deriving DecidableEq

/-- One iteration of the loop `drup.rs:96-133`. -/
def scanStep (env : List (PLit × Bool)) (s : Scan) (l : PLit) : Scan :=
  match mapGet env l with
  | none =>
    let s := { s with w := setWatch s.w l }
    if s.unset.isSome then { s with notUnit := true } else { s with unset := some l }
  | some true => { s with w := setWatch s.w l, notUnit := true }
  | some false => s

/-- The treatment of one clause in `drup.rs:71-148`: `none` is `continue`, together with the new watches.
`panic` is a failed `assert_eq!(lits.len(), 1)`. -/
def visit (env : List (PLit × Bool)) (c : WClause) : Res (Option Implied × WClause) :=
  match c.w1, c.w2 with
  | none, none => .ok (some .bottom, c)
  | some l, none | none, some l =>
    match mapGet env l with
    | some false => if c.lits.length = 1 then .ok (some .bottom, c) else panic
    | some true => .ok (none, c)
    | none => if c.lits.length = 1 then .ok (some (.pivot l), c) else panic
  | some l, some l0 =>
    match mapGet env l, mapGet env l0 with
    | some true, _ => .ok (none, c)
    | _, some true => .ok (none, c)
    | none, none => .ok (none, c)
    | _, _ =>
      let s := c.lits.foldl (scanStep env) ⟨(c.w1, c.w2), none, false⟩
      let c := { c with w1 := s.w.1, w2 := s.w.2 }
      if s.notUnit then .ok (none, c)
      else match s.unset with
        | some l => .ok (some (.pivot l), c)
        | none => .ok (some .bottom, c)

/-- `drup.rs:63-151 get_implied_clause`. -/
def getImplied (env : List (PLit × Bool)) : List WClause → Res (Implied × List WClause)
  | [] => .ok (.notUnsat, [])
  | c :: cs => do
    let (r, c') ← visit env c
    match r with
    | some i => pure (i, c' :: cs)
    | none => do
      let (i, cs') ← getImplied env cs
      pure (i, c' :: cs')

/-- The loop `drup.rs:191-207`; the first argument bounds the number of iterations. -/
def rupRun : Nat → List (PLit × Bool) → List WClause → Res Bool
  | 0, _, _ => .ok false
  | n + 1, env, cs => do
    let (i, cs) ← getImplied env cs
    match i with
    | .bottom => pure true
    | .pivot l => rupRun n (mapInsert (mapInsert env l true) l.neg false) cs
    | .notUnsat => pure false

/-- `drup.rs:166-189`: the clause list of a run. -/
def rupClauses (db : List (List PLit)) (goal : List Term) : List WClause :=
  goal.map (fun t => let l := PLit.neg t.removeAllNegationsPol; ⟨some l, none, [l]⟩) ++
    db.map (fun c => ⟨c[0]?, c[1]?, c⟩)

/-- `drup.rs:155-208 rup`, given the clauses of the database in the order in which they are visited. -/
def rup (db : List (List PLit)) (goal : List Term) : Res Bool :=
  let cs := rupClauses db goal
  rupRun ((cs.map (·.lits.length)).sum + 1) [] cs

/-- `drup.rs:45-59 hash_term`: the hash of the term with leading negations reduced to at most one. -/
def hashTerm (hash : Term → Nat) (t : Term) : Nat :=
  let (p, u) := t.removeAllNegationsPol
  hash (if p then u else .op .not [u])

/-- Literal to term (`drup.rs:304-310`). -/
def PLit.toTerm (l : PLit) : Term := if l.1 then l.2 else .op .not [l.2]

/-- `drup.rs:288-323 check_drat`. -/
def checkDrat (db : List (List PLit)) (goal : List Term) : Res Bool :=
  match goal with
  | [] => panic
  | pivot :: rest =>
    let neg := PLit.neg pivot.removeAllNegationsPol
    let rec go : List (List PLit) → Res Bool
      | [] => .ok true
      | c :: cs =>
        if neg ∈ c then do
          let resolvent := (setRemove c neg).1.map PLit.toTerm ++ rest
          let r ← rup db resolvent
          if r then go cs else pure false
        else go cs
    go db

/-- The clause of literals of a premise term (`drup.rs:222-231`). -/
def drupClause (t : Term) : List PLit :=
  match t with
  | .op .cl ts => setOf (ts.map Term.removeAllNegationsPol)
  | t => setOf [t.removeAllNegationsPol]

section
variable (hash : Term → Nat) (order : Nat → List (Nat × List PLit) → List (Nat × List PLit))

/-- The argument loop of `drup.rs:237-277`. -/
def drupLoop (rat : Bool) : Nat → List (Nat × List PLit) → List Term → Res (List (Nat × List PLit))
  | _, db, [] => .ok db
  | i, db, t :: ts =>
    match t with
    | .op .delete [.op .cl terms] =>
      -- `terms[0]` of an empty list
      if terms = [] then panic
      else drupLoop rat (i + 1) (mapRemove db (hashTerm hash (.op .cl terms))) ts
    | .op .cl terms => do
      let cs := (order i db).map (·.2)
      let r ← rup cs terms
      let r ← (if !r ∧ terms ≠ [] ∧ rat then checkDrat cs terms else .ok r : Res Bool)
      require (r = true)
      drupLoop rat (i + 1)
        (mapInsert db (hashTerm hash t) (setOf (terms.map Term.removeAllNegationsPol))) ts
    | _ => panic

/-- `drup.rs:212-284 check_drup`. -/
def checkDrup (conclusion : Term) (premises args : List Term) (rat : Bool) : Res Unit := do
  let db := premises.foldl (fun m p => mapInsert m (hashTerm hash p) (drupClause p)) []
  let db ← drupLoop hash order rat 0 db args
  require ((mapGet db (hashTerm hash conclusion)).isSome)

/-- `rules/drup.rs:5-23 drup`. -/
def drupRule (rat : Bool) (conclusion : List Term) (premises : List (List Term)) (args : List Term) :
    Res Unit :=
  checkDrup hash order (.op .cl conclusion) (premises.map (.op .cl)) args rat

end

end Carcara
