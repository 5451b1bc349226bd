import Verif.Model.Proof
import Verif.Model.Cnf

/-!
# The checking loop

Model of `checker/mod.rs check_impl`, `check_step`, `check_assume` and of `checker/shared.rs`. The rule table and
the comparison used for `assume` are parameters; they are instantiated in `Verif.Model.RuleTable`.
-/

namespace Carcara

/-- Model of `checker/rules/mod.rs:15-32 struct RuleArgs`. Premises are represented by their clauses (no rule looks
at a premise's id or index other than for error messages), the context by the stack of anchor arguments
(outermost first). The pool, the RARE rules and the timing reference are left out. -/
structure RuleArgs where
  conclusion : List Term
  premises : List (List Term) := []
  args : List Term := []
  context : List (List AnchorArg) := []
  previous : Option (List Term) := none
  discharge : List Command := []

/-- Model of `checker/rules/mod.rs:13 type Rule`. -/
abbrev RuleFn := RuleArgs → Res Unit

/-- Rules that only look at the conclusion, the premises and the arguments. -/
def Rule.lift (r : Rule) : RuleFn := fun a => r a.conclusion a.premises a.args

/-- Model of `checker/mod.rs:46-66 struct Config`. `overflowChecks` says whether the build panics on arithmetic
overflow (debug profile) or wraps around (release profile). -/
structure Config where
  elaborated : Bool := false
  ignoreUnknown : Bool := false
  allowed : List String := []
  overflowChecks : Bool := false

/-- The parameters of the loop: `get_rule_shared` and the term comparison of `check_assume_shared`. -/
structure Params where
  rule : String → Option RuleFn
  assumeEq : Term → Term → Res Bool

/-- The mutable fields of `checker/mod.rs:84-91 struct ProofChecker`. -/
structure State where
  context : List (List AnchorArg) := []
  reached : Bool := false
  holey : Bool := false
deriving DecidableEq

/-- `iter.any(f)` with a fallible `f`. -/
def anyRes {α : Type} (f : α → Res Bool) : List α → Res Bool
  | [] => .ok false
  | a :: as => do
    let r ← f a
    if r then .ok true else anyRes f as

/-- Model of `checker/shared.rs:14-79 check_assume_shared`; the comparison may panic. -/
def checkAssume (P : Params) (cfg : Config) (premises : List Term) (inSubproof : Bool) (t : Term) : Res Bool :=
  if inSubproof then .ok true
  else if t ∈ premises then .ok true
  else if cfg.elaborated then .ok false
  else anyRes (P.assumeEq t) premises

/-- Model of `checker/shared.rs:145-164 check_discharge_shared`. -/
def checkDischarge (subproof : List Command) (depth : Nat) (discharge : List (Nat × Nat)) : Res Unit :=
  require (∀ x ∈ subproof.zipIdx, x.1.isAssume = true → (depth, x.2) ∈ discharge)

/-- `check_step_core` once the rule is known: run it, then check the discharges of an end step
(`checker/shared.rs:119-130`). -/
def runRule (r : RuleFn) (it : Iter) (a : RuleArgs) (s : Step) : Res Unit := do
  r a
  match it.isEndStep, it.currentSubproof with
  | true, some sub => checkDischarge sub it.depth s.discharge
  | _, _ => .ok ()

/-- Model of `checker/shared.rs:92-141 check_step_core`. The result is the value added to `is_holey`. -/
def checkStepCore (P : Params) (cfg : Config) (it : Iter) (a : RuleArgs) (s : Step) : Res Bool :=
  if s.rule ∈ cfg.allowed then .ok true
  else if s.discharge ≠ [] ∧ s.rule ≠ "subproof" then err
  else match P.rule s.rule with
    | none => if cfg.ignoreUnknown then .ok true else err
    | some r => do
      runRule r it a s
      .ok (decide (s.rule = "hole" ∨ s.rule = "lia_generic"))

/-- The command before an end step (`checker/mod.rs:143-152`): `subproof.len() - 2` underflows when the subproof
consists of the end step alone. -/
def previousCommand (cfg : Config) (it : Iter) : Res (Option (List Term)) :=
  if it.isEndStep then
    match it.currentSubproof with
    | none => panic
    | some sub =>
      if sub.length < 2 then (if cfg.overflowChecks then panic else .ok none)
      else match sub[sub.length - 2]? with
        | some c => do .ok (some (← c.clause))
        | none => .ok none
  else .ok none

/-- `Premise::new(p, iter.get_premise(p))`, represented by its clause. -/
def premiseClause (it : Iter) (p : Nat × Nat) : Res (List Term) := do
  let c ← it.getPremise p
  c.clause

/-- The `RuleArgs` of a step (`checker/mod.rs:247-275 check_step`). -/
def ruleArgs (cfg : Config) (it : Iter) (ctx : List (List AnchorArg)) (s : Step) : Res RuleArgs := do
  let prev ← previousCommand cfg it
  let ps ← mapRes (premiseClause it) s.premises
  let ds ← mapRes it.getPremise s.discharge
  .ok { conclusion := s.clause, premises := ps, args := s.args, context := ctx, previous := prev, discharge := ds }

/-- Model of the `Step` arm of `check_impl` (`checker/mod.rs:138-170`). -/
def visitStep (P : Params) (cfg : Config) (it : Iter) (st : State) (s : Step) : Res State := do
  let a ← ruleArgs cfg it st.context s
  let h ← checkStepCore P cfg it a s
  let ctx := if it.isEndStep then st.context.dropLast else st.context
  .ok { context := ctx,
        reached := st.reached || (s.clause.isEmpty && ctx.isEmpty),
        holey := st.holey || h }

/-- Model of one iteration of `check_impl` (`checker/mod.rs:136-202`); `it` is the iterator after `next`. -/
def visitCommand (P : Params) (cfg : Config) (premises : List Term) (it : Iter) (st : State) : Command → Res State
  | .step s => visitStep P cfg it st s
  | .subproof cs as n => do
    let _ ← Command.id (.subproof cs as n)
    .ok { st with context := st.context ++ [as] }
  | .assume _ t => do
    let r ← checkAssume P cfg premises it.isInSubproof t
    if r then .ok st else err

/-- Model of the loop of `check_impl` (`checker/mod.rs:135-203`). -/
def checkLoop (P : Params) (cfg : Config) (premises : List Term) (it : Iter) (st : State) : Res State :=
  match h : it.next with
  | none => .ok st
  | some (c, it') => do
    let st' ← visitCommand P cfg premises it' st c
    checkLoop P cfg premises it' st'
termination_by it.remaining
decreasing_by exact Iter.next_remaining _ _ _ h

/-- Model of `checker/mod.rs:126-209 check_impl`: the result is `is_holey`. -/
def check (P : Params) (cfg : Config) (premises : List Term) (proof : List Command) : Res Bool := do
  let st ← checkLoop P cfg premises (Iter.start proof) {}
  if st.reached then .ok st.holey else err

end Carcara
