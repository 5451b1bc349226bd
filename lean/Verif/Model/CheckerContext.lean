import Verif.Model.Context
import Verif.Model.RuleTable

/-!
# The checking loop with its context stack

Model of `checker/mod.rs:126-209 check_impl`, like `Verif.Model.Checker`, but with the context stack that the rules use and change: its
substitutions are computed when they are needed and remember earlier results (`Model/Context.lean`). The rules that use it are in the table.
-/

namespace Carcara

/-- A rule that uses the context stack (`checker/rules/mod.rs:13 type Rule`, where `context` is a mutable reference). -/
abbrev CtxRule := CtxStack → RuleArgs → Res CtxStack

/-- `checker/shared.rs:166-355 get_rule_shared`, the rules that use the context stack. -/
def ctxRows (elaborated : Bool) : List (String × CtxRule) :=
  [("refl", fun C a => if elaborated then strictRefl C a.conclusion else refl C a.conclusion),
   ("bind", fun C a => do bindRule a.conclusion (C.stack.map (·.1)) a.previous; .ok C),
   ("let", fun C a => do letRule a.conclusion a.premises (C.stack.map (·.1)) a.previous; .ok C),
   ("onepoint", fun C a => onepoint C a.conclusion a.previous),
   ("sko_ex", fun C a => skolemize .ex C a.conclusion a.previous),
   ("sko_forall", fun C a => skolemize .all C a.conclusion a.previous)]

/-- `checker/shared.rs:166-355 get_rule_shared`. The other rules leave the context stack as it is. -/
def getCtxRule (E : TableEnv) (elaborated : Bool) (name : String) : Option CtxRule :=
  match (ctxRows elaborated).lookup name with
  | some r => some r
  | none => (getRule E elaborated name).map fun r C a => do r a; .ok C

/-- The mutable fields of `checker/mod.rs:84-91 struct ProofChecker`. -/
structure LoopCtx where
  context : CtxStack := .empty
  reached : Bool := false
  holey : Bool := false
deriving DecidableEq

/-- `check_step_core` once the rule is known (`checker/shared.rs:119-130`). -/
def runCtxRule (r : CtxRule) (it : Iter) (a : RuleArgs) (s : Step) (C : CtxStack) : Res CtxStack := do
  let C ← r C a
  match it.isEndStep, it.currentSubproof with
  | true, some sub => do
    checkDischarge sub it.depth s.discharge
    .ok C
  | _, _ => .ok C

/-- Model of `checker/shared.rs:92-141 check_step_core`. The result is the value added to `is_holey`, and the context stack. -/
def checkCtxStep (E : TableEnv) (cfg : Config) (it : Iter) (a : RuleArgs) (s : Step) (C : CtxStack) : Res (Bool × CtxStack) :=
  if s.rule ∈ cfg.allowed then .ok (true, C)
  else if s.discharge ≠ [] ∧ s.rule ≠ "subproof" then err
  else match getCtxRule E cfg.elaborated s.rule with
    | none => if cfg.ignoreUnknown then .ok (true, C) else err
    | some r => do
      let C ← runCtxRule r it a s C
      .ok (decide (s.rule = "hole" ∨ s.rule = "lia_generic"), C)

/-- Model of the `Step` arm of `check_impl` (`checker/mod.rs:138-163`). -/
def visitCtxStep (E : TableEnv) (cfg : Config) (it : Iter) (st : LoopCtx) (s : Step) : Res LoopCtx := do
  let a ← ruleArgs cfg it (st.context.stack.map (·.1)) s
  let (h, C) ← checkCtxStep E cfg it a s st.context
  let C := if it.isEndStep then C.pop else C
  .ok { context := C, reached := st.reached || (s.clause.isEmpty && C.stack.isEmpty), holey := st.holey || h }

/-- Model of one iteration of `check_impl` (`checker/mod.rs:136-202`); `it` is the iterator after `next`. -/
def visitCtx (E : TableEnv) (cfg : Config) (premises : List Term) (it : Iter) (st : LoopCtx) : Command → Res LoopCtx
  | .step s => visitCtxStep E cfg it st s
  | .subproof cs as n => do
    let _ ← Command.id (.subproof cs as n)
    .ok { st with context := st.context.push as }
  | .assume _ t => do
    let r ← checkAssume (E.params cfg) cfg premises it.isInSubproof t
    if r then .ok st else err

/-- Model of the loop of `check_impl` (`checker/mod.rs:135-203`). -/
def checkCtxLoop (E : TableEnv) (cfg : Config) (premises : List Term) (it : Iter) (st : LoopCtx) : Res LoopCtx :=
  match h : it.next with
  | none => .ok st
  | some (c, it') => do
    let st' ← visitCtx E cfg premises it' st c
    checkCtxLoop E cfg premises it' st'
termination_by it.remaining
decreasing_by exact Iter.next_remaining _ _ _ h

/-- Model of `checker/mod.rs:126-209 check_impl`: the result is `is_holey`. -/
def checkCtx (E : TableEnv) (cfg : Config) (premises : List Term) (proof : List Command) : Res Bool := do
  let st ← checkCtxLoop E cfg premises (Iter.start proof) {}
  if st.reached then .ok st.holey else err

end Carcara
