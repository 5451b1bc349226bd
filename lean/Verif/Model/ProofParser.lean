import Verif.Model.Proof
import Verif.Model.Utils

/-!
# Building the proof tree from the sequence of proof commands

Model of `parser/mod.rs:826-966 parse_proof`. Tokens, terms and sorts are already parsed here: a command carries its
terms, and what is left is what `parse_proof` does with identifiers, anchors and subproofs. `define-fun` commands
only change the symbol table and do not appear.
-/

namespace Carcara

/-- A `step` command as it is written. -/
structure RawStep where
  id : String
  clause : List Term
  rule : String
  premises : List String := []
  args : List Term := []
  discharge : List String := []
deriving DecidableEq

/-- A proof command as it is written. -/
inductive RawCommand where
  | assume (id : String) (term : Term)
  | step (r : RawStep)
  | anchor (endStep : String) (args : List AnchorArg)
deriving DecidableEq

/-- A frame of the stack in `parse_proof` (`parser/mod.rs:834-835`): the subproof being built, the id of the step
that will end it, and whether a `step` has been issued. -/
structure PFrame where
  commands : List Command := []
  args : List AnchorArg := []
  contextId : Nat := 0
  endStep : String := ""
  sawStep : Bool := false

/-- The state of the loop. The HEAD of `stack` is the innermost frame. -/
structure PState where
  stack : List PFrame
  ids : HashMapStack String Nat
  nextId : Nat

/-- Model of `parser/mod.rs:1058-1066 parse_step_premise`. -/
def parsePremise (ids : HashMapStack String Nat) (name : String) : Res (Nat × Nat) := orErr (ids.getWithDepth name)

/-- Model of `parser/mod.rs:1074-1086 parse_discharge_premise`. -/
def parseDischarge (ids : HashMapStack String Nat) (root name : String) : Res (Nat × Nat) :=
  match ids.getWithDepth (root ++ "." ++ name) with
  | some p => .ok p
  | none => orErr (ids.getWithDepth name)

/-- Model of `parser/mod.rs:993-1054 parse_step_command`, as far as references are concerned. -/
def parseStep (ids : HashMapStack String Nat) (r : RawStep) : Res Step := do
  let ps ← mapRes (parsePremise ids) r.premises
  let ds ← mapRes (parseDischarge ids r.id) r.discharge
  .ok { id := r.id, clause := r.clause, rule := r.rule, premises := ps, args := r.args, discharge := ds }

/-- `parser/mod.rs:922-955`: what happens when the id of the command just added is the end step of the top frame.
The symbol table has as many scopes as the stack has frames, so closing the root frame (possible if a command has
the empty identifier `||`) panics in `symbol_table.pop_scope()`. -/
def closeSubproof (st : PState) (top : PFrame) (outer : List PFrame) : Res PState :=
  match outer with
  | [] => panic
  | o :: os => do
    let ids ← st.ids.popScope
    require (2 ≤ top.commands.length)
    require (top.commands.getLast?.map Command.isStep = some true)
    .ok { st with
      stack := { o with commands := o.commands ++ [.subproof top.commands top.args top.contextId] } :: os, ids }

/-- `parser/mod.rs:910-957`: add a command to the innermost frame and register its id. -/
def addCommand (st : PState) (id : String) (c : Command) : Res PState := do
  require ((st.ids.get id).isSome = false)
  match st.stack with
  | [] => panic
  | top :: outer =>
    let top := { top with commands := top.commands ++ [c] }
    let st ← (if top.endStep = id then closeSubproof st top outer
      else .ok { st with stack := top :: outer } : Res PState)
    match st.stack with
    | [] => panic
    | top :: _ => do
      let ids ← st.ids.insert id (top.commands.length - 1)
      .ok { st with ids }

/-- One iteration of the loop `parser/mod.rs:853-958`. -/
def parseCommand (st : PState) : RawCommand → Res PState
  | .assume id t =>
    match st.stack with
    | [] => panic
    | top :: outer => if top.sawStep && outer ≠ [] then err else addCommand st id (.assume id t)
  | .step r => do
    match st.stack with
    | [] => panic
    | top :: outer =>
      let s ← parseStep st.ids r
      addCommand { st with stack := { top with sawStep := true } :: outer } r.id (.step s)
  | .anchor e as => .ok
      { stack := { args := as, contextId := st.nextId, endStep := e } :: st.stack, ids := st.ids.pushScope,
        nextId := st.nextId + 1 }

/-- The loop `parser/mod.rs:853-958` and what follows it. -/
def parseLoop (st : PState) : List RawCommand → Res (List Command)
  | [] => match st.stack with
    | [root] => .ok root.commands
    | _ => err
  | c :: cs => do
    let st ← parseCommand st c
    parseLoop st cs

/-- Model of `parser/mod.rs:826-966 parse_proof`. -/
def parseProof (cs : List RawCommand) : Res (List Command) :=
  parseLoop { stack := [{}], ids := HashMapStack.new, nextId := 0 } cs

end Carcara
