import Verif.Model.Proof

/-!
# Slicing

Model of `slice.rs`. Hash maps are association lists in which the first entry counts. Loops over a proof iterator are folds over what the
iterator returns.
-/

namespace Carcara

/-- `slice.rs:6-10 enum PremiseType`. -/
inductive PremiseType where
  | discharge | premise | subproofEnd
deriving DecidableEq

/-- Identifiers of steps and of what they refer to. -/
abbrev PremiseMap := List (String × List (String × PremiseType))

/-- State of the loop of `get_step_to_premises`. -/
structure PremState where
  map : PremiseMap := []
  opened : Nat := 0
  found : Bool := false
  stopped : Bool := false
deriving DecidableEq

/-- `slice.rs:33-43`. -/
def premiseIds (it : Iter) (ty : PremiseType) (ps : List (Nat × Nat)) : Res (List (String × PremiseType)) :=
  mapRes (fun p => do
    let c ← it.getPremise p
    let i ← c.id
    .ok (i, ty)) ps

/-- `slice.rs:47-51`: what a closing step refers to besides. -/
def endPremise (it : Iter) : Res (List (String × PremiseType)) := do
  let cs ← orPanic it.currentSubproof
  let prev ← orPanic cs.reverse[1]?
  let i ← prev.id
  .ok [(i, .subproofEnd)]

/-- `slice.rs:29-56`, for a step. -/
def premStep (target : String) (it : Iter) (st : PremState) (s : Step) : Res PremState := do
  let found := st.found || s.id == target
  let ps ← premiseIds it .premise s.premises
  let ds ← premiseIds it .discharge s.discharge
  let es ← if it.isEndStep then endPremise it else .ok []
  let opened ← if it.isEndStep then (if st.opened = 0 then panic else .ok (st.opened - 1)) else .ok st.opened
  .ok { map := (s.id, ps ++ ds ++ es) :: st.map, opened, found, stopped := found && opened == 0 }

/-- The body of the loop `slice.rs:21-57`; `stopped` is the `break`. -/
def premVisit (target : String) (st : PremState) (v : Command × Iter) : Res PremState :=
  if st.stopped then .ok st
  else match v.1 with
    | .assume _ _ => .ok st
    | .subproof _ _ _ => .ok { st with opened := st.opened + 1 }
    | .step s => premStep target v.2 st s

/-- `slice.rs:13-59 get_step_to_premises`. -/
def stepToPremises (proof : List Command) (target : String) : Res PremiseMap := do
  let st ← (Iter.start proof).visits.foldlM (premVisit target) {}
  .ok st.map

/-- Which commands are kept, and whether with their premises. -/
abbrev KeepMap := List (String × Bool)

/-- What a step refers to, `slice.rs:81`. -/
def premisesOf (m : PremiseMap) (id : String) : List String := ((m.lookup id).getD []).map (·.1)

/-- `slice.rs:74-85`: the queue holds the rest of one level followed by the beginning of the next, so levels are processed one after the
other; `d` is the distance that is left. -/
def keepLevels (m : PremiseMap) : Nat → List String → KeepMap → KeepMap
  | 0, ids, keep => ids.foldl (fun keep i => (i, (keep.lookup i).getD false) :: keep) keep
  | d + 1, ids, keep => keepLevels m d (ids.flatMap (premisesOf m)) (ids.foldl (fun keep i => (i, true) :: keep) keep)

/-- The largest `usize`. -/
def maxUsize : Nat := 2 ^ 64 - 1

/-- `slice.rs:63-88 get_transitive_premises`. The addition overflows if the distance is the largest possible one. -/
def transitivePremises (m : PremiseMap) (id : String) (maxDistance : Nat) : Res KeepMap :=
  if maxUsize ≤ maxDistance then panic else .ok (keepLevels m (maxDistance + 1) [id] [])

/-- State of the loop that looks for the step; the innermost subproof is the head. -/
structure FindState where
  subproofs : List (List Command) := []
  result : Option Command := none
deriving DecidableEq

/-- `slice.rs:117-132`. -/
def findVisit (id : String) (st : FindState) (v : Command × Iter) : Res FindState :=
  if st.result.isSome then .ok st
  else do
    let stack := match v.1 with
      | .subproof cs _ _ => cs :: st.subproofs
      | _ => st.subproofs
    let stack := if v.2.isEndStep then stack.tail else stack
    let i ← v.1.id
    .ok { subproofs := stack, result := if i = id then some v.1 else none }

/-- `slice.rs:149-156`: the assumptions a subproof begins with. -/
def keepAssumes : List Command → KeepMap → KeepMap
  | .assume i _ :: cs, keep => keepAssumes cs ((i, false) :: keep)
  | _, keep => keep

/-- `slice.rs:148-166`, for one enclosing subproof. -/
def keepContext (keep : KeepMap) (cs : List Command) : Res KeepMap := do
  let keep := keepAssumes cs keep
  let penult ← if cs.length < 2 then panic else orPanic cs[cs.length - 2]?
  let p ← penult.id
  let keep := if (keep.lookup p).isSome then keep else (p, false) :: keep
  let ult ← orPanic cs[cs.length - 1]?
  let u ← ult.id
  .ok ((u, true) :: keep)

/-- `slice.rs:91-96 struct Frame`. -/
structure SliceFrame where
  position : Nat
  commands : List Command
deriving DecidableEq

/-- State of the loop that copies; the innermost frame is the head. -/
structure SliceState where
  stack : List SliceFrame
  index : List (String × (Nat × Nat)) := []
  seen : Bool := false
  child : Option (Nat × Nat) := none
deriving DecidableEq

/-- Where the next command is placed, and the stack after it was. -/
def place (stack : List SliceFrame) (c : Command) : Res ((Nat × Nat) × List SliceFrame) :=
  match stack with
  | top :: rest => .ok ((rest.length, top.position), ⟨top.position + 1, top.commands ++ [c]⟩ :: rest)
  | [] => panic

/-- `slice.rs:106-107`. -/
def trustTerm : Term := .const (.str "trust")

/-- `slice.rs:205-211`. -/
def isPenult (it : Iter) (id : String) : Res Bool :=
  if it.isInSubproof then do
    let cs ← orPanic it.currentSubproof
    let penult ← if cs.length < 2 then panic else orPanic cs[cs.length - 2]?
    let p ← penult.id
    .ok (id == p)
  else .ok false

/-- `slice.rs:213-232`: a step with its premises in the new proof. -/
def keptStep (prem : PremiseMap) (st : SliceState) (s : Step) : Res Step :=
  match prem.lookup s.id with
  | some l => do
    let premises ← mapRes (fun i => orPanic (st.index.lookup i)) ((l.filter fun p => p.2 == .premise).map (·.1))
    .ok { s with premises }
  | none => .ok { s with premises := [], discharge := [] }

/-- `slice.rs:234-248`: a step without its premises. -/
def holeStep (st : SliceState) (s : Step) (seen penult : Bool) : Res Step := do
  let premises ← if seen && penult then (do let c ← orPanic st.child; .ok [c]) else .ok []
  .ok { id := s.id, clause := s.clause, rule := "hole", premises, args := [trustTerm] }

/-- `slice.rs:213-249`: the step that is added. -/
def copyStep (prem : PremiseMap) (st : SliceState) (s : Step) (need seen penult : Bool) : Res Step :=
  if need then keptStep prem st s else holeStep st s seen penult

/-- `slice.rs:267-281`: the innermost frame becomes a subproof. -/
def closeFrame (st : SliceState) : Res SliceState :=
  match st.stack with
  | popped :: prev :: rest =>
    match prev.commands.getLast? with
    | some (.subproof cs as n) =>
      .ok { st with
        stack := ⟨prev.position, prev.commands.dropLast ++ [.subproof (cs ++ popped.commands) as n]⟩ :: rest
        child := if st.seen then some (rest.length, prev.commands.length - 1) else st.child }
    | _ => panic
  | _ => panic

/-- `slice.rs:199-282`. -/
def sliceStep (prem : PremiseMap) (target : String) (it : Iter) (st : SliceState) (need : Bool) (s : Step) : Res SliceState := do
  let seen := st.seen || s.id == target
  let penult ← isPenult it s.id
  let s' ← copyStep prem st s need seen penult
  let r ← place st.stack (.step s')
  let st' : SliceState :=
    { stack := r.2, seen
      index := if (st.index.lookup s.id).isSome then st.index else (s.id, r.1) :: st.index
      child := if s.id = target then some r.1 else st.child }
  if it.isEndStep && need then closeFrame st' else .ok st'

/-- The body of the loop `slice.rs:183-310`. -/
def sliceVisit (keep : KeepMap) (prem : PremiseMap) (target : String) (st : SliceState) (v : Command × Iter) : Res SliceState := do
  let id ← v.1.id
  match keep.lookup id with
  | none => .ok st
  | some need =>
    match v.1 with
    | .assume _ _ => do
      let r ← place st.stack v.1
      .ok { st with stack := r.2, index := (id, r.1) :: st.index }
    | .step s => sliceStep prem target v.2 st need s
    | .subproof _ as n =>
      if need then do
        let r ← place st.stack (.subproof [] as n)
        .ok { st with stack := ⟨0, []⟩ :: r.2, index := (id, r.1) :: st.index }
      else .ok st

/-- `slice.rs:100-327 get_slice_body`. -/
def sliceBody (proof : List Command) (id : String) (maxDistance : Nat) : Res (Option (List Command)) := do
  let found ← (Iter.start proof).visits.foldlM (findVisit id) {}
  match found.result with
  | none => .ok none
  | some fromStep => do
    let prem ← stepToPremises proof id
    let start ← fromStep.id
    let keep ← transitivePremises prem start maxDistance
    if fromStep.isAssume then .ok none
    else do
      let keep ← found.subproofs.reverse.foldlM keepContext keep
      let st ← (Iter.start proof).visits.foldlM (sliceVisit keep prem id) { stack := [⟨0, []⟩] }
      let child ← orPanic st.child
      let top ← orPanic st.stack.head?
      .ok (some (top.commands ++ [.step { id := "slice_end", clause := [], rule := "hole", premises := [child], args := [trustTerm] }]))

/-- `slice.rs:343-351`: the terms of the assumptions a proof begins with. -/
def leadingAssumes : List Command → List Term
  | .assume _ t :: cs => t :: leadingAssumes cs
  | _ => []

/-- `slice.rs:330-354 slice`; constant definitions are copied. -/
def slice (proof : List Command) (id : String) (maxDistance : Nat) : Res (Option (List Command × List Term)) := do
  match ← sliceBody proof id maxDistance with
  | none => .ok none
  | some cs => .ok (some (cs, leadingAssumes cs))

end Carcara
