import Verif.Model.Base

/-! # Identifiers of new steps (`elaborator/mod.rs:446-477 struct IdHelper`) -/

namespace Carcara

/-- Model of `elaborator/mod.rs:444-447 struct IdHelper`; `stack` in the order of the `Vec`. -/
structure IdHelper where
  root : String
  stack : List Nat
deriving DecidableEq

namespace IdHelper

/-- `IdHelper::new`. -/
def new (root : String) : IdHelper := ⟨root, [0]⟩

/-- The text written for the stack: `.t{i + 1}` for every element. -/
def suffix : List Nat → String
  | [] => ""
  | i :: is => ".t" ++ toString (i + 1) ++ suffix is

/-- `*self.stack.last_mut().unwrap() += 1`. -/
def bump : List Nat → Option (List Nat)
  | [] => none
  | [i] => some [i + 1]
  | i :: is => (bump is).map (i :: ·)

/-- `IdHelper::next_id`. -/
def nextId (h : IdHelper) : Res (String × IdHelper) := do
  let s ← orPanic (bump h.stack)
  .ok (h.root ++ suffix h.stack, { h with stack := s })

/-- `IdHelper::push`. -/
def push (h : IdHelper) : IdHelper := { h with stack := h.stack ++ [0] }

/-- `IdHelper::pop`: asserts that one frame remains. -/
def pop (h : IdHelper) : Res IdHelper :=
  if 2 ≤ h.stack.length then .ok { h with stack := h.stack.dropLast } else panic

end IdHelper

/-- A call to the helper. -/
inductive IdOp where
  | next | push | pop
deriving DecidableEq

/-- A sequence of calls; the result lists the identifiers in the order in which they were made. -/
def runIds : List IdOp → IdHelper → Res (List String × IdHelper)
  | [], h => .ok ([], h)
  | .next :: ops, h => do
    let (id, h) ← h.nextId
    let (ids, h) ← runIds ops h
    .ok (id :: ids, h)
  | .push :: ops, h => runIds ops h.push
  | .pop :: ops, h => do
    let h ← h.pop
    runIds ops h

end Carcara
