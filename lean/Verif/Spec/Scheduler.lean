import Verif.Model.Scheduler

/-!
# Specification: what a load stands for

A position in a proof is the path to a subproof (the indices of the enclosing subproof commands, outermost first) and an index in it.
-/

namespace Carcara.Spec

/-- The commands of the subproof at a path; the empty path is the whole proof. -/
def commandsAt : List Command → List Nat → Option (List Command)
  | cs, [] => some cs
  | cs, i :: path => match cs[i]? with
    | some (.subproof sub _ _) => commandsAt sub path
    | _ => none

/-- The command at a position. -/
def commandAt (proof : List Command) (path : List Nat) (i : Nat) : Option Command :=
  (commandsAt proof path).bind (·[i]?)

mutual
/-- The positions of the steps and assumptions of a command at a position, in the order of the proof. -/
def leavesOf (path : List Nat) (i : Nat) : Command → List (List Nat × Nat)
  | .subproof sub _ _ => leavesFrom (path ++ [i]) 0 sub
  | _ => [(path, i)]
/-- The same for the commands of a subproof, from an index. -/
def leavesFrom (path : List Nat) (i : Nat) : List Command → List (List Nat × Nat)
  | [] => []
  | c :: cs => leavesOf path i c ++ leavesFrom path (i + 1) cs
end

/-- The positions of all steps and assumptions. -/
def leaves (proof : List Command) : List (List Nat × Nat) := leavesFrom [] 0 proof

mutual
/-- The paths of the subproofs of a command with their contexts, in the order of the proof. -/
def subproofsOf (path : List Nat) (i : Nat) : Command → List (List Nat × Nat)
  | .subproof sub _ n => (path ++ [i], n) :: subproofsFrom (path ++ [i]) 0 sub
  | _ => []
/-- The same for the commands of a subproof, from an index. -/
def subproofsFrom (path : List Nat) (i : Nat) : List Command → List (List Nat × Nat)
  | [] => []
  | c :: cs => subproofsOf path i c ++ subproofsFrom path (i + 1) cs
end

/-- The paths of all subproofs with their contexts. -/
def subproofs (proof : List Command) : List (List Nat × Nat) := subproofsFrom [] 0 proof

mutual
/-- The sum of the weights of all steps and assumptions of a command. -/
def weightOf : Command → Nat
  | .subproof sub _ _ => weightSum sub
  | c => stepWeight c
/-- The same for a list of commands. -/
def weightSum : List Command → Nat
  | [] => 0
  | c :: cs => weightOf c + weightSum cs
end

/-- What has happened after some entries of a load: the subproof that is open (none if the proof itself has been closed), the steps and
assumptions visited, and the subproofs opened. -/
structure Replay where
  at_ : Option (List Nat) := some []
  visited : List (List Nat × Nat) := []
  opened : List (List Nat) := []

/-- An entry must refer to the open subproof, and must be the index of one of its commands. -/
def replayStep (proof : List Command) (r : Replay) : Entry → Option Replay
  | .cmd d i => match r.at_ with
    | none => none
    | some path =>
      if path.length ≠ d then none
      else match commandAt proof path i with
        | none => none
        | some (.subproof _ _ _) => some { r with at_ := some (path ++ [i]), opened := r.opened ++ [path ++ [i]] }
        | some _ => some { r with visited := r.visited ++ [(path, i)] }
  | .close d => match r.at_ with
    | none => none
    | some path =>
      if path.length ≠ d then none
      else some { r with at_ := if path = [] then none else some path.dropLast }

/-- The entries of a load, one after the other. -/
def replay (proof : List Command) (load : Load) : Option Replay := load.foldlM (replayStep proof) {}

/-- The positions of the commands of a load, in order, when the open subproof is the given one. -/
def positions (proof : List Command) : Option (List Nat) → Load → List (List Nat × Nat)
  | _, [] => []
  | none, _ :: _ => []
  | some path, .cmd _ i :: es => (path, i) :: match commandAt proof path i with
    | some (.subproof _ _ _) => positions proof (some (path ++ [i])) es
    | _ => positions proof (some path) es
  | some path, .close _ :: es => positions proof (if path = [] then none else some path.dropLast) es

/-- The contexts are numbered in the order in which subproofs are opened, as the parser does. -/
def NumberedContexts (proof : List Command) : Prop := (subproofs proof).map (·.2) = List.range (subproofs proof).length

end Carcara.Spec
