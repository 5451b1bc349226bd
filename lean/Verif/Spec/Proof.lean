import Verif.Model.Checker
import Mathlib.Data.List.Forall2

/-!
# Specification: positions in a proof

Independent of the iterator: where commands occur in a proof tree, in which scope, and in which order.
-/

namespace Carcara

/-- Frames of a position: for each level, innermost first, the index in and the list of commands of that level. -/
abbrev Frames := List (Nat × List Command)

/-- `Occ proof F Γ c`: the command `c` occurs in the proof at the position described by the frames `F`, inside the
anchors `Γ` (outermost first). -/
inductive Occ (proof : List Command) : Frames → List (List AnchorArg) → Command → Prop where
  | top {i : Nat} {c : Command} : proof[i]? = some c → Occ proof [(i, proof)] [] c
  | sub {F : Frames} {Γ : List (List AnchorArg)} {cs : List Command} {as : List AnchorArg} {n j : Nat} {c : Command} :
      Occ proof F Γ (.subproof cs as n) → cs[j]? = some c → Occ proof ((j, cs) :: F) (Γ ++ [as]) c

/-- The path of a position, outermost index first. -/
def Frames.path (F : Frames) : List Nat := (F.map (·.1)).reverse

/-- Document order on paths: an enclosing command comes before the commands it contains. -/
def pathLt : List Nat → List Nat → Prop
  | [], [] => False
  | [], _ :: _ => True
  | _ :: _, [] => False
  | a :: as, b :: bs => a < b ∨ (a = b ∧ pathLt as bs)

mutual
/-- What the parser guarantees of subproofs (`parser/mod.rs:939-954`): at least two commands, the last is a step. -/
def Command.wf : Command → Bool
  | .subproof cs _ _ => decide (2 ≤ cs.length) && (cs.getLast?.map Command.isStep == some true) && Command.wfL cs
  | _ => true
/-- All commands of a list are well formed. -/
def Command.wfL : List Command → Bool
  | [] => true
  | c :: cs => c.wf && Command.wfL cs
end

/-- The last command of the innermost level, when that level is a subproof. -/
def Frames.isEnd : Frames → Prop
  | (i, cs) :: _ :: _ => i + 1 = cs.length
  | _ => False

/-- A step whose conclusion holds outside all subproofs: it is at the top level, or it closes a top-level subproof. -/
def Frames.outermost (F : Frames) : Prop := F.length = 1 ∨ (F.length = 2 ∧ F.isEnd)

/-- The steps that make a proof holey. -/
def Step.holey (P : Params) (cfg : Config) (s : Step) : Prop :=
  s.rule ∈ cfg.allowed ∨ P.rule s.rule = none ∨ s.rule = "hole" ∨ s.rule = "lia_generic"

/-- The command a reference `(depth, index)` denotes at a position: the command with that index in the enclosing
level with that depth (`0` is the top level). -/
def Frames.lookup (F : Frames) (p : Nat × Nat) : Option Command := do
  let f ← F.reverse[p.1]?
  f.2[p.2]?

/-- The clause of the command before the end step, which closing rules look at. -/
def Frames.previous (F : Frames) (prev : Option (List Term)) : Prop :=
  (F.isEnd ∧ ∃ i cs F' c cl, F = (i + 1, cs) :: F' ∧ cs[i]? = some c ∧ c.clause = .ok cl ∧ prev = some cl) ∨
  (¬ F.isEnd ∧ prev = none)

/-- The rule arguments a step at a position has to be checked with. -/
def Frames.argsFor (F : Frames) (Γ : List (List AnchorArg)) (s : Step) (a : RuleArgs) : Prop :=
  a.conclusion = s.clause ∧ a.args = s.args ∧ a.context = Γ ∧
  List.Forall₂ (fun p cl => ∃ c, F.lookup p = some c ∧ c.clause = .ok cl) s.premises a.premises ∧
  List.Forall₂ (fun p c => F.lookup p = some c) s.discharge a.discharge ∧
  F.previous a.previous

/-- Every assumption of the subproof a closing step belongs to is discharged. -/
def Frames.discharged (F : Frames) (s : Step) : Prop :=
  ∀ i cs F', F = (i, cs) :: F' → ∀ j id t, cs[j]? = some (.assume id t) → (F.length - 1, j) ∈ s.discharge

/-- A step has been verified by its rule. -/
def Step.verified (P : Params) (F : Frames) (Γ : List (List AnchorArg)) (s : Step) : Prop :=
  ∃ r a, P.rule s.rule = some r ∧ F.argsFor Γ s a ∧ r a = .ok () ∧
    (s.discharge ≠ [] → s.rule = "subproof") ∧ (F.isEnd → F.discharged s)

end Carcara
