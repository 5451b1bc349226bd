import Verif.Model.ProofParser
import Verif.Spec.Proof
import Mathlib.Data.List.Forall2

/-!
# Specification: which proof tree a sequence of proof commands describes

A grammar for proof trees that does not mention the parser's stack and symbol tables. `V` lists the commands a
reference may denote: for each enclosing level, innermost first, the commands before the current position.
-/

namespace Carcara

/-- The name `k` denotes the reference `(depth, index)`: the command with that index among the visible commands
of that level has the identifier `k`. -/
def Denotes (V : List (List Command)) (k : String) (p : Nat × Nat) : Prop :=
  ∃ L c, V.reverse[p.1]? = some L ∧ L[p.2]? = some c ∧ c.id = .ok k

/-- No visible command has the identifier `k`. -/
def FreshId (V : List (List Command)) (k : String) : Prop := ∀ p, ¬ Denotes V k p

/-- The step `s` is the written step `r` with its references resolved among the visible commands. A discharged
name is first tried relative to the step's own identifier. -/
def Resolves (V : List (List Command)) (r : RawStep) (s : Step) : Prop :=
  s.id = r.id ∧ s.clause = r.clause ∧ s.rule = r.rule ∧ s.args = r.args ∧
  List.Forall₂ (Denotes V) r.premises s.premises ∧
  List.Forall₂ (fun k p => Denotes V (r.id ++ "." ++ k) p ∨
    (FreshId V (r.id ++ "." ++ k) ∧ Denotes V k p)) r.discharge s.discharge

/-- `Parses V e pre n raws cs n'`: in a level whose closing step is called `e`, after the commands `pre`, the
written commands `raws` describe the commands `cs`. Anchors are numbered from `n` to `n'`. -/
inductive Parses : List (List Command) → String → List Command → Nat → List RawCommand → List Command → Nat → Prop
  | nil {V e pre n} : Parses V e pre n [] [] n
  | assume {V e pre n id t rs cs n'} : id ≠ e → FreshId (pre :: V) id →
      (V = [] ∨ ∀ c ∈ pre, c.isStep = false) →
      Parses V e (pre ++ [.assume id t]) n rs cs n' →
      Parses V e pre n (.assume id t :: rs) (.assume id t :: cs) n'
  | step {V e pre n r s rs cs n'} : r.id ≠ e → FreshId (pre :: V) r.id → Resolves (pre :: V) r s →
      Parses V e (pre ++ [.step s]) n rs cs n' →
      Parses V e pre n (.step r :: rs) (.step s :: cs) n'
  | subproof {V e pre n as r s inner sub n₁ rs cs n'} :
      Parses (pre :: V) r.id [] (n + 1) inner sub n₁ → sub ≠ [] →
      FreshId (sub :: pre :: V) r.id → Resolves (sub :: pre :: V) r s →
      Parses V e (pre ++ [.subproof (sub ++ [.step s]) as n]) n₁ rs cs n' →
      Parses V e pre n (.anchor r.id as :: inner ++ .step r :: rs) (.subproof (sub ++ [.step s]) as n :: cs) n'

/-- The commands that are visible at a position: for each enclosing level, innermost first, those before it. -/
def Frames.visible (F : Frames) : List (List Command) := F.map fun f => f.2.take f.1

/-- A written command describes the command of a proof tree at a position. -/
def RawCommand.describes (F : Frames) : RawCommand → Command → Prop
  | .assume id t, c => c = .assume id t
  | .step r, .step s => Resolves F.visible r s
  | .anchor e as, .subproof cs as' _ => as = as' ∧ Command.idLast cs = .ok e
  | _, _ => False

/-- All references of a step denote commands that come before it, at the same or an enclosing level. -/
def Step.wellScoped (F : Frames) (s : Step) : Prop :=
  ∀ p ∈ s.premises ++ s.discharge, ∃ j cs c, F.reverse[p.1]? = some (j, cs) ∧ p.2 < j ∧ cs[p.2]? = some c

end Carcara
