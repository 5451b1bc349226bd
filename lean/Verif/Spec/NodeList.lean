import Verif.Model.NodeList

/-!
# Proof trees up to context ids, and what it means for a node to mirror a command
-/

namespace Carcara

mutual
/-- A command with the context ids of all its subproofs set to zero. -/
def Command.eraseCtx : Command → Command
  | .assume i t => .assume i t
  | .step s => .step s
  | .subproof cs as _ => .subproof (Command.eraseCtxL cs) as 0
def Command.eraseCtxL : List Command → List Command
  | [] => []
  | c :: cs => c.eraseCtx :: Command.eraseCtxL cs
end

mutual
/-- The premises of all steps of a command. -/
def Command.refs : Command → List (Nat × Nat)
  | .assume _ _ => []
  | .step s => s.premises
  | .subproof cs _ _ => Command.refsL cs
def Command.refsL : List Command → List (Nat × Nat)
  | [] => []
  | c :: cs => c.refs ++ Command.refsL cs
end

/-- The node at a position; `env` has the nodes of the enclosing levels so far, outermost first. -/
def nodeAt (env : List (List ANode)) (p : Nat × Nat) : Option ANode := env[p.1]?.bind (·[p.2]?)

/-- A set of nodes is that of the nodes some references to levels less than a bound denote. -/
def DenotedBelow (env : List (List ANode)) (bound : Nat) (refs : List (Nat × Nat)) (out : List ANode) : Prop :=
  (∀ m ∈ out, ∃ p ∈ refs, p.1 < bound ∧ nodeAt env p = some m) ∧
    ∀ p ∈ refs, p.1 < bound → ∃ m ∈ out, nodeAt env p = some m

mutual
/-- A node mirrors a command: it has the same contents, its premises and discharged assumptions are the nodes of the commands
the command refers to, the last step of a subproof also has the node before it, and a subproof has the nodes of its commands
and those outside of it that its steps refer to. `outer` are the nodes of the enclosing levels so far, and `level` those
of this level so far. -/
def Mirrors (outer : List (List ANode)) (level : List ANode) (isLast : Prop) : Command → ANode → Prop
  | .assume id t, .assume _ id' d t' => id' = id ∧ t' = t ∧ d = outer.length
  | .step s, .step _ data ps ds prev =>
    data = ⟨s.id, outer.length, s.clause, s.rule, s.args⟩ ∧
    s.premises.map (nodeAt (outer ++ [level])) = ps.map some ∧ s.discharge.map (nodeAt (outer ++ [level])) = ds.map some ∧
    (outer ≠ [] ∧ isLast → prev.isSome ∧ prev = level.getLast?) ∧ (¬ (outer ≠ [] ∧ isLast) → prev = none)
  | .subproof cs as _, .subproof _ last as' out ex =>
    as' = as ∧ MirrorsL (outer ++ [level]) [] cs (ex ++ [last]) ∧
    DenotedBelow (outer ++ [level]) (outer.length + 1) (Command.refsL cs) out
  | _, _ => False
def MirrorsL (outer : List (List ANode)) (level : List ANode) : List Command → List ANode → Prop
  | [], ns => ns = []
  | c :: cs, n :: ns => Mirrors outer level (cs = []) c n ∧ MirrorsL outer (level ++ [n]) cs ns
  | _ :: _, [] => False
end

end Carcara
