import Verif.Model.Node
import Verif.Model.Collections

/-!
# Lists of commands and forests of nodes

Model of `ast/node.rs:245-438`. Nodes are compared by address (`Rc::new_raw`, `ast/node.rs:107-113`): here they are trees whose nodes carry an
address, and two nodes are the same if their addresses are. The explicit stack of `proof_list_to_nodes` is modelled by recursion; the loop of
`proof_nodes_to_list` is modelled iteration by iteration.
-/

namespace Carcara

/-- Model of `ast/node.rs:13-26 enum ProofNode` with addresses. -/
inductive ANode where
  | assume (addr : Nat) (id : String) (depth : Nat) (term : Term)
  | step (addr : Nat) (data : NodeData) (premises discharge : List ANode) (previous : Option ANode)
  | subproof (addr : Nat) (last : ANode) (args : List AnchorArg) (outbound extra : List ANode)

namespace ANode

def addr : ANode → Nat
  | .assume a _ _ _ => a
  | .step a _ _ _ _ => a
  | .subproof a _ _ _ _ => a

/-- `ast/node.rs:42-48 depth`; the subtraction is one of `usize`. -/
def depth : ANode → Res Nat
  | .assume _ _ d _ => .ok d
  | .step _ d _ _ _ => .ok d.depth
  | .subproof _ l _ _ _ => do
    let d ← l.depth
    if d = 0 then panic else .ok (d - 1)

end ANode

/-! ## From lists to forests -/

/-- `ast/node.rs:260-265 struct Frame`, without the rest of the commands and the arguments. -/
structure NFrame where
  acc : List ANode := []
  outbound : List ANode := []

/-- `stack[depth].accumulator[index]`. -/
def lookupNode (fs : List NFrame) (p : Nat × Nat) : Res ANode := do
  let f ← orPanic fs[p.1]?
  orPanic f.acc[p.2]?

/-- `IndexSet::insert`. -/
def insertNode (s : List ANode) (n : ANode) : List ANode := if s.any (fun m => m.addr == n.addr) then s else s ++ [n]

/-- `ast/node.rs:294-299` and `334-339`. -/
def addOutbound (depth : Nat) (out : List ANode) : List ANode → Res (List ANode)
  | [] => .ok out
  | p :: ps => do
    let d ← p.depth
    addOutbound depth (if d < depth then insertNode out p else out) ps

mutual
/-- `ast/node.rs:274-351`, an iteration of the loop for a command, and those for its commands if it is a subproof. Gives the node, the outbound
premises of the frame, and the next address. -/
def nodeOfCommand (outer : List NFrame) (top : NFrame) (next : Nat) (isLast : Bool) : Command → Res (ANode × List ANode × Nat)
  | .assume id t => .ok (.assume next id outer.length t, top.outbound, next + 1)
  | .step s => do
    let ps ← mapRes (lookupNode (outer ++ [top])) s.premises
    let ds ← mapRes (lookupNode (outer ++ [top])) s.discharge
    let out ← addOutbound outer.length top.outbound ps
    let prev ← (if 0 < outer.length ∧ isLast = true then (orPanic top.acc.getLast? >>= fun p => .ok (some p)) else .ok none : Res (Option ANode))
    .ok (.step next ⟨s.id, outer.length, s.clause, s.rule, s.args⟩ ps ds prev, out, next + 1)
  | .subproof cs as _ => do
    let (f, next) ← nodesOfCommands (outer ++ [top]) {} next cs
    let out ← addOutbound outer.length top.outbound f.outbound
    let last ← orPanic f.acc.getLast?
    .ok (.subproof next last as f.outbound f.acc.dropLast, out, next + 1)
def nodesOfCommands (outer : List NFrame) (top : NFrame) (next : Nat) : List Command → Res (NFrame × Nat)
  | [] => .ok (top, next)
  | c :: cs => do
    let (n, out, next) ← nodeOfCommand outer top next cs.isEmpty c
    nodesOfCommands outer ⟨top.acc ++ [n], out⟩ next cs
end

/-- `ast/node.rs:256-356 proof_list_to_nodes`. -/
def listToNodes (cs : List Command) : Res (List ANode) := do
  let (f, _) ← nodesOfCommands [] {} 0 cs
  .ok f.acc

/-! ## From forests to lists -/

/-- The variables of `proof_nodes_to_list`; the top of `todo` is its head. -/
structure LState where
  todo : List (ANode × Bool)
  stack : List (List Command)
  seen : List (Nat × (Nat × Nat)) := []
  did : List Nat := []

/-- `seen[node]`. -/
def LState.pos (st : LState) (n : ANode) : Res (Nat × Nat) := orPanic (mapGet st.seen n.addr)

/-- `ast/node.rs:430-435`. -/
def LState.emit (st : LState) (n : ANode) (c : Command) : Res LState := do
  let d ← n.depth
  let f ← orPanic st.stack[d]?
  .ok { st with seen := mapInsert st.seen n.addr (d, f.length), stack := st.stack.set d (f ++ [c]) }

/-- An iteration of `ast/node.rs:369-436`; the right alternative is the result. -/
def LState.next (st : LState) : Res (LState ⊕ List Command) :=
  match st.todo with
  | [] => match st.stack with
    | [cs] => .ok (.inr cs)
    | _ => panic
  | (n, done) :: todo =>
    let st := { st with todo }
    if done = false ∧ (mapGet st.seen n.addr).isSome then .ok (.inl st)
    else match n, done with
      | .assume a id d t, _ => do
        let st ← st.emit (.assume a id d t) (.assume id t)
        .ok (.inl st)
      | .step a d ps ds prev, false =>
        .ok (.inl { st with todo := (ps ++ ds).map (·, false) ++ prev.toList.map (·, false) ++ (.step a d ps ds prev, true) :: todo })
      | .step a d ps ds prev, true => do
        let premises ← mapRes st.pos ps
        let discharge ← mapRes st.pos ds
        let st ← st.emit (.step a d ps ds prev) (.step ⟨d.id, d.clause, d.rule, premises, d.args, discharge⟩)
        .ok (.inl st)
      | .subproof a l as out ex, false => do
        let d ← (ANode.subproof a l as out ex).depth
        if d + 1 ≠ st.stack.length then panic
        else if a ∈ st.did then
          .ok (.inl { st with todo := ex.map (·, false) ++ (l, false) :: (.subproof a l as out ex, true) :: todo, stack := st.stack ++ [[]] })
        else
          .ok (.inl { st with did := a :: st.did, todo := out.reverse.map (·, false) ++ (.subproof a l as out ex, false) :: todo })
      | .subproof a l as out ex, true => do
        let commands ← orPanic st.stack.getLast?
        if st.stack.dropLast = [] then panic
        else if commands.length < 2 then panic
        else do
          let st ← { st with stack := st.stack.dropLast }.emit (.subproof a l as out ex) (.subproof commands as 0)
          .ok (.inl st)

/-- A number of iterations of the loop; `none` if they are not enough. -/
def LState.run : Nat → LState → Res (Option (List Command))
  | 0, _ => .ok none
  | k + 1, st => do
    match ← st.next with
    | .inl st => run k st
    | .inr cs => .ok (some cs)

/-- `ast/node.rs:359-438 proof_nodes_to_list`, cut off after a number of iterations. -/
def nodesToList (fuel : Nat) (forest : List ANode) : Res (Option (List Command)) :=
  LState.run fuel { todo := forest.map (·, false), stack := [[]] }

end Carcara
