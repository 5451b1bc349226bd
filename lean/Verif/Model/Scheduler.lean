import Verif.Model.Collections
import Verif.Model.Proof

/-!
# The scheduler of the parallel checker (`checker/parallel/scheduler.rs`)

The loop of `Scheduler::new` keeps an explicit stack of levels, each with the index of its next command. Here the traversal is a recursion over
the commands, and the stack holds what is left: the commands, the opening command and the users of each level. The order in which the binary
heap presents equal loads and in which a hash set is iterated is a parameter.
-/

namespace Carcara

/-- An element of `scheduler.rs:14-16 Schedule`: `(depth, index)`, or `(depth, usize::MAX)`, which closes a subproof. -/
inductive Entry where
  | cmd (depth index : Nat)
  | close (depth : Nat)
deriving DecidableEq

/-- `scheduler.rs:14-16 Schedule`. -/
abbrev Load := List Entry

/-- The priority queue `BinaryHeap<AssignedLoad>` (pairs of a load and the index of a worker) and the order of hash sets. Only what the
properties need is required: elements are not lost or duplicated. -/
structure SchedOrder where
  pop : List (Nat × Nat) → Option ((Nat × Nat) × List (Nat × Nat))
  push : Nat × Nat → List (Nat × Nat) → List (Nat × Nat)
  hash : List Nat → List Nat
  pop_perm : ∀ {q x q'}, pop q = some (x, q') → q.Perm (x :: q')
  pop_some : ∀ {q}, q ≠ [] → (pop q).isSome
  push_perm : ∀ x q, (push x q).Perm (x :: q)
  hash_perm : ∀ l, (hash l).Perm l

/-! ### `std::collections::BinaryHeap`

The algorithm of the standard library, with the order of `scheduler.rs:52-56`: an element is less than another if its load is greater. -/

/-- Exchanges two elements. -/
def heapSwap (q : List (Nat × Nat)) (i j : Nat) : List (Nat × Nat) :=
  match q[i]?, q[j]? with
  | some x, some y => (q.set i y).set j x
  | _, _ => q

/-- `BinaryHeap::sift_up`. -/
def siftUp : Nat → List (Nat × Nat) → Nat → List (Nat × Nat)
  | 0, q, _ => q
  | fuel + 1, q, pos =>
    if pos = 0 then q
    else match q[pos]?, q[(pos - 1) / 2]? with
      | some x, some y => if y.1 ≤ x.1 then q else siftUp fuel (heapSwap q pos ((pos - 1) / 2)) ((pos - 1) / 2)
      | _, _ => q

/-- `BinaryHeap::sift_down_to_bottom`, without the final `sift_up`: the position of the element is returned, too. -/
def siftDown : Nat → List (Nat × Nat) → Nat → List (Nat × Nat) × Nat
  | 0, q, pos => (q, pos)
  | fuel + 1, q, pos =>
    match q[2 * pos + 1]?, q[2 * pos + 2]? with
    | some x, some y =>
      let child := if y.1 ≤ x.1 then 2 * pos + 2 else 2 * pos + 1
      siftDown fuel (heapSwap q pos child) child
    | some _, none => (heapSwap q pos (2 * pos + 1), 2 * pos + 1)
    | none, _ => (q, pos)

/-- `BinaryHeap::push`. -/
def heapPush (x : Nat × Nat) (q : List (Nat × Nat)) : List (Nat × Nat) := siftUp (q.length + 1) (q ++ [x]) q.length

/-- `BinaryHeap::pop`. -/
def heapPop (q : List (Nat × Nat)) : Option ((Nat × Nat) × List (Nat × Nat)) :=
  match q.getLast?, q.dropLast with
  | none, _ => none
  | some x, [] => some (x, [])
  | some x, y :: q =>
    let (q, pos) := siftDown (q.length + 1) (x :: q) 0
    some (y, siftUp q.length q pos)

theorem heapSwap_perm (q : List (Nat × Nat)) (i j : Nat) : (heapSwap q i j).Perm q := by
  unfold heapSwap
  split
  · rename_i x y hx hy
    obtain ⟨h1, rfl⟩ := List.getElem?_eq_some_iff.1 hx
    obtain ⟨h2, rfl⟩ := List.getElem?_eq_some_iff.1 hy
    exact List.set_set_perm h1 h2
  · exact .refl _

theorem siftUp_perm : ∀ (fuel : Nat) (q : List (Nat × Nat)) (pos : Nat), (siftUp fuel q pos).Perm q
  | 0, q, _ => .refl _
  | fuel + 1, q, pos => by
    unfold siftUp
    split
    · exact .refl _
    · split
      · split
        · exact .refl _
        · exact (siftUp_perm fuel _ _).trans (heapSwap_perm _ _ _)
      · exact .refl _

theorem siftDown_perm : ∀ (fuel : Nat) (q : List (Nat × Nat)) (pos : Nat), (siftDown fuel q pos).1.Perm q
  | 0, q, _ => .refl _
  | fuel + 1, q, pos => by
    unfold siftDown
    split
    · exact (siftDown_perm fuel _ _).trans (heapSwap_perm _ _ _)
    · exact heapSwap_perm _ _ _
    · exact .refl _

theorem heapPop_perm {q : List (Nat × Nat)} {x : Nat × Nat} {q' : List (Nat × Nat)} (h : heapPop q = some (x, q')) : q.Perm (x :: q') := by
  unfold heapPop at h
  rcases List.eq_nil_or_concat q with rfl | ⟨l, y, rfl⟩
  · simp at h
  · rw [List.concat_eq_append, List.getLast?_append, List.getLast?_singleton, Option.some_or, List.dropLast_concat] at h
    rw [List.concat_eq_append]
    cases l with
    | nil =>
      cases h
      exact .refl _
    | cons z l =>
      simp only [Option.some.injEq, Prod.mk.injEq] at h
      obtain ⟨rfl, rfl⟩ := h
      refine List.Perm.trans ?_ (((siftUp_perm _ _ _).trans (siftDown_perm _ _ _)).symm.cons z)
      exact (List.perm_append_comm (l₁ := z :: l) (l₂ := [y])).trans (.swap _ _ _)

/-- The scheduler as it is, but for the order of hash sets. -/
def SchedOrder.heap : SchedOrder where
  pop := heapPop
  push := heapPush
  hash := id
  pop_perm := heapPop_perm
  pop_some := by
    intro q h
    unfold heapPop
    rcases List.eq_nil_or_concat q with rfl | ⟨l, y, rfl⟩
    · exact absurd rfl h
    · rw [List.concat_eq_append, List.getLast?_append, List.getLast?_singleton, Option.some_or, List.dropLast_concat]
      cases l <;> rfl
  push_perm := fun x q => (siftUp_perm _ _ _).trans (List.perm_append_comm (l₁ := q) (l₂ := [x]))
  hash_perm := fun _ => .refl _

/-- `scheduler.rs:308-412`; other rules have weight zero. -/
def ruleWeights : List (String × Nat) :=
  [("assume", 230), ("true", 0), ("false", 263), ("not_not", 574), ("and_pos", 361), ("and_neg", 607), ("or_pos", 640), ("or_neg", 460),
   ("xor_pos1", 763), ("xor_pos2", 345), ("xor_neg1", 0), ("xor_neg2", 0), ("implies_pos", 394), ("implies_neg1", 214),
   ("implies_neg2", 287), ("equiv_pos1", 763), ("equiv_pos2", 541), ("equiv_neg1", 434), ("equiv_neg2", 476), ("ite_pos1", 804),
   ("ite_pos2", 344), ("ite_neg1", 566), ("ite_neg2", 542), ("eq_reflexive", 451), ("eq_transitive", 780), ("eq_congruent", 722),
   ("eq_congruent_pred", 632), ("distinct_elim", 812), ("la_rw_eq", 1091), ("la_generic", 87564), ("la_disequality", 919),
   ("la_totality", 0), ("la_tautology", 4291), ("forall_inst", 7877), ("qnt_join", 2347), ("qnt_rm_unused", 3659), ("resolution", 7491),
   ("th_resolution", 2462), ("refl", 1305), ("trans", 575), ("cong", 984), ("ho_cong", 0), ("and", 493), ("tautology", 0), ("not_or", 476),
   ("or", 426), ("not_and", 927), ("xor1", 0), ("xor2", 0), ("not_xor1", 0), ("not_xor2", 0), ("implies", 788), ("not_implies1", 402),
   ("not_implies2", 484), ("equiv1", 837), ("equiv2", 812), ("not_equiv1", 418), ("not_equiv2", 451), ("ite1", 509), ("ite2", 493),
   ("not_ite1", 722), ("not_ite2", 476), ("ite_intro", 3192), ("contraction", 1731), ("connective_def", 705), ("ite_simplify", 1797),
   ("eq_simplify", 845), ("and_simplify", 1165), ("or_simplify", 1133), ("not_simplify", 787), ("implies_simplify", 1231),
   ("equiv_simplify", 1337), ("bool_simplify", 1436), ("qnt_simplify", 517), ("div_simplify", 2117), ("prod_simplify", 2527),
   ("unary_minus_simplify", 0), ("minus_simplify", 1059), ("sum_simplify", 2248), ("comp_simplify", 1781), ("nary_elim", 0),
   ("ac_simp", 9781), ("bfun_elim", 8558), ("bind", 5924), ("qnt_cnf", 14244), ("subproof", 262), ("let", 4718), ("onepoint", 7787),
   ("sko_ex", 9321), ("sko_forall", 12242), ("reordering", 1452), ("symm", 682), ("not_symm", 0), ("eq_symmetric", 673),
   ("weakening", 508), ("bind_let", 2324), ("la_mult_pos", 1446), ("la_mult_neg", 1447), ("hole", 185), ("trust", 185),
   ("strict_resolution", 1276)]

/-- `scheduler.rs:303-415 get_step_weight`. -/
def stepWeight : Command → Nat
  | .assume _ _ => 230
  | .subproof _ _ _ => 0
  | .step s => (mapGet ruleWeights s.rule).getD 0

/-- `scheduler.rs:73-78 StackLevel`. -/
structure Level where
  cmds : List Command
  preReq : Option (Nat × Nat)
  usedBy : List Nat

/-- The variables of `Scheduler::new`. The top of the stack is its last element. -/
structure Sched where
  loads : List Load
  stack : List Level
  queue : List (Nat × Nat)
  usage : List Nat

/-- `HashSet::insert`. -/
def insertUser (l : List Nat) (w : Nat) : List Nat := if w ∈ l then l else l ++ [w]

/-- The context of the subproof that the last entry of a load opens, if it opens one (`scheduler.rs:126-133`). -/
def uselessOpening (stack : List Level) : Entry → Res (Option Nat)
  | .cmd d i =>
    if d < stack.length then do
      let level ← orPanic stack[d]?
      let c ← orPanic level.cmds[i]?
      match c with
      | .subproof _ _ n => .ok (some n)
      | _ => .ok none
    else .ok none
  | .close d => if d < stack.length then panic else .ok none

/-- The body of the loop `scheduler.rs:123-142`. -/
def closeFor (s : Sched) (w : Nat) : Res Sched := do
  let load ← orPanic s.loads[w]?
  let last ← orPanic load.getLast?
  match ← uselessOpening s.stack last with
  | some n => do
    let u ← orPanic s.usage[n]?
    if u = 0 then panic
    else .ok { s with usage := s.usage.set n (u - 1), loads := s.loads.set w load.dropLast }
  | none => .ok { s with loads := s.loads.set w (load ++ [.close (s.stack.length - 1)]) }

/-- The loop `scheduler.rs:123-142`. -/
def closeAll : List Nat → Sched → Res Sched
  | [], s => .ok s
  | w :: ws, s => do
    let s ← closeFor s w
    closeAll ws s

/-- The body of the loop `scheduler.rs:119-144`. -/
def closeLevel (O : SchedOrder) (s : Sched) : Res Sched := do
  let top ← orPanic s.stack.getLast?
  let s ← closeAll (O.hash top.usedBy) s
  .ok { s with stack := s.stack.dropLast }

/-- `scheduler.rs:161-168`. -/
def initialLayer (load : Load) : Res Nat :=
  match load.getLast? with
  | none => .ok 0
  | some (.cmd d _) => .ok d
  | some (.close d) => if d = 0 then panic else .ok (d - 1)

/-- The body of the loop `scheduler.rs:171-187`. -/
def openFor (w layer : Nat) (s : Sched) : Res Sched := do
  let level ← orPanic s.stack[layer]?
  let p ← orPanic level.preReq
  let load ← orPanic s.loads[w]?
  if load.getLast? = some (.cmd p.1 p.2) then .ok s
  else do
    let outer ← orPanic s.stack[p.1]?
    let c ← orPanic outer.cmds[p.2]?
    match c with
    | .subproof _ _ n => do
      let u ← orPanic s.usage[n]?
      .ok { s with
        loads := s.loads.set w (load ++ [.cmd p.1 p.2])
        stack := s.stack.set p.1 { outer with usedBy := insertUser outer.usedBy w }
        usage := s.usage.set n (u + 1) }
    | _ => panic

/-- The loop `scheduler.rs:171-187`: so many layers, starting with the given one. -/
def openLoop (w : Nat) : Nat → Nat → Sched → Res Sched
  | 0, _, s => .ok s
  | k + 1, layer, s => do
    let s ← openFor w layer s
    openLoop w k (layer + 1) s

/-- `scheduler.rs:149-192`: the command with the given index in the top level is assigned to a worker, which is returned. -/
def assignCommand (O : SchedOrder) (index : Nat) (c : Command) (s : Sched) : Res (Sched × Nat) := do
  let ((load, w), queue) ← orPanic (O.pop s.queue)
  if 2 ^ 64 ≤ load + stepWeight c then panic
  else do
    let s := { s with queue := O.push (load + stepWeight c, w) queue }
    let depth := s.stack.length - 1
    let layer ← initialLayer (← orPanic s.loads[w]?)
    let s ← openLoop w (depth - layer) (layer + 1) s
    let load ← orPanic s.loads[w]?
    let top ← orPanic s.stack[depth]?
    .ok ({ s with
      loads := s.loads.set w (load ++ [.cmd depth index])
      stack := s.stack.set depth { top with usedBy := insertUser top.usedBy w } }, w)

mutual
/-- What follows the assignment of a command to worker `w`: for a subproof, a new level is pushed (`scheduler.rs:197-202`), its commands are
assigned, and the level is closed. -/
def runCommand (O : SchedOrder) (w index : Nat) : Command → Sched → Res Sched
  | .subproof sub _ _, s => do
    let s := { s with
      stack := s.stack ++ [⟨sub, some (s.stack.length - 1, index), [w]⟩]
      usage := s.usage ++ [1] }
    let s ← runCommands O 0 sub s
    closeLevel O s
  | _, s => .ok s
/-- The rest of the commands of the top level, from the given index. -/
def runCommands (O : SchedOrder) (index : Nat) : List Command → Sched → Res Sched
  | [], s => .ok s
  | c :: cs, s => do
    let (s, w) ← assignCommand O index c s
    let s ← runCommand O w index c s
    runCommands O (index + 1) cs s
end

/-- `scheduler.rs:106-116`. -/
def initialSched (O : SchedOrder) (workers : Nat) (proof : List Command) : Sched :=
  ⟨List.replicate workers [], [⟨proof, none, []⟩], (List.range workers).foldl (fun q i => O.push (0, i) q) [], []⟩

/-- `scheduler.rs:106-205 Scheduler::new`: the loads and the number of users of each context. -/
def schedule (O : SchedOrder) (workers : Nat) (proof : List Command) : Res (List Load × List Nat) := do
  let s ← runCommands O 0 proof (initialSched O workers proof)
  let s ← closeLevel O s
  .ok (s.loads, s.usage)

/-! ## The iterator -/

/-- `scheduler.rs:209-213 ScheduleIter`: the stack of open subproofs (the top is the HEAD here), and the entries up to and from `step_id`. -/
structure SIter where
  stack : List (List Command)
  done : List Entry
  todo : List Entry

namespace SIter

/-- `scheduler.rs:216-222 new`. -/
def start (proof : List Command) (load : Load) : SIter := ⟨[proof], [], load⟩

/-- `scheduler.rs:227-229 depth`, which underflows when the stack is empty. -/
def depth (it : SIter) : Nat := it.stack.length - 1

/-- `scheduler.rs:233-235 is_in_subproof`. -/
def isInSubproof (it : SIter) : Bool := 0 < it.depth

/-- `scheduler.rs:238-241 current_subproof`. -/
def currentSubproof (it : SIter) : Option (List Command) := if it.isInSubproof then it.stack.head? else none

/-- `scheduler.rs:245-248 is_end_step`; the last entry returned is a command. -/
def isEndStep (it : SIter) : Bool :=
  it.isInSubproof && match it.done.getLast?, it.stack with
    | some (.cmd _ i), cs :: _ => i == cs.length - 1
    | _, _ => false

/-- `scheduler.rs:252-254 get_premise`. -/
def getPremise (it : SIter) (p : Nat × Nat) : Res Command := do
  let cs ← orPanic it.stack.reverse[p.1]?
  orPanic cs[p.2]?

/-- `scheduler.rs:260-285 next`: a list of commands that is missing, or a command that is missing, panics. -/
def next (stack : List (List Command)) (done : List Entry) : List Entry → Res (Option (Command × SIter))
  | [] => .ok none
  | .close d :: es => next stack.tail (done ++ [.close d]) es
  | .cmd d i :: es => do
    let top ← orPanic stack.head?
    let c ← orPanic top[i]?
    match c with
    | .subproof sub _ _ => .ok (some (c, ⟨sub :: stack, done ++ [.cmd d i], es⟩))
    | _ => .ok (some (c, ⟨stack, done ++ [.cmd d i], es⟩))

end SIter

end Carcara
