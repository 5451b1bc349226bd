import Verif.Model.ElabReordering
import Verif.Model.IdHelper
import Verif.Model.Equality
import Verif.Model.Resolution

/-!
# Uncrowding of resolution steps (`elaborator/uncrowding.rs`)

The code iterates over hash maps and sorts with `sort_unstable`. The order in which this presents elements is a parameter, `HashOrder`.
The number of negations of a literal is a `u32` in the code; subtracting one from zero panics here, as in builds with overflow checks.
-/

namespace Carcara

/-- `uncrowding.rs:13-17 ResolutionPremise`. -/
structure RPremise where
  node : Node
  clause : List Lit
  pivot : Option (Lit × Bool)

/-- The premises after the first in `uncrowding.rs:20-35 from_step`: each is paired with two arguments; premises without arguments are
dropped. A single argument panics (`chunk[1]`). -/
def premisesFrom : List Node → List Term → Res (List RPremise)
  | [], _ => .ok []
  | _ :: _, [] => .ok []
  | _ :: _, [_] => panic
  | n :: ns, p :: b :: args => do
    let rest ← premisesFrom ns args
    .ok (⟨n, n.clause.map Term.removeAllNegations, some (p.removeAllNegations, b.isBoolTrue)⟩ :: rest)

/-- `uncrowding.rs:20-35 from_step`. -/
def fromStep (ps : List Node) (args : List Term) : Res (List RPremise) :=
  match ps with
  | [] => .ok []
  | n :: ns => do
    let rest ← premisesFrom ns args
    .ok (⟨n, n.clause.map Term.removeAllNegations, none⟩ :: rest)

/-- `uncrowding.rs:45-50`: the pivot as it is in the clause so far and in the next premise. -/
def pivotPair (pivot : Lit) (polarity : Bool) : Lit × Lit :=
  if polarity then (pivot, (pivot.1 + 1, pivot.2)) else ((pivot.1 + 1, pivot.2), pivot)

/-- The loop `uncrowding.rs:42-64`. -/
def naiveLits : List Lit → List RPremise → Res (List Lit)
  | cur, [] => .ok cur
  | cur, p :: ps => do
    let (pivot, polarity) ← orPanic p.pivot
    let (l, u) := pivotPair pivot polarity
    if l ∉ cur then panic
    else if u ∉ p.clause then panic
    else naiveLits (cur.erase l ++ p.clause.erase u) ps

/-- `uncrowding.rs:37-67 apply_naive_resolution`. -/
def naiveConclusion : List RPremise → Res (List Lit)
  | p :: q :: ps => naiveLits p.clause (q :: ps)
  | _ => panic

/-- `uncrowding.rs:211-220 LiteralInfo`. -/
structure LiteralInfo where
  crowding : Bool := false
  lastInclusion : Nat := 0
  eliminator : Nat := 0
  polarity : Bool := false
deriving DecidableEq

/-- `HashMap<Literal, LiteralInfo>`, in some order. -/
abbrev Infos := List (Lit × LiteralInfo)

/-- `uncrowding.rs:227-231`. -/
def initInfos (ps : List RPremise) : Infos :=
  (ps.flatMap (·.clause)).foldl (fun m l => mapInsert m l {}) []

/-- `uncrowding.rs:233-236`. -/
def markCrowding (target : List Lit) : List Lit → Infos → Res Infos
  | [], m => .ok m
  | l :: ls, m =>
    if l ∈ target then markCrowding target ls m
    else do
      let i ← orPanic (mapGet m l)
      markCrowding target ls (mapInsert m l { i with crowding := true })

/-- `if let Some(info) = literals.get_mut(lit) { … }`. -/
def modifyInfo (m : Infos) (l : Lit) (f : LiteralInfo → LiteralInfo) : Infos :=
  match mapGet m l with
  | some i => mapInsert m l (f i)
  | none => m

/-- `uncrowding.rs:238-244`, from the premise with index `i`. -/
def setInclusions : Nat → List RPremise → Infos → Infos
  | _, [], m => m
  | i, p :: ps, m =>
    setInclusions (i + 1) ps (p.clause.foldl (fun m l => modifyInfo m l fun x => { x with lastInclusion := i }) m)

/-- `uncrowding.rs:245-258`; the first premise has index `i`. -/
def setEliminators : Nat → List RPremise → Infos → Res Infos
  | _, [], m => .ok m
  | i, p :: ps, m => do
    let (pivot, polarity) ← orPanic p.pivot
    setEliminators (i + 1) ps (modifyInfo m (pivotPair pivot polarity).1 fun x =>
      if i > x.lastInclusion then { x with eliminator := i, polarity } else x)

/-- `uncrowding.rs:222-260 find_crowding_literals`. -/
def findCrowding (naive target : List Lit) (ps : List RPremise) : Res Infos := do
  let m ← markCrowding target naive (initInfos ps)
  setEliminators 1 ps.tail (setInclusions 0 ps m)

/-- `uncrowding.rs:263-267 Event`: whether it is `Elimination`; the literal and the index are those of the triple in the code. -/
structure UEvent where
  literal : Lit
  elimination : Bool
  index : Nat
deriving DecidableEq

/-- Puts an element before the first that is not smaller. -/
def insertSorted {α : Type} (le : α → α → Bool) (a : α) : List α → List α
  | [] => [a]
  | b :: l => if le a b then a :: b :: l else b :: insertSorted le a l

/-- A stable sort (`sort_by`, `sort_unstable_by_key` after a permutation). -/
def stableSort {α : Type} (le : α → α → Bool) : List α → List α
  | [] => []
  | a :: l => insertSorted le a (stableSort le l)

/-- The order in which hash maps present their elements and in which `sort_unstable` leaves equal elements: any permutation, which is
then sorted with a stable sort. -/
structure HashOrder where
  events : List UEvent → List UEvent
  events_perm : ∀ l, (events l).Perm l
  infos : Infos → Infos
  infos_perm : ∀ l, (infos l).Perm l

/-- The order of insertion. -/
def HashOrder.insertion : HashOrder := ⟨id, fun _ => .refl _, id, fun _ => .refl _⟩

/-- The two events of a crowding literal (`uncrowding.rs:271-278`). -/
def literalEvents (p : Lit × LiteralInfo) : List UEvent :=
  if p.2.crowding then [⟨p.1, false, p.2.lastInclusion⟩, ⟨p.1, true, p.2.eliminator⟩] else []

/-- The comparison `uncrowding.rs:281-286`. -/
def eventLe (a b : UEvent) : Bool :=
  if a.index = b.index then a.elimination || !b.elimination else a.index < b.index

/-- The loop `uncrowding.rs:288-302`. -/
def contractionLoop : List UEvent → List Lit → List Nat
  | [], _ => []
  | e :: es, need =>
    if e.elimination then
      if e.literal ∈ need then e.index :: contractionLoop es [] else contractionLoop es need
    else contractionLoop es (e.literal :: need)

/-- `uncrowding.rs:262-304 find_needed_contractions`. -/
def neededContractions (O : HashOrder) (m : Infos) : List Nat :=
  contractionLoop (stableSort eventLe (O.events (m.flatMap literalEvents))) []

/-- `v[i..j].rotate_left(1)`. -/
def rotateRange (l : List Nat) (i j : Nat) : Res (List Nat) :=
  if l.length < j then panic
  else .ok (l.take i ++ ((l.take j).drop (i + 1) ++ (l.drop i).take 1) ++ l.drop j)

/-- `.min()`. -/
def minOf : List Nat → Option Nat
  | [] => none
  | n :: ns => match minOf ns with
    | none => some n
    | some m => some (min n m)

/-- One iteration of the loop `uncrowding.rs:316-353`. -/
def rotateStep (m : Infos) (ps : List RPremise) (order : List Nat) (lit : Lit) (info : LiteralInfo) : Res (List Nat) :=
  if !info.crowding then .ok order
  else do
    let count ← (if info.polarity then .ok (lit.1 + 1) else if lit.1 = 0 then panic else .ok (lit.1 - 1) : Res Nat)
    let at_ ← orPanic order[info.eliminator]?
    let premise ← orPanic ps[at_]?
    let others := premise.clause.filter (· ≠ (count, lit.2))
    let eliminations ← collectRes (fun l => do
      let i ← orPanic (mapGet m l)
      orPanic order[i.eliminator]?) others
    let crowding ← collectRes (fun l => do
      let i ← orPanic (mapGet m l)
      .ok (if i.crowding then [i.lastInclusion] else [])) others
    let inclusions ← collectRes (fun i => orPanic order[i]?) crowding.flatten
    match minOf (eliminations ++ inclusions) with
    | none => .ok order
    | some safe => if at_ < safe then rotateRange order at_ safe else .ok order

/-- The loop `uncrowding.rs:316-353`. -/
def rotateLoop (m : Infos) (ps : List RPremise) : Infos → List Nat → Res (List Nat)
  | [], order => .ok order
  | (l, i) :: is, order => do
    let order ← rotateStep m ps order l i
    rotateLoop m ps is order

/-- `uncrowding.rs:306-366 reorder_premises`. The new order is a permutation, so that no clause is taken twice. -/
def reorderPremises (O : HashOrder) (m : Infos) (ps : List RPremise) : Res (List RPremise) := do
  let order ← rotateLoop m ps (stableSort (fun a b => a.2.eliminator ≤ b.2.eliminator) (O.infos m)) (List.range ps.length)
  collectRes (fun i => orPanic ps[i]?) order

/-- The arguments of a partial step (`uncrowding.rs:155-161`). -/
def pivotArgs : List RPremise → Res (List Term)
  | [] => .ok []
  | p :: ps => do
    let (l, polarity) ← orPanic p.pivot
    let rest ← pivotArgs ps
    .ok (literalToTerm l :: (if polarity then .tru else .fls) :: rest)

/-- `uncrowding.rs:143-194 add_partial_resolution_step`. -/
def partialStep (ids : IdHelper) (depth : Nat) (ps : List RPremise) (target : List Term) :
    Res (Node × List Lit × IdHelper) := do
  let conclusion ← naiveConclusion ps
  let args ← pivotArgs ps.tail
  let (id, ids) ← ids.nextId
  let clause := conclusion.map literalToTerm
  let step := Node.mk { id, depth, clause, rule := "resolution", args } (ps.map (·.node))
  if clause = target then .ok (step, conclusion, ids)
  else if (dedup conclusion).length ≠ conclusion.length then do
    let (id, ids) ← ids.nextId
    .ok (.mk { id, depth, clause := dedup clause, rule := "contraction" } [step], dedup conclusion, ids)
  else .ok (step, conclusion, ids)

/-- The loop `uncrowding.rs:95-108`; the result is the node at the last cut. -/
def cutLoop (depth : Nat) (target : List Term) : List Nat → Nat → List RPremise → IdHelper → Res (RPremise × IdHelper)
  | [], prev, ps, ids => do
    let p ← orPanic ps[prev]?
    .ok (p, ids)
  | cut :: cuts, prev, ps, ids =>
    if cut < prev ∨ ps.length < cut then panic
    else do
      let (node, clause, ids) ← partialStep ids depth ((ps.take cut).drop prev) target
      cutLoop depth target cuts (cut - 1) (ps.set (cut - 1) ⟨node, clause, none⟩) ids

/-- The loop of `uncrowding.rs:197-204`: removes from the multiset of the target, and panics if there is nothing left to remove. -/
def missingFrom : List Term → MultiSet Term → Res (MultiSet Term)
  | [], m => .ok m
  | t :: ts, m => if m.get t = 0 then panic else missingFrom ts (m.remove t).1

/-- `uncrowding.rs:196-209 get_weakening_clause`. -/
def weakeningClause (current target : List Term) : Res (List Term) := do
  let m ← missingFrom current (MultiSet.ofList target)
  .ok (current ++ m.intoIter)

/-- `uncrowding.rs:69-141 uncrowd_resolution`. The nodes of the loop have no discharged assumptions and no previous step. -/
def uncrowd (O : HashOrder) (d : NodeData) (premises : List Node) (rotate : Bool) : Res Node := do
  let target := d.clause.map Term.removeAllNegations
  let ps ← fromStep premises d.args
  let naive ← naiveConclusion ps
  let m ← findCrowding naive target ps
  let (ps, m) ← (if rotate then do
      let ps ← reorderPremises O m ps
      let m ← findCrowding naive target ps
      .ok (ps, m)
    else .ok (ps, m) : Res (List RPremise × Infos))
  let cuts := neededContractions O m
  let cuts := if cuts.getLast? ≠ some ps.length then cuts ++ [ps.length] else cuts
  let (last, ids) ← cutLoop d.depth d.clause cuts 0 ps (.new d.id)
  match last.node with
  | .step fd fps fdis fprev => do
    let (fd, fps, ids) ← (if fd.clause.length ≠ d.clause.length then do
        let clause ← weakeningClause fd.clause d.clause
        let (id, ids) ← ids.nextId
        .ok ({ id, depth := d.depth, clause, rule := "weakening" }, [.step fd fps fdis fprev], ids)
      else .ok (fd, fps, ids) : Res (NodeData × List Node × IdHelper))
    let (fd, fps) ← (if fd.clause ≠ d.clause then
        if (∀ t ∈ fd.clause, t ∈ d.clause) ∧ (∀ t ∈ d.clause, t ∈ fd.clause) then do
          let (id, _) ← ids.nextId
          .ok ({ id, depth := d.depth, clause := d.clause, rule := "reordering" }, [.mk fd fps])
        else panic
      else .ok (fd, fps) : Res (NodeData × List Node))
    .ok (.mk { fd with id := d.id } fps)
  | _ => panic

end Carcara
