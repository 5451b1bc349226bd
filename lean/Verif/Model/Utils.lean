import Verif.Model.Base
import Verif.Model.Collections

/-!
# Utility data structures

Model of `carcara/src/utils.rs`. `usize` counters are natural numbers (they count elements in memory).
-/

namespace Carcara

variable {κ : Type} [DecidableEq κ] {ν : Type}

/-! ## `Dedup` -/

/-- `utils.rs:28-31 Dedup` run to exhaustion: `next` (`40-48`) skips the elements that `seen.insert` rejects. -/
def dedupFrom : List κ → List κ → List κ
  | _, [] => []
  | seen, a :: l => if a ∈ seen then dedupFrom seen l else a :: dedupFrom (setInsert seen a) l

/-- `utils.rs:58-65 iter.dedup()`. -/
def dedup (l : List κ) : List κ := dedupFrom [] l

/-! ## `HashMapStack` -/

/-- `utils.rs:104-107 HashMapStack`; the last scope is the innermost one. -/
structure HashMapStack (κ ν : Type) where
  scopes : List (List (κ × ν))

namespace HashMapStack

/-- `utils.rs:110-112`. -/
def new : HashMapStack κ ν := ⟨[[]]⟩

/-- `utils.rs:114-116`. -/
def height (m : HashMapStack κ ν) : Nat := m.scopes.length

/-- `utils.rs:118-120`. -/
def isEmpty (m : HashMapStack κ ν) : Bool := m.scopes.all (·.isEmpty)

/-- `utils.rs:122-124`. -/
def pushScope (m : HashMapStack κ ν) : HashMapStack κ ν := ⟨m.scopes ++ [[]]⟩

/-- `utils.rs:126-134`. -/
def popScope (m : HashMapStack κ ν) : Res (HashMapStack κ ν) :=
  if m.scopes.length ≤ 1 then panic else .ok ⟨m.scopes.dropLast⟩

/-- `utils.rs:138-151`. -/
def get (m : HashMapStack κ ν) (k : κ) : Option ν := m.scopes.reverse.findSome? (mapGet · k)

/-- `utils.rs:153-163`. -/
def getWithDepth (m : HashMapStack κ ν) (k : κ) : Option (Nat × ν) :=
  (m.scopes.zipIdx.reverse).findSome? fun (scope, depth) => (mapGet scope k).map fun v => (depth, v)

/-- `utils.rs:165-167`. -/
def insert (m : HashMapStack κ ν) (k : κ) (v : ν) : Res (HashMapStack κ ν) :=
  match m.scopes.getLast? with
  | some s => .ok ⟨m.scopes.dropLast ++ [mapInsert s k v]⟩
  | none => panic

end HashMapStack

/-! ## `MultiSet` -/

/-- `utils.rs:176-177 MultiSet`. -/
structure MultiSet (κ : Type) where
  map : List (κ × Nat)
deriving DecidableEq

/-- `utils.rs:191-195 MultiSetDifference`. -/
inductive MultiSetDifference (κ : Type) where
  | none
  | missing (a : κ)
  | extra (a : κ)
deriving DecidableEq

namespace MultiSet

/-- `utils.rs:186-188`. -/
def new : MultiSet κ := ⟨[]⟩

/-- `utils.rs:198-200`. -/
def get (m : MultiSet κ) (a : κ) : Nat := (mapGet m.map a).getD 0

/-- `utils.rs:210-217 insert_n`: `get_mut` creates the entry with 0, then `n` is added. -/
def insertN (m : MultiSet κ) (a : κ) (n : Nat) : MultiSet κ × Nat :=
  if n = 0 then (m, m.get a)
  else
    let m' := mapOrInsert m.map a 0
    let v := (mapGet m' a).getD 0 + n
    (⟨mapInsert m' a v⟩, v)

/-- `utils.rs:206-208`. -/
def insert (m : MultiSet κ) (a : κ) : MultiSet κ × Nat := m.insertN a 1

/-- `utils.rs:223-232 remove_n`. -/
def removeN (m : MultiSet κ) (a : κ) (n : Nat) : MultiSet κ × Nat :=
  if m.get a ≤ n then (⟨mapRemove m.map a⟩, 0)
  else
    let m' := mapOrInsert m.map a 0
    let v := (mapGet m' a).getD 0 - n
    (⟨mapInsert m' a v⟩, v)

/-- `utils.rs:219-221`. -/
def remove (m : MultiSet κ) (a : κ) : MultiSet κ × Nat := m.removeN a 1

/-- One of the two loops of `symmetric_difference` (`235-242`, `244-251`); `flip` says that the counts of the
second map are the ones iterated over. -/
def diffLoop (other : MultiSet κ) (flip : Bool) : List (κ × Nat) → MultiSetDifference κ
  | [] => .none
  | (a, n) :: m =>
    let o := other.get a
    if (if flip then o > n else n > o) then .extra a
    else if (if flip then o < n else n < o) then .missing a
    else diffLoop other flip m

/-- `utils.rs:234-254`. -/
def symmetricDifference (m other : MultiSet κ) : MultiSetDifference κ :=
  match diffLoop other false m.map with
  | .none => diffLoop m true other.map
  | d => d

/-- `utils.rs:263-271 FromIterator`. -/
def ofList (l : List κ) : MultiSet κ := l.foldl (fun m a => (m.insert a).1) new

/-- `utils.rs:257-261 PartialEq`: equality of `IndexMap`s, i.e. same length and same value for every key. -/
def eq (m n : MultiSet κ) : Bool :=
  m.map.length = n.map.length && m.map.all (fun p => mapGet n.map p.1 = some p.2)

/-- `utils.rs:273-282 into_iter`. -/
def intoIter (m : MultiSet κ) : List κ := m.map.flatMap fun p => List.replicate p.2 p.1

end MultiSet

/-- `rules/resolution.rs:222-241 contraction`. The two loops over the maps stop at the first failing entry;
which entry is reported is not modelled. -/
def contraction (conclusion : List Term) (premises : List (List Term)) : Res Unit := do
  let p ← get1 premises
  let ps := MultiSet.ofList p
  let cs := MultiSet.ofList conclusion
  require (∀ e ∈ ps.map, cs.get e.1 ≠ 0 ∧ ¬ cs.get e.1 > e.2)
  require (∀ e ∈ cs.map, ¬ ps.get e.1 < e.2)

end Carcara
