import Verif.Model.Base

/-!
# Hash consing (`ast/pool/storage.rs`, `ast/rc.rs`, `ast/pool/advanced.rs`)

A term in memory is a node: what is stored in it apart from pointers (its label: constructor, operator, names,
constants), and the pointers to its subterms. A pointer is the position of its allocation in the storage; this is the
one simplification, since the code compares machine addresses, of which only equality matters. `Rc<Term>` is compared
by pointer, `ByValue` compares nodes, i.e. labels and the pointers of the subterms.
-/

namespace Carcara

/-- One level of a term: `Term` with `Rc<Term>` children. -/
structure PoolNode (L : Type) where
  label : L
  children : List Nat
deriving DecidableEq

/-- Model of `ast/pool/storage.rs:38 struct Storage`: allocation `i` is the `i`-th node. -/
abbrev Storage (L : Type) := List (PoolNode L)

namespace Storage
variable {L : Type} [DecidableEq L]

/-- Model of `storage.rs:57-59 Storage::get`: by value. -/
def get (s : Storage L) (n : PoolNode L) : Option Nat :=
  if n ∈ s then some (s.idxOf n) else none

/-- Model of `storage.rs:41-55 Storage::add`. -/
def add (s : Storage L) (n : PoolNode L) : Nat × Storage L :=
  match s.get n with
  | some i => (i, s)
  | none => (s.length, s ++ [n])

end Storage

/-- A sequence of additions; each node may use the pointers handed out before. -/
def addAll {L : Type} [DecidableEq L] : List (PoolNode L) → Storage L → List Nat × Storage L
  | [], s => ([], s)
  | n :: ns, s =>
    let (p, s) := Storage.add s n
    let (ps, s) := addAll ns s
    (p :: ps, s)

/-! ## Pools of the parallel checker -/

/-- Pointers of the parallel checker: the allocation lives in the global, the context or the thread's own pool. -/
inductive PoolPtr where
  | global (i : Nat) | ctx (i : Nat) | local (i : Nat)
deriving DecidableEq

/-- Model of `ast/pool/advanced.rs:70-73 struct LocalPool`; `ctx` is shared with other threads. Nodes refer to their
subterms by `PoolPtr`, numbered by `enc`. -/
structure LocalPool (L : Type) where
  glob : Storage L
  ctx : Storage L
  own : Storage L

/-- Model of `advanced.rs:100-112 LocalPool::add`. -/
def LocalPool.add {L : Type} [DecidableEq L] (p : LocalPool L) (n : PoolNode L) : PoolPtr × LocalPool L :=
  match p.glob.get n with
  | some i => (.global i, p)
  | none => match p.ctx.get n with
    | some i => (.ctx i, p)
    | none =>
      let r := Storage.add p.own n
      (.local r.1, { p with own := r.2 })

/-- Model of `advanced.rs:42-51 ContextPool::add`, which any thread may call at any time. -/
def LocalPool.ctxAdd {L : Type} [DecidableEq L] (p : LocalPool L) (n : PoolNode L) : PoolPtr × LocalPool L :=
  match p.glob.get n with
  | some i => (.global i, p)
  | none =>
    let r := Storage.add p.ctx n
    (.ctx r.1, { p with ctx := r.2 })

end Carcara
