import Verif.Model.Proof

/-!
# The shared contexts of the parallel checker

Model of `ast/context.rs` as a transition system. The contexts are in a vector of slots, each behind an `RwLock`, with a counter of the threads
that will still use it; every thread has a stack of indices into the vector. A transition is an action of one thread between two points where other
threads can interfere: the acquisition of a guard, the access while it is held, or an atomic load or store of a counter. Which guards are held is
determined by what the threads are doing. `std`'s `RwLock` is modelled by its contract, and a thread that panics stops. Atomic operations are
sequentially consistent.

A substitution is an element of an arbitrary type `S` with the operation that the loop `ast/context.rs:178-194` performs for the arguments of an
anchor. The caches of substitutions are not modelled here.
-/

namespace Carcara

/-- What a thread does to its contexts: `push_with_id`, `pop`, `apply` and `apply_previous` (at some index of the stack), and `last`. -/
inductive CtxOp where
  | push (id : Nat) (args : List AnchorArg)
  | pop
  | apply (index : Nat)
  | look
deriving DecidableEq

/-- `ast/context.rs:5-8 Context`. -/
structure SharedCtx (S : Type) where
  args : List AnchorArg
  cumulative : Option S

/-- Where a thread is in its current operation. -/
inductive CtxPhase (S : Type) where
  /-- between operations -/
  | idle
  /-- `:112-118`, with the write guard of the context to be pushed -/
  | creating
  /-- `:150`, the head of the loop, with no guard -/
  | catching
  /-- `:155-156`, with the read guard of the context at `num` -/
  | reading
  /-- `:167-173`, with another one of the context at `num - 1`; the arguments have been read -/
  | reading2 (args : List AnchorArg)
  /-- `:197`, with no guard -/
  | computed (s : S)
  /-- `:198-200`, with the write guard of the context at `num` -/
  | writing (s : S)
  /-- `:229-239`, with the write guard of the context at the index -/
  | applying
  /-- `:80-84`, with the read guard of the last context -/
  | looking
  /-- `:131`, after `stack.pop()` -/
  | popped (id : Nat)
  /-- `:138`, after the load and the subtraction -/
  | loaded (id v : Nat)
  /-- `:140`, with the write guard -/
  | dropping (id : Nat)
  /-- `:142`, after the guard has been released -/
  | dropped (id : Nat)
  | panicked

/-- What `apply` uses, and what `last` gives. -/
inductive CtxOut (S : Type) where
  | subst (s : S)
  | args (as : List AnchorArg)

/-- A thread: `ast/context.rs:30-38 ContextStack`, what it is doing, the operations from the current one on, and what it has seen. -/
structure CtxThread (S : Type) where
  stack : List Nat := []
  num : Nat := 0
  phase : CtxPhase S := .idle
  ops : List CtxOp
  out : List (CtxOut S) := []

namespace CtxThread

variable {S : Type}

/-- The thread holds the write guard of a context. -/
def HoldsW (t : CtxThread S) (id : Nat) : Prop :=
  match t.phase with
  | .creating => ∃ as ops, t.ops = .push id as :: ops
  | .writing _ => t.stack[t.num]? = some id
  | .applying => ∃ k ops, t.ops = .apply k :: ops ∧ t.stack[k]? = some id
  | .dropping i => i = id
  | _ => False

/-- The thread holds a read guard of a context. -/
def HoldsR (t : CtxThread S) (id : Nat) : Prop :=
  match t.phase with
  | .reading => t.stack[t.num]? = some id
  | .reading2 _ => t.stack[t.num]? = some id ∨ t.stack[t.num - 1]? = some id
  | .looking => t.stack.getLast? = some id
  | _ => False

end CtxThread

/-- The shared vector and the threads. -/
structure CtxState (S : Type) where
  slots : Nat → Option (SharedCtx S)
  counter : Nat → Nat
  threads : List (CtxThread S)

variable {S : Type}

/-- No other thread holds a guard: `write` and `try_write` succeed. -/
def CtxState.CanWrite (g : CtxState S) (i id : Nat) : Prop :=
  ∀ j t, j ≠ i → g.threads[j]? = some t → ¬ t.HoldsW id ∧ ¬ t.HoldsR id

/-- No other thread holds the write guard: `read` succeeds. -/
def CtxState.CanRead (g : CtxState S) (i id : Nat) : Prop :=
  ∀ j t, j ≠ i → g.threads[j]? = some t → ¬ t.HoldsW id

/-- A function changed at one argument. -/
def updateAt {α : Type} (f : Nat → α) (i : Nat) (a : α) : Nat → α := fun j => if j = i then a else f j

/-- The operations on substitutions: `Substitution::empty()`, and the loop `ast/context.rs:178-194`. -/
structure SubstOps (S : Type) where
  empty : S
  extend : S → List AnchorArg → S

/-- An action of thread `i`: its state, the slots and the counters before and after. -/
inductive CtxAct (O : SubstOps S) (g : CtxState S) (i : Nat) :
    CtxThread S → CtxThread S → (Nat → Option (SharedCtx S)) → (Nat → Nat) → Prop
  /-- `:112` the guard is yielded -/
  | pushTake {st n id as ops out} : g.CanWrite i id →
    CtxAct O g i ⟨st, n, .idle, .push id as :: ops, out⟩ ⟨st, n, .creating, .push id as :: ops, out⟩ g.slots g.counter
  /-- `:112` it is not -/
  | pushBusy {st n id as ops out} : ¬ g.CanWrite i id →
    CtxAct O g i ⟨st, n, .idle, .push id as :: ops, out⟩ ⟨st ++ [id], n, .idle, ops, out⟩ g.slots g.counter
  /-- `:115-124` -/
  | create {st n id as ops out} :
    CtxAct O g i ⟨st, n, .creating, .push id as :: ops, out⟩ ⟨st ++ [id], n, .idle, ops, out⟩
      (updateAt g.slots id (some ((g.slots id).getD ⟨as, none⟩))) g.counter
  /-- `:130` -/
  | popStart {st id n ops out} :
    CtxAct O g i ⟨st ++ [id], n, .idle, .pop :: ops, out⟩ ⟨st, n, .popped id, ops, out⟩ g.slots g.counter
  /-- `:130` the stack is empty -/
  | popEmpty {n ops out} :
    CtxAct O g i ⟨[], n, .idle, .pop :: ops, out⟩ ⟨[], min n 0, .idle, ops, out⟩ g.slots g.counter
  /-- `:133-136` the counter is zero -/
  | loadZero {st n id ops out} : g.counter id = 0 →
    CtxAct O g i ⟨st, n, .popped id, ops, out⟩ ⟨st, n, .panicked, ops, out⟩ g.slots g.counter
  /-- `:133-136` -/
  | load {st n id v ops out} : g.counter id = v + 1 →
    CtxAct O g i ⟨st, n, .popped id, ops, out⟩ ⟨st, n, .loaded id v, ops, out⟩ g.slots g.counter
  /-- `:138-142`, `:145` another thread still uses the context -/
  | store {st n id v ops out} : v ≠ 0 →
    CtxAct O g i ⟨st, n, .loaded id v, ops, out⟩ ⟨st, min n st.length, .idle, ops, out⟩ g.slots (updateAt g.counter id v)
  /-- `:140` the guard is acquired -/
  | dropTake {st n id ops out} : g.CanWrite i id →
    CtxAct O g i ⟨st, n, .loaded id 0, ops, out⟩ ⟨st, n, .dropping id, ops, out⟩ g.slots g.counter
  /-- `:140` -/
  | drop {st n id ops out} :
    CtxAct O g i ⟨st, n, .dropping id, ops, out⟩ ⟨st, n, .dropped id, ops, out⟩ (updateAt g.slots id none) g.counter
  /-- `:142`, `:145` -/
  | storeZero {st n id ops out} :
    CtxAct O g i ⟨st, n, .dropped id, ops, out⟩ ⟨st, min n st.length, .idle, ops, out⟩ g.slots (updateAt g.counter id 0)
  /-- `:208-209`, `:227-228` -/
  | applyStart {st n k ops out} :
    CtxAct O g i ⟨st, n, .idle, .apply k :: ops, out⟩ ⟨st, n, .catching, .apply k :: ops, out⟩ g.slots g.counter
  /-- `:155` -/
  | readTake {st n id k ops out} : st[n]? = some id → g.CanRead i id →
    CtxAct O g i ⟨st, n, .catching, .apply k :: ops, out⟩ ⟨st, n, .reading, .apply k :: ops, out⟩ g.slots g.counter
  /-- `:155` the index is out of range -/
  | readRange {st n k ops out} : st[n]? = none → n < k + 1 →
    CtxAct O g i ⟨st, n, .catching, .apply k :: ops, out⟩ ⟨st, n, .panicked, .apply k :: ops, out⟩ g.slots g.counter
  /-- `:156` there is no context -/
  | readNone {st n id k ops out} : st[n]? = some id → g.slots id = none →
    CtxAct O g i ⟨st, n, .reading, .apply k :: ops, out⟩ ⟨st, n, .panicked, .apply k :: ops, out⟩ g.slots g.counter
  /-- `:156`, `:175-194` the first context -/
  | readFirst {st id c k ops out} : st[0]? = some id → g.slots id = some c →
    CtxAct O g i ⟨st, 0, .reading, .apply k :: ops, out⟩ ⟨st, 0, .computed (O.extend O.empty c.args), .apply k :: ops, out⟩ g.slots g.counter
  /-- `:156`, `:167` -/
  | read {st n id id' c k ops out} : st[n + 1]? = some id → g.slots id = some c → st[n]? = some id' → g.CanRead i id' →
    CtxAct O g i ⟨st, n + 1, .reading, .apply k :: ops, out⟩ ⟨st, n + 1, .reading2 c.args, .apply k :: ops, out⟩ g.slots g.counter
  /-- `:168-173` there is no context or no substitution -/
  | read2None {st n id as k ops out} : st[n]? = some id → (∀ c s, g.slots id = some c → c.cumulative ≠ some s) →
    CtxAct O g i ⟨st, n + 1, .reading2 as, .apply k :: ops, out⟩ ⟨st, n + 1, .panicked, .apply k :: ops, out⟩ g.slots g.counter
  /-- `:168-194` -/
  | read2 {st n id as c s k ops out} : st[n]? = some id → g.slots id = some c → c.cumulative = some s →
    CtxAct O g i ⟨st, n + 1, .reading2 as, .apply k :: ops, out⟩ ⟨st, n + 1, .computed (O.extend s as), .apply k :: ops, out⟩ g.slots g.counter
  /-- `:198` -/
  | writeTake {st n id s k ops out} : st[n]? = some id → g.CanWrite i id →
    CtxAct O g i ⟨st, n, .computed s, .apply k :: ops, out⟩ ⟨st, n, .writing s, .apply k :: ops, out⟩ g.slots g.counter
  /-- `:199` there is no context -/
  | writeNone {st n id s k ops out} : st[n]? = some id → g.slots id = none →
    CtxAct O g i ⟨st, n, .writing s, .apply k :: ops, out⟩ ⟨st, n, .panicked, .apply k :: ops, out⟩ g.slots g.counter
  /-- `:199-200` -/
  | write {st n id c s k ops out} : st[n]? = some id → g.slots id = some c →
    CtxAct O g i ⟨st, n, .writing s, .apply k :: ops, out⟩ ⟨st, n + 1, .catching, .apply k :: ops, out⟩
      (updateAt g.slots id (some { c with cumulative := some s })) g.counter
  /-- `:210-213`, `:229-232` the loop has ended -/
  | applyTake {st n id k ops out} : max (k + 1) st.length ≤ n → st[k]? = some id → g.CanWrite i id →
    CtxAct O g i ⟨st, n, .catching, .apply k :: ops, out⟩ ⟨st, n, .applying, .apply k :: ops, out⟩ g.slots g.counter
  /-- `:210` the index is out of range -/
  | applyRange {st n k ops out} : max (k + 1) st.length ≤ n → st[k]? = none →
    CtxAct O g i ⟨st, n, .catching, .apply k :: ops, out⟩ ⟨st, n, .panicked, .apply k :: ops, out⟩ g.slots g.counter
  /-- `:233-238` there is no context or no substitution -/
  | applyNone {st n id k ops out} : st[k]? = some id → (∀ c s, g.slots id = some c → c.cumulative ≠ some s) →
    CtxAct O g i ⟨st, n, .applying, .apply k :: ops, out⟩ ⟨st, n, .panicked, .apply k :: ops, out⟩ g.slots g.counter
  /-- `:233-239` -/
  | apply {st n id c s k ops out} : st[k]? = some id → g.slots id = some c → c.cumulative = some s →
    CtxAct O g i ⟨st, n, .applying, .apply k :: ops, out⟩ ⟨st, n, .idle, ops, out ++ [.subst s]⟩ g.slots g.counter
  /-- `:81-83` -/
  | lookTake {st n id ops out} : st.getLast? = some id → g.CanRead i id →
    CtxAct O g i ⟨st, n, .idle, .look :: ops, out⟩ ⟨st, n, .looking, .look :: ops, out⟩ g.slots g.counter
  /-- `last().unwrap()` of an empty stack -/
  | lookEmpty {n ops out} :
    CtxAct O g i ⟨[], n, .idle, .look :: ops, out⟩ ⟨[], n, .panicked, .look :: ops, out⟩ g.slots g.counter
  /-- `.as_ref().unwrap()` of the guard -/
  | lookNone {st n id ops out} : st.getLast? = some id → g.slots id = none →
    CtxAct O g i ⟨st, n, .looking, .look :: ops, out⟩ ⟨st, n, .panicked, .look :: ops, out⟩ g.slots g.counter
  | look {st n id c ops out} : st.getLast? = some id → g.slots id = some c →
    CtxAct O g i ⟨st, n, .looking, .look :: ops, out⟩ ⟨st, n, .idle, ops, out ++ [.args c.args]⟩ g.slots g.counter

/-- An action of some thread. -/
inductive CtxStep (O : SubstOps S) : CtxState S → CtxState S → Prop
  | mk {g : CtxState S} {i : Nat} {t t' : CtxThread S} {slots : Nat → Option (SharedCtx S)} {counter : Nat → Nat} : g.threads[i]? = some t →
    CtxAct O g i t t' slots counter → CtxStep O g ⟨slots, counter, g.threads.set i t'⟩

/-- `ast/context.rs:47-70 from_usage`, `from_previous`: all slots are empty, all stacks are empty. -/
def CtxState.start (usage : Nat → Nat) (progs : List (List CtxOp)) : CtxState S :=
  ⟨fun _ => none, usage, progs.map fun ops => { ops }⟩

/-- The interleavings of the threads. -/
inductive CtxRun (O : SubstOps S) : CtxState S → CtxState S → Prop
  | refl {g : CtxState S} : CtxRun O g g
  | step {g g' g'' : CtxState S} : CtxRun O g g' → CtxStep O g' g'' → CtxRun O g g''

end Carcara
