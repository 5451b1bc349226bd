import Verif.Spec.SharedContext
import Mathlib.Algebra.BigOperators.Group.List.Basic
import Mathlib.Data.List.Basic

/-! # Shared contexts: the invariant -/

namespace Carcara

open Spec

variable {S : Type} {O : SubstOps S} {chain : Nat → List (Nat × List AnchorArg)}

/-- The number of times that a thread will still load the counter of a context. -/
def remaining (t : CtxThread S) (id : Nat) : Nat :=
  t.stack.count id + pushCount id t.ops + (match t.phase with | .popped i => if i = id then 1 else 0 | _ => 0)

def remainingAll (ts : List (CtxThread S)) (id : Nat) : Nat := (ts.map fun t => remaining t id).sum

theorem remainingAll_set {ts : List (CtxThread S)} {i : Nat} {t t' : CtxThread S} (h : ts[i]? = some t) (id : Nat) :
    remainingAll (ts.set i t') id + remaining t id = remainingAll ts id + remaining t' id := by
  induction ts generalizing i with
  | nil => simp at h
  | cons a ts ih =>
    cases i with
    | zero =>
      simp only [List.getElem?_cons_zero, Option.some.injEq] at h
      subst h
      simp [remainingAll]
      omega
    | succ i =>
      have := ih (i := i) (by simpa using h)
      simp [remainingAll] at this ⊢
      omega

theorem remaining_le_all {ts : List (CtxThread S)} {i : Nat} {t : CtxThread S} (h : ts[i]? = some t) (id : Nat) :
    remaining t id ≤ remainingAll ts id := by
  have := remainingAll_set (t' := t) h id
  induction ts generalizing i with
  | nil => simp at h
  | cons a ts ih =>
    cases i with
    | zero =>
      simp only [List.getElem?_cons_zero, Option.some.injEq] at h
      subst h
      simp [remainingAll]
    | succ i =>
      have h' : ts[i]? = some t := by simpa using h
      have := ih h' (remainingAll_set h' id)
      simp only [remainingAll, List.map_cons, List.sum_cons] at this ⊢
      omega

def ctxArgsOf (chain : Nat → List (Nat × List AnchorArg)) (id : Nat) : Option (List AnchorArg) := (chain id).getLast?.map (·.2)
def valueOf (O : SubstOps S) (chain : Nat → List (Nat × List AnchorArg)) (id : Nat) : S := ctxValue O ((chain id).map (·.2))

/-- The thread is about to create a context. -/
def CtxThread.creates (t : CtxThread S) (id : Nat) : Prop := t.phase = .creating ∧ ∃ as ops, t.ops = .push id as :: ops

/-- What holds of a thread in each phase. -/
def PhaseInv (O : SubstOps S) (chain : Nat → List (Nat × List AnchorArg)) (g : CtxState S) (t : CtxThread S) : Prop :=
  match t.phase with
  | .idle => t.num ≤ t.stack.length
  | .creating => t.num ≤ t.stack.length ∧ ∃ id as ops, t.ops = .push id as :: ops
  | .catching => t.num ≤ t.stack.length ∧ ∃ k ops, t.ops = .apply k :: ops
  | .reading => t.num < t.stack.length ∧ ∃ k ops, t.ops = .apply k :: ops
  | .reading2 as => t.num < t.stack.length ∧ (∃ k ops, t.ops = .apply k :: ops) ∧ (∃ id, t.stack[t.num]? = some id ∧ ctxArgsOf chain id = some as) ∧
    0 < t.num
  | .computed s => t.num < t.stack.length ∧ (∃ k ops, t.ops = .apply k :: ops) ∧ ∃ id, t.stack[t.num]? = some id ∧ s = valueOf O chain id
  | .writing s => t.num < t.stack.length ∧ (∃ k ops, t.ops = .apply k :: ops) ∧ ∃ id, t.stack[t.num]? = some id ∧ s = valueOf O chain id
  | .applying => t.num ≤ t.stack.length ∧ ∃ k ops, t.ops = .apply k :: ops ∧ k < t.num
  | .looking => t.num ≤ t.stack.length ∧ ∃ ops, t.ops = .look :: ops
  | .popped _ => True
  | .loaded id v => remainingAll g.threads id ≤ v
  | .dropping id => remainingAll g.threads id = 0
  | .dropped id => remainingAll g.threads id = 0
  | .panicked => False

/-- What holds of thread `i`. -/
structure ThreadInv (O : SubstOps S) (chain : Nat → List (Nat × List AnchorArg)) (g : CtxState S) (prog : List CtxOp) (i : Nat) (t : CtxThread S)
    (st : List (Nat × List AnchorArg)) : Prop where
  stack : t.stack = st.map (·.1)
  chains : ∀ k x, st[k]? = some x → chain x.1 = st.take (k + 1)
  valid : ValidOps chain st t.ops
  out : t.out ++ seqOut O (st.map (·.2)) t.ops = seqOut O [] prog
  created : ∀ id ∈ t.stack, (∃ c, g.slots id = some c) ∨ ∃ j t', j ≠ i ∧ g.threads[j]? = some t' ∧ t'.creates id
  cumulative : ∀ (k id : Nat), k < t.num → t.stack[k]? = some id → ∃ c s, g.slots id = some c ∧ c.cumulative = some s
  phase : PhaseInv O chain g t

/-- Guards exclude each other. -/
def Exclusive (ts : List (CtxThread S)) : Prop :=
  ∀ (i j : Nat) (t t' : CtxThread S), i ≠ j → ts[i]? = some t → ts[j]? = some t' → ∀ id, t.HoldsW id → ¬ t'.HoldsW id ∧ ¬ t'.HoldsR id

structure CtxInv (O : SubstOps S) (chain : Nat → List (Nat × List AnchorArg)) (progs : List (List CtxOp)) (g : CtxState S) : Prop where
  thr : ∀ (i : Nat) (t : CtxThread S), g.threads[i]? = some t → ∃ prog st, progs[i]? = some prog ∧ ThreadInv O chain g prog i t st
  cnt : ∀ id, remainingAll g.threads id ≤ g.counter id
  slot : ∀ id c, g.slots id = some c → ctxArgsOf chain id = some c.args ∧ ∀ s, c.cumulative = some s → s = valueOf O chain id
  excl : Exclusive g.threads

theorem Exclusive.set {g : CtxState S} {i : Nat} {t t' : CtxThread S} (h : Exclusive g.threads) (ht : g.threads[i]? = some t)
    (hw : ∀ id, t'.HoldsW id → t.HoldsW id ∨ g.CanWrite i id) (hr : ∀ id, t'.HoldsR id → t.HoldsR id ∨ g.CanRead i id) :
    Exclusive (g.threads.set i t') := by
  intro a b x y hab hx hy id hxw
  rw [List.getElem?_set] at hx hy
  split at hx
  · rename_i hia
    subst hia
    split at hx
    · cases hx
      rw [if_neg hab] at hy
      rcases hw id hxw with h1 | h1
      · exact h _ _ _ _ hab ht hy id h1
      · exact h1 b y (Ne.symm hab) hy
    · cases hx
  · rename_i hia
    split at hy
    · rename_i hib
      subst hib
      split at hy
      · cases hy
        refine ⟨fun h1 => ?_, fun h1 => ?_⟩
        · rcases hw id h1 with h2 | h2
          · exact (h _ _ _ _ hab hx ht id hxw).1 h2
          · exact (h2 a x hab hx).1 hxw
        · rcases hr id h1 with h2 | h2
          · exact (h _ _ _ _ hab hx ht id hxw).2 h2
          · exact h2 a x hab hx hxw
      · cases hy
    · exact h _ _ _ _ hab hx hy id hxw

/-- Other threads are not disturbed. -/
theorem ThreadInv.other {g : CtxState S} {prog : List CtxOp} {i j : Nat} {t t' u : CtxThread S} {st : List (Nat × List AnchorArg)}
    {slots : Nat → Option (SharedCtx S)} {counter : Nat → Nat} (h : ThreadInv O chain g prog j u st)
    (ht : g.threads[i]? = some t)
    (hslot : ∀ id ∈ u.stack, ∀ c, g.slots id = some c → ∃ c', slots id = some c' ∧ ∀ s, c.cumulative = some s → ∃ s', c'.cumulative = some s')
    (hcr : ∀ id, t.creates id → t'.creates id ∨ ∃ c, slots id = some c)
    (hrem : ∀ id, remaining t' id ≤ remaining t id) : ThreadInv O chain ⟨slots, counter, g.threads.set i t'⟩ prog j u st := by
  have hall : ∀ id, remainingAll (g.threads.set i t') id ≤ remainingAll g.threads id := by
    intro id
    have := remainingAll_set (t' := t') ht id
    have := hrem id
    omega
  refine ⟨h.stack, h.chains, h.valid, h.out, ?_, ?_, ?_⟩
  · intro id hid
    rcases h.created id hid with ⟨c, hc⟩ | ⟨k, v, hk, hv, hcv⟩
    · obtain ⟨c', hc', -⟩ := hslot id hid c hc
      exact .inl ⟨c', hc'⟩
    · by_cases hki : k = i
      · subst hki
        rw [ht] at hv
        cases hv
        rcases hcr id hcv with h1 | h1
        · exact .inr ⟨k, t', hk, by rw [List.getElem?_set_self (by exact (List.getElem?_eq_some_iff.1 ht).1)], h1⟩
        · exact .inl h1
      · exact .inr ⟨k, v, hk, by rw [List.getElem?_set_ne (Ne.symm hki)]; exact hv, hcv⟩
  · intro k id hk hid
    obtain ⟨c, s, hc, hs⟩ := h.cumulative k id hk hid
    obtain ⟨c', hc', hs'⟩ := hslot id (List.mem_of_getElem? hid) c hc
    obtain ⟨s', hs'⟩ := hs' s hs
    exact ⟨c', s', hc', hs'⟩
  · have := h.phase
    unfold PhaseInv at this ⊢
    split <;> rename_i hp <;> simp only [hp] at this
    all_goals first | exact this | skip
    · exact Nat.le_trans (hall _) this
    · exact Nat.le_zero.1 (this ▸ hall _)
    · exact Nat.le_zero.1 (this ▸ hall _)

/-- The invariant after an action, from what has to be shown of the thread that acts. -/
theorem CtxInv.act {progs : List (List CtxOp)} {g : CtxState S} {i : Nat} {t t' : CtxThread S} {slots : Nat → Option (SharedCtx S)}
    {counter : Nat → Nat} (h : CtxInv O chain progs g) (ht : g.threads[i]? = some t)
    (hslot : ∀ (j : Nat) (u : CtxThread S), j ≠ i → g.threads[j]? = some u → ∀ id ∈ u.stack, ∀ c, g.slots id = some c → ∃ c', slots id = some c' ∧
      ∀ s, c.cumulative = some s → ∃ s', c'.cumulative = some s')
    (hcr : ∀ id, t.creates id → t'.creates id ∨ ∃ c, slots id = some c)
    (hrem : ∀ id, remaining t' id ≤ remaining t id)
    (hw : ∀ id, t'.HoldsW id → t.HoldsW id ∨ g.CanWrite i id) (hr : ∀ id, t'.HoldsR id → t.HoldsR id ∨ g.CanRead i id)
    (hs : ∀ id c, slots id = some c → ctxArgsOf chain id = some c.args ∧ ∀ s, c.cumulative = some s → s = valueOf O chain id)
    (hc : ∀ id, remainingAll (g.threads.set i t') id ≤ counter id)
    (hown : ∀ prog st, progs[i]? = some prog → ThreadInv O chain g prog i t st →
      ∃ st', ThreadInv O chain ⟨slots, counter, g.threads.set i t'⟩ prog i t' st') :
    CtxInv O chain progs ⟨slots, counter, g.threads.set i t'⟩ := by
  refine ⟨fun j u hu => ?_, hc, hs, h.excl.set ht hw hr⟩
  simp only [List.getElem?_set] at hu
  split at hu
  · rename_i hij
    subst hij
    split at hu
    · cases hu
      obtain ⟨prog, st, hp, hi⟩ := h.thr _ t ht
      obtain ⟨st', hst'⟩ := hown prog st hp hi
      exact ⟨prog, st', hp, hst'⟩
    · cases hu
  · rename_i hij
    obtain ⟨prog, st, hp, hi⟩ := h.thr j u hu
    exact ⟨prog, st, hp, hi.other ht (hslot j u (Ne.symm hij) hu) hcr hrem⟩

/-- A context in the stack of a thread that holds a guard of it exists. -/
theorem CtxInv.slot_of_hold {progs : List (List CtxOp)} {g : CtxState S} {i : Nat} {t : CtxThread S} {id : Nat} (h : CtxInv O chain progs g)
    (ht : g.threads[i]? = some t) (hid : id ∈ t.stack) (hh : t.HoldsW id ∨ t.HoldsR id) : ∃ c, g.slots id = some c := by
  obtain ⟨prog, st, -, hi⟩ := h.thr i t ht
  rcases hi.created id hid with h1 | ⟨j, u, hj, hu, hcu, as, ops, hops⟩
  · exact h1
  · exfalso
    have huw : u.HoldsW id := by
      unfold CtxThread.HoldsW
      rw [hcu]
      exact ⟨as, ops, hops⟩
    obtain ⟨h1, h2⟩ := h.excl j i u t hj hu ht id huw
    rcases hh with h3 | h3
    · exact h1 h3
    · exact h2 h3

/-- The thread that acts, when the slots do not change. -/
theorem CtxInv.act0 {progs : List (List CtxOp)} {g : CtxState S} {i : Nat} {t t' : CtxThread S} (h : CtxInv O chain progs g)
    (ht : g.threads[i]? = some t) (hcr : t.phase ≠ .creating) (hrem : ∀ id, remaining t' id ≤ remaining t id)
    (hw : ∀ id, t'.HoldsW id → t.HoldsW id ∨ g.CanWrite i id) (hr : ∀ id, t'.HoldsR id → t.HoldsR id ∨ g.CanRead i id)
    (hown : ∀ prog st, progs[i]? = some prog → ThreadInv O chain g prog i t st →
      ∃ st', ThreadInv O chain ⟨g.slots, g.counter, g.threads.set i t'⟩ prog i t' st') :
    CtxInv O chain progs ⟨g.slots, g.counter, g.threads.set i t'⟩ := by
  refine h.act ht (fun _ _ _ _ id _ c hc => ⟨c, hc, fun s hs => ⟨s, hs⟩⟩) (fun id hid => absurd hid.1 hcr) hrem hw hr h.slot ?_ hown
  intro id
  have h1 := remainingAll_set (t' := t') ht id
  have h2 := hrem id
  have h3 := h.cnt id
  omega

theorem created_set {g : CtxState S} {i : Nat} {t' : CtxThread S} {slots : Nat → Option (SharedCtx S)} {counter : Nat → Nat} {id : Nat}
    (h : (∃ c, slots id = some c) ∨ ∃ j t', j ≠ i ∧ g.threads[j]? = some t' ∧ CtxThread.creates t' id) :
    (∃ c, (⟨slots, counter, g.threads.set i t'⟩ : CtxState S).slots id = some c) ∨
      ∃ j u, j ≠ i ∧ (⟨slots, counter, g.threads.set i t'⟩ : CtxState S).threads[j]? = some u ∧ CtxThread.creates u id := by
  rcases h with h | ⟨j, u, hj, hu, hcu⟩
  · exact .inl h
  · exact .inr ⟨j, u, hj, by simp only [List.getElem?_set_ne (Ne.symm hj)]; exact hu, hcu⟩

/-- Only the phase of the thread changes. -/
theorem ThreadInv.setPhase {g : CtxState S} {prog : List CtxOp} {i : Nat} {st : List (Nat × List AnchorArg)} {stk : List Nat} {n : Nat}
    {ph ph' : CtxPhase S} {ops : List CtxOp} {out : List (CtxOut S)} (h : ThreadInv O chain g prog i ⟨stk, n, ph, ops, out⟩ st)
    (hph : PhaseInv O chain ⟨g.slots, g.counter, g.threads.set i ⟨stk, n, ph', ops, out⟩⟩ ⟨stk, n, ph', ops, out⟩) :
    ThreadInv O chain ⟨g.slots, g.counter, g.threads.set i ⟨stk, n, ph', ops, out⟩⟩ prog i ⟨stk, n, ph', ops, out⟩ st :=
  ⟨h.stack, h.chains, h.valid, h.out, fun id hid => created_set (h.created id hid), h.cumulative, hph⟩

theorem mem_of_lt {t : CtxThread S} {n id : Nat} (h : t.stack[n]? = some id) : id ∈ t.stack := List.mem_of_getElem? h

theorem ThreadInv.at_ {g : CtxState S} {prog : List CtxOp} {i : Nat} {t : CtxThread S} {st : List (Nat × List AnchorArg)}
    (h : ThreadInv O chain g prog i t st) {k id : Nat} (hk : t.stack[k]? = some id) : ∃ as, st[k]? = some (id, as) ∧ chain id = st.take (k + 1) := by
  rw [h.stack, List.getElem?_map, Option.map_eq_some_iff] at hk
  obtain ⟨⟨a, as⟩, h1, rfl⟩ := hk
  exact ⟨as, h1, h.chains k _ h1⟩

theorem take_succ_of_get {α : Type} {l : List α} {k : Nat} {x : α} (h : l[k]? = some x) : l.take (k + 1) = l.take k ++ [x] := by
  rw [List.take_add_one, h]
  rfl

theorem ctxArgsOf_at {st : List (Nat × List AnchorArg)} {k id : Nat} {as : List AnchorArg} (h1 : st[k]? = some (id, as))
    (h2 : chain id = st.take (k + 1)) : ctxArgsOf chain id = some as := by
  rw [ctxArgsOf, h2, take_succ_of_get h1]
  simp

theorem valueOf_at {st : List (Nat × List AnchorArg)} {k id : Nat} (h2 : chain id = st.take (k + 1)) :
    valueOf O chain id = ctxValue O ((st.map (·.2)).take (k + 1)) := by
  rw [valueOf, h2, List.map_take]

theorem pushCount_push (id n : Nat) (as : List AnchorArg) (ops : List CtxOp) :
    pushCount id (.push n as :: ops) = (if n = id then 1 else 0) + pushCount id ops := rfl

theorem count_snoc' (st : List Nat) (n id : Nat) : (st ++ [n]).count id = st.count id + (if n = id then 1 else 0) := by
  rw [List.count_append, List.count_singleton]
  simp

theorem ThreadInv.pushed {g : CtxState S} {prog : List CtxOp} {i : Nat} {st : List (Nat × List AnchorArg)} {stk : List Nat} {n id : Nat}
    {ph : CtxPhase S} {as : List AnchorArg} {ops : List CtxOp} {out : List (CtxOut S)} {slots : Nat → Option (SharedCtx S)}
    (h : ThreadInv O chain g prog i ⟨stk, n, ph, .push id as :: ops, out⟩ st) (hn : n ≤ stk.length)
    (hold : ∀ id' ∈ stk, ∀ c, g.slots id' = some c → ∃ c', slots id' = some c' ∧ ∀ s, c.cumulative = some s → ∃ s', c'.cumulative = some s')
    (hnew : (∃ c, slots id = some c) ∨ ∃ j u, j ≠ i ∧ g.threads[j]? = some u ∧ CtxThread.creates u id) :
    ThreadInv O chain ⟨slots, g.counter, g.threads.set i ⟨stk ++ [id], n, .idle, ops, out⟩⟩ prog i ⟨stk ++ [id], n, .idle, ops, out⟩
      (st ++ [(id, as)]) := by
  have hstack : stk = st.map (·.1) := h.stack
  refine ⟨by simp [hstack], ?_, h.valid.2, ?_, ?_, ?_, ?_⟩
  · intro k x hx
    rw [List.getElem?_append] at hx
    split at hx
    · rename_i hlt
      rw [List.take_append_of_le_length (by omega)]
      exact h.chains k x hx
    · rename_i hge
      have : k - st.length = 0 := by
        have := (List.getElem?_eq_some_iff.1 hx).1
        simp at this
        omega
      rw [this] at hx
      cases hx
      rw [List.take_of_length_le (by simp; omega)]
      exact h.valid.1
  · have := h.out
    simp only [seqOut] at this
    simpa using this
  · intro id' hid'
    refine created_set ?_
    rcases List.mem_append.1 hid' with h1 | h1
    · rcases h.created id' h1 with ⟨c, hc⟩ | h2
      · obtain ⟨c', hc', -⟩ := hold id' h1 c hc
        exact .inl ⟨c', hc'⟩
      · exact .inr h2
    · obtain rfl := List.mem_singleton.1 h1
      exact hnew
  · intro k id' hk hid'
    simp only at hk hid'
    rw [List.getElem?_append_left (by omega)] at hid'
    obtain ⟨c, s, hc, hs⟩ := h.cumulative k id' hk hid'
    obtain ⟨c', hc', hs'⟩ := hold id' (List.mem_of_getElem? hid') c hc
    obtain ⟨s', hs'⟩ := hs' s hs
    exact ⟨c', s', hc', hs'⟩
  · simp only [PhaseInv, List.length_append]
    omega

theorem CtxAct.inv {progs : List (List CtxOp)} {g : CtxState S} {i : Nat} {t t' : CtxThread S} {slots : Nat → Option (SharedCtx S)}
    {counter : Nat → Nat} (h : CtxInv O chain progs g) (ht : g.threads[i]? = some t) (ha : CtxAct O g i t t' slots counter) :
    CtxInv O chain progs ⟨slots, counter, g.threads.set i t'⟩ := by
  cases ha with
  | @pushTake st n id as ops out hcw =>
    refine h.act0 ht (by simp) (fun _ => Nat.le_refl _) ?_ (fun _ hr => hr.elim) (fun prog s hp hi => ⟨s, hi.setPhase ⟨hi.phase, id, as, ops, rfl⟩⟩)
    rintro id' ⟨as', ops', he⟩
    cases he
    exact .inr hcw
  | @pushBusy st n id as ops out hcw =>
    refine h.act0 ht (by simp) ?_ (fun _ hw => hw.elim) (fun _ hr => hr.elim) (fun prog s hp hi => ⟨s ++ [(id, as)], hi.pushed hi.phase
      (fun _ _ c hc => ⟨c, hc, fun s hs => ⟨s, hs⟩⟩) ?_⟩)
    · intro id'
      simp only [remaining, pushCount_push, count_snoc']
      omega
    · unfold CtxState.CanWrite at hcw
      simp only [not_forall] at hcw
      obtain ⟨j, u, hj, hu, hh⟩ := hcw
      rw [not_and_or, not_not, not_not] at hh
      obtain ⟨prog', s', -, hiu⟩ := h.thr j u hu
      have key : id ∈ u.stack → ∃ c, g.slots id = some c := fun hmem => h.slot_of_hold hu hmem hh
      have hph := hiu.phase
      unfold CtxThread.HoldsW CtxThread.HoldsR at hh
      unfold PhaseInv at hph
      cases hup : u.phase with
      | creating =>
        simp only [hup, or_false] at hh
        exact .inr ⟨j, u, hj, hu, hup, hh⟩
      | dropping id' =>
        simp only [hup, or_false] at hh hph
        subst hh
        exfalso
        have h1 := remaining_le_all ht id'
        rw [hph] at h1
        simp [remaining, pushCount_push] at h1
      | writing s =>
        simp only [hup, or_false] at hh
        exact .inl (key (List.mem_of_getElem? hh))
      | applying =>
        simp only [hup, or_false] at hh
        obtain ⟨k, ops', -, hk⟩ := hh
        exact .inl (key (List.mem_of_getElem? hk))
      | reading =>
        simp only [hup, false_or] at hh
        exact .inl (key (List.mem_of_getElem? hh))
      | reading2 as' =>
        simp only [hup, false_or] at hh
        rcases hh with hh | hh <;> exact .inl (key (List.mem_of_getElem? hh))
      | looking =>
        simp only [hup, false_or] at hh
        exact .inl (key (List.mem_of_getLast? hh))
      | _ => simp [hup] at hh
  | @create st n id as ops out =>
    have hmono : ∀ id' c, g.slots id' = some c → ∃ c', updateAt g.slots id (some ((g.slots id).getD ⟨as, none⟩)) id' = some c' ∧
        ∀ s, c.cumulative = some s → ∃ s', c'.cumulative = some s' := by
      intro id' c hc
      unfold updateAt
      split
      · rename_i e
        subst e
        refine ⟨_, rfl, fun s hs => ⟨s, ?_⟩⟩
        rw [hc]
        exact hs
      · exact ⟨c, hc, fun s hs => ⟨s, hs⟩⟩
    refine h.act ht (fun _ _ _ _ id' _ c hc => hmono id' c hc) ?_ ?_ (fun _ hw => hw.elim) (fun _ hr => hr.elim) ?_ ?_
      (fun prog s hp hi => ⟨s ++ [(id, as)], hi.pushed hi.phase.1 (fun id' _ c hc => hmono id' c hc) (.inl ⟨(g.slots id).getD ⟨as, none⟩, if_pos rfl⟩)⟩)
    · rintro id' ⟨-, as', ops', he⟩
      cases he
      exact .inr ⟨(g.slots id).getD ⟨as, none⟩, if_pos rfl⟩
    · intro id'
      simp only [remaining, pushCount_push, count_snoc']
      omega
    · intro id' c hc
      unfold updateAt at hc
      split at hc
      · rename_i e
        subst e
        cases hs : g.slots id' with
        | some c' =>
          rw [hs] at hc
          cases hc
          exact h.slot id' _ hs
        | none =>
          rw [hs] at hc
          cases hc
          obtain ⟨prog, s, -, hi⟩ := h.thr i _ ht
          refine ⟨?_, fun s hs => by cases hs⟩
          rw [ctxArgsOf, hi.valid.1]
          simp
      · exact h.slot id' c hc
    · intro id'
      have h1 := remainingAll_set (t' := (⟨st ++ [id], n, .idle, ops, out⟩ : CtxThread S)) ht id'
      have h3 := h.cnt id'
      simp only [remaining, pushCount_push, count_snoc'] at h1
      omega
  | @popStart st id n ops out =>
    refine h.act0 ht (by simp) ?_ (fun _ hw => hw.elim) (fun _ hr => hr.elim) (fun prog s hp hi => ⟨s.dropLast, ?_⟩)
    · intro id'
      simp only [remaining, count_snoc', pushCount]
      omega
    · have hst : st = s.dropLast.map (·.1) := by
        have := hi.stack
        simp only at this
        rw [List.map_dropLast, ← this, List.dropLast_concat]
      have hlen : s.dropLast.length = st.length := by rw [hst, List.length_map]
      refine ⟨hst, ?_, hi.valid, ?_, ?_, ?_, trivial⟩
      · intro k x hx
        have hk := (List.getElem?_eq_some_iff.1 hx).1
        rw [List.dropLast_eq_take, List.getElem?_take] at hx
        split at hx
        · rw [hi.chains k x hx, List.dropLast_eq_take, List.take_take]
          congr 1
          rw [List.length_dropLast] at hk
          omega
        · cases hx
      · have := hi.out
        simp only [seqOut] at this
        rw [List.map_dropLast]
        exact this
      · intro id' hid'
        exact created_set (hi.created id' (List.mem_append_left _ hid'))
      · intro k id' hk hid'
        refine hi.cumulative k id' hk ?_
        simp only at hid' ⊢
        rw [List.getElem?_append_left (List.getElem?_eq_some_iff.1 hid').1]
        exact hid'
  | @popEmpty n ops out =>
    refine h.act0 ht (by simp) (fun _ => Nat.le_refl _) (fun _ hw => hw.elim) (fun _ hr => hr.elim) (fun prog s hp hi => ⟨s, ?_⟩)
    have hst : s = [] := by
      have := hi.stack
      simp only at this
      exact List.map_eq_nil_iff.1 this.symm
    subst hst
    refine ⟨rfl, hi.chains, hi.valid, hi.out, fun id hid => (List.not_mem_nil hid).elim, fun k id hk _ => ?_, by simp [PhaseInv]⟩
    simp at hk
  | @loadZero st n id ops out h0 =>
    exfalso
    have h1 := remaining_le_all ht id
    have h2 := h.cnt id
    simp [remaining] at h1
    omega
  | @load st n id v ops out hv =>
    have hrem : ∀ id', remaining (⟨st, n, .loaded id v, ops, out⟩ : CtxThread S) id' ≤ remaining (⟨st, n, .popped id, ops, out⟩ : CtxThread S) id' := by
      intro id'
      simp only [remaining]
      omega
    refine h.act0 ht (by simp) hrem (fun _ hw => hw.elim) (fun _ hr => hr.elim) (fun prog s hp hi => ⟨s, hi.setPhase ?_⟩)
    have h1 := remainingAll_set (t' := (⟨st, n, .loaded id v, ops, out⟩ : CtxThread S)) ht id
    have h2 := h.cnt id
    simp only [remaining, if_true] at h1
    simp only [PhaseInv]
    omega
  | @store st n id v ops out hv =>
    refine h.act ht (fun _ _ _ _ id _ c hc => ⟨c, hc, fun s hs => ⟨s, hs⟩⟩) (fun id hid => absurd hid.1 (by simp)) (fun _ => Nat.le_refl _)
      (fun _ hw => hw.elim) (fun _ hr => hr.elim) h.slot ?_ (fun prog s hp hi => ⟨s, hi.stack, hi.chains, hi.valid, hi.out,
        fun id hid => created_set (hi.created id hid), fun k id hk hid => hi.cumulative k id (Nat.lt_of_lt_of_le hk (Nat.min_le_left _ _)) hid,
        Nat.min_le_right _ _⟩)
    intro id'
    have h1 := remainingAll_set (t' := (⟨st, min n st.length, .idle, ops, out⟩ : CtxThread S)) ht id'
    simp only [remaining] at h1
    unfold updateAt
    split
    · rename_i e
      subst e
      obtain ⟨prog, s, -, hi⟩ := h.thr i _ ht
      have : remainingAll g.threads id' ≤ v := hi.phase
      omega
    · have := h.cnt id'
      omega
  | @dropTake st n id ops out hcw =>
    refine h.act0 ht (by simp) (fun _ => Nat.le_refl _) ?_ (fun _ hr => hr.elim) (fun prog s hp hi => ⟨s, hi.setPhase ?_⟩)
    · rintro id' rfl
      exact .inr hcw
    · have h1 := remainingAll_set (t' := (⟨st, n, .dropping id, ops, out⟩ : CtxThread S)) ht id
      have : remainingAll g.threads id ≤ 0 := hi.phase
      simp only [remaining] at h1
      simp only [PhaseInv]
      omega
  | @drop st n id ops out =>
    have hzero : remainingAll g.threads id = 0 := by
      obtain ⟨prog, s, -, hi⟩ := h.thr i _ ht
      exact hi.phase
    have hne : ∀ (j : Nat) (u : CtxThread S), g.threads[j]? = some u → id ∉ u.stack := by
      intro j u hu hmem
      have h1 := remaining_le_all hu id
      have h2 : 0 < u.stack.count id := List.count_pos_iff.2 hmem
      simp only [remaining] at h1
      omega
    have hslot : ∀ (j : Nat) (u : CtxThread S), g.threads[j]? = some u → ∀ id' ∈ u.stack, updateAt g.slots id none id' = g.slots id' := by
      intro j u hu id' hid'
      unfold updateAt
      rw [if_neg]
      rintro rfl
      exact hne j u hu hid'
    have hall : ∀ id', remainingAll (g.threads.set i ⟨st, n, .dropped id, ops, out⟩) id' = remainingAll g.threads id' := by
      intro id'
      have h1 := remainingAll_set (t' := (⟨st, n, .dropped id, ops, out⟩ : CtxThread S)) ht id'
      simp only [remaining] at h1
      omega
    refine h.act ht (fun j u _ hu id' hid' c hc => ⟨c, by rw [hslot j u hu id' hid']; exact hc, fun s hs => ⟨s, hs⟩⟩)
      (fun id hid => absurd hid.1 (by simp)) (fun _ => Nat.le_refl _)
      (fun _ hw => hw.elim) (fun _ hr => hr.elim) ?_ (fun id' => by rw [hall]; exact h.cnt id') (fun prog s hp hi => ⟨s, hi.stack, hi.chains, hi.valid, hi.out,
        fun id' hid' => created_set ?_, fun k id' hk hid' => ?_, ?_⟩)
    · intro id' c hc
      unfold updateAt at hc
      split at hc
      · cases hc
      · exact h.slot id' c hc
    · rw [hslot i _ ht id' hid']
      exact hi.created id' hid'
    · have := hi.cumulative k id' hk hid'
      simp only
      rw [hslot i _ ht id' (List.mem_of_getElem? hid')]
      exact this
    · simp only [PhaseInv, hall, hzero]
  | @storeZero st n id ops out =>
    refine h.act ht (fun _ _ _ _ id _ c hc => ⟨c, hc, fun s hs => ⟨s, hs⟩⟩) (fun id hid => absurd hid.1 (by simp)) (fun _ => Nat.le_refl _)
      (fun _ hw => hw.elim) (fun _ hr => hr.elim) h.slot ?_ (fun prog s hp hi => ⟨s, hi.stack, hi.chains, hi.valid, hi.out,
        fun id hid => created_set (hi.created id hid), fun k id hk hid => hi.cumulative k id (Nat.lt_of_lt_of_le hk (Nat.min_le_left _ _)) hid,
        Nat.min_le_right _ _⟩)
    intro id'
    have h1 := remainingAll_set (t' := (⟨st, min n st.length, .idle, ops, out⟩ : CtxThread S)) ht id'
    simp only [remaining] at h1
    unfold updateAt
    split
    · rename_i e
      subst e
      obtain ⟨prog, s, -, hi⟩ := h.thr i _ ht
      have : remainingAll g.threads id' = 0 := hi.phase
      omega
    · have := h.cnt id'
      omega
  | @applyStart st n k ops out =>
    exact h.act0 ht (by simp) (fun _ => Nat.le_refl _) (fun _ hw => hw.elim) (fun _ hr => hr.elim)
      (fun prog s hp hi => ⟨s, hi.setPhase ⟨hi.phase, k, ops, rfl⟩⟩)
  | @readTake st n id k ops out hid hcr =>
    refine h.act0 ht (by simp) (fun _ => Nat.le_refl _) (fun _ hw => hw.elim) ?_
      (fun prog s hp hi => ⟨s, hi.setPhase ⟨(List.getElem?_eq_some_iff.1 hid).1, k, ops, rfl⟩⟩)
    intro id' hr
    simp only [CtxThread.HoldsR, hid, Option.some.injEq] at hr
    subst hr
    exact .inr hcr
  | @readRange st n k ops out hnone hlt =>
    exfalso
    obtain ⟨prog, s, -, hi⟩ := h.thr i _ ht
    have h1 := hi.valid.1
    have h2 := congrArg List.length hi.stack
    rw [List.getElem?_eq_none_iff] at hnone
    simp only [List.length_map] at h2
    omega
  | @readNone st n id k ops out hid hnone =>
    exfalso
    obtain ⟨c, hc⟩ := h.slot_of_hold ht (List.mem_of_getElem? hid) (.inr hid)
    rw [hnone] at hc
    cases hc
  | @readFirst st id c k ops out hid hc =>
    refine h.act0 ht (by simp) (fun _ => Nat.le_refl _) (fun _ hw => hw.elim) (fun _ hr => hr.elim)
      (fun prog s hp hi => ⟨s, hi.setPhase ⟨(List.getElem?_eq_some_iff.1 hid).1, ⟨k, ops, rfl⟩, id, hid, ?_⟩⟩)
    obtain ⟨as, h1, h2⟩ := hi.at_ hid
    have h3 := (h.slot id c hc).1
    rw [ctxArgsOf_at h1 h2] at h3
    cases h3
    rw [valueOf, h2, take_succ_of_get h1]
    rfl
  | @read st n id id' c k ops out hid hc hid' hcr =>
    refine h.act0 ht (by simp) (fun _ => Nat.le_refl _) (fun _ hw => hw.elim) ?_
      (fun prog s hp hi => ⟨s, hi.setPhase ⟨(List.getElem?_eq_some_iff.1 hid).1, ⟨k, ops, rfl⟩, ⟨id, hid, (h.slot id c hc).1⟩, Nat.succ_pos n⟩⟩)
    intro id'' hr
    rcases hr with hr | hr
    · exact .inl hr
    · simp only [Nat.add_sub_cancel, hid', Option.some.injEq] at hr
      subst hr
      exact .inr hcr
  | @read2None st n id as k ops out hid hnone =>
    exfalso
    obtain ⟨prog, s, -, hi⟩ := h.thr i _ ht
    obtain ⟨c, s, hc, hs⟩ := hi.cumulative n id (Nat.lt_succ_self n) hid
    exact hnone c s hc hs
  | @read2 st n id as c s k ops out hid hc hs =>
    refine h.act0 ht (by simp) (fun _ => Nat.le_refl _) (fun _ hw => hw.elim) (fun _ hr => hr.elim)
      (fun prog s' hp hi => ⟨s', hi.setPhase ?_⟩)
    obtain ⟨h1, h2, ⟨id1, h3, h4⟩, -⟩ := hi.phase
    refine ⟨h1, h2, id1, h3, ?_⟩
    obtain ⟨as1, h5, h6⟩ := hi.at_ h3
    obtain ⟨as0, h7, h8⟩ := hi.at_ hid
    rw [ctxArgsOf_at h5 h6] at h4
    cases h4
    rw [(h.slot id c hc).2 s hs, valueOf, valueOf, h6, h8, take_succ_of_get h5]
    simp [ctxValue]
  | @writeTake st n id s k ops out hid hcw =>
    refine h.act0 ht (by simp) (fun _ => Nat.le_refl _) ?_ (fun _ hr => hr.elim)
      (fun prog s' hp hi => ⟨s', hi.setPhase hi.phase⟩)
    intro id' hw
    simp only [CtxThread.HoldsW, hid, Option.some.injEq] at hw
    subst hw
    exact .inr hcw
  | @writeNone st n id s k ops out hid hnone =>
    exfalso
    obtain ⟨c, hc⟩ := h.slot_of_hold ht (List.mem_of_getElem? hid) (.inl hid)
    rw [hnone] at hc
    cases hc
  | @write st n id c s k ops out hid hc =>
    have hmono : ∀ id' c', g.slots id' = some c' → ∃ c'', updateAt g.slots id (some { c with cumulative := some s }) id' = some c'' ∧
        ∀ s, c'.cumulative = some s → ∃ s', c''.cumulative = some s' := by
      intro id' c' hc'
      unfold updateAt
      split
      · exact ⟨_, rfl, fun s' _ => ⟨s, rfl⟩⟩
      · exact ⟨c', hc', fun s hs => ⟨s, hs⟩⟩
    refine h.act ht (fun _ _ _ _ id' _ c hc => hmono id' c hc) (fun id hid => absurd hid.1 (by simp)) (fun _ => Nat.le_refl _)
      (fun _ hw => hw.elim) (fun _ hr => hr.elim) ?_ ?_ (fun prog s' hp hi => ⟨s', hi.stack, hi.chains, hi.valid, hi.out,
        fun id' hid' => created_set ?_, fun k' id' hk' hid' => ?_, ?_⟩)
    · intro id' c' hc'
      unfold updateAt at hc'
      split at hc'
      · rename_i e
        subst e
        cases hc'
        refine ⟨(h.slot id' c hc).1, fun s' hs' => ?_⟩
        cases hs'
        obtain ⟨prog, st', -, hi⟩ := h.thr i _ ht
        obtain ⟨-, -, id1, h3, h4⟩ := hi.phase
        simp only at h3
        rw [hid] at h3
        cases h3
        exact h4
      · exact h.slot id' c' hc'
    · intro id'
      have h1 := remainingAll_set (t' := (⟨st, n + 1, .catching, .apply k :: ops, out⟩ : CtxThread S)) ht id'
      simp only [remaining] at h1
      have := h.cnt id'
      omega
    · rcases hi.created id' hid' with ⟨c', hc'⟩ | h1
      · obtain ⟨c'', hc'', -⟩ := hmono id' c' hc'
        exact .inl ⟨c'', hc''⟩
      · exact .inr h1
    · simp only at hk' hid' ⊢
      by_cases e : k' = n
      · subst e
        rw [hid] at hid'
        cases hid'
        exact ⟨_, s, by simp only [updateAt, if_true]; rfl, rfl⟩
      · obtain ⟨c', s1, hc', hs1⟩ := hi.cumulative k' id' (by simp only; omega) hid'
        obtain ⟨c'', hc'', hs'⟩ := hmono id' c' hc'
        obtain ⟨s2, hs2⟩ := hs' s1 hs1
        exact ⟨c'', s2, hc'', hs2⟩
    · exact ⟨(List.getElem?_eq_some_iff.1 hid).1, k, ops, rfl⟩
  | @applyTake st n id k ops out hmax hid hcw =>
    refine h.act0 ht (by simp) (fun _ => Nat.le_refl _) ?_ (fun _ hr => hr.elim)
      (fun prog s' hp hi => ⟨s', hi.setPhase ⟨hi.phase.1, k, ops, rfl, by simp only; omega⟩⟩)
    rintro id' ⟨k', ops', he, hw⟩
    cases he
    rw [hid] at hw
    cases hw
    exact .inr hcw
  | @applyRange st n k ops out hmax hnone =>
    exfalso
    obtain ⟨prog, s, -, hi⟩ := h.thr i _ ht
    have h1 := hi.valid.1
    have h2 := congrArg List.length hi.stack
    rw [List.getElem?_eq_none_iff] at hnone
    simp only [List.length_map] at h2
    omega
  | @applyNone st n id k ops out hid hnone =>
    exfalso
    obtain ⟨prog, s, -, hi⟩ := h.thr i _ ht
    obtain ⟨-, k', ops', he, hk⟩ := hi.phase
    cases he
    obtain ⟨c, s, hc, hs⟩ := hi.cumulative k id hk hid
    exact hnone c s hc hs
  | @apply st n id c s k ops out hid hc hs =>
    refine h.act0 ht (by simp) (fun _ => Nat.le_refl _) (fun _ hw => hw.elim) (fun _ hr => hr.elim)
      (fun prog s' hp hi => ⟨s', hi.stack, hi.chains, hi.valid.2, ?_, fun id hid => created_set (hi.created id hid), hi.cumulative, hi.phase.1⟩)
    have h1 := hi.out
    obtain ⟨as, h2, h3⟩ := hi.at_ hid
    simp only [seqOut] at h1
    rw [← h1, (h.slot id c hc).2 s hs, valueOf_at h3]
    simp
  | @lookTake st n id ops out hid hcr =>
    refine h.act0 ht (by simp) (fun _ => Nat.le_refl _) (fun _ hw => hw.elim) ?_
      (fun prog s' hp hi => ⟨s', hi.setPhase ⟨hi.phase, ops, rfl⟩⟩)
    intro id' hr
    simp only [CtxThread.HoldsR, hid, Option.some.injEq] at hr
    subst hr
    exact .inr hcr
  | @lookEmpty n ops out =>
    exfalso
    obtain ⟨prog, s, -, hi⟩ := h.thr i _ ht
    exact hi.valid.1 (List.map_eq_nil_iff.1 hi.stack.symm)
  | @lookNone st n id ops out hid hnone =>
    exfalso
    obtain ⟨c, hc⟩ := h.slot_of_hold ht (List.mem_of_getLast? hid) (.inr hid)
    rw [hnone] at hc
    cases hc
  | @look st n id c ops out hid hc =>
    refine h.act0 ht (by simp) (fun _ => Nat.le_refl _) (fun _ hw => hw.elim) (fun _ hr => hr.elim)
      (fun prog s' hp hi => ⟨s', hi.stack, hi.chains, hi.valid.2, ?_, fun id hid => created_set (hi.created id hid), hi.cumulative, hi.phase.1⟩)
    have h1 := hi.out
    rw [List.getLast?_eq_getElem?] at hid
    obtain ⟨as, h2, h3⟩ := hi.at_ hid
    have h4 := (h.slot id c hc).1
    rw [ctxArgsOf_at h2 h3] at h4
    cases h4
    have h5 : (s'.map (·.2)).getLast? = some c.args := by
      have h6 := congrArg List.length hi.stack
      simp only [List.length_map] at h6
      rw [List.getLast?_eq_getElem?, List.length_map, List.getElem?_map, ← h6, h2]
      rfl
    simp only [seqOut, h5] at h1
    rw [← h1]
    simp

theorem CtxRun.inv {progs : List (List CtxOp)} {g g' : CtxState S} (hr : CtxRun O g g') (h : CtxInv O chain progs g) : CtxInv O chain progs g' := by
  induction hr with
  | refl => exact h
  | step _ hs ih =>
    cases hs with
    | mk ht ha => exact ha.inv ih ht

theorem start_inv {usage : Nat → Nat} {progs : List (List CtxOp)} (hv : ∀ prog ∈ progs, ValidOps chain [] prog)
    (hu : ∀ id, (progs.map (pushCount id)).sum ≤ usage id) : CtxInv O chain progs (CtxState.start (S := S) usage progs) := by
  have hget : ∀ (i : Nat) (t : CtxThread S), (CtxState.start (S := S) usage progs).threads[i]? = some t → ∃ prog, progs[i]? = some prog ∧
      t = { ops := prog } := by
    intro i t ht
    simp only [CtxState.start, List.getElem?_map, Option.map_eq_some_iff] at ht
    obtain ⟨prog, h1, h2⟩ := ht
    exact ⟨prog, h1, h2.symm⟩
  refine ⟨?_, ?_, ?_, ?_⟩
  · intro i t ht
    obtain ⟨prog, h1, rfl⟩ := hget i t ht
    refine ⟨prog, [], h1, rfl, fun k x hx => (by simp at hx), hv prog (List.mem_of_getElem? h1), by simp, fun id hid => (List.not_mem_nil hid).elim,
      fun k id hk => (by simp at hk), by simp [PhaseInv]⟩
  · intro id
    refine Nat.le_trans (Nat.le_of_eq ?_) (hu id)
    simp [CtxState.start, remainingAll, remaining, Function.comp_def]
  · intro id c hc
    cases hc
  · intro i j t t' _ ht _ id hw
    obtain ⟨prog, -, rfl⟩ := hget i t ht
    exact hw.elim

end Carcara
