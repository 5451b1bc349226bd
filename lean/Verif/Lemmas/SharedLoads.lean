import Verif.Lemmas.SharedContext
import Verif.Spec.SharedLoads
import Verif.Lemmas.Parallel
import Verif.Lemmas.SchedulerTotal

/-! # Shared contexts: the operations of the workers -/

namespace Carcara

open Spec

variable {proof : List Command}

/-! ## Contexts along a path -/

/-- The contexts and anchors along a path. -/
def chainAt : List Command → List Nat → List (Nat × List AnchorArg)
  | _, [] => []
  | cs, i :: path => match cs[i]? with
    | some (.subproof sub as n) => (n, as) :: chainAt sub path
    | _ => []

/-- The contexts from the outermost one to the given one. -/
def chainOf (proof : List Command) (id : Nat) : List (Nat × List AnchorArg) := match (subproofs proof)[id]? with
  | some (path, _) => chainAt proof path
  | none => []

theorem chainAt_snoc {cs : List Command} {path : List Nat} {i : Nat} {sub : List Command} {as : List AnchorArg} {n : Nat}
    (h : commandAt cs path i = some (.subproof sub as n)) : chainAt cs (path ++ [i]) = chainAt cs path ++ [(n, as)] := by
  induction path generalizing cs with
  | nil =>
    rw [commandAt_nil] at h
    simp [chainAt, h]
  | cons k path ih =>
    obtain ⟨sub', as', n', h1, h2⟩ := commandAt_cons.1 h
    simp [List.cons_append, chainAt, h1, ih h2]

theorem chainAt_take {cs : List Command} : ∀ {path : List Nat} {sub : List Command}, commandsAt cs path = some sub →
    ∀ k, chainAt cs (path.take k) = (chainAt cs path).take k := by
  intro path
  induction path generalizing cs with
  | nil => intro sub _ k; simp [chainAt]
  | cons i path ih =>
    intro sub h k
    cases k with
    | zero => simp [chainAt]
    | succ k =>
      rw [commandsAt] at h
      split at h
      · rename_i hi
        simp [chainAt, hi, ih h k]
      · cases h

theorem chainAt_length {cs : List Command} : ∀ {path : List Nat} {sub : List Command}, commandsAt cs path = some sub →
    (chainAt cs path).length = path.length := by
  intro path
  induction path generalizing cs with
  | nil => intro sub _; rfl
  | cons i path ih =>
    intro sub h
    rw [commandsAt] at h
    split at h
    · rename_i hi
      simp [chainAt, hi, ih h]
    · cases h

theorem mem_subproofsFrom {x : List Nat × Nat} : ∀ {cs : List Command} {path : List Nat} {i k : Nat} {c : Command}, cs[k]? = some c →
    x ∈ subproofsOf path (i + k) c → x ∈ subproofsFrom path i cs
  | [], _, _, _, _, h, _ => by simp at h
  | c :: cs, path, i, 0, _, h, hx => by
    simp only [List.getElem?_cons_zero, Option.some.injEq] at h
    subst h
    rw [subproofsFrom]
    exact List.mem_append_left _ hx
  | c :: cs, path, i, k + 1, _, h, hx => by
    rw [subproofsFrom]
    refine List.mem_append_right _ (mem_subproofsFrom (k := k) (by simpa using h) ?_)
    rwa [Nat.add_right_comm]

theorem mem_subproofs {path : List Nat} {i : Nat} {sub : List Command} {as : List AnchorArg} {n : Nat}
    (h : commandAt proof path i = some (.subproof sub as n)) : (path ++ [i], n) ∈ subproofs proof := by
  have key : ∀ (path : List Nat) (cs : List Command) (base : List Nat), commandAt cs path i = some (.subproof sub as n) →
      (base ++ path ++ [i], n) ∈ subproofsFrom base 0 cs := by
    intro path
    induction path with
    | nil =>
      intro cs base h
      refine mem_subproofsFrom (k := i) h ?_
      rw [subproofsOf]
      simp
    | cons k path ih =>
      intro cs base h
      obtain ⟨sub', as', n', h1, h2⟩ := commandAt_cons.1 h
      refine mem_subproofsFrom (k := k) h1 ?_
      rw [subproofsOf]
      refine List.mem_cons_of_mem _ ?_
      have := ih sub' (base ++ [k]) h2
      simpa using this
  have := key path proof [] h
  simpa [subproofs] using this

theorem subproofs_get (hN : NumberedContexts proof) {q : List Nat} {n : Nat} : (q, n) ∈ subproofs proof ↔ (subproofs proof)[n]? = some (q, n) := by
  constructor
  · intro h
    obtain ⟨k, hk⟩ := List.getElem?_of_mem h
    have h1 := congrArg (·[k]?) hN
    have h2 := (List.getElem?_eq_some_iff.1 hk).1
    simp only [List.getElem?_map, hk, Option.map_some, List.getElem?_range h2, Option.some.injEq] at h1
    subst h1
    exact hk
  · exact List.mem_of_getElem?

theorem commandsAt_of_commandAt {path : List Nat} {i : Nat} {c : Command} (h : commandAt proof path i = some c) : ∃ sub, commandsAt proof path = some sub := by
  obtain ⟨sub, h1, -⟩ := Option.bind_eq_some_iff.1 h
  exact ⟨sub, h1⟩

/-! ## The operations are valid -/

theorem valid_uses {chain : Nat → List (Nat × List AnchorArg)} {st : List (Nat × List AnchorArg)} {ops : List CtxOp} : ∀ {uses : List CtxOp},
    UsesBelow st.length uses → ValidOps chain st ops → ValidOps chain st (uses ++ ops)
  | [], _, h => h
  | op :: uses, hu, h => by
    have h1 := valid_uses (fun o ho => hu o (List.mem_cons_of_mem _ ho)) h
    rcases hu op List.mem_cons_self with ⟨k, rfl, hk⟩ | ⟨rfl, hk⟩
    · exact ⟨hk, h1⟩
    · exact ⟨List.length_pos_iff.1 hk, h1⟩

theorem valid_pops {chain : Nat → List (Nat × List AnchorArg)} {ops : List CtxOp} : ∀ {k : Nat} {st : List (Nat × List AnchorArg)},
    ValidOps chain (st.take (st.length - k)) ops → ValidOps chain st (List.replicate k .pop ++ ops)
  | 0, st, h => by simpa using h
  | k + 1, st, h => by
    rw [List.replicate_succ, List.cons_append, ValidOps]
    refine valid_pops ?_
    rw [List.length_dropLast, List.dropLast_eq_take, List.take_take]
    have : min (st.length - 1 - k) (st.length - 1) = st.length - (k + 1) := by omega
    rwa [this]

theorem workerOps_valid (hN : NumberedContexts proof) {last : List Nat} {ps : List (List Nat × Nat)} {ops : List CtxOp}
    (h : WorkerOps proof last ps ops) : PathChain proof last ps → (∃ sub, commandsAt proof last = some sub) →
    ValidOps (chainOf proof) (chainAt proof last) ops := by
  have key : ∀ {last path : List Nat} {sub : List Command} {ops : List CtxOp}, commandsAt proof last = some sub → path <+: last →
      ValidOps (chainOf proof) (chainAt proof path) ops →
      ValidOps (chainOf proof) (chainAt proof last) (List.replicate (last.length - path.length) .pop ++ ops) := by
    intro last path sub ops hl hp hv
    refine valid_pops ?_
    have h2 := hp.length_le
    rw [chainAt_length hl, ← chainAt_take hl]
    have : last.length - (last.length - path.length) = path.length := by omega
    rwa [this, ← List.prefix_iff_eq_take.1 hp]
  induction h with
  | nil => exact fun _ _ => trivial
  | @leaf last path i ps c uses ops hc hl hu _ ih =>
    rintro ⟨hp, hch⟩ ⟨sub, hs⟩
    have e : pathAfter proof (path, i) = path := by
      unfold pathAfter
      simp only [hc]
      split
      · rename_i h
        cases h
        exact absurd rfl (hl _ _ _)
      · rfl
    rw [e] at hch
    obtain ⟨sub', hs'⟩ := commandsAt_of_commandAt hc
    refine key hs hp (valid_uses ?_ (ih hch ⟨sub', hs'⟩))
    rwa [chainAt_length hs']
  | @sub last path i ps sub as n ops hc _ ih =>
    rintro ⟨hp, hch⟩ ⟨sub', hs⟩
    have e : pathAfter proof (path, i) = path ++ [i] := by
      unfold pathAfter
      simp only [hc]
    rw [e] at hch
    refine key hs hp ⟨?_, ?_⟩
    · rw [chainOf, (subproofs_get hN).1 (mem_subproofs hc)]
      exact chainAt_snoc hc
    · rw [← chainAt_snoc hc]
      exact ih hch ⟨sub, commandsAt_snoc.2 ⟨as, n, hc⟩⟩

/-! ## The number of pushes -/

/-- The number of times that positions open a context. -/
def openingsOf (proof : List Command) (id : Nat) : List (List Nat × Nat) → Nat
  | [] => 0
  | p :: ps => (match commandAt proof p.1 p.2 with | some (.subproof _ _ n) => if n = id then 1 else 0 | _ => 0) + openingsOf proof id ps

theorem pushCount_append (id : Nat) : ∀ ops ops' : List CtxOp, pushCount id (ops ++ ops') = pushCount id ops + pushCount id ops'
  | [], _ => by simp [pushCount]
  | op :: ops, ops' => by
    cases op <;> simp [pushCount, pushCount_append id ops ops', Nat.add_assoc]

theorem pushCount_uses {id n : Nat} : ∀ {uses : List CtxOp}, UsesBelow n uses → pushCount id uses = 0
  | [], _ => rfl
  | op :: uses, hu => by
    have h1 := pushCount_uses (id := id) (fun o ho => hu o (List.mem_cons_of_mem _ ho))
    rcases hu op List.mem_cons_self with ⟨k, rfl, hk⟩ | ⟨rfl, hk⟩ <;> exact h1

theorem pushCount_pops (id k : Nat) : pushCount id (List.replicate k .pop) = 0 := by
  induction k with
  | zero => rfl
  | succ k ih => simpa [List.replicate_succ, pushCount] using ih

theorem workerOps_pushCount {id : Nat} {last : List Nat} {ps : List (List Nat × Nat)} {ops : List CtxOp} (h : WorkerOps proof last ps ops) :
    pushCount id ops = openingsOf proof id ps := by
  induction h with
  | nil => rfl
  | @leaf last path i ps c uses ops hc hl hu _ ih =>
    rw [pushCount_append, pushCount_append, pushCount_pops, pushCount_uses hu, openingsOf, ih, hc]
    cases c with
    | subproof => exact absurd rfl (hl _ _ _)
    | step | assume => simp
  | @sub last path i ps sub as n ops hc _ ih =>
    rw [pushCount_append, pushCount_pops, pushCount, openingsOf, ih, hc]
    simp

theorem openingsOf_take (id k : Nat) : ∀ ps : List (List Nat × Nat), openingsOf proof id (ps.take k) ≤ openingsOf proof id ps := by
  intro ps
  induction ps generalizing k with
  | nil => simp
  | cons p ps ih =>
    cases k with
    | zero => simp [openingsOf]
    | succ k =>
      simp only [List.take_succ_cons, openingsOf]
      have := ih k
      omega

theorem opened_positions (hN : NumberedContexts proof) {q : List Nat} {id : Nat} (hq : (subproofs proof)[id]? = some (q, id)) :
    ∀ {es : Load} {r r' : Replay}, es.foldlM (replayStep proof) r = some r' →
    r'.opened.count q = r.opened.count q + openingsOf proof id (Spec.positions proof r.at_ es)
  | [], r, r', h => by
    cases h
    simp [Spec.positions, openingsOf]
  | e :: es, r, r', h => by
    obtain ⟨r1, h1, h2⟩ := replay_cons h
    rw [opened_positions hN hq h2]
    rcases replayStep_cases h1 with ⟨path, i, c, rfl, ha, hc, hne, hb, -, ho⟩ | ⟨path, i, sub, as, n, rfl, ha, hc, hb, -, ho⟩ | ⟨path, rfl, ha, hb, -, ho⟩
    · have hp : Spec.positions proof r.at_ (.cmd path.length i :: es) = (path, i) :: Spec.positions proof r1.at_ es := by
        rw [ha, hb, Spec.positions, hc]
        cases c with
        | subproof a b n => exact absurd rfl (hne a b n)
        | assume | step => rfl
      rw [hp, ho, openingsOf, hc]
      cases c with
      | subproof a b n => exact absurd rfl (hne a b n)
      | assume | step => simp
    · have hp : Spec.positions proof r.at_ (.cmd path.length i :: es) = (path, i) :: Spec.positions proof r1.at_ es := by
        rw [ha, hb, Spec.positions, hc]
      rw [hp, ho, openingsOf, hc, List.count_append, List.count_singleton]
      have hm := mem_subproofs hc
      have : (path ++ [i] == q) = decide (n = id) := by
        rw [Bool.eq_iff_iff, beq_iff_eq, decide_eq_true_iff]
        constructor
        · rintro rfl
          have hnd : ((subproofs proof).map (·.1)).Nodup := subproofsFrom_nodup _ _ _
          have := List.inj_on_of_nodup_map hnd hm (List.mem_of_getElem? hq) rfl
          exact congrArg Prod.snd this
        · rintro rfl
          rw [(subproofs_get hN).1 hm] at hq
          cases hq
          rfl
      simp only [this, decide_eq_true_eq]
      omega
    · rw [ho, ha, Spec.positions, ← hb]

end Carcara
