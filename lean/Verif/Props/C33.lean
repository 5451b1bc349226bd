import Verif.Lemmas.SharedLoads
import Verif.Lemmas.SharedProgress
import Verif.Props.C31

/-!
# C33: shared contexts

The threads of the parallel checker perform operations `progs` on the shared contexts, in any interleaving (`CtxRun`). The hypotheses are that the
operations respect the tree of contexts, and that the usage of a context is at least the number of times that it is pushed. `c33_workers` is that
these hold of what the workers do with the loads of the scheduler.
-/

namespace Carcara

open Spec

variable {S : Type} {O : SubstOps S} {chain : Nat → List (Nat × List AnchorArg)} {usage : Nat → Nat} {progs : List (List CtxOp)} {g g' : CtxState S}

/-! ## What the workers do -/

/-- The operations of the workers for the loads of a schedule, or for parts of them if they stop early, respect the tree of contexts, and the usage
that is computed by the scheduler is enough. -/
theorem c33_workers {SO : SchedOrder} {workers : Nat} {proof : List Command} {loads : List Load} {us : List Nat}
    (hs : schedule SO workers proof = .ok (loads, us)) (hN : NumberedContexts proof)
    (hp : List.Forall₂ (fun load ops => ∃ n, WorkerOps proof [] ((Spec.positions proof (some []) load).take n) ops) loads progs) :
    (∀ ops ∈ progs, ValidOps (chainOf proof) [] ops) ∧ (∀ id, (progs.map (pushCount id)).sum ≤ us.getD id 0) ∧
      ∀ ops ∈ progs, ∀ id as, CtxOp.push id as ∈ ops → id < us.length := by
  obtain ⟨rs, hr, hu⟩ := c31_usage hs hN
  have hcount : ∀ id, (progs.map (pushCount id)).sum ≤ us.getD id 0 := by
    intro id
    cases hq : (subproofs proof)[id]? with
    | none =>
      have : (progs.map (pushCount id)).sum = 0 := by
        rw [List.sum_eq_zero_iff_forall_eq_nat]
        intro x hx
        obtain ⟨ops, ho, rfl⟩ := List.mem_map.1 hx
        obtain ⟨load, -, n, hw⟩ := forall₂_right hp ho
        rw [workerOps_pushCount hw]
        have key : ∀ ps, openingsOf proof id ps = 0 := by
          intro ps
          induction ps with
          | nil => rfl
          | cons p ps ih =>
            rw [openingsOf, ih]
            split
            · rename_i sub as m hc
              rw [if_neg]
              rintro rfl
              rw [(subproofs_get hN).1 (mem_subproofs hc)] at hq
              cases hq
            · rfl
        exact key _
      omega
    | some x =>
      have hx : x = (x.1, id) := by
        have h1 := congrArg (·[id]?) hN
        have h2 := (List.getElem?_eq_some_iff.1 hq).1
        simp only [List.getElem?_map, hq, Option.map_some, List.getElem?_range h2, Option.some.injEq] at h1
        rw [← h1]
      rw [hx] at hq
      have hus : us.getD id 0 = (rs.map fun r => r.opened.count x.1).sum := by
        rw [hu, List.getD_eq_getElem?_getD, List.getElem?_map, hq]
        rfl
      rw [hus]
      have : ∀ {loads : List Load} {progs : List (List CtxOp)} {rs : List Replay},
          List.Forall₂ (fun load ops => ∃ n, WorkerOps proof [] ((Spec.positions proof (some []) load).take n) ops) loads progs →
          List.Forall₂ (fun load r => replay proof load = some r) loads rs →
          (progs.map (pushCount id)).sum ≤ (rs.map fun r => r.opened.count x.1).sum := by
        intro loads progs rs h1 h2
        induction h1 generalizing rs with
        | nil =>
          cases h2
          exact Nat.le_refl _
        | @cons load _ _ _ ha _ ih =>
          cases h2 with
          | cons hb hbs =>
            obtain ⟨n, hw⟩ := ha
            have e1 := ih hbs
            have e2 := opened_positions hN hq hb
            have e3 := openingsOf_take (proof := proof) id n (Spec.positions proof (some []) load)
            simp only [List.map_cons, List.sum_cons]
            rw [workerOps_pushCount hw]
            simp only [List.count_nil, Nat.zero_add] at e2
            refine Nat.add_le_add ?_ e1
            rw [e2]
            exact e3
      exact this hp hr
  refine ⟨?_, hcount, ?_⟩
  · intro ops ho
    obtain ⟨load, -, n, hw⟩ := forall₂_right hp ho
    have hch : ∀ (ps : List (List Nat × Nat)) (last : List Nat) (n : Nat), PathChain proof last ps → PathChain proof last (ps.take n) := by
      intro ps
      induction ps with
      | nil => intro last n h; simpa using h
      | cons p ps ih =>
        intro last n h
        cases n with
        | zero => trivial
        | succ n => exact ⟨h.1, ih _ n h.2⟩
    exact workerOps_valid hN hw (hch _ _ n (positions_chain (List.prefix_refl []))) ⟨proof, rfl⟩
  · intro ops ho id as hmem
    have h1 := hcount id
    by_contra hlt
    have h0 : us.getD id 0 = 0 := by
      rw [List.getD_eq_getElem?_getD, List.getElem?_eq_none (by omega)]
      rfl
    have h2 : ∀ {ops : List CtxOp}, CtxOp.push id as ∈ ops → 0 < pushCount id ops := by
      intro ops
      induction ops with
      | nil => simp
      | cons op ops ih =>
        intro h
        rcases List.mem_cons.1 h with rfl | h
        · simp [pushCount]
        · have := ih h
          cases op <;> simp [pushCount] <;> omega
    have h3 : ∀ {l : List (List CtxOp)}, ops ∈ l → pushCount id ops ≤ (l.map (pushCount id)).sum := by
      intro l
      induction l with
      | nil => simp
      | cons a l ih =>
        intro h
        simp only [List.map_cons, List.sum_cons]
        rcases List.mem_cons.1 h with rfl | h
        · omega
        · have := ih h
          omega
    have h4 := h3 ho
    have := h2 hmem
    omega

namespace C33

private def p : Term := .var "p" .bool

/-- A subproof with a nested one. -/
private def nested : List Command :=
  [.subproof [.assume "t1.h" p, .subproof [.step ⟨"t1.t1.t1", [], "refl", [], [], []⟩, .step ⟨"t1.t1", [], "bind", [], [], []⟩] [] 1,
     .step ⟨"t1", [], "subproof", [], [], []⟩] [] 0,
   .step ⟨"t2", [], "resolution", [], [], []⟩]

end C33

example : NumberedContexts C33.nested := by unfold NumberedContexts; decide
example : (schedule .heap 1 C33.nested).toOption = some
    ([[.cmd 0 0, .cmd 1 0, .cmd 1 1, .cmd 2 0, .cmd 2 1, .close 2, .cmd 1 2, .close 1, .cmd 0 1, .close 0]], [1, 1]) := by decide_cbv
example : WorkerOps C33.nested [] (Spec.positions C33.nested (some [])
    [.cmd 0 0, .cmd 1 0, .cmd 1 1, .cmd 2 0, .cmd 2 1, .close 2, .cmd 1 2, .close 1, .cmd 0 1, .close 0])
    [.push 0 [], .push 1 [], .apply 1, .look, .apply 0, .pop, .pop] :=
  .sub (path := []) rfl (.leaf (path := [0]) (uses := []) rfl nofun nofun (.sub (path := [0]) rfl
    (.leaf (path := [0, 1]) (uses := [.apply 1]) rfl nofun (by simp [UsesBelow])
    (.leaf (path := [0, 1]) (uses := [.look, .apply 0]) rfl nofun (by simp [UsesBelow])
    (.leaf (path := [0]) (uses := []) rfl nofun nofun (.leaf (path := []) (uses := []) rfl nofun nofun .nil))))))

/-! ## Safety -/

/-- No thread panics: the contexts that it uses have been created, by it or by another thread, and have the substitutions that it needs. -/
theorem c33_no_panic (hv : ∀ prog ∈ progs, ValidOps chain [] prog) (hu : ∀ id, (progs.map (pushCount id)).sum ≤ usage id)
    (hr : CtxRun O (CtxState.start usage progs) g) : ∀ t ∈ g.threads, t.phase ≠ .panicked := by
  intro t ht hp
  obtain ⟨i, hi⟩ := List.getElem?_of_mem ht
  obtain ⟨prog, st, -, h⟩ := (hr.inv (start_inv hv hu)).thr i t hi
  have := h.phase
  rw [PhaseInv, hp] at this
  exact this

/-- Every thread sees what it would see if it did not share its contexts. -/
theorem c33_same (hv : ∀ prog ∈ progs, ValidOps chain [] prog) (hu : ∀ id, (progs.map (pushCount id)).sum ≤ usage id)
    (hr : CtxRun O (CtxState.start usage progs) g) :
    List.Forall₂ (fun prog t => t.out <+: seqOut O [] prog ∧ (CtxThread.finished t → t.out = seqOut O [] prog)) progs g.threads := by
  have hinv := hr.inv (start_inv hv hu)
  have hlen : g.threads.length = progs.length := by
    have : ∀ {a b : CtxState S}, CtxRun O a b → b.threads.length = a.threads.length := by
      intro a b h
      induction h with
      | refl => rfl
      | step _ hs ih =>
        cases hs with
        | mk _ _ => simpa using ih
    rw [this hr]
    simp [CtxState.start]
  rw [List.forall₂_iff_get]
  refine ⟨hlen.symm, fun i h1 h2 => ?_⟩
  obtain ⟨prog, st, hp, h⟩ := hinv.thr i _ (List.getElem?_eq_getElem h2)
  rw [List.getElem?_eq_getElem h1, Option.some.injEq] at hp
  subst hp
  refine ⟨⟨_, h.out⟩, fun hf => ?_⟩
  have := h.out
  rw [List.get_eq_getElem] at hf
  rw [hf.1] at this
  simpa [seqOut] using this

/-- A context that is in the stack of a thread exists, or another thread is creating it and holds its guard. -/
theorem c33_created (hv : ∀ prog ∈ progs, ValidOps chain [] prog) (hu : ∀ id, (progs.map (pushCount id)).sum ≤ usage id)
    (hr : CtxRun O (CtxState.start usage progs) g) {t : CtxThread S} (ht : t ∈ g.threads) {id : Nat} (hid : id ∈ t.stack) :
    (∃ c, g.slots id = some c) ∨ ∃ u ∈ g.threads, u.HoldsW id ∧ u.phase = .creating := by
  obtain ⟨i, hi⟩ := List.getElem?_of_mem ht
  obtain ⟨prog, st, -, h⟩ := (hr.inv (start_inv hv hu)).thr i t hi
  rcases h.created id hid with h1 | ⟨j, u, -, hu, hc, hops⟩
  · exact .inl h1
  · refine .inr ⟨u, List.mem_of_getElem? hu, ?_, hc⟩
    rw [CtxThread.HoldsW, hc]
    exact hops

/-- A context has the arguments of its anchor, and its substitution is that of the nested anchors, whichever thread has built them. -/
theorem c33_contents (hv : ∀ prog ∈ progs, ValidOps chain [] prog) (hu : ∀ id, (progs.map (pushCount id)).sum ≤ usage id)
    (hr : CtxRun O (CtxState.start usage progs) g) {id : Nat} {c : SharedCtx S} (hc : g.slots id = some c) :
    (∃ n, (chain id).getLast? = some (n, c.args)) ∧ ∀ s, c.cumulative = some s → s = ctxValue O ((chain id).map (·.2)) := by
  obtain ⟨h1, h2⟩ := (hr.inv (start_inv hv hu)).slot id c hc
  refine ⟨?_, h2⟩
  rw [ctxArgsOf, Option.map_eq_some_iff] at h1
  obtain ⟨⟨n, as⟩, h1, rfl⟩ := h1
  exact ⟨n, h1⟩

/-- A context is only dropped when no thread uses it or will use it. -/
theorem c33_dropped (hv : ∀ prog ∈ progs, ValidOps chain [] prog) (hu : ∀ id, (progs.map (pushCount id)).sum ≤ usage id)
    (hr : CtxRun O (CtxState.start usage progs) g) (hs : CtxStep O g g') {id : Nat} {c : SharedCtx S} (h1 : g.slots id = some c)
    (h2 : g'.slots id = none) : ∀ t ∈ g'.threads, ¬ CtxThread.needs t id := by
  have hinv := hr.inv (start_inv hv hu)
  have hinv' := (CtxRun.step hr hs).inv (start_inv hv hu)
  cases hs with
  | @mk i t t' slots counter ht ha =>
    have key : remainingAll (g.threads.set i t') id = 0 := by
      have hi : (g.threads.set i t')[i]? = some t' := by
        rw [List.getElem?_set_self (List.getElem?_eq_some_iff.1 ht).1]
      obtain ⟨_, _, -, hthr⟩ := hinv'.thr i t' hi
      have hph := hthr.phase
      cases ha with
      | @drop st n id' ops out =>
        simp only [updateAt] at h2
        split at h2
        · subst_vars
          exact hph
        · rw [h1] at h2
          cases h2
      | create | write =>
        simp only [updateAt] at h2
        split at h2
        · cases h2
        · rw [h1] at h2
          cases h2
      | _ =>
        rw [h1] at h2
        cases h2
    intro u hu hn
    obtain ⟨j, hj⟩ := List.getElem?_of_mem hu
    have h3 : remaining u id ≤ remainingAll (g.threads.set i t') id := remaining_le_all hj id
    rw [key, remaining] at h3
    rcases hn with hn | hn
    · have := List.count_pos_iff.2 hn
      omega
    · omega

/-- The write guard of a context is held by one thread, and no other one reads it meanwhile. -/
theorem c33_exclusive (hv : ∀ prog ∈ progs, ValidOps chain [] prog) (hu : ∀ id, (progs.map (pushCount id)).sum ≤ usage id)
    (hr : CtxRun O (CtxState.start usage progs) g) {i j : Nat} {t u : CtxThread S} (hij : i ≠ j) (ht : g.threads[i]? = some t)
    (hj : g.threads[j]? = some u) {id : Nat} (hw : t.HoldsW id) : ¬ u.HoldsW id ∧ ¬ u.HoldsR id :=
  (hr.inv (start_inv hv hu)).excl i j t u hij ht hj id hw

/-! ## Liveness -/

/-- The threads do not block each other. -/
theorem c33_no_deadlock (hv : ∀ prog ∈ progs, ValidOps chain [] prog) (hu : ∀ id, (progs.map (pushCount id)).sum ≤ usage id)
    (hr : CtxRun O (CtxState.start usage progs) g) {t : CtxThread S} (ht : t ∈ g.threads) (hf : ¬ CtxThread.finished t) : ∃ g', CtxStep O g g' := by
  obtain ⟨i, hi⟩ := List.getElem?_of_mem ht
  exact (hr.inv (start_inv hv hu)).progress hi hf

/-- There is no infinite sequence of actions. -/
theorem c33_no_livelock (O : SubstOps S) : ¬ ∃ f : Nat → CtxState S, ∀ n, CtxStep O (f n) (f (n + 1)) := by
  rintro ⟨f, hf⟩
  have : ∀ n, stateMeasure (f n) + n ≤ stateMeasure (f 0) := by
    intro n
    induction n with
    | zero => exact Nat.le_refl _
    | succ n ih =>
      have := (hf n).measure
      omega
  have := this (stateMeasure (f 0) + 1)
  omega

/-- From every state that is reached, all threads can finish. -/
theorem c33_finishes (hv : ∀ prog ∈ progs, ValidOps chain [] prog) (hu : ∀ id, (progs.map (pushCount id)).sum ≤ usage id)
    (hr : CtxRun O (CtxState.start usage progs) g) : ∃ g', CtxRun O g g' ∧ ∀ t ∈ g'.threads, CtxThread.finished t :=
  (hr.inv (start_inv hv hu)).finishes

/-! ## Contexts that are not dropped -/

namespace C33

private def as : List AnchorArg := [.assign "x" .bool (.var "y" .bool)]

/-- Two threads enter and leave the same context, and use it. -/
private def two : List (List CtxOp) := [[.push 0 as, .look, .apply 0, .pop], [.push 0 as, .pop]]

private def chain0 : Nat → List (Nat × List AnchorArg) := fun id => if id = 0 then [(0, as)] else []

end C33
open C33

example : ∀ prog ∈ two, ValidOps chain0 [] prog := by
  intro prog h
  simp only [two, List.mem_cons, List.not_mem_nil, or_false] at h
  rcases h with rfl | rfl <;> simp [ValidOps, chain0]
example : ∀ id, (two.map (pushCount id)).sum ≤ if id = 0 then 2 else 0 := by
  intro id
  by_cases h : id = 0
  · subst h; decide
  · simp [two, pushCount, h, Ne.symm h]
example (O : SubstOps S) : seqOut O [] [.push 0 as, .look, .apply 0, .pop] = [.args as, .subst (O.extend O.empty as)] := rfl

theorem canWrite_two {a b : CtxThread S} {slots : Nat → Option (SharedCtx S)} {counter : Nat → Nat} {id : Nat} {i : Nat}
    (h : ∀ u, (i = 0 ∧ u = b) ∨ (i = 1 ∧ u = a) → u.phase = .idle) (hi : i < 2) : CtxState.CanWrite ⟨slots, counter, [a, b]⟩ i id := by
  intro j t hj ht
  have hidle : t.phase = .idle := by
    match j with
    | 0 =>
      simp only [List.getElem?_cons_zero, Option.some.injEq] at ht
      exact ht ▸ h a (.inr ⟨by omega, rfl⟩)
    | 1 =>
      simp only [List.getElem?_cons_succ, List.getElem?_cons_zero, Option.some.injEq] at ht
      exact ht ▸ h b (.inl ⟨by omega, rfl⟩)
    | j + 2 => simp at ht
  simp [CtxThread.HoldsW, CtxThread.HoldsR, hidle]

/-- The title of the property says that contexts live exactly as long as they are used. They may live longer: the counter is loaded and stored in
two steps, so two threads that leave a context at the same time may both store the same number, and then none of them drops it. -/
theorem c33_dropped_fails (O : SubstOps S) : ∃ g, CtxRun O (CtxState.start (fun id => if id = 0 then 2 else 0) [[.push 0 as, .pop], [.push 0 as, .pop]]) g ∧
    (∀ t ∈ g.threads, CtxThread.finished t ∧ t.stack = []) ∧ ∃ c, g.slots 0 = some c := by
  refine ⟨_, .step (.step (.step (.step (.step (.step (.step (.step (.step (.step .refl
    (.mk (i := 0) rfl (.pushTake ?_)))
    (.mk (i := 0) rfl .create))
    (.mk (i := 1) rfl (.pushTake ?_)))
    (.mk (i := 1) rfl .create))
    (.mk (i := 0) rfl (.popStart (st := []))))
    (.mk (i := 1) rfl (.popStart (st := []))))
    (.mk (i := 0) rfl (.load (v := 1) rfl)))
    (.mk (i := 1) rfl (.load (v := 1) rfl)))
    (.mk (i := 0) rfl (.store (by decide))))
    (.mk (i := 1) rfl (.store (by decide))), ?_, ?_⟩
  · exact canWrite_two (by rintro u (⟨-, rfl⟩ | ⟨h, -⟩) <;> first | rfl | cases h) (by decide)
  · exact canWrite_two (by rintro u (⟨h, -⟩ | ⟨-, rfl⟩) <;> first | rfl | cases h) (by decide)
  · simp [CtxState.start, CtxThread.finished]
  · exact ⟨_, rfl⟩

end Carcara
