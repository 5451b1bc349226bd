import Verif.Lemmas.SharedContext

/-! # Shared contexts: threads neither block nor loop -/

namespace Carcara

open Spec

variable {S : Type} {O : SubstOps S} {chain : Nat → List (Nat × List AnchorArg)}

theorem act_of_holdsW {g : CtxState S} {i : Nat} {t : CtxThread S} {id : Nat} (hp : PhaseInv O chain g t) (h : t.HoldsW id) :
    ∃ t' slots counter, CtxAct O g i t t' slots counter := by
  obtain ⟨st, n, ph, ops, out⟩ := t
  cases ph with
  | creating =>
    obtain ⟨as, ops', rfl⟩ := h
    exact ⟨_, _, _, .create⟩
  | writing s =>
    obtain ⟨-, ⟨k, ops', rfl⟩, -⟩ := hp
    cases hs : g.slots id with
    | none => exact ⟨_, _, _, .writeNone h hs⟩
    | some c => exact ⟨_, _, _, .write h hs⟩
  | applying =>
    obtain ⟨k, ops', rfl, hk⟩ := h
    by_cases hc : ∃ c s, g.slots id = some c ∧ c.cumulative = some s
    · obtain ⟨c, s, h1, h2⟩ := hc
      exact ⟨_, _, _, .apply hk h1 h2⟩
    · exact ⟨_, _, _, .applyNone hk (fun c s h1 h2 => hc ⟨c, s, h1, h2⟩)⟩
  | dropping i => exact ⟨_, _, _, .drop⟩
  | _ => exact h.elim

theorem act_of_holdsR {g : CtxState S} {i : Nat} {t : CtxThread S} {id : Nat} (hp : PhaseInv O chain g t) (h : t.HoldsR id)
    (hr : ∀ id, g.CanRead i id) : ∃ t' slots counter, CtxAct O g i t t' slots counter := by
  obtain ⟨st, n, ph, ops, out⟩ := t
  cases ph with
  | reading =>
    obtain ⟨hn, k, ops', rfl⟩ := hp
    cases hs : g.slots id with
    | none => exact ⟨_, _, _, .readNone h hs⟩
    | some c =>
      cases n with
      | zero => exact ⟨_, _, _, .readFirst h hs⟩
      | succ n =>
        have hn' : n < st.length := Nat.lt_of_succ_lt hn
        exact ⟨_, _, _, .read h hs (List.getElem?_eq_getElem hn') (hr _)⟩
  | reading2 as =>
    obtain ⟨hn, ⟨k, ops', rfl⟩, -, hpos⟩ := hp
    cases n with
    | zero => exact absurd hpos (Nat.lt_irrefl 0)
    | succ n =>
      have hn' : n < st.length := Nat.lt_of_succ_lt hn
      have hid := List.getElem?_eq_getElem hn'
      by_cases hc : ∃ c s, g.slots st[n] = some c ∧ c.cumulative = some s
      · obtain ⟨c, s, h1, h2⟩ := hc
        exact ⟨_, _, _, .read2 hid h1 h2⟩
      · exact ⟨_, _, _, .read2None hid (fun c s h1 h2 => hc ⟨c, s, h1, h2⟩)⟩
  | looking =>
    obtain ⟨-, ops', rfl⟩ := hp
    cases hs : g.slots id with
    | none => exact ⟨_, _, _, .lookNone h hs⟩
    | some c => exact ⟨_, _, _, .look h hs⟩
  | _ => exact h.elim

theorem act_of_free {g : CtxState S} {i : Nat} {t : CtxThread S} (hp : PhaseInv O chain g t) (hf : ¬ CtxThread.finished t)
    (hne : ∀ ops, t.ops = .look :: ops → t.stack ≠ []) (hW : ∀ id, ¬ t.HoldsW id) (hR : ∀ id, ¬ t.HoldsR id)
    (hw : ∀ id, g.CanWrite i id) (hr : ∀ id, g.CanRead i id) : ∃ t' slots counter, CtxAct O g i t t' slots counter := by
  obtain ⟨st, n, ph, ops, out⟩ := t
  cases ph with
  | idle =>
    cases ops with
    | nil => exact absurd ⟨rfl, rfl⟩ hf
    | cons op ops =>
      cases op with
      | push id as => exact ⟨_, _, _, .pushTake (hw id)⟩
      | pop =>
        rcases List.eq_nil_or_concat st with rfl | ⟨st', id, rfl⟩
        · exact ⟨_, _, _, .popEmpty⟩
        · rw [List.concat_eq_append]
          exact ⟨_, _, _, .popStart⟩
      | apply k => exact ⟨_, _, _, .applyStart⟩
      | look =>
        cases hl : st.getLast? with
        | none =>
          obtain rfl := List.getLast?_eq_none_iff.1 hl
          exact ⟨_, _, _, .lookEmpty⟩
        | some id => exact ⟨_, _, _, .lookTake hl (hr id)⟩
  | creating =>
    obtain ⟨-, id, as, ops', rfl⟩ := hp
    exact absurd ⟨as, ops', rfl⟩ (hW id)
  | catching =>
    obtain ⟨hn, k, ops', rfl⟩ := hp
    cases hs : st[n]? with
    | some id => exact ⟨_, _, _, .readTake hs (hr id)⟩
    | none =>
      by_cases hk : n < k + 1
      · exact ⟨_, _, _, .readRange hs hk⟩
      · have hle : st.length ≤ n := List.getElem?_eq_none_iff.1 hs
        cases hi : st[k]? with
        | some id => exact ⟨_, _, _, .applyTake (by omega) hi (hw id)⟩
        | none => exact ⟨_, _, _, .applyRange (by omega) hi⟩
  | reading =>
    exact absurd (List.getElem?_eq_getElem hp.1) (hR _)
  | reading2 as =>
    exact absurd (Or.inl (List.getElem?_eq_getElem hp.1)) (hR _)
  | computed s =>
    obtain ⟨hn, ⟨k, ops', rfl⟩, -⟩ := hp
    exact ⟨_, _, _, .writeTake (List.getElem?_eq_getElem hn) (hw _)⟩
  | writing s =>
    exact absurd (List.getElem?_eq_getElem hp.1) (hW _)
  | applying =>
    obtain ⟨hn, k, ops', rfl, hk⟩ := hp
    exact absurd ⟨k, ops', rfl, List.getElem?_eq_getElem (Nat.lt_of_lt_of_le hk hn)⟩ (hW _)
  | looking =>
    obtain ⟨-, ops', rfl⟩ := hp
    cases hl : st.getLast? with
    | none => exact absurd (List.getLast?_eq_none_iff.1 hl) (hne ops' rfl)
    | some id => exact absurd hl (hR id)
  | popped id =>
    cases hc : g.counter id with
    | zero => exact ⟨_, _, _, .loadZero hc⟩
    | succ v => exact ⟨_, _, _, .load hc⟩
  | loaded id v =>
    cases v with
    | zero => exact ⟨_, _, _, .dropTake (hw id)⟩
    | succ v => exact ⟨_, _, _, .store (by omega)⟩
  | dropping id => exact absurd rfl (hW id)
  | dropped id => exact ⟨_, _, _, .storeZero⟩
  | panicked => exact hp.elim

/-- Unless all threads have finished, some thread can go on. -/
theorem CtxInv.progress {progs : List (List CtxOp)} {g : CtxState S} (h : CtxInv O chain progs g) {i : Nat} {t : CtxThread S}
    (ht : g.threads[i]? = some t) (hf : ¬ CtxThread.finished t) : ∃ g', CtxStep O g g' := by
  classical
  by_cases hW : ∃ (j : Nat) (u : CtxThread S) (id : Nat), g.threads[j]? = some u ∧ u.HoldsW id
  · obtain ⟨j, u, id, hu, hw⟩ := hW
    obtain ⟨prog, st, -, hi⟩ := h.thr j u hu
    obtain ⟨t', slots, counter, ha⟩ := act_of_holdsW (i := j) hi.phase hw
    exact ⟨_, .mk hu ha⟩
  · have hr : ∀ j id, g.CanRead j id := fun j id k u _ hu hw => hW ⟨k, u, id, hu, hw⟩
    by_cases hR : ∃ (j : Nat) (u : CtxThread S) (id : Nat), g.threads[j]? = some u ∧ u.HoldsR id
    · obtain ⟨j, u, id, hu, hh⟩ := hR
      obtain ⟨prog, st, -, hi⟩ := h.thr j u hu
      obtain ⟨t', slots, counter, ha⟩ := act_of_holdsR (i := j) hi.phase hh (hr j)
      exact ⟨_, .mk hu ha⟩
    · have hw : ∀ id, g.CanWrite i id := fun id k u _ hu => ⟨fun h1 => hW ⟨k, u, id, hu, h1⟩, fun h1 => hR ⟨k, u, id, hu, h1⟩⟩
      obtain ⟨prog, st, -, hi⟩ := h.thr i t ht
      have hne : ∀ ops, t.ops = .look :: ops → t.stack ≠ [] := by
        intro ops ho hs
        have h1 := hi.valid
        rw [ho] at h1
        have h2 := hi.stack
        rw [hs] at h2
        exact h1.1 (List.map_eq_nil_iff.1 h2.symm)
      obtain ⟨t', slots, counter, ha⟩ := act_of_free (i := i) hi.phase hf hne (fun id h1 => hW ⟨i, t, id, ht, h1⟩)
        (fun id h1 => hR ⟨i, t, id, ht, h1⟩) hw (hr i)
      exact ⟨_, .mk ht ha⟩

/-! ## A measure -/

def phaseRank : CtxPhase S → Nat
  | .popped _ => 20
  | .loaded _ _ => 19
  | .dropping _ => 18
  | .dropped _ => 17
  | .idle => 10
  | .creating => 9
  | .catching => 8
  | .reading => 7
  | .reading2 _ => 6
  | .computed _ => 5
  | .writing _ => 4
  | .applying => 3
  | .looking => 3
  | .panicked => 0

def threadMeasure (t : CtxThread S) : Nat :=
  t.ops.length * ((t.stack.length + t.ops.length + 1) * 32) + (t.stack.length - t.num) * 32 + phaseRank t.phase

theorem phaseRank_lt (ph : CtxPhase S) : phaseRank ph < 32 := by cases ph <;> simp [phaseRank]

theorem threadMeasure_ops {t t' : CtxThread S} {op : CtxOp} (h : t.ops = op :: t'.ops) (hs : t'.stack.length ≤ t.stack.length + 1) :
    threadMeasure t' < threadMeasure t := by
  have h1 := phaseRank_lt t'.phase
  have h2 : threadMeasure t' < (t'.ops.length + 1) * ((t'.stack.length + t'.ops.length + 1) * 32) := by
    rw [threadMeasure, Nat.add_mul t'.ops.length 1, Nat.one_mul]
    generalize t'.ops.length * ((t'.stack.length + t'.ops.length + 1) * 32) = x
    omega
  refine Nat.lt_of_lt_of_le h2 ?_
  have h3 : (t'.ops.length + 1) * ((t'.stack.length + t'.ops.length + 1) * 32) ≤ (t'.ops.length + 1) * ((t.stack.length + (t'.ops.length + 1) + 1) * 32) :=
    Nat.mul_le_mul_left _ (by omega)
  refine Nat.le_trans h3 ?_
  rw [threadMeasure, h, List.length_cons]
  exact Nat.le_trans (Nat.le_add_right _ _) (Nat.le_add_right _ _)

theorem CtxAct.measure {g : CtxState S} {i : Nat} {t t' : CtxThread S} {slots : Nat → Option (SharedCtx S)} {counter : Nat → Nat}
    (h : CtxAct O g i t t' slots counter) : threadMeasure t' < threadMeasure t := by
  cases h with
  | pushBusy | create | popEmpty | apply | look => exact threadMeasure_ops rfl (by simp)
  | popStart => exact threadMeasure_ops rfl (by simp; omega)
  | @write st n id c s k ops out h1 h2 =>
    have := (List.getElem?_eq_some_iff.1 h1).1
    simp only [threadMeasure, phaseRank]
    omega
  | store | storeZero =>
    simp only [threadMeasure, phaseRank]
    omega
  | _ => simp only [threadMeasure, phaseRank]; omega

def stateMeasure (g : CtxState S) : Nat := (g.threads.map threadMeasure).sum

theorem sum_set_lt {ts : List (CtxThread S)} {i : Nat} {t t' : CtxThread S} (h : ts[i]? = some t) (hlt : threadMeasure t' < threadMeasure t) :
    ((ts.set i t').map threadMeasure).sum < (ts.map threadMeasure).sum := by
  induction ts generalizing i with
  | nil => simp at h
  | cons a ts ih =>
    cases i with
    | zero =>
      simp only [List.getElem?_cons_zero, Option.some.injEq] at h
      subst h
      simpa using hlt
    | succ i => simpa using ih (i := i) (by simpa using h)

theorem CtxStep.measure {g g' : CtxState S} (h : CtxStep O g g') : stateMeasure g' < stateMeasure g := by
  cases h with
  | mk ht ha => exact sum_set_lt ht ha.measure

theorem CtxRun.trans {a b c : CtxState S} (h : CtxRun O a b) (h' : CtxRun O b c) : CtxRun O a c := by
  induction h' with
  | refl => exact h
  | step _ hs ih => exact .step ih hs

theorem CtxInv.finishes {progs : List (List CtxOp)} {g : CtxState S} (h : CtxInv O chain progs g) :
    ∃ g', CtxRun O g g' ∧ ∀ t ∈ g'.threads, CtxThread.finished t := by
  classical
  induction hm : stateMeasure g using Nat.strongRecOn generalizing g with
  | _ m ih =>
    by_cases hf : ∀ t ∈ g.threads, CtxThread.finished t
    · exact ⟨g, .refl, hf⟩
    · simp only [not_forall] at hf
      obtain ⟨t, ht, hnf⟩ := hf
      obtain ⟨i, hi⟩ := List.getElem?_of_mem ht
      obtain ⟨g1, h1⟩ := h.progress hi hnf
      obtain ⟨g2, h2, h3⟩ := ih _ (hm ▸ h1.measure) (CtxRun.inv (.step .refl h1) h) rfl
      exact ⟨g2, (CtxRun.step .refl h1).trans h2, h3⟩

end Carcara
