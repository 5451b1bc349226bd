import Verif.Model.Parallel
import Verif.Lemmas.Checker
import Verif.Lemmas.ProofParser
import Verif.Lemmas.SchedulerIter
import Verif.Lemmas.Quantifier
import Mathlib.Data.List.Induction

/-! # The parallel checker -/

namespace Carcara

open Spec

theorem checkStepCore_eq (P : Params) (cfg : Config) (it : Iter) (a : RuleArgs) (s : Step) :
    checkStepCore P cfg it a s = stepCore P cfg it.isEndStep it.currentSubproof it.depth a s := rfl

/-! ## Positions and occurrences -/

/-- The anchors of the subproofs along a path. -/
def ctxAt : List Command → List Nat → Option (List (List AnchorArg))
  | _, [] => some []
  | cs, i :: path => match cs[i]? with
    | some (.subproof sub as _) => (ctxAt sub path).map (as :: ·)
    | _ => none

theorem ctxAt_snoc {cs : List Command} {path : List Nat} {i : Nat} {sub : List Command} {as : List AnchorArg} {n : Nat}
    (h : commandAt cs path i = some (.subproof sub as n)) : ctxAt cs (path ++ [i]) = (ctxAt cs path).map (· ++ [as]) := by
  induction path generalizing cs with
  | nil =>
    rw [commandAt_nil] at h
    simp [ctxAt, h]
  | cons k path ih =>
    obtain ⟨sub', as', n', h1, h2⟩ := commandAt_cons.1 h
    simp only [List.cons_append, ctxAt, h1, ih h2, Option.map_map]
    rfl

theorem ctxAt_take {cs : List Command} {path : List Nat} {Γ : List (List AnchorArg)} (h : ctxAt cs path = some Γ) (k : Nat) :
    ctxAt cs (path.take k) = some (Γ.take k) := by
  induction path generalizing cs Γ k with
  | nil =>
    cases h
    simp [ctxAt]
  | cons i path ih =>
    cases k with
    | zero => simp [ctxAt]
    | succ k =>
      rw [ctxAt] at h
      split at h
      · rename_i sub as n hi
        obtain ⟨Γ', h1, rfl⟩ := Option.map_eq_some_iff.1 h
        simp [ctxAt, hi, ih h1 k]
      · cases h

theorem ctxAt_length {cs : List Command} {path : List Nat} {Γ : List (List AnchorArg)} (h : ctxAt cs path = some Γ) : Γ.length = path.length := by
  induction path generalizing cs Γ with
  | nil => cases h; rfl
  | cons i path ih =>
    rw [ctxAt] at h
    split at h
    · obtain ⟨Γ', h1, rfl⟩ := Option.map_eq_some_iff.1 h
      simp [ih h1]
    · cases h

/-- The frames of a position. -/
structure FramesAt (proof : List Command) (path : List Nat) (i : Nat) (F : Frames) (Γ : List (List AnchorArg)) : Prop where
  ctx : ctxAt proof path = some Γ
  idx : F.map (·.1) = i :: path.reverse
  stack : StackAt proof path (F.map (·.2))

theorem occ_commandAt {proof : List Command} {F : Frames} {Γ : List (List AnchorArg)} {c : Command} (h : Occ proof F Γ c) :
    ∃ path i, commandAt proof path i = some c ∧ FramesAt proof path i F Γ := by
  induction h with
  | @top i c hi => exact ⟨[], i, hi, rfl, rfl, StackAt.start proof⟩
  | @sub F Γ cs as n j c _ hj ih =>
    obtain ⟨path, i, h1, h2⟩ := ih
    have hs := commandsAt_snoc.2 ⟨as, n, h1⟩
    refine ⟨path ++ [i], j, by rw [commandAt, hs]; exact hj, by rw [ctxAt_snoc h1, h2.ctx]; rfl, by simp [h2.idx], h2.stack.push hs⟩

theorem commandAt_occ {proof : List Command} {path : List Nat} {i : Nat} {c : Command} (h : commandAt proof path i = some c) :
    ∃ F Γ, Occ proof F Γ c ∧ FramesAt proof path i F Γ := by
  induction path using List.reverseRecOn generalizing i c with
  | nil => exact ⟨_, _, .top h, rfl, rfl, StackAt.start proof⟩
  | append_singleton path k ih =>
    obtain ⟨sub, hs, hi⟩ := Option.bind_eq_some_iff.1 h
    obtain ⟨as, n, hk⟩ := commandsAt_snoc.1 hs
    obtain ⟨F, Γ, h1, h2⟩ := ih hk
    exact ⟨_, _, .sub h1 hi, by rw [ctxAt_snoc hk, h2.ctx]; rfl, by simp [h2.idx], h2.stack.push hs⟩

theorem StackAt.unique {proof : List Command} {path : List Nat} {s s' : List (List Command)} (h : StackAt proof path s)
    (h' : StackAt proof path s') : s = s' := by
  have : s.reverse = s'.reverse := by
    refine List.ext_getElem? fun j => ?_
    by_cases hj : j ≤ path.length
    · rw [h.get j hj, h'.get j hj]
    · rw [List.getElem?_eq_none (by rw [List.length_reverse, h.length]; omega), List.getElem?_eq_none (by rw [List.length_reverse, h'.length]; omega)]
  exact List.reverse_injective this

/-! ## The iterators agree -/

section
variable {proof : List Command} {path : List Nat} {i : Nat} {F : Frames} {Γ : List (List AnchorArg)} {it : SIter}

theorem iter_depth_eq (hs : it.stack = F.map (·.2)) : it.depth = F.iter.depth := by
  simp [SIter.depth, Iter.depth, Frames.iter, hs]

theorem iter_inSubproof_eq (hs : it.stack = F.map (·.2)) : it.isInSubproof = F.iter.isInSubproof := by
  rw [SIter.isInSubproof, Iter.isInSubproof, iter_depth_eq hs]

theorem iter_current_eq (hs : it.stack = F.map (·.2)) : it.currentSubproof = F.iter.currentSubproof := by
  rw [SIter.currentSubproof, Iter.currentSubproof, iter_inSubproof_eq hs, hs]
  cases F <;> simp [Frames.iter]

theorem iter_get_eq (hs : it.stack = F.map (·.2)) (p : Nat × Nat) : it.getPremise p = F.iter.getPremise p := by
  rw [SIter.getPremise, Iter.getPremise, hs, Frames.iter, ← List.map_reverse, ← List.map_reverse, List.getElem?_map, List.getElem?_map]
  cases F.reverse[p.1]? <;> rfl

theorem iter_end_eq {c : Command} (hc : commandAt proof path i = some c) (hF : FramesAt proof path i F Γ) (hs : it.stack = F.map (·.2)) {d : Nat}
    (hd : it.done.getLast? = some (.cmd d i)) : it.isEndStep = F.iter.isEndStep := by
  rw [SIter.isEndStep, Iter.isEndStep.eq_def, iter_inSubproof_eq hs, hd, hs]
  have htop := hF.stack.top
  have hi := hF.idx
  cases F with
  | nil => cases hi
  | cons f F =>
    obtain ⟨j, cs⟩ := f
    simp only [List.map_cons, List.cons.injEq] at hi
    obtain ⟨rfl, -⟩ := hi
    simp only [List.map_cons, List.head?_cons] at htop
    obtain ⟨cs', h1, h2⟩ := Option.bind_eq_some_iff.1 hc
    rw [← htop] at h1
    cases h1
    have := lt_of_getElem? h2
    simp only [Frames.iter, List.map_cons]
    congr 1
    rw [Bool.eq_iff_iff, beq_iff_eq, beq_iff_eq]
    omega

theorem workerArgs_eq {c : Command} {cfg : Config} {s : Step} (hc : commandAt proof path i = some c) (hF : FramesAt proof path i F Γ)
    (hs : it.stack = F.map (·.2)) {d : Nat} (hd : it.done.getLast? = some (.cmd d i)) : workerArgs cfg it Γ s = ruleArgs cfg F.iter Γ s := by
  have hget : it.getPremise = F.iter.getPremise := funext (iter_get_eq hs)
  have hp : workerPremise it = premiseClause F.iter := by
    funext p
    rw [workerPremise, premiseClause, hget]
  rw [workerArgs, ruleArgs, hp, hget]
  congr 1
  rw [workerPrevious, iter_end_eq hc hF hs hd, iter_current_eq hs]
  rfl

end

/-! ## The context of a worker -/

theorem popLoop_take {depth : Nat} {isSub : Bool} : ∀ {last : Nat} {ctx : List (List AnchorArg)}, ctx.length = last →
    popLoop depth isSub last ctx = ctx.take (if isSub then depth - 1 else depth)
  | 0, ctx, h => by
    have : ctx = [] := List.eq_nil_of_length_eq_zero h
    subst this
    simp [popLoop]
  | last + 1, ctx, h => by
    rw [popLoop]
    split
    · rename_i hc
      rw [popLoop_take (by rw [List.length_dropLast, h]; rfl), List.dropLast_eq_take, List.take_take, h]
      congr 1
      cases isSub with
      | false => simp at hc ⊢; omega
      | true => simp at hc ⊢; omega
    · rename_i hc
      rw [List.take_of_length_le]
      cases isSub with
      | false => simp at hc ⊢; omega
      | true => simp at hc ⊢; omega

/-! ## A worker -/

/-- What is checked at a position, and the flags of the position. -/
def PosFine (P : Params) (cfg : Config) (prem : List Term) (proof : List Command) (p : List Nat × Nat) : Prop :=
  ∀ F Γ c, commandAt proof p.1 p.2 = some c → FramesAt proof p.1 p.2 F Γ → PosOK P cfg prem F Γ c

def PosReached (proof : List Command) (p : List Nat × Nat) : Prop := p.1 = [] ∧ ∃ s, commandAt proof p.1 p.2 = some (.step s) ∧ s.clause = []
def PosHoley (P : Params) (cfg : Config) (proof : List Command) (p : List Nat × Nat) : Prop :=
  ∃ s, commandAt proof p.1 p.2 = some (.step s) ∧ s.holey P cfg

theorem FramesAt.unique {proof : List Command} {path : List Nat} {i : Nat} {F F' : Frames} {Γ Γ' : List (List AnchorArg)}
    (h : FramesAt proof path i F Γ) (h' : FramesAt proof path i F' Γ') : F = F' ∧ Γ = Γ' := by
  refine ⟨?_, Option.some.inj (h.ctx.symm.trans h'.ctx)⟩
  have h1 : F.map (·.1) = F'.map (·.1) := h.idx.trans h'.idx.symm
  have h2 : F.map (·.2) = F'.map (·.2) := h.stack.unique h'.stack
  have : ∀ (l l' : Frames), l.map (·.1) = l'.map (·.1) → l.map (·.2) = l'.map (·.2) → l = l' := by
    intro l
    induction l with
    | nil => intro l' h _; cases l' with | nil => rfl | cons => cases h
    | cons a l ih =>
      intro l' ha hb
      cases l' with
      | nil => cases ha
      | cons b l' =>
        simp only [List.map_cons, List.cons.injEq] at ha hb
        rw [ih l' ha.2 hb.2, Prod.ext ha.1 hb.1]
  exact this F F' h1 h2

variable {P : Params} {cfg : Config} {prem : List Term} {proof : List Command}

/-- One iteration of a worker. -/
theorem workerVisit_iff {path : List Nat} {i : Nat} {c : Command} {it : SIter} {st st' : State} {lastPath : List Nat}
    (ha : AtPosition proof (path, i) (c, it)) (hctx : ctxAt proof lastPath = some st.context)
    (hpre : path <+: lastPath) :
    workerVisit P cfg prem it lastPath.length st c = .ok st' ↔
      PosFine P cfg prem proof (path, i) ∧ ctxAt proof (pathAfter proof (path, i)) = some st'.context ∧
      (st'.reached = true ↔ st.reached = true ∨ PosReached proof (path, i)) ∧
      (st'.holey = true ↔ st.holey = true ∨ PosHoley P cfg proof (path, i)) := by
  obtain ⟨hc, hstack, d, hd⟩ := ha
  simp only at hc hstack hd
  obtain ⟨F, Γ, hocc, hF⟩ := commandAt_occ hc
  have hfine : PosFine P cfg prem proof (path, i) ↔ PosOK P cfg prem F Γ c := by
    constructor
    · exact fun h => h F Γ c hc hF
    · intro h F' Γ' c' hc' hF'
      obtain ⟨rfl, rfl⟩ := hF.unique hF'
      rw [hc] at hc'
      cases hc'
      exact h
  have hΓ : st.context.take path.length = Γ := by
    have := ctxAt_take hctx path.length
    rw [← List.prefix_iff_eq_take.1 hpre, hF.ctx] at this
    exact (Option.some.inj this).symm
  have hpop : popLoop it.depth c.isSubproof lastPath.length st.context = Γ := by
    rw [popLoop_take (ctxAt_length hctx), ← hΓ]
    congr 1
    have hlen := hstack.length
    rw [SIter.depth, hlen]
    unfold pathAfter
    simp only [hc]
    cases c <;> simp [Command.isSubproof]
  rw [hfine]
  obtain ⟨ctx', r', hy'⟩ := st'
  unfold workerVisit
  simp only [hpop]
  have hat : ctxAt proof path = some Γ := hF.ctx
  cases c with
  | assume id t =>
    have e : pathAfter proof (path, i) = path := by unfold pathAfter; simp only [hc]
    rw [e] at hstack ⊢
    have hs : it.stack = F.map (·.2) := hstack.unique hF.stack
    rw [iter_inSubproof_eq hs]
    simp only [PosOK, PosReached, PosHoley, hc, Option.some.injEq, reduceCtorEq, false_and, exists_false, and_false, or_false, hat]
    cases h : checkAssume P cfg prem (Frames.iter F).isInSubproof t with
    | error f => simp [bind, Except.bind]
    | ok v =>
      cases v with
      | false => simp [bind, Except.bind]
      | true =>
        simp only [bind, Except.bind, if_true, ok_inj, State.mk.injEq, true_and]
        constructor
        · rintro ⟨rfl, rfl, rfl⟩; simp
        · rintro ⟨h0, h1, h2⟩; exact ⟨h0, (Bool.eq_iff_iff.2 h1).symm, (Bool.eq_iff_iff.2 h2).symm⟩
  | subproof cs as n =>
    have e : pathAfter proof (path, i) = path ++ [i] := by unfold pathAfter; simp only [hc]
    rw [e, ctxAt_snoc hc, hat]
    simp only [PosOK, PosReached, PosHoley, hc, Option.some.injEq, reduceCtorEq, false_and, exists_false, and_false, or_false, Option.map_some,
      bind_ok, ok_inj, State.mk.injEq, exists_and_right]
    constructor
    · rintro ⟨h, rfl, rfl, rfl⟩; exact ⟨h, rfl, Iff.rfl, Iff.rfl⟩
    · rintro ⟨h, rfl, h1, h2⟩
      exact ⟨h, rfl, (Bool.eq_iff_iff.2 h1).symm, (Bool.eq_iff_iff.2 h2).symm⟩
  | step s =>
    have e : pathAfter proof (path, i) = path := by unfold pathAfter; simp only [hc]
    rw [e] at hstack ⊢
    have hs : it.stack = F.map (·.2) := hstack.unique hF.stack
    simp only
    rw [workerArgs_eq hc hF hs hd, iter_end_eq hc hF hs hd, iter_current_eq hs, iter_depth_eq hs]
    simp only [← checkStepCore_eq]
    have hreach : (Γ.isEmpty = true) ↔ path = [] := by
      have := ctxAt_length hat
      rw [List.isEmpty_iff]
      constructor
      · rintro rfl; exact List.eq_nil_of_length_eq_zero this.symm
      · rintro rfl; exact List.eq_nil_of_length_eq_zero this
    simp only [PosOK, PosReached, PosHoley, hc, Option.some.injEq, Command.step.injEq, exists_eq_left', hat, bind_ok, ok_inj, State.mk.injEq]
    constructor
    · rintro ⟨a, ha, h, hh, rfl, rfl, rfl⟩
      refine ⟨⟨a, h, ha, hh⟩, rfl, ?_, ?_⟩
      · simp only [Bool.or_eq_true, Bool.and_eq_true, List.isEmpty_iff (l := s.clause), hreach]
        exact or_congr Iff.rfl and_comm
      · simp only [Bool.or_eq_true, checkStepCore_holey hh]
    · rintro ⟨⟨a, h, ha, hh⟩, rfl, h1, h2⟩
      refine ⟨a, ha, h, hh, rfl, ?_, ?_⟩
      · rw [Bool.eq_iff_iff, h1]
        simp only [Bool.or_eq_true, Bool.and_eq_true, List.isEmpty_iff (l := s.clause), hreach]
        exact or_congr Iff.rfl and_comm
      · rw [Bool.eq_iff_iff, h2]
        simp only [Bool.or_eq_true, checkStepCore_holey hh]

/-- Each position is in a subproof that is still open after the one before it. -/
def PathChain (proof : List Command) : List Nat → List (List Nat × Nat) → Prop
  | _, [] => True
  | last, p :: ps => p.1 <+: last ∧ PathChain proof (pathAfter proof p) ps

def endPath (proof : List Command) : List Nat → List (List Nat × Nat) → List Nat
  | last, [] => last
  | _, p :: ps => endPath proof (pathAfter proof p) ps

theorem positions_chain : ∀ {es : Load} {at_ last : List Nat}, at_ <+: last → PathChain proof last (Spec.positions proof (some at_) es)
  | [], _, _, _ => trivial
  | .cmd d i :: es, at_, last, h => by
    rw [Spec.positions]
    refine ⟨h, ?_⟩
    unfold pathAfter
    simp only
    generalize commandAt proof at_ i = o
    cases o with
    | none => exact positions_chain (List.prefix_refl _)
    | some c => cases c <;> exact positions_chain (List.prefix_refl _)
  | .close d :: es, at_, last, h => by
    rw [Spec.positions]
    split
    · cases es <;> trivial
    · exact positions_chain ((List.dropLast_prefix _).trans h)

theorem workerLoop_iff : ∀ {n : Nat} {ps : List (List Nat × Nat)} {l : List (Command × SIter)} {it : SIter} {st st' : State} {lastPath : List Nat},
    IterYields it l → List.Forall₂ (AtPosition proof) ps l → PathChain proof lastPath ps → ctxAt proof lastPath = some st.context →
    (workerLoop P cfg prem n it lastPath.length st = .ok st' ↔
      (∀ p ∈ ps.take n, PosFine P cfg prem proof p) ∧ ctxAt proof (endPath proof lastPath (ps.take n)) = some st'.context ∧
      (st'.reached = true ↔ st.reached = true ∨ ∃ p ∈ ps.take n, PosReached proof p) ∧
      (st'.holey = true ↔ st.holey = true ∨ ∃ p ∈ ps.take n, PosHoley P cfg proof p)) := by
  intro n
  have base : ∀ {st st' : State} {lastPath : List Nat}, ctxAt proof lastPath = some st.context →
    ((.ok st : Res State) = .ok st' ↔ ctxAt proof lastPath = some st'.context ∧ (st'.reached = true ↔ st.reached = true) ∧
      (st'.holey = true ↔ st.holey = true)) := by
    intro st st' lastPath h
    obtain ⟨c, r, y⟩ := st
    obtain ⟨c', r', y'⟩ := st'
    simp only [ok_inj, State.mk.injEq, h, Option.some.injEq, ← Bool.eq_iff_iff]
    exact and_congr Iff.rfl (and_congr eq_comm eq_comm)
  induction n with
  | zero =>
    intro ps l it st st' lastPath _ _ _ hctx
    simp [workerLoop, base hctx, endPath]
  | succ n ih =>
    intro ps l it st st' lastPath hy hf hch hctx
    rw [workerLoop]
    cases hy with
    | nil h0 =>
      cases hf
      simp [h0, bind, Except.bind, base hctx, endPath]
    | @cons _ it' c l h0 hy =>
      cases hf with
      | @cons p _ ps _ ha hf =>
        obtain ⟨path, i⟩ := p
        obtain ⟨hpre, hch⟩ := hch
        have hlen : it'.depth = (pathAfter proof (path, i)).length := by
          have := ha.stack.length
          simp only [SIter.depth] at this ⊢
          omega
        simp only [h0, bind_ok, ok_inj, exists_eq_left', List.take_succ_cons, List.forall_mem_cons, List.exists_mem_cons_iff, endPath]
        constructor
        · rintro ⟨st1, h1, h2⟩
          obtain ⟨f1, c1, r1, y1⟩ := (workerVisit_iff ha hctx hpre).1 h1
          rw [hlen] at h2
          obtain ⟨f2, c2, r2, y2⟩ := (ih hy hf hch c1).1 h2
          exact ⟨⟨f1, f2⟩, c2, by rw [r2, r1, or_assoc], by rw [y2, y1, or_assoc]⟩
        · rintro ⟨⟨f1, f2⟩, c2, r2, y2⟩
          have hc1 : ∃ Γ, ctxAt proof (pathAfter proof (path, i)) = some Γ := by
            obtain ⟨F, Γ, -, hF⟩ := commandAt_occ ha.command
            unfold pathAfter
            split
            · rename_i hc
              exact ⟨_, by rw [ctxAt_snoc hc, hF.ctx]; rfl⟩
            · exact ⟨_, hF.ctx⟩
          obtain ⟨Γ, hΓ⟩ := hc1
          classical
          refine ⟨⟨Γ, decide (st.reached = true ∨ PosReached proof (path, i)), decide (st.holey = true ∨ PosHoley P cfg proof (path, i))⟩, ?_, ?_⟩
          · exact (workerVisit_iff ha hctx hpre).2 ⟨f1, hΓ, by simp, by simp⟩
          · rw [hlen]
            refine (ih hy hf hch hΓ).2 ⟨f2, c2, ?_, ?_⟩
            · rw [r2]; simp [or_assoc]
            · rw [y2]; simp [or_assoc]

/-- Positions of a load. -/
theorem visited_positions : ∀ {es : Load} {r r' : Replay}, es.foldlM (replayStep proof) r = some r' →
    ∀ p, p ∈ r'.visited ↔ p ∈ r.visited ∨ (p ∈ Spec.positions proof r.at_ es ∧ ∃ c, commandAt proof p.1 p.2 = some c ∧ c.IsLeaf)
  | [], r, r', h, p => by
    cases h
    simp [Spec.positions]
  | e :: es, r, r', h, p => by
    obtain ⟨r1, h1, h2⟩ := replay_cons h
    rw [visited_positions h2 p]
    rcases replayStep_cases h1 with ⟨path, i, c, rfl, ha, hc, hne, hb, hv, -⟩ | ⟨path, i, sub, as, n, rfl, ha, hc, hb, hv, -⟩ | ⟨path, rfl, ha, hb, hv, -⟩
    · have hp : Spec.positions proof r.at_ (.cmd path.length i :: es) = (path, i) :: Spec.positions proof r1.at_ es := by
        rw [ha, hb, Spec.positions, hc]
        cases c with
        | subproof a b n => exact absurd rfl (hne a b n)
        | assume | step => rfl
      rw [hp, hv, List.mem_append, List.mem_singleton, List.mem_cons, or_assoc]
      refine or_congr Iff.rfl ?_
      constructor
      · rintro (rfl | h)
        · exact ⟨.inl rfl, c, hc, hne⟩
        · exact ⟨.inr h.1, h.2⟩
      · rintro ⟨rfl | h, h'⟩
        · exact .inl rfl
        · exact .inr ⟨h, h'⟩
    · have hp : Spec.positions proof r.at_ (.cmd path.length i :: es) = (path, i) :: Spec.positions proof r1.at_ es := by
        rw [ha, hb, Spec.positions, hc]
      rw [hp, hv, List.mem_cons]
      refine or_congr Iff.rfl ?_
      constructor
      · rintro ⟨h, h'⟩
        exact ⟨.inr h, h'⟩
      · rintro ⟨rfl | h, c, hc', hl⟩
        · rw [hc] at hc'
          cases hc'
          exact absurd rfl (hl _ _ _)
        · exact ⟨h, c, hc', hl⟩
    · rw [hv, ha, Spec.positions, ← hb]

theorem positions_command : ∀ {es : Load} {r r' : Replay}, es.foldlM (replayStep proof) r = some r' →
    ∀ p ∈ Spec.positions proof r.at_ es, ∃ c, commandAt proof p.1 p.2 = some c := by
  intro es r r' h p hp
  induction es generalizing r with
  | nil => simp [Spec.positions] at hp
  | cons e es ih =>
    obtain ⟨r1, h1, h2⟩ := replay_cons h
    rcases replayStep_cases h1 with ⟨path, i, c, rfl, ha, hc, hne, hb, hv, -⟩ | ⟨path, i, sub, as, n, rfl, ha, hc, hb, hv, -⟩ | ⟨path, rfl, ha, hb, hv, -⟩
    · have hp' : Spec.positions proof r.at_ (.cmd path.length i :: es) = (path, i) :: Spec.positions proof r1.at_ es := by
        rw [ha, hb, Spec.positions, hc]
        cases c with
        | subproof a b n => exact absurd rfl (hne a b n)
        | assume | step => rfl
      rw [hp'] at hp
      rcases List.mem_cons.1 hp with rfl | hp
      · exact ⟨c, hc⟩
      · exact ih h2 hp
    · have hp' : Spec.positions proof r.at_ (.cmd path.length i :: es) = (path, i) :: Spec.positions proof r1.at_ es := by
        rw [ha, hb, Spec.positions, hc]
      rw [hp'] at hp
      rcases List.mem_cons.1 hp with rfl | hp
      · exact ⟨_, hc⟩
      · exact ih h2 hp
    · rw [ha, Spec.positions, ← hb] at hp
      exact ih h2 hp

theorem positions_length : ∀ (es : Load) (at_ : Option (List Nat)), (Spec.positions proof at_ es).length ≤ es.length
  | [], _ => by simp [Spec.positions]
  | _ :: _, none => by simp [Spec.positions]
  | .cmd d i :: es, some path => by
    rw [Spec.positions]
    simp only [List.length_cons, Nat.add_le_add_iff_right]
    split <;> exact positions_length es _
  | .close d :: es, some path => by
    rw [Spec.positions]
    exact Nat.le_succ_of_le (positions_length es _)

/-- A worker: with the limit `n`, it checks the first `n` Spec.positions of its load. -/
theorem worker_iff {load : Load} {r : Replay} (h : replay proof load = some r) {n : Nat} {st' : State} :
    workerLoop P cfg prem n (SIter.start proof load) 0 {} = .ok st' ↔
      (∀ p ∈ (Spec.positions proof (some []) load).take n, PosFine P cfg prem proof p) ∧
      ctxAt proof (endPath proof [] ((Spec.positions proof (some []) load).take n)) = some st'.context ∧
      (st'.reached = true ↔ ∃ p ∈ (Spec.positions proof (some []) load).take n, PosReached proof p) ∧
      (st'.holey = true ↔ ∃ p ∈ (Spec.positions proof (some []) load).take n, PosHoley P cfg proof p) := by
  obtain ⟨l, hl, hf⟩ := yields_positions (r := {}) h (stack := [proof]) (done := []) (fun path hp => by cases hp; exact StackAt.start proof)
  have := workerLoop_iff (P := P) (cfg := cfg) (prem := prem) (n := n) (st := {}) (st' := st') (lastPath := []) hl hf
    (positions_chain (List.prefix_refl _)) rfl
  simpa [SIter.start] using this

/-! ## All workers -/

theorem posOK_subproof {cs : List Command} {as : List AnchorArg} {n : Nat} (h : Command.wf (.subproof cs as n) = true) :
    ∃ i, Command.id (.subproof cs as n) = .ok i := by
  simp only [Command.wf, Bool.and_eq_true, beq_iff_eq] at h
  obtain ⟨⟨-, h⟩, -⟩ := h
  obtain ⟨c, h1, h2⟩ := Option.map_eq_some_iff.1 h
  cases c with
  | step s =>
    obtain ⟨l, rfl⟩ := List.getLast?_eq_some_iff.1 h1
    exact ⟨s.id, by rw [Command.id, idLast_concat]⟩
  | assume | subproof => cases h2

/-- The positions of the loads are fine if and only if all positions are. -/
theorem fine_iff {loads : List Load} {rs : List Replay} (hwf : Command.wfL proof = true)
    (hf : List.Forall₂ (fun load r => replay proof load = some r) loads rs) (hp : (rs.flatMap (·.visited)).Perm (leaves proof)) :
    (∀ load ∈ loads, ∀ p ∈ Spec.positions proof (some []) load, PosFine P cfg prem proof p) ↔ ∀ F Γ c, Occ proof F Γ c → PosOK P cfg prem F Γ c := by
  constructor
  · intro h F Γ c ho
    obtain ⟨path, i, hc, hF⟩ := occ_commandAt ho
    by_cases hl : c.IsLeaf
    · have hm := hp.mem_iff.2 (mem_leaves.2 ⟨c, hc, hl⟩)
      obtain ⟨r, hr, hv⟩ := List.mem_flatMap.1 hm
      obtain ⟨load, hload, hrep⟩ := forall₂_right hf hr
      rcases (visited_positions hrep _).1 hv with hv | hv
      · simp at hv
      · exact h load hload _ hv.1 F Γ c hc hF
    · cases c with
      | subproof cs as n => exact posOK_subproof (ho.wf hwf)
      | assume | step => exact absurd (fun _ _ _ h => by cases h) hl
  · intro h load _ p _ F Γ c hc hF
    obtain ⟨F', Γ', ho, hF'⟩ := commandAt_occ hc
    obtain ⟨rfl, rfl⟩ := hF.unique hF'
    exact h _ _ _ ho

theorem mergeResults_ok {os : List (Res State)} {b : Bool} : mergeResults os = .ok b ↔
    (∀ o ∈ os, ∃ st, o = .ok st) ∧ (∃ st, .ok st ∈ os ∧ st.reached = true) ∧ (b = true ↔ ∃ st, .ok st ∈ os ∧ st.holey = true) := by
  have hany : ∀ f : State → Bool, os.any (outcomeFlag f) = true ↔ ∃ st, .ok st ∈ os ∧ f st = true := by
    intro f
    rw [List.any_eq_true]
    constructor
    · rintro ⟨o, ho, h⟩
      cases o with
      | ok st => exact ⟨st, ho, h⟩
      | error => cases h
    · rintro ⟨st, ho, h⟩; exact ⟨_, ho, h⟩
  unfold mergeResults
  split
  · rename_i h
    simp only [panic, reduceCtorEq, false_iff, not_and]
    intro h'
    obtain ⟨st, hst⟩ := h' _ h
    cases hst
  · rename_i hpn
    split
    · rename_i h
      simp only [err, reduceCtorEq, false_iff, not_and]
      intro h'
      obtain ⟨st, hst⟩ := h' _ h
      cases hst
    · rename_i her
      have hall : ∀ o ∈ os, ∃ st, o = Except.ok st := by
        intro o ho
        cases o with
        | ok st => exact ⟨st, rfl⟩
        | error f =>
          cases f with
          | err => exact absurd ho her
          | panic => exact absurd ho hpn
      split
      · rename_i h
        rw [hany State.reached] at h
        rw [ok_inj, ← hany State.holey]
        constructor
        · rintro rfl; exact ⟨hall, h, Iff.rfl⟩
        · rintro ⟨-, -, h⟩; exact (Bool.eq_iff_iff.2 h).symm
      · rename_i h
        rw [hany State.reached] at h
        simp only [err, reduceCtorEq, false_iff, not_and]
        exact fun _ h' => absurd h' h

theorem take_positions (load : Load) : (Spec.positions proof (some []) load).take (load.length + 1) = Spec.positions proof (some []) load :=
  List.take_of_length_le (Nat.le_succ_of_le (positions_length _ _))

theorem workerRun_iff {load : Load} {r : Replay} (h : replay proof load = some r) {st' : State} :
    workerRun P cfg prem proof load = .ok st' ↔
      (∀ p ∈ Spec.positions proof (some []) load, PosFine P cfg prem proof p) ∧
      ctxAt proof (endPath proof [] (Spec.positions proof (some []) load)) = some st'.context ∧
      (st'.reached = true ↔ ∃ p ∈ Spec.positions proof (some []) load, PosReached proof p) ∧
      (st'.holey = true ↔ ∃ p ∈ Spec.positions proof (some []) load, PosHoley P cfg proof p) := by
  rw [workerRun, worker_iff h, take_positions]

theorem endPath_ctx : ∀ {ps : List (List Nat × Nat)} {last : List Nat}, (∃ Γ, ctxAt proof last = some Γ) →
    (∀ p ∈ ps, ∃ c, commandAt proof p.1 p.2 = some c) → ∃ Γ, ctxAt proof (endPath proof last ps) = some Γ
  | [], _, h, _ => h
  | p :: ps, last, h, h' => by
    refine endPath_ctx (last := pathAfter proof p) ?_ (fun q hq => h' q (List.mem_cons_of_mem _ hq))
    obtain ⟨c, hc⟩ := h' p List.mem_cons_self
    obtain ⟨F, Γ, -, hF⟩ := commandAt_occ hc
    unfold pathAfter
    split
    · rename_i hc
      exact ⟨_, by rw [ctxAt_snoc hc, hF.ctx]; rfl⟩
    · exact ⟨_, hF.ctx⟩

/-- A worker whose positions are fine does not fail, wherever it stops. -/
theorem worker_total {load : Load} {r : Replay} (h : replay proof load = some r)
    (hfine : ∀ p ∈ Spec.positions proof (some []) load, PosFine P cfg prem proof p) (n : Nat) :
    ∃ st, workerLoop P cfg prem n (SIter.start proof load) 0 {} = .ok st := by
  obtain ⟨Γ, hΓ⟩ := endPath_ctx (proof := proof) (ps := (Spec.positions proof (some []) load).take n) (last := []) ⟨[], rfl⟩
    (fun p hp => positions_command (r := {}) h p (List.mem_of_mem_take hp))
  classical
  exact ⟨⟨Γ, decide (∃ p ∈ (Spec.positions proof (some []) load).take n, PosReached proof p),
    decide (∃ p ∈ (Spec.positions proof (some []) load).take n, PosHoley P cfg proof p)⟩,
    (worker_iff h).2 ⟨fun p hp => hfine p (List.mem_of_mem_take hp), hΓ, decide_eq_true_iff, decide_eq_true_iff⟩⟩

/-- The verdict of the threads, whatever the interleaving. -/
theorem parallelRun_iff {loads : List Load} {rs : List Replay} {os : List (Res State)} {b : Bool} (hwf : Command.wfL proof = true)
    (hf : List.Forall₂ (fun load r => replay proof load = some r) loads rs) (hp : (rs.flatMap (·.visited)).Perm (leaves proof))
    (hrun : ParallelRun P cfg prem proof loads os) :
    mergeResults os = .ok b ↔ (∀ F Γ c, Occ proof F Γ c → PosOK P cfg prem F Γ c) ∧
      (b = true ↔ ∃ F Γ s, Occ proof F Γ (.step s) ∧ s.holey P cfg) ∧ ∃ s, Command.step s ∈ proof ∧ s.clause = [] := by
  rw [← fine_iff hwf hf hp, mergeResults_ok]
  have hleaf : ∀ path i c, commandAt proof path i = some c → c.IsLeaf → ∃ load ∈ loads, (path, i) ∈ Spec.positions proof (some []) load := by
    intro path i c hc hl
    obtain ⟨r, hr, hv⟩ := List.mem_flatMap.1 (hp.mem_iff.2 (mem_leaves.2 ⟨c, hc, hl⟩))
    obtain ⟨load, hload, hrep⟩ := forall₂_right hf hr
    rcases (visited_positions hrep _).1 hv with hv | hv
    · simp at hv
    · exact ⟨load, hload, hv.1⟩
  have hstep : ∀ s : Step, (Command.step s).IsLeaf := fun s _ _ _ h => by cases h
  have hfull : (∀ o ∈ os, ∃ st, o = .ok st) → List.Forall₂ (fun load o => o = workerRun P cfg prem proof load) loads os := by
    intro h
    have her : err ∉ os := fun he => by
      obtain ⟨st, hst⟩ := h _ he
      cases hst
    refine hrun.imp fun load o hw => ?_
    rcases hw with hw | ⟨hw, -⟩
    · exact hw
    · exact absurd hw her
  have hflags : (∀ o ∈ os, ∃ st, o = .ok st) → ((∃ st, .ok st ∈ os ∧ st.reached = true) ↔ ∃ s, Command.step s ∈ proof ∧ s.clause = []) ∧
      ((∃ st, .ok st ∈ os ∧ st.holey = true) ↔ ∃ F Γ s, Occ proof F Γ (.step s) ∧ s.holey P cfg) := by
    intro hall
    have hfu := hfull hall
    have key : ∀ (Q : List Nat × Nat → Prop) (f : State → Bool),
        (∀ load ∈ loads, ∀ st, workerRun P cfg prem proof load = .ok st → (f st = true ↔ ∃ p ∈ Spec.positions proof (some []) load, Q p)) →
        ((∃ st, .ok st ∈ os ∧ f st = true) ↔ ∃ load ∈ loads, ∃ p ∈ Spec.positions proof (some []) load, Q p) := by
      intro Q f hQ
      constructor
      · rintro ⟨st, hst, h⟩
        obtain ⟨load, hload, ho⟩ := forall₂_right hfu hst
        exact ⟨load, hload, (hQ load hload st ho.symm).1 h⟩
      · rintro ⟨load, hload, h⟩
        obtain ⟨o, ho, hoe⟩ := forall₂_left hfu hload
        obtain ⟨st, rfl⟩ := hall o ho
        exact ⟨st, ho, (hQ load hload st hoe.symm).2 h⟩
    have hrep : ∀ load ∈ loads, ∃ r, replay proof load = some r := fun load hl => by
      obtain ⟨r, -, hr⟩ := forall₂_left hf hl
      exact ⟨r, hr⟩
    refine ⟨(key (PosReached proof) (·.reached) ?_).trans ?_, (key (PosHoley P cfg proof) (·.holey) ?_).trans ?_⟩
    · intro load hl st h
      obtain ⟨r, hr⟩ := hrep load hl
      exact ((workerRun_iff hr).1 h).2.2.1
    · constructor
      · rintro ⟨load, -, ⟨path, i⟩, -, hnil, s, hc, hs⟩
        simp only at hnil hc
        subst hnil
        exact ⟨s, List.mem_of_getElem? hc, hs⟩
      · rintro ⟨s, hm, hs⟩
        obtain ⟨i, hi⟩ := List.getElem?_of_mem hm
        obtain ⟨load, hload, hpos⟩ := hleaf [] i _ hi (hstep s)
        exact ⟨load, hload, _, hpos, rfl, s, hi, hs⟩
    · intro load hl st h
      obtain ⟨r, hr⟩ := hrep load hl
      exact ((workerRun_iff hr).1 h).2.2.2
    · constructor
      · rintro ⟨load, -, ⟨path, i⟩, -, s, hc, hs⟩
        obtain ⟨F, Γ, ho, -⟩ := commandAt_occ hc
        exact ⟨F, Γ, s, ho, hs⟩
      · rintro ⟨F, Γ, s, ho, hs⟩
        obtain ⟨path, i, hc, -⟩ := occ_commandAt ho
        obtain ⟨load, hload, hpos⟩ := hleaf path i _ hc (hstep s)
        exact ⟨load, hload, _, hpos, s, hc, hs⟩
  constructor
  · rintro ⟨hall, hr, hb⟩
    refine ⟨?_, hb.trans (hflags hall).2, (hflags hall).1.1 hr⟩
    intro load hload
    obtain ⟨o, ho, rfl⟩ := forall₂_left (hfull hall) hload
    obtain ⟨st, hst⟩ := hall _ ho
    obtain ⟨r, -, hrep⟩ := forall₂_left hf hload
    exact ((workerRun_iff hrep).1 hst).1
  · rintro ⟨hfine, hb, hr⟩
    have hall : ∀ o ∈ os, ∃ st, o = .ok st := by
      intro o ho
      obtain ⟨load, hload, hw⟩ := forall₂_right hrun ho
      obtain ⟨r, -, hrep⟩ := forall₂_left hf hload
      rcases hw with rfl | ⟨-, n, -, rfl⟩
      · exact worker_total hrep (hfine load hload) _
      · exact worker_total hrep (hfine load hload) n
    exact ⟨hall, (hflags hall).1.2 hr, hb.trans (hflags hall).2.symm⟩

end Carcara
