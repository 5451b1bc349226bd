import Verif.Lemmas.NoPanic
import Verif.Lemmas.Checker
import Verif.Spec.ProofParser

/-! # Panics of the checking loop -/

namespace Carcara

theorem lastStep {cs : List Command} (h : (cs.getLast?.map Command.isStep == some true) = true) :
    ∃ l s, cs = l ++ [.step s] := by
  cases e : cs.getLast? with
  | none => simp [e] at h
  | some c =>
    rw [List.getLast?_eq_some_iff] at e
    obtain ⟨l, rfl⟩ := e
    cases c with
    | step s => exact ⟨l, s, rfl⟩
    | _ => simp [Command.isStep] at h

theorem clauseLast_append : ∀ (l : List Command) (c : Command), Command.clauseLast (l ++ [c]) = c.clause
  | [], c => by simp [Command.clauseLast]
  | [a], c => by simp [Command.clauseLast]
  | a :: b :: l, c => by
    have := clauseLast_append (b :: l) c
    simpa [Command.clauseLast] using this

theorem idLast_append : ∀ (l : List Command) (c : Command), Command.idLast (l ++ [c]) = c.id
  | [], c => by simp [Command.idLast]
  | [a], c => by simp [Command.idLast]
  | a :: b :: l, c => by
    have := idLast_append (b :: l) c
    simpa [Command.idLast] using this

theorem Command.clause_wf {c : Command} (h : c.wf = true) : c.clause ≠ panic := by
  cases c with
  | assume _ _ => simp [Command.clause, nopanic]
  | step _ => simp [Command.clause, nopanic]
  | subproof cs _ _ =>
    simp only [Command.wf, Bool.and_eq_true] at h
    obtain ⟨l, s, rfl⟩ := lastStep h.1.2
    simp [Command.clause, clauseLast_append, nopanic]

theorem Command.id_wf {c : Command} (h : c.wf = true) : c.id ≠ panic := by
  cases c with
  | assume _ _ => simp [Command.id, nopanic]
  | step _ => simp [Command.id, nopanic]
  | subproof cs _ _ =>
    simp only [Command.wf, Bool.and_eq_true] at h
    obtain ⟨l, s, rfl⟩ := lastStep h.1.2
    simp [Command.id, idLast_append, nopanic]

/-- Commands of the enclosing subproofs are well formed. -/
theorem Occ.frames_wf {proof : List Command} {F : Frames} {Γ c} (h : Occ proof F Γ c) (hwf : Command.wfL proof = true) :
    ∀ f ∈ F, Command.wfL f.2 = true := by
  induction h with
  | top _ => simpa using hwf
  | sub ho _ ih =>
    have := ho.wf hwf
    simp only [Command.wf, Bool.and_eq_true] at this
    exact List.forall_mem_cons.2 ⟨this.2, ih⟩

theorem Frames.lookup_wf {F : Frames} (h : ∀ f ∈ F, Command.wfL f.2 = true) {p : Nat × Nat} {c : Command}
    (hp : F.lookup p = some c) : c.wf = true := by
  simp only [Frames.lookup, Option.bind_eq_bind, Option.bind_eq_some_iff] at hp
  obtain ⟨f, hf, hc⟩ := hp
  exact wfL_getElem (h f (List.mem_reverse.1 (List.mem_of_getElem? hf))) hc

theorem Step.lookup {F : Frames} {s : Step} (h : s.wellScoped F) {p : Nat × Nat} (hp : p ∈ s.premises ++ s.discharge) :
    ∃ c, F.lookup p = some c := by
  obtain ⟨j, cs, c, h1, -, h3⟩ := h p hp
  exact ⟨c, by simp [Frames.lookup, h1, h3]⟩

theorem ruleArgs_panic {proof : List Command} {cfg : Config} {F : Frames} {Γ} {s : Step} (h : Occ proof F Γ (.step s))
    (hwf : Command.wfL proof = true) (hs : s.wellScoped F) : ruleArgs cfg F.iter Γ s ≠ panic := by
  have h1 : previousCommand cfg F.iter ≠ panic := by
    unfold previousCommand
    by_cases he : F.isEnd
    · rw [if_pos ((isEndStep_iff F).2 he)]
      have hf := h.frames_wf hwf
      obtain ⟨i, cs, f, F', rfl, hl⟩ := h.two_le hwf he
      have hcs : Iter.currentSubproof (Frames.iter ((i + 1, cs) :: f :: F')) = some cs := by
        simp [Iter.currentSubproof, Iter.isInSubproof, Iter.depth, Frames.iter]
      simp only [hcs]
      rw [if_neg (by omega)]
      split
      · next c e =>
        have := Command.clause_wf (wfL_getElem (hf (i + 1, cs) (by simp)) e)
        simp [nopanic, this]
      · simp [nopanic]
    · rw [if_neg (fun e => he ((isEndStep_iff F).1 e))]
      simp [nopanic]
  have h2 : mapRes (premiseClause F.iter) s.premises ≠ panic := by
    refine mapRes_panic fun p hp => ?_
    obtain ⟨c, hc⟩ := Step.lookup hs (List.mem_append.2 (.inl hp))
    have := Command.clause_wf (Frames.lookup_wf (h.frames_wf hwf) hc)
    simp [premiseClause, Frames.getPremise_iter, hc, orPanic, nopanic, this]
  have h3 : mapRes (Iter.getPremise F.iter) s.discharge ≠ panic := by
    refine mapRes_panic fun p hp => ?_
    obtain ⟨c, hc⟩ := Step.lookup hs (List.mem_append.2 (.inr hp))
    simp [Frames.getPremise_iter, hc, orPanic, nopanic]
  simp [ruleArgs, nopanic, h1, h2, h3]

theorem anyRes_panic {α : Type} {f : α → Res Bool} : ∀ {l : List α}, (∀ a ∈ l, f a ≠ panic) → anyRes f l ≠ panic
  | [], _ => by simp [anyRes, nopanic]
  | a :: l, h => by
    have ih := anyRes_panic (l := l) fun b hb => h b (by simp [hb])
    simp [anyRes, nopanic, h a (by simp), ih]

/-- What has to be known about a position. -/
def PosSafe (P : Params) (cfg : Config) (prem : List Term) (F : Frames) (Γ : List (List AnchorArg)) : Command → Prop
  | .assume _ t => F.length = 1 → t ∉ prem → cfg.elaborated = false → ∀ u ∈ prem, P.assumeEq t u ≠ panic
  | .step s => ∀ a r, F.argsFor Γ s a → P.rule s.rule = some r → s.rule ∉ cfg.allowed → r a ≠ panic
  | .subproof _ _ _ => True

theorem visit_panic {P : Params} {cfg : Config} {prem : List Term} {proof : List Command} {o : Pos} {st : State}
    (ho : Occ proof o.frames o.ctx o.cmd) (hwf : Command.wfL proof = true)
    (hs : ∀ s, o.cmd = .step s → s.wellScoped o.frames) (hctx : o.ctx = st.context)
    (h : PosSafe P cfg prem o.frames o.ctx o.cmd) : visitCommand P cfg prem o.iter st o.cmd ≠ panic := by
  obtain ⟨F, Γ, c⟩ := o
  simp only at ho hs hctx h
  subst hctx
  cases c with
  | assume id t =>
    have hl := ho.ctx_length
    have : checkAssume P cfg prem F.iter.isInSubproof t ≠ panic := by
      unfold checkAssume
      rw [iter_isInSubproof]
      split
      · simp [nopanic]
      · next h1 =>
        simp only [decide_eq_true_eq, not_lt] at h1
        split
        · simp [nopanic]
        · next h2 =>
          split
          · simp [nopanic]
          · next h3 => exact anyRes_panic (h (by omega) h2 (by simpa using h3))
    simp [visitCommand, Pos.iter, nopanic, this]
  | step s =>
    simp only [visitCommand, Pos.iter, visitStep, ne_eq, nopanic, ruleArgs_panic ho hwf (hs s rfl), false_or, and_false,
      exists_false, or_false]
    rintro ⟨a, ha, hp⟩
    rw [ruleArgs_ok ho hwf] at ha
    unfold checkStepCore at hp
    split at hp
    · simp [nopanic] at hp
    · next h1 =>
      split at hp
      · simp [nopanic] at hp
      · split at hp
        · split at hp <;> simp [nopanic] at hp
        · next r hr =>
          have := h a r ha hr h1
          simp only [runRule, nopanic, this, false_or, and_false, exists_false, or_false] at hp
          obtain ⟨_, -, hp⟩ := hp
          split at hp
          · simp [checkDischarge, nopanic] at hp
          · simp [nopanic] at hp
  | subproof cs as n =>
    have := Command.id_wf (ho.wf hwf)
    simp [visitCommand, nopanic, this]

theorem fold_panic {P : Params} {cfg : Config} {prem : List Term} {proof : List Command}
    (hwf : Command.wfL proof = true) : ∀ (os : List Pos) (st : State) (Δ),
    Linked st.context os Δ → (∀ o ∈ os, Occ proof o.frames o.ctx o.cmd ∧ (∀ s, o.cmd = .step s → s.wellScoped o.frames) ∧
      PosSafe P cfg prem o.frames o.ctx o.cmd) →
    os.foldlM (fun st o => visitCommand P cfg prem o.iter st o.cmd) st ≠ panic
  | [], st, Δ, _, _ => by simp [nopanic, pure, Except.pure, panic]
  | o :: os, st, Δ, hl, h => by
    obtain ⟨ho, hs, hp⟩ := h o (by simp)
    rw [List.foldlM_cons]
    simp only [ne_eq, nopanic, visit_panic ho hwf hs hl.1 hp, false_or]
    rintro ⟨st1, h1, h2⟩
    obtain ⟨-, hc, -⟩ := (visit_pos hl.1 ho.ctx_length).1 h1
    exact fold_panic hwf os st1 Δ (hc ▸ hl.2) (fun o' ho' => h o' (by simp [ho'])) h2

/-- The loop panics only if a rule or a comparison panics. -/
theorem check_panic {P : Params} {cfg : Config} {prem : List Term} {proof : List Command}
    (hwf : Command.wfL proof = true) (hs : ∀ F Γ s, Occ proof F Γ (.step s) → s.wellScoped F)
    (h : ∀ F Γ c, Occ proof F Γ c → PosSafe P cfg prem F Γ c) : check P cfg prem proof ≠ panic := by
  have hl : Linked [] (allPositions proof) [] := by
    have := (linked_positions _).2 proof [] [] proof 0 (Nat.le_refl _) hwf rfl
    simpa [allPositions, Linked] using this
  have := fold_panic (P := P) (cfg := cfg) (prem := prem) hwf (allPositions proof) {} [] hl fun o ho => by
    have hocc := allPositions_iff.1 ho
    exact ⟨hocc, fun s e => hs o.frames o.ctx s (e ▸ hocc), h _ _ _ hocc⟩
  simp [check, checkLoop_start, nopanic, this]

end Carcara
