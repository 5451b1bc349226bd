import Verif.Model.CheckerContext
import Verif.Spec.ContextHistory
import Verif.Lemmas.Checker
import Verif.Lemmas.Context

/-!
# The checking loop with its context stack, and the one without
-/

namespace Carcara

theorem checkCtxLoop_visits (E : TableEnv) (cfg : Config) (prem : List Term) (k : Nat) : ∀ (it : Iter) (st : LoopCtx), it.remaining ≤ k →
    checkCtxLoop E cfg prem it st = it.visits.foldlM (fun st v => visitCtx E cfg prem v.2 st v.1) st := by
  induction k with
  | zero =>
    intro it st hk
    rw [checkCtxLoop.eq_def]
    split
    · next h => rw [Iter.visits_none h]; rfl
    · next h => have := Iter.next_remaining _ _ _ h; omega
  | succ k ih =>
    intro it st hk
    rw [checkCtxLoop.eq_def]
    split
    · next h => rw [Iter.visits_none h]; rfl
    · next c it' h =>
      have := Iter.next_remaining _ _ _ h
      rw [Iter.visits_some h, List.foldlM_cons]
      congr 1
      funext st'
      exact ih it' st' (by omega)

theorem checkCtxLoop_start (E : TableEnv) (cfg : Config) (prem : List Term) (proof : List Command) (st : LoopCtx) :
    checkCtxLoop E cfg prem (Iter.start proof) st = (allPositions proof).foldlM (fun st o => visitCtx E cfg prem o.iter st o.cmd) st := by
  rw [checkCtxLoop_visits E cfg prem _ _ _ (Nat.le_refl _), visits_start, List.foldlM_map]

/-! ## Arguments of the anchors in the stack -/

/-- The arguments of the open anchors. -/
def CtxStack.args (C : CtxStack) : List (List AnchorArg) := C.stack.map (·.1)

theorem map_set_same {α β : Type} {f : α → β} {l : List α} {i : Nat} {a b : α} (h : l[i]? = some a) (e : f b = f a) : (l.set i b).map f = l.map f := by
  rw [List.map_set, e]
  exact set_of_getElem? (by rw [List.getElem?_map, h]; rfl)

theorem compute_args {C C' : CtxStack} {i : Nat} (h : C.compute i = .ok C') : C'.args = C.args := by
  simp only [CtxStack.compute, bind_ok, orPanic_ok] at h
  obtain ⟨e, he, _, _, σ, _, h⟩ := h
  cases h
  exact map_set_same he rfl

theorem computeFrom_args : ∀ {n i : Nat} {C C' : CtxStack}, CtxStack.computeFrom n i C = .ok C' → C'.args = C.args
  | 0, _, _, _, h => by cases h; rfl
  | n + 1, i, C, C', h => by
    obtain ⟨C1, h1, h2⟩ := bind_ok.1 h
    exact (computeFrom_args h2).trans (compute_args h1)

theorem applyAt_args {C C' : CtxStack} {i : Nat} {t t' : Term} (h : C.applyAt i t = .ok (t', C')) : C'.args = C.args := by
  simp only [CtxStack.applyAt, bind_ok] at h
  obtain ⟨C1, h1, e, he, σ, _, ⟨u, σ'⟩, _, h⟩ := h
  cases h
  refine Eq.trans (?_ : _ = C1.args) (computeFrom_args h1)
  exact map_set_same (f := Prod.fst) (orPanic_ok.1 he) rfl

theorem apply_args {C C' : CtxStack} {t t' : Term} (h : C.apply t = .ok (t', C')) : C'.args = C.args := by
  unfold CtxStack.apply at h
  split at h
  · cases h; rfl
  · exact applyAt_args h

theorem applyPrevious_args {C C' : CtxStack} {t t' : Term} (h : C.applyPrevious t = .ok (t', C')) : C'.args = C.args := by
  unfold CtxStack.applyPrevious at h
  split at h
  · cases h; rfl
  · exact applyAt_args h

theorem CtxHistory.args {ok : List (List AnchorArg) → Term → Prop} {Γ : List (List AnchorArg)} {C : CtxStack} (h : CtxHistory ok Γ C) : C.args = Γ := by
  induction h with
  | empty => rfl
  | push _ as ih => simp [CtxStack.args, CtxStack.push, ← ih]
  | pop _ ih => simp [CtxStack.args, CtxStack.pop, ← ih]
  | apply _ _ e ih => exact (apply_args e).trans ih
  | applyPrevious _ _ e ih => exact (applyPrevious_args e).trans ih

theorem CtxHistory.mono {ok ok' : List (List AnchorArg) → Term → Prop} (hi : ∀ Γ t, ok Γ t → ok' Γ t) {Γ : List (List AnchorArg)} {C : CtxStack}
    (h : CtxHistory ok Γ C) : CtxHistory ok' Γ C := by
  induction h with
  | empty => exact .empty
  | push _ as ih => exact ih.push as
  | pop _ ih => exact ih.pop
  | apply _ ht e ih => exact ih.apply (hi _ _ ht) e
  | applyPrevious _ ht e ih => exact ih.applyPrevious (hi _ _ ht) e

/-! ## The terms to which rules apply the substitution -/

/-- The terms to which the substitution of the context is applied for a step. -/
def ctxTerms (rule : String) : List Term → List Term
  | [.op .equals [l, r]] =>
    if rule = "refl" then [l, r]
    else match l with
      | .binder q _ phi =>
        if rule = "onepoint" then (findPoints phi (decide (q = .ex))).map (·.2)
        else if rule = "sko_ex" ∨ rule = "sko_forall" then [phi] else []
      | _ => []
  | _ => []

section
variable {ok : List (List AnchorArg) → Term → Prop} {Γ : List (List AnchorArg)}

theorem refl_history {C C' : CtxStack} {c : List Term} (h : CtxHistory ok Γ C) (ht : ∀ t ∈ ctxTerms "refl" c, ok Γ t) (hr : refl C c = .ok C') :
    CtxHistory ok Γ C' := by
  simp only [refl, bind_ok, get1_ok, match2_ok, Prod.exists] at hr
  obtain ⟨_, rfl, l, r, rfl, hr⟩ := hr
  simp only [ctxTerms, if_true, List.mem_cons, List.not_mem_nil, or_false, forall_eq_or_imp, forall_eq] at ht
  obtain ⟨b, -, hr⟩ := hr
  split at hr
  · cases hr; exact h
  · simp only [bind_ok, Prod.exists] at hr
    obtain ⟨_, -, l', C1, h1, b, -, hr⟩ := hr
    have g1 := h.apply ht.1 h1
    split at hr
    · cases hr; exact g1
    · simp only [bind_ok, Prod.exists] at hr
      obtain ⟨r', C2, h2, b, -, hr⟩ := hr
      have g2 := g1.apply ht.2 h2
      split at hr
      · cases hr; exact g2
      · simp only [bind_ok] at hr
        obtain ⟨_, -, _, -, hr⟩ := hr
        cases hr; exact g2

theorem strictRefl_history {C C' : CtxStack} {c : List Term} (h : CtxHistory ok Γ C) (ht : ∀ t ∈ ctxTerms "refl" c, ok Γ t)
    (hr : strictRefl C c = .ok C') : CtxHistory ok Γ C' := by
  simp only [strictRefl, bind_ok, get1_ok, match2_ok, Prod.exists] at hr
  obtain ⟨_, rfl, l, r, rfl, hr⟩ := hr
  simp only [ctxTerms, if_true, List.mem_cons, List.not_mem_nil, or_false, forall_eq_or_imp, forall_eq] at ht
  split at hr
  · cases hr; exact h
  · simp only [bind_ok, Prod.exists] at hr
    obtain ⟨_, -, l', C1, h1, _, -, hr⟩ := hr
    cases hr
    exact h.apply ht.1 h1

theorem applyPoints_history : ∀ {ps ps' : List (String × Term)} {C C' : CtxStack}, CtxHistory ok Γ C → (∀ p ∈ ps, ok Γ p.2) →
    applyPoints C ps = .ok (ps', C') → CtxHistory ok Γ C'
  | [], _, _, _, h, _, e => by cases e; exact h
  | (x, t) :: ps, ps', C, C', h, ht, e => by
    simp only [applyPoints, bind_ok, Prod.exists] at e
    obtain ⟨t', C1, h1, ps1, C2, h2, e⟩ := e
    cases e
    exact applyPoints_history (h.apply (ht (x, t) (by simp)) h1) (fun p hp => ht p (List.mem_cons_of_mem _ hp)) h2

theorem onepoint_history {C C' : CtxStack} {c : List Term} {p : Option (List Term)} (h : CtxHistory ok Γ C) (ht : ∀ t ∈ ctxTerms "onepoint" c, ok Γ t)
    (hr : onepoint C c p = .ok C') : CtxHistory ok Γ C' := by
  simp only [onepoint, bind_ok, get1_ok, match2_ok, Prod.exists] at hr
  obtain ⟨_, _, _, rfl, l, r, rfl, q, lbs, l', hl, _, _, _, _, _, _, _, _, _, _, ps, C1, hp, _, _, _, _, _, _, _, _, _, _, hr⟩ := hr
  cases hr
  have e : l = .binder q lbs l' := by
    unfold asQuantErr at hl
    split at hl <;> simp_all
  subst e
  refine applyPoints_history h (fun p hp => ht p.2 ?_) hp
  simp only [ctxTerms, reduceIte, String.reduceEq]
  exact List.mem_map.2 ⟨p, hp, rfl⟩

theorem skolemize_history {C C' : CtxStack} {q : Binder} {n : String} (hn : n = "sko_ex" ∨ n = "sko_forall") {c : List Term} {p : Option (List Term)}
    (h : CtxHistory ok Γ C) (ht : ∀ t ∈ ctxTerms n c, ok Γ t) (hr : skolemize q C c p = .ok C') : CtxHistory ok Γ C' := by
  simp only [skolemize, bind_ok, get1_ok, match2_ok, Prod.exists] at hr
  obtain ⟨_, _, _, rfl, l, r, rfl, q', bs, phi, hl, _, _, _, _, _, _, _, _, _, _, _, cur, C1, hp, _, _, _, _, _, _, hr⟩ := hr
  cases hr
  have e : l = .binder q' bs phi := by
    unfold asQuantErr at hl
    split at hl <;> simp_all
  subst e
  split at hp
  · refine h.applyPrevious (ht phi ?_) hp
    have h1 : n ≠ "refl" := by rcases hn with rfl | rfl <;> decide
    have h2 : n ≠ "onepoint" := by rcases hn with rfl | rfl <;> decide
    simp [ctxTerms, h1, h2, hn]
  · cases hp; exact h

theorem ctxRows_history {e : Bool} {n : String} {r : CtxRule} (hr : (n, r) ∈ ctxRows e) {C C' : CtxStack} {a : RuleArgs} (h : CtxHistory ok Γ C)
    (ht : ∀ t ∈ ctxTerms n a.conclusion, ok Γ t) (hok : r C a = .ok C') : CtxHistory ok Γ C' := by
  simp only [ctxRows, List.mem_cons, List.not_mem_nil, or_false, Prod.mk.injEq] at hr
  rcases hr with ⟨rfl, rfl⟩ | ⟨rfl, rfl⟩ | ⟨rfl, rfl⟩ | ⟨rfl, rfl⟩ | ⟨rfl, rfl⟩ | ⟨rfl, rfl⟩
  · split at hok
    · exact strictRefl_history h ht hok
    · exact refl_history h ht hok
  · obtain ⟨_, _, hok⟩ := bind_ok.1 hok
    cases hok; exact h
  · obtain ⟨_, _, hok⟩ := bind_ok.1 hok
    cases hok; exact h
  · exact onepoint_history h ht hok
  · exact skolemize_history (.inl rfl) h ht hok
  · exact skolemize_history (.inr rfl) h ht hok

end

/-! ## The loop without the stack accepts what the loop with the stack accepts -/

/-- A rule that uses the stack, without the stack: it accepts when it accepts with some stack that arises inside the anchors. -/
noncomputable def CtxRule.some (ok : List (List AnchorArg) → Term → Prop) (r : CtxRule) : RuleFn := fun a => open Classical in
  if ∃ C C', CtxHistory ok a.context C ∧ r C a = .ok C' then .ok () else err

theorem CtxRule.some_ok {ok : List (List AnchorArg) → Term → Prop} {r : CtxRule} {a : RuleArgs} :
    r.some ok a = .ok () ↔ ∃ C C', CtxHistory ok a.context C ∧ r C a = .ok C' := by
  unfold CtxRule.some
  split
  · next h => simp only [h]
  · next h => simp only [h, iff_false]; intro h; cases h

/-- The rules without the stack: a rule that uses the stack accepts when it accepts with some stack that arises inside the anchors. -/
noncomputable def ctxParams (E : TableEnv) (cfg : Config) (ok : List (List AnchorArg) → Term → Prop) : Params where
  rule name := match (ctxRows cfg.elaborated).lookup name with
    | some r => some (r.some ok)
    | none => getRule E cfg.elaborated name
  assumeEq := assumeEq

theorem mem_of_rowLookup {α β : Type} [BEq α] [LawfulBEq α] {a : α} {b : β} : ∀ {l : List (α × β)}, l.lookup a = some b → (a, b) ∈ l
  | [], h => by simp at h
  | (x, y) :: l, h => by
    rw [List.lookup_cons] at h
    split at h
    · next e =>
      cases h
      rw [eq_of_beq e]
      exact List.mem_cons_self ..
    · exact List.mem_cons_of_mem _ (mem_of_rowLookup h)

section
variable {E : TableEnv} {cfg : Config} {ok : List (List AnchorArg) → Term → Prop} {prem : List Term}

theorem ruleArgs_fields {it : Iter} {Γ : List (List AnchorArg)} {s : Step} {a : RuleArgs} (h : ruleArgs cfg it Γ s = .ok a) :
    a.context = Γ ∧ a.conclusion = s.clause := by
  simp only [ruleArgs, bind_ok] at h
  obtain ⟨_, _, _, _, _, _, h⟩ := h
  cases h
  exact ⟨rfl, rfl⟩

theorem runCtxRule_sim {r : CtxRule} {it : Iter} {a : RuleArgs} {s : Step} {C C' : CtxStack} (h : runCtxRule r it a s C = .ok C') :
    r C a = .ok C' ∧ ∀ r' : RuleFn, r' a = .ok () → runRule r' it a s = .ok () := by
  obtain ⟨C1, h1, h⟩ := bind_ok.1 h
  suffices C1 = C' ∧ ∀ r' : RuleFn, r' a = .ok () → runRule r' it a s = .ok () from ⟨this.1 ▸ h1, this.2⟩
  unfold runRule
  generalize it.isEndStep = b at h ⊢
  generalize it.currentSubproof = o at h ⊢
  cases b with
  | false =>
    cases h
    exact ⟨rfl, fun r' h' => bind_ok.2 ⟨(), h', rfl⟩⟩
  | true =>
    cases o with
    | none =>
      cases h
      exact ⟨rfl, fun r' h' => bind_ok.2 ⟨(), h', rfl⟩⟩
    | some sub =>
      obtain ⟨_, h3, h4⟩ := bind_ok.1 h
      cases h4
      exact ⟨rfl, fun r' h' => bind_ok.2 ⟨(), h', h3⟩⟩

theorem checkCtxStep_sim {it : Iter} {a : RuleArgs} {s : Step} {C C' : CtxStack} {b : Bool} (hC : CtxHistory ok a.context C)
    (ht : ∀ t ∈ ctxTerms s.rule a.conclusion, ok a.context t) (h : checkCtxStep E cfg it a s C = .ok (b, C')) :
    checkStepCore (ctxParams E cfg ok) cfg it a s = .ok b ∧ CtxHistory ok a.context C' := by
  unfold checkCtxStep at h
  unfold checkStepCore
  split at h
  · next hm => rw [if_pos hm]; cases h; exact ⟨rfl, hC⟩
  next hm =>
  rw [if_neg hm]
  split at h
  · cases h
  next hd =>
  rw [if_neg hd]
  simp only [getCtxRule] at h
  simp only [ctxParams]
  cases hl : (ctxRows cfg.elaborated).lookup s.rule with
  | some r =>
    simp only [hl, bind_ok, ok_inj, Prod.mk.injEq] at h ⊢
    obtain ⟨C1, h1, rfl, rfl⟩ := h
    obtain ⟨h2, h3⟩ := runCtxRule_sim h1
    exact ⟨⟨(), h3 _ (CtxRule.some_ok.2 ⟨_, _, hC, h2⟩), rfl⟩, ctxRows_history (mem_of_rowLookup hl) hC ht h2⟩
  | none =>
    simp only [hl] at h ⊢
    cases hg : getRule E cfg.elaborated s.rule with
    | none =>
      simp only [hg, Option.map_none] at h ⊢
      split at h
      · next hi => cases h; exact ⟨if_pos hi, hC⟩
      · cases h
    | some r =>
      simp only [hg, Option.map_some, bind_ok, ok_inj, Prod.mk.injEq] at h ⊢
      obtain ⟨C1, h1, rfl, rfl⟩ := h
      obtain ⟨h2, h3⟩ := runCtxRule_sim h1
      obtain ⟨_, h4, h5⟩ := bind_ok.1 h2
      cases h5
      exact ⟨⟨(), h3 _ h4, rfl⟩, hC⟩

theorem visitCtx_sim {o : Pos} {st st' : LoopCtx} (hC : CtxHistory ok o.ctx st.context)
    (ht : ∀ s, o.cmd = .step s → ∀ t ∈ ctxTerms s.rule s.clause, ok o.ctx t) (h : visitCtx E cfg prem o.iter st o.cmd = .ok st') :
    visitCommand (ctxParams E cfg ok) cfg prem o.iter ⟨o.ctx, st.reached, st.holey⟩ o.cmd = .ok ⟨o.after, st'.reached, st'.holey⟩ ∧
      CtxHistory ok o.after st'.context := by
  obtain ⟨F, Γ, c⟩ := o
  cases c with
  | assume id t =>
    simp only [visitCtx, visitCommand, bind_ok] at h ⊢
    obtain ⟨r, h1, h⟩ := h
    split at h
    · next hr => cases h; exact ⟨⟨r, h1, by rw [if_pos hr]; rfl⟩, hC⟩
    · cases h
  | subproof cs as n =>
    simp only [visitCtx, visitCommand, bind_ok] at h ⊢
    obtain ⟨i, h1, h⟩ := h
    cases h
    exact ⟨⟨i, h1, rfl⟩, hC.push as⟩
  | step s =>
    simp only [visitCtx, visitCtxStep, visitCommand, visitStep, bind_ok, Prod.exists] at h ⊢
    obtain ⟨a, ha, b, C, hc, h⟩ := h
    have hargs : st.context.stack.map (·.1) = Γ := hC.args
    rw [hargs] at ha
    obtain ⟨e1, e2⟩ := ruleArgs_fields ha
    obtain ⟨g1, g2⟩ := checkCtxStep_sim (by rw [e1]; exact hC) (by rw [e1, e2]; exact ht s rfl) hc
    rw [e1] at g2
    change checkStepCore (ctxParams E cfg ok) cfg F.iter a s = .ok b at g1
    simp only [Pos.after, Pos.iter]
    have he : Pos.iter ⟨F, Γ, .step s⟩ = F.iter := rfl
    rw [he] at h
    simp only [ok_inj] at h
    subst h
    have hlen : ∀ {Γ C}, CtxHistory ok Γ C → C.stack.isEmpty = Γ.isEmpty := by
      intro Γ C h
      rw [← h.args, CtxStack.args]
      cases C.stack <;> rfl
    refine ⟨⟨a, ha, b, g1, ?_⟩, ?_⟩
    · by_cases hb : F.iter.isEndStep = true
      · simp only [hb, if_true, hlen g2.pop]
      · simp only [hb, if_false, hlen g2, Bool.false_eq_true]
    · split
      · exact g2.pop
      · exact g2

theorem foldCtx_sim : ∀ (os : List Pos) (st st' : LoopCtx) (Γ Δ : List (List AnchorArg)), Linked Γ os Δ → CtxHistory ok Γ st.context →
    (∀ o ∈ os, ∀ s, o.cmd = .step s → ∀ t ∈ ctxTerms s.rule s.clause, ok o.ctx t) →
    os.foldlM (fun st o => visitCtx E cfg prem o.iter st o.cmd) st = .ok st' →
    os.foldlM (fun st o => visitCommand (ctxParams E cfg ok) cfg prem o.iter st o.cmd) ⟨Γ, st.reached, st.holey⟩ = .ok ⟨Δ, st'.reached, st'.holey⟩
  | [], st, st', Γ, Δ, hl, _, _, h => by
    cases h
    rw [Linked] at hl
    rw [hl]
    rfl
  | o :: os, st, st', Γ, Δ, hl, hC, ht, h => by
    rw [List.foldlM_cons, bind_ok] at h ⊢
    obtain ⟨st1, h1, h2⟩ := h
    obtain ⟨rfl, hl2⟩ := hl
    obtain ⟨g1, g2⟩ := visitCtx_sim hC (ht o (by simp)) h1
    exact ⟨_, g1, foldCtx_sim os st1 st' o.after Δ hl2 g2 (fun o ho => ht o (List.mem_cons_of_mem _ ho)) h2⟩

/-- What the loop with the stack accepts is accepted by the loop without it, provided that the substitution was only applied to terms that are `ok`. -/
theorem checkCtx_sim {proof : List Command} {b : Bool} (hwf : Command.wfL proof = true)
    (ht : ∀ F Γ s, Occ proof F Γ (.step s) → ∀ t ∈ ctxTerms s.rule s.clause, ok Γ t) (h : checkCtx E cfg prem proof = .ok b) :
    check (ctxParams E cfg ok) cfg prem proof = .ok b := by
  have hlink : Linked [] (allPositions proof) [] := by
    have := (linked_positions _).2 proof [] [] proof 0 (Nat.le_refl _) hwf rfl (fun h => absurd rfl h)
    simpa [allPositions] using this
  simp only [checkCtx, check, bind_ok] at h ⊢
  obtain ⟨st, h1, h2⟩ := h
  rw [checkCtxLoop_start] at h1
  refine ⟨⟨[], st.reached, st.holey⟩, ?_, h2⟩
  rw [checkLoop_start]
  refine foldCtx_sim _ {} st [] [] hlink .empty (fun o ho s hs => ?_) h1
  have := allPositions_iff.1 ho
  rw [hs] at this
  exact ht _ _ _ this

end

end Carcara
