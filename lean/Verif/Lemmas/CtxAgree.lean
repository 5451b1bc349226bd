import Verif.Lemmas.PlainSubst

/-! # The rules that use the context stack do not see its history, on terms without binders -/

namespace Carcara

/-- Two computations end in the same way, with related results. -/
def SameEnd {α β : Type} (R : α → β → Prop) : Res α → Res β → Prop
  | .ok a, .ok b => R a b
  | .error e, .error e' => e = e'
  | _, _ => False

theorem SameEnd.bind {α β α' β' : Type} {R : α → β → Prop} {S : α' → β' → Prop} {x : Res α} {y : Res β} {k : α → Res α'} {l : β → Res β'}
    (h : SameEnd R x y) (hk : ∀ a b, R a b → SameEnd S (k a) (l b)) : SameEnd S (x >>= k) (y >>= l) := by
  cases x <;> cases y <;> first | exact h.elim | skip
  · exact h
  · exact hk _ _ h

theorem SameEnd.same {α α' β' : Type} {S : α' → β' → Prop} {x : Res α} {k : α → Res α'} {l : α → Res β'}
    (hk : ∀ a, x = .ok a → SameEnd S (k a) (l a)) : SameEnd S (x >>= k) (x >>= l) := by
  cases x with
  | error e => exact rfl
  | ok a => exact hk a rfl

theorem SameEnd.ok {α β : Type} {R : α → β → Prop} {a : α} {b : β} (h : R a b) : SameEnd R (.ok a) (.ok b) := h

theorem SameEnd.error {α β : Type} {R : α → β → Prop} {e : Fault} : SameEnd R (.error e : Res α) (.error e : Res β) := rfl

theorem SameEnd.mono {α β : Type} {R S : α → β → Prop} {x : Res α} {y : Res β} (h : SameEnd R x y) (hi : ∀ a b, R a b → S a b) : SameEnd S x y := by
  cases x <;> cases y <;> first | exact h.elim | exact h | exact hi _ _ h

theorem SameEnd.eq {α : Type} {x y : Res α} (h : SameEnd (· = ·) x y) : x = y := by
  cases x <;> cases y <;> first | exact h.elim | exact congrArg _ h

/-- Both stacks arise inside the anchors `Γ`. -/
def Stacks (Γ : List (List AnchorArg)) (C D : CtxStack) : Prop := CtxPlain Γ C ∧ CtxPlain Γ D

section
variable {Γ : List (List AnchorArg)} {C D : CtxStack}

theorem Stacks.length (h : Stacks Γ C D) : C.stack.length = D.stack.length := h.1.length.trans h.2.length.symm

theorem Stacks.args (h : Stacks Γ C D) : C.stack.map (·.1) = D.stack.map (·.1) := h.1.args.trans h.2.args.symm

theorem Stacks.apply (h : Stacks Γ C D) {t : Term} (ht : PlainAnchors Γ ∧ t.plain = true) :
    SameEnd (fun r s => r.1 = s.1 ∧ Stacks Γ r.2 s.2) (C.apply t) (D.apply t) := by
  obtain ⟨C', e⟩ := h.1.apply.2 ht.1 ht.2
  obtain ⟨D', e'⟩ := h.2.apply.2 ht.1 ht.2
  rw [e, e']
  exact ⟨rfl, h.1.apply.1 _ _ e, h.2.apply.1 _ _ e'⟩

theorem Stacks.applyPrevious (h : Stacks Γ C D) {t : Term} (ht : PlainAnchors Γ ∧ t.plain = true) :
    SameEnd (fun r s => r.1 = s.1 ∧ Stacks Γ r.2 s.2) (C.applyPrevious t) (D.applyPrevious t) := by
  obtain ⟨C', e⟩ := h.1.applyPrevious.2 ht.1 ht.2
  obtain ⟨D', e'⟩ := h.2.applyPrevious.2 ht.1 ht.2
  rw [e, e']
  exact ⟨rfl, h.1.applyPrevious.1 _ _ e, h.2.applyPrevious.1 _ _ e'⟩

theorem refl_agree (h : Stacks Γ C D) {c : List Term} (ht : ∀ t ∈ ctxTerms "refl" c, PlainAnchors Γ ∧ t.plain = true) :
    SameEnd (Stacks Γ) (refl C c) (refl D c) := by
  unfold refl
  refine .same fun c0 hc => .same fun lr hm => ?_
  obtain ⟨l, r⟩ := lr
  rw [get1_ok] at hc
  rw [match2_ok] at hm
  subst hc hm
  simp only [ctxTerms, if_true, List.mem_cons, List.not_mem_nil, or_false, forall_eq_or_imp, forall_eq] at ht
  refine .same fun b _ => ?_
  simp only
  split
  · exact .ok h
  refine SameEnd.bind (R := fun _ _ => True) ?_ fun _ _ _ => ?_
  · rw [h.length]; cases require (D.stack.length ≠ 0) <;> exact (by trivial)
  refine (h.apply ht.1).bind ?_
  rintro ⟨l', C1⟩ ⟨_, D1⟩ ⟨rfl, h1⟩
  refine .same fun b _ => ?_
  simp only
  split
  · exact .ok h1
  refine (h1.apply ht.2).bind ?_
  rintro ⟨r', C2⟩ ⟨_, D2⟩ ⟨rfl, h2⟩
  refine .same fun b _ => ?_
  simp only
  split
  · exact .ok h2
  exact .same fun b _ => .same fun _ _ => .ok h2

theorem strictRefl_agree (h : Stacks Γ C D) {c : List Term} (ht : ∀ t ∈ ctxTerms "refl" c, PlainAnchors Γ ∧ t.plain = true) :
    SameEnd (Stacks Γ) (strictRefl C c) (strictRefl D c) := by
  unfold strictRefl
  refine .same fun c0 hc => .same fun lr hm => ?_
  obtain ⟨l, r⟩ := lr
  rw [get1_ok] at hc
  rw [match2_ok] at hm
  subst hc hm
  simp only [ctxTerms, if_true, List.mem_cons, List.not_mem_nil, or_false, forall_eq_or_imp, forall_eq] at ht
  simp only
  split
  · exact .ok h
  refine SameEnd.bind (R := fun _ _ => True) ?_ fun _ _ _ => ?_
  · rw [h.length]; cases require (D.stack.length ≠ 0) <;> exact (by trivial)
  refine (h.apply ht.1).bind ?_
  rintro ⟨l', C1⟩ ⟨_, D1⟩ ⟨rfl, h1⟩
  exact .same fun _ _ => .ok h1

theorem applyPoints_agree : ∀ {ps : List (String × Term)} {C D : CtxStack}, Stacks Γ C D → (∀ p ∈ ps, PlainAnchors Γ ∧ p.2.plain = true) →
    SameEnd (fun r s => r.1 = s.1 ∧ Stacks Γ r.2 s.2) (applyPoints C ps) (applyPoints D ps)
  | [], _, _, h, _ => ⟨rfl, h⟩
  | (x, t) :: ps, C, D, h, ht => by
    unfold applyPoints
    refine (h.apply (ht (x, t) (by simp))).bind ?_
    rintro ⟨t', C1⟩ ⟨_, D1⟩ ⟨rfl, h1⟩
    refine (applyPoints_agree h1 fun p hp => ht p (List.mem_cons_of_mem _ hp)).bind ?_
    rintro ⟨ps', C2⟩ ⟨_, D2⟩ ⟨rfl, h2⟩
    exact ⟨rfl, h2⟩

theorem onepoint_agree (h : Stacks Γ C D) {c : List Term} {p : Option (List Term)}
    (ht : ∀ t ∈ ctxTerms "onepoint" c, PlainAnchors Γ ∧ t.plain = true) : SameEnd (Stacks Γ) (onepoint C c p) (onepoint D c p) := by
  unfold onepoint
  refine .same fun prev _ => .same fun c0 hc => .same fun lr hm => ?_
  obtain ⟨l, r⟩ := lr
  rw [get1_ok] at hc
  rw [match2_ok] at hm
  subst hc hm
  refine .same fun qb hq => ?_
  obtain ⟨q, lbs, phi⟩ := qb
  have e : l = .binder q lbs phi := by
    unfold asQuantErr at hq
    split at hq <;> simp_all
  subst e
  refine .same fun rr _ => ?_
  obtain ⟨rbs, psi⟩ := rr
  refine .same fun _ _ => .same fun _ _ => .same fun _ _ => ?_
  refine (applyPoints_agree h fun p hp => ht p.2 ?_).bind ?_
  · simp only [ctxTerms, reduceIte, String.reduceEq]
    exact List.mem_map.2 ⟨p, hp, rfl⟩
  rintro ⟨ps, C1⟩ ⟨_, D1⟩ ⟨rfl, h1⟩
  simp only [h1.args]
  exact .same fun _ _ => .same fun _ _ => .same fun _ _ => .same fun _ _ => .same fun _ _ => .ok h1

theorem skolemize_agree (h : Stacks Γ C D) {q : Binder} {n : String} (hn : n = "sko_ex" ∨ n = "sko_forall") {c : List Term}
    {p : Option (List Term)} (ht : ∀ t ∈ ctxTerms n c, PlainAnchors Γ ∧ t.plain = true) : SameEnd (Stacks Γ) (skolemize q C c p) (skolemize q D c p) := by
  unfold skolemize
  refine .same fun prev _ => .same fun c0 hc => .same fun lr hm => ?_
  obtain ⟨l, r⟩ := lr
  rw [get1_ok] at hc
  rw [match2_ok] at hm
  subst hc hm
  refine .same fun qb hq => ?_
  obtain ⟨q', bs, phi⟩ := qb
  have e : l = .binder q' bs phi := by
    unfold asQuantErr at hq
    split at hq <;> simp_all
  subst e
  refine .same fun _ _ => .same fun _ _ => .same fun _ _ => .same fun _ _ => .same fun _ _ => ?_
  have hphi : PlainAnchors Γ ∧ phi.plain = true := by
    refine ht phi ?_
    have h1 : n ≠ "refl" := by rcases hn with rfl | rfl <;> decide
    have h2 : n ≠ "onepoint" := by rcases hn with rfl | rfl <;> decide
    simp [ctxTerms, h1, h2, hn]
  refine SameEnd.bind (R := fun r s => r.1 = s.1 ∧ Stacks Γ r.2 s.2) ?_ ?_
  · rw [h.length]
    split
    · exact h.applyPrevious hphi
    · exact ⟨rfl, h⟩
  rintro ⟨cur, C1⟩ ⟨_, D1⟩ ⟨rfl, h1⟩
  simp only [h1.args]
  exact .same fun _ _ => .same fun _ _ => .same fun _ _ => .ok h1

/-- The rules that use the stack end in the same way with any two stacks that arise inside the anchors. -/
theorem ctxRows_agree {e : Bool} {n : String} {r : CtxRule} (hr : (n, r) ∈ ctxRows e) {a : RuleArgs} (h : Stacks Γ C D)
    (ht : ∀ t ∈ ctxTerms n a.conclusion, PlainAnchors Γ ∧ t.plain = true) : SameEnd (Stacks Γ) (r C a) (r D a) := by
  simp only [ctxRows, List.mem_cons, List.not_mem_nil, or_false, Prod.mk.injEq] at hr
  rcases hr with ⟨rfl, rfl⟩ | ⟨rfl, rfl⟩ | ⟨rfl, rfl⟩ | ⟨rfl, rfl⟩ | ⟨rfl, rfl⟩ | ⟨rfl, rfl⟩
  · split
    · exact strictRefl_agree h ht
    · exact refl_agree h ht
  · simp only [h.args]
    exact .same fun _ _ => .ok h
  · simp only [h.args]
    exact .same fun _ _ => .ok h
  · exact onepoint_agree h ht
  · exact skolemize_agree h (.inl rfl) ht
  · exact skolemize_agree h (.inr rfl) ht

end

/-! ## The checking loop -/

/-- The stack inside the anchors `Γ` if nothing happened before. -/
def freshStack (Γ : List (List AnchorArg)) : CtxStack := Γ.foldl CtxStack.push .empty

/-- A rule that uses the stack, always run with a new stack. -/
def CtxRule.fresh (r : CtxRule) : RuleFn := fun a => do
  let _ ← r (freshStack a.context) a
  .ok ()

/-- The rules, with a new stack for every step. -/
def freshParams (E : TableEnv) (cfg : Config) : Params where
  rule name := match (ctxRows cfg.elaborated).lookup name with
    | some r => some r.fresh
    | none => getRule E cfg.elaborated name
  assumeEq := assumeEq

theorem freshStack_history {ok : List (List AnchorArg) → Term → Prop} (Γ : List (List AnchorArg)) : CtxHistory ok Γ (freshStack Γ) := by
  suffices ∀ Γ Δ C, CtxHistory ok Δ C → CtxHistory ok (Δ ++ Γ) (Γ.foldl CtxStack.push C) from this Γ [] _ .empty
  intro Γ
  induction Γ with
  | nil => intro Δ C h; simpa using h
  | cons as Γ ih =>
    intro Δ C h
    have := ih _ _ (h.push as)
    simpa using this

theorem freshStack_plain (Γ : List (List AnchorArg)) : CtxPlain Γ (freshStack Γ) := (freshStack_history (ok := fun _ _ => True) Γ).ctxPlain

section
variable {E : TableEnv} {cfg : Config} {prem : List Term}

theorem runCtxRule_same {Γ : List (List AnchorArg)} {r : CtxRule} {r' : RuleFn} {it : Iter} {a : RuleArgs} {s : Step} {C : CtxStack}
    (h : SameEnd (fun D _ => CtxPlain Γ D) (r C a) (r' a)) :
    SameEnd (fun D _ => CtxPlain Γ D) (runCtxRule r it a s C) (runRule r' it a s) := by
  unfold runCtxRule runRule
  refine h.bind fun D _ hD => ?_
  generalize it.isEndStep = b
  generalize it.currentSubproof = o
  cases b with
  | false => exact hD
  | true =>
    cases o with
    | none => exact hD
    | some sub =>
      simp only
      cases checkDischarge sub it.depth s.discharge with
      | error e => exact rfl
      | ok _ => exact hD

theorem checkCtxStep_same {it : Iter} {a : RuleArgs} {s : Step} {C : CtxStack} (hC : CtxPlain a.context C)
    (ht : ∀ t ∈ ctxTerms s.rule a.conclusion, PlainAnchors a.context ∧ t.plain = true) :
    SameEnd (fun r b => r.1 = b ∧ CtxPlain a.context r.2) (checkCtxStep E cfg it a s C) (checkStepCore (freshParams E cfg) cfg it a s) := by
  unfold checkCtxStep checkStepCore
  split
  · exact ⟨rfl, hC⟩
  split
  · exact rfl
  simp only [getCtxRule, freshParams]
  cases hl : (ctxRows cfg.elaborated).lookup s.rule with
  | some r =>
    refine (runCtxRule_same (Γ := a.context) ?_).bind fun D _ hD => ⟨rfl, hD⟩
    have := ctxRows_agree (mem_of_rowLookup hl) ⟨hC, freshStack_plain a.context⟩ ht
    unfold CtxRule.fresh
    generalize r (freshStack a.context) a = y at this ⊢
    generalize r C a = x at this ⊢
    cases x <;> cases y <;> first | exact this.elim | exact this | exact this.1
  | none =>
    cases hg : getRule E cfg.elaborated s.rule with
    | none =>
      simp only [Option.map_none]
      split
      · exact ⟨rfl, hC⟩
      · exact rfl
    | some r =>
      refine (runCtxRule_same (Γ := a.context) ?_).bind fun D _ hD => ⟨rfl, hD⟩
      change SameEnd _ (r a >>= fun _ => .ok C) (r a)
      cases r a with
      | error e => exact rfl
      | ok _ => exact hC

/-- The states of the two loops inside the anchors `Γ`. -/
def SameState (Γ : List (List AnchorArg)) (st : LoopCtx) (st' : State) : Prop :=
  CtxPlain Γ st.context ∧ st' = ⟨Γ, st.reached, st.holey⟩

theorem visitCtx_same {o : Pos} {st : LoopCtx} {st' : State} (h : SameState o.ctx st st')
    (ht : ∀ s, o.cmd = .step s → ∀ t ∈ ctxTerms s.rule s.clause, PlainAnchors o.ctx ∧ t.plain = true) :
    SameEnd (SameState o.after) (visitCtx E cfg prem o.iter st o.cmd) (visitCommand (freshParams E cfg) cfg prem o.iter st' o.cmd) := by
  obtain ⟨hC, rfl⟩ := h
  obtain ⟨F, Γ, c⟩ := o
  cases c with
  | assume id t =>
    simp only [visitCtx, visitCommand]
    refine SameEnd.same (x := checkAssume (freshParams E cfg) cfg prem (Pos.iter ⟨F, Γ, .assume id t⟩).isInSubproof t) fun b _ => ?_
    cases b
    · exact rfl
    · exact ⟨hC, rfl⟩
  | subproof cs as n =>
    simp only [visitCtx, visitCommand]
    exact .same fun i _ => ⟨hC.push as, rfl⟩
  | step s =>
    simp only [visitCtx, visitCtxStep, visitCommand, visitStep]
    have hargs : st.context.stack.map (·.1) = Γ := hC.args
    rw [hargs]
    refine .same fun a ha => ?_
    obtain ⟨e1, e2⟩ := ruleArgs_fields ha
    have := checkCtxStep_same (E := E) (cfg := cfg) (it := Pos.iter ⟨F, Γ, .step s⟩) (a := a) (s := s) (C := st.context) (by rw [e1]; exact hC)
      (by rw [e1, e2]; exact ht s rfl)
    refine this.bind ?_
    rintro ⟨b, C⟩ _ ⟨rfl, hC1⟩
    rw [e1] at hC1
    have hlen : ∀ {Γ C}, CtxPlain Γ C → C.stack.isEmpty = Γ.isEmpty := by
      intro Γ C h
      rw [← h.args]
      cases C.stack <;> rfl
    have he : Pos.iter ⟨F, Γ, .step s⟩ = F.iter := rfl
    simp only [he]
    refine ⟨?_, ?_⟩
    · simp only [Pos.after]
      split
      · exact hC1.pop
      · exact hC1
    · simp only [Pos.after]
      by_cases hb : F.iter.isEndStep = true
      · simp only [hb, if_true, hlen hC1.pop]
      · simp only [hb, if_false, hlen hC1, Bool.false_eq_true]

theorem foldCtx_same : ∀ (os : List Pos) (st : LoopCtx) (st' : State) (Γ Δ : List (List AnchorArg)), Linked Γ os Δ → SameState Γ st st' →
    (∀ o ∈ os, ∀ s, o.cmd = .step s → ∀ t ∈ ctxTerms s.rule s.clause, PlainAnchors o.ctx ∧ t.plain = true) →
    SameEnd (SameState Δ) (os.foldlM (fun st o => visitCtx E cfg prem o.iter st o.cmd) st)
      (os.foldlM (fun st o => visitCommand (freshParams E cfg) cfg prem o.iter st o.cmd) st')
  | [], st, st', Γ, Δ, hl, hC, _ => by
    rw [Linked] at hl
    subst hl
    exact hC
  | o :: os, st, st', Γ, Δ, hl, hC, ht => by
    rw [List.foldlM_cons, List.foldlM_cons]
    obtain ⟨rfl, hl2⟩ := hl
    exact (visitCtx_same hC (ht o (by simp))).bind fun st1 st1' h1 =>
      foldCtx_same os st1 st1' o.after Δ hl2 h1 fun o ho => ht o (List.mem_cons_of_mem _ ho)

/-- The loop that keeps its stack ends like the loop that starts with a new stack for every step. -/
theorem checkCtx_same {proof : List Command} (hwf : Command.wfL proof = true)
    (ht : ∀ F Γ s, Occ proof F Γ (.step s) → ∀ t ∈ ctxTerms s.rule s.clause, PlainAnchors Γ ∧ t.plain = true) :
    checkCtx E cfg prem proof = check (freshParams E cfg) cfg prem proof := by
  have hlink : Linked [] (allPositions proof) [] := by
    have := (linked_positions _).2 proof [] [] proof 0 (Nat.le_refl _) hwf rfl (fun h => absurd rfl h)
    simpa [allPositions] using this
  refine SameEnd.eq ?_
  unfold checkCtx check
  rw [checkCtxLoop_start, checkLoop_start]
  refine (foldCtx_same (allPositions proof) {} {} [] [] hlink ⟨.empty, rfl⟩ fun o ho s hs => ?_).bind ?_
  · have := allPositions_iff.1 ho
    rw [hs] at this
    exact ht _ _ _ this
  · rintro st _ ⟨_, rfl⟩
    simp only
    split
    · exact rfl
    · exact rfl

end

end Carcara
