import Verif.Lemmas.Onepoint
import Verif.Lemmas.Skolem
import Verif.Spec.Witness

/-!
# C23: rules that use contexts

The claim is refuted below for every one of the rules: the checker does not verify that the variables of an anchor are
new, nor that the anchor has the form the rule is meant for. The partial theorems prove the rules sound for anchors
that do not interfere with each other and, for the rules that close a subproof, have the intended form.
-/

namespace Carcara

/-- What the parser guarantees about the anchors. -/
def AnchorsOK (Γ : List (List AnchorArg)) : Prop := ∀ as ∈ Γ, ∀ a ∈ as, a.ok = true

/-- The claim of **C23** for `refl` (and for `strict_refl`). -/
def C23Refl (rule : CtxStack → List Term → Res CtxStack) : Prop :=
  ∀ (Γ : List (List AnchorArg)) (C C' : CtxStack) (conclusion : List Term), AnyHistory Γ C → AnchorsOK Γ →
    ClauseOK conclusion → rule C conclusion = .ok C' → LocalSound Γ [] conclusion

/-- The claim of **C23** for the rules that close a subproof. -/
def C23Close (rule : CtxStack → List Term → List (List Term) → List Term → Res Unit) : Prop :=
  ∀ (Γ : List (List AnchorArg)) (as : List AnchorArg) (C : CtxStack) (conclusion previous : List Term)
    (premises : List (List Term)), AnyHistory (Γ ++ [as]) C → AnchorsOK (Γ ++ [as]) → ClauseOK conclusion →
    ClauseOK previous → (∀ p ∈ premises, ClauseOK p) → rule C conclusion premises previous = .ok () →
    CloseSound Γ as [] previous premises conclusion

/-- Drop the stack returned by a rule. -/
def Res.drop {α : Type} (r : Res α) : Res Unit := r.bind fun _ => .ok ()

/-- The claim of **C23**. -/
def C23Full : Prop := C23Refl refl ∧ C23Refl strictRefl ∧
  C23Close (fun C c _ p => bindRule c (C.stack.map (·.1)) (some p)) ∧
  C23Close (fun C c ps p => letRule c ps (C.stack.map (·.1)) (some p)) ∧
  C23Close (fun C c _ p => (onepoint C c (some p)).drop) ∧
  C23Close (fun C c _ p => (skolemize .ex C c (some p)).drop) ∧
  C23Close (fun C c _ p => (skolemize .all C c (some p)).drop)

/-! ## The substitution of the context -/

/-- **C23**, partial: applying the substitution of the context does not change values inside the anchors, provided that
the anchors do not interfere with each other. It does not fail. -/
theorem c23_context_partial (Γ : List (List AnchorArg)) (C : CtxStack) (t : Term) (h : CleanHistory Γ C)
    (hf : FreshAnchors Γ) (ht : t.substSafe = true) :
    ∃ t' C', C.apply t = .ok (t', C') ∧ sortOf t' = sortOf t ∧
      ∀ (I : Interp) (ρ : Env I.U), I.Reach Γ ρ → eval I t' ρ = eval I t ρ := by
  obtain ⟨t', C', h1, _, h2, h3⟩ := h.ctxOK.apply hf (Term.nice_iff.1 ht)
  exact ⟨t', C', h1, h2, h3⟩

/-- The same for the substitution of the enclosing context. -/
theorem c23_context_previous_partial (Γ : List (List AnchorArg)) (C : CtxStack) (t : Term) (h : CleanHistory Γ C)
    (hf : FreshAnchors Γ) (ht : t.substSafe = true) :
    ∃ t' C', C.applyPrevious t = .ok (t', C') ∧ sortOf t' = sortOf t ∧
      ∀ (I : Interp) (ρ : Env I.U), I.Reach Γ.dropLast ρ → eval I t' ρ = eval I t ρ := by
  obtain ⟨t', C', h1, _, h2, h3⟩ := h.ctxOK.applyPrevious hf (Term.nice_iff.1 ht)
  exact ⟨t', C', h1, h2, h3⟩

/-! ## Reflexivity -/

theorem alphaTrust_sound {a b : Term} (h : alphaTrust a b = true) (he : alphaEquiv a b = .ok true) : Same a b := by
  simp only [alphaTrust, Bool.or_eq_true, decide_eq_true_eq] at h
  exact alphaSafe_sound (h.resolve_left fun hn => hn he) he

/-- **C23**, partial: `refl`. -/
theorem c23_refl_partial (Γ : List (List AnchorArg)) (C C' : CtxStack) (l r : Term) (h : CleanHistory Γ C)
    (hf : FreshAnchors Γ) (hl : l.substSafe = true) (hr : r.substSafe = true) (hs : reflSafe C l r = true)
    (hok : refl C [.op .equals [l, r]] = .ok C') : LocalSound Γ [] [.op .equals [l, r]] := by
  intro I ρ hρ hreach _
  rw [satC_one, true_eq]
  have hl := Term.nice_iff.1 hl
  have hr := Term.nice_iff.1 hr
  obtain ⟨l', C1, e1, h1, _, s1⟩ := h.ctxOK.apply hf hl
  obtain ⟨r', C2, e2, _, _, s2⟩ := h1.apply hf hr
  simp only [reflSafe, e1, e2, Bool.and_eq_true] at hs
  obtain ⟨t1, t2, t3, t4⟩ := hs
  simp only [refl, bind_ok, get1_ok, match2_ok, Prod.exists] at hok
  obtain ⟨_, hc, a, b, hab, b1, hb1, hok⟩ := hok
  cases hc
  cases hab
  cases b1 with
  | true => exact alphaTrust_sound t1 hb1 I ρ hρ
  | false =>
    simp only [Bool.false_eq_true, if_false, bind_ok, e1, ok_inj, require_ok] at hok
    obtain ⟨_, _, _, rfl, b2, hb2, hok⟩ := hok
    cases b2 with
    | true => rw [← s1 I ρ hreach]; exact alphaTrust_sound t2 hb2 I ρ hρ
    | false =>
      simp only [Bool.false_eq_true, if_false, bind_ok, e2, ok_inj] at hok
      obtain ⟨_, rfl, b3, hb3, hok⟩ := hok
      cases b3 with
      | true => rw [← s2 I ρ hreach]; exact alphaTrust_sound t3 hb3 I ρ hρ
      | false =>
        simp only [Bool.false_eq_true, if_false, bind_ok, require_ok] at hok
        obtain ⟨b4, hb4, _, rfl, _⟩ := hok
        rw [← s1 I ρ hreach, ← s2 I ρ hreach]
        exact alphaTrust_sound t4 hb4 I ρ hρ

/-- **C23**, partial: `strict_refl`. -/
theorem c23_strict_refl_partial (Γ : List (List AnchorArg)) (C C' : CtxStack) (l r : Term) (h : CleanHistory Γ C)
    (hf : FreshAnchors Γ) (hl : l.substSafe = true) (hok : strictRefl C [.op .equals [l, r]] = .ok C') :
    LocalSound Γ [] [.op .equals [l, r]] := by
  intro I ρ hρ hreach _
  rw [satC_one, true_eq]
  obtain ⟨l', C1, e1, _, _, s1⟩ := h.ctxOK.apply hf (Term.nice_iff.1 hl)
  simp only [strictRefl, bind_ok, get1_ok, match2_ok, Prod.exists] at hok
  obtain ⟨_, hc, a, b, hab, hok⟩ := hok
  cases hc
  cases hab
  split at hok
  · next e => rw [e]
  · simp only [bind_ok, e1, ok_inj, require_ok] at hok
    obtain ⟨_, _, _, rfl, _, rfl, _⟩ := hok
    exact (s1 I ρ hreach).symm

/-! ## Binders -/

/-- **C23**, partial: `bind`. The check of the code covers the free variables of the left-hand side only; those of the
right-hand side are a hypothesis. -/
theorem c23_bind_partial (Γ : List (List AnchorArg)) (as : List AnchorArg) (b : Binder)
    (bs1 bs2 : List (String × Srt)) (phi phi' : Term) (previous : List Term) (premises : List (List Term))
    (ha : BindAnchor bs1 bs2 as) (hN : phi.noLet = true)
    (hfv : ∀ x ∈ bs1, x ∈ phi'.fv → x ∈ bs2)
    (hc : ClauseOK [.op .equals [.binder b bs1 phi, .binder b bs2 phi']])
    (hok : bindRule [.op .equals [.binder b bs1 phi, .binder b bs2 phi']] (Γ ++ [as]) (some previous) = .ok ()) :
    CloseSound Γ as [] previous premises [.op .equals [.binder b bs1 phi, .binder b bs2 phi']] := by
  intro I ρ0 h0 hreach _ hprev
  rw [satC_one, true_eq]
  obtain ⟨_, s, hl, hr⟩ := sort_equals.1 (hc _ (List.mem_singleton_self _))
  simp only [bindRule, bind_ok, get1_ok, match2_ok, asBinderErr_ok, require_ok, orErr_ok, assertEq_ok, Prod.exists] at hok
  obtain ⟨_, hp, _, hcc, _, hp1, p, p', rfl, _, _, hcl, _, _, _, hl', _, _, _, hr', _, _, _, rfl, _, rfl, _, hy, _⟩ := hok
  cases hp
  cases hcc
  cases hcl
  cases hl'
  cases hr'
  subst hp1
  rw [setOf_nodup_eq ha.nodup1, setOf_nodup_eq ha.nodup2] at hy
  have hsp : (sortOf phi).isSome = true := sorted_binder (by rw [hl]; rfl)
  have hsp' : (sortOf phi').isSome = true := sorted_binder (by rw [hr]; rfl)
  have hcp : phi.closedParts = true := phi.closedParts_of_sort hsp hN
  have hchoice : b = .choice → bs1.length = 1 := by
    rintro rfl
    have := Term.choiceOK_of_sort (.binder .choice bs1 phi) (by rw [hl]; rfl)
    simp only [Term.choiceOK, Bool.and_eq_true, Bool.or_eq_true, decide_eq_true_eq] at this
    simpa using this.1
  symm
  simp only [eval]
  refine evalBinder_rename ha.sorts hchoice fun vs hv => ?_
  obtain ⟨ρ, he, h1, h2, h3⟩ := ha.enters ρ0 hv
  have hpv := hprev ρ he (fun _ h => by cases h)
  rw [satC_one, true_eq] at hpv
  have hv2 : I.Tuple bs2 vs := tuple_sorts ha.sorts hv
  have e1 : eval I phi (ρ0.setMany bs1 vs) = eval I phi ρ := by
    refine eval_congr_fv phi (phi.choiceOK_of_sort hsp) (.inl hN) fun v hvf => ?_
    by_cases hm : v ∈ bs1
    · exact (h1 v hm).symm
    · have hm2 : v ∉ bs2 := fun hm2 => hm (hy v hm2 ((mem_freeVars hcp).2 hvf))
      rw [h3 v hm hm2]
      exact Env.setMany_of_not_mem hm
  have e2 : eval I phi' (ρ0.setMany bs2 vs) = eval I phi' ρ := by
    refine eval_congr_fv phi' (phi'.choiceOK_of_sort hsp') (.inr (Interp.EnvOK.setMany h0 hv2)) fun v hvf => ?_
    by_cases hm : v ∈ bs2
    · exact (h2 v hm).symm
    · have hm1 : v ∉ bs1 := fun hm1 => hm (hfv v hm1 hvf)
      rw [h3 v hm1 hm]
      exact Env.setMany_of_not_mem hm
  rw [e1, e2, hpv]

/-! ## `let` -/

/-- The anchor of a `let` step: every argument assigns a variable, no variable twice, and these variables do not occur
in the values or in the right-hand side. The `let` binds distinct names, which its body uses at their sorts only. -/
structure LetAnchor (bs : List (String × Term)) (u u' : Term) (as : List AnchorArg) : Prop where
  ok : ∀ a ∈ as, a.ok = true
  keys : (as.map (·.key)).Nodup
  assigns : ∀ a ∈ as, ∃ x s t, a = .assign x s t ∧ ∀ k ∈ as.map (·.key), k ∉ t.fv
  values : ∀ b ∈ bs, ∀ k ∈ as.map (·.key), k ∉ b.2.fv
  right : ∀ k ∈ as.map (·.key), k ∉ u'.fv
  names : (bs.map (·.1)).Nodup
  uses : ∀ v ∈ u.fv, ∀ b ∈ bs, b.1 = v.1 → sortOf b.2 = some v.2

/-- **C23**, partial: `let`. -/
theorem c23_let_partial (Γ : List (List AnchorArg)) (as : List AnchorArg) (bs : List (String × Term)) (u u' : Term)
    (previous : List Term) (premises : List (List Term)) (ha : LetAnchor bs u u' as) (hpk : ClauseOK previous)
    (hok : letRule [.op .equals [.let_ bs u, u']] premises (Γ ++ [as]) (some previous) = .ok ()) :
    CloseSound Γ as [] previous premises [.op .equals [.let_ bs u, u']] := by
  intro I ρ0 h0 hreach hprem hprev
  rw [satC_one, true_eq]
  simp only [letRule, bind_ok, get1_ok, match2_ok, require_ok, orErr_ok, assertEq_ok, Prod.exists] at hok
  obtain ⟨_, hp, _, hcc, as', has, m, hm, _, _, hcl, bs', _, hlet, _, hp1, _, _, rfl, _, rfl, _, rfl, _, hlen, pairs,
    hpairs, _, hpl, hpp⟩ := hok
  cases hp
  cases hcc
  cases hcl
  subst hp1
  simp only [asLetErr, ok_inj, Prod.mk.injEq] at hlet
  obtain ⟨rfl, rfl⟩ := hlet
  simp only [lastArgs, orPanic_ok] at has
  rw [List.getLast?_append] at has
  simp only [List.getLast?_singleton, Option.some_or, Option.some.injEq] at has
  subst has
  obtain ⟨ρ, he⟩ := AnchorArg.enters_exists as ρ0 (I := I)
  have hρ := AnchorArg.enters_ok ha.ok h0 he
  have hprev := hprev ρ he (fun _ h => by cases h)
  rw [satC_one, true_eq] at hprev
  obtain ⟨_, r, hu, hu'⟩ := sort_equals.1 (hpk _ (List.mem_singleton_self _))
  have hval := enters_closed (as.map (·.key)) (fun a ha => List.mem_map.2 ⟨a, ha, rfl⟩) ha.keys ha.ok ha.assigns h0 he
  have hoth : ∀ v : String × Srt, v ∉ as.map (·.key) → ρ v.1 v.2 = ρ0 v.1 v.2 := fun v hv =>
    AnchorArg.enters_eq he v.1 v.2 fun a ha e => hv (List.mem_map.2 ⟨a, ha, e⟩)
  have hsame : ∀ t : Term, (sortOf t).isSome = true → (∀ k ∈ as.map (·.key), k ∉ t.fv) → eval I t ρ = eval I t ρ0 :=
    fun t hs hk => eval_congr_fv t (t.choiceOK_of_sort hs) (.inr hρ) fun v hv => hoth v fun hm => hk v hm hv
  obtain ⟨hmn, hmem⟩ := letMappings_ok hm (by simp)
  have hf2 := letPairs_ok hpairs
  -- every binding of the `let` is matched by an assignment with the same value
  have hbind : ∀ b ∈ bs, ∃ s v, sortOf b.2 = some s ∧ AnchorArg.assign b.1 s v ∈ as ∧ eval I v ρ0 = eval I b.2 ρ0 := by
    intro b hb
    obtain ⟨p, hpm, hp2, s, hs, hg⟩ := forall₂_left hf2 hb
    have hmm := mem_of_mapGet hg
    rcases hmem _ _ hmm with h | ⟨x, s1, s2, e, hv1, hm1⟩
    · cases h
    · cases e
      have hok1 := ha.ok _ hm1
      simp only [AnchorArg.ok, decide_eq_true_eq] at hok1
      rw [hv1] at hok1
      cases hok1
      refine ⟨s, p.1, hs, hm1, ?_⟩
      by_cases hne : p.1 = p.2
      · rw [hne, hp2]
      · have hmp : p ∈ pairs.filter fun p => decide (p.1 ≠ p.2) := List.mem_filter.2 ⟨hpm, by simpa using hne⟩
        obtain ⟨x', s', t', e', hfree⟩ := ha.assigns _ hm1
        cases e'
        have k1 := hsame p.1 (by rw [hv1]; rfl) hfree
        have k2 := hsame b.2 (by rw [hs]; rfl) (ha.values b hb)
        rcases letPremises_ok hpp hpl p hmp with h | h
        · rcases hprem _ h with h | h
          · rw [satC_one, true_eq, hp2] at h
            exact h
          · have := h ρ he (fun _ h => by cases h)
            rw [satC_one, true_eq, hp2] at this
            rw [← k1, ← k2, this]
        · rcases hprem _ h with h | h
          · rw [satC_one, true_eq, hp2] at h
            exact h.symm
          · have := h ρ he (fun _ h => by cases h)
            rw [satC_one, true_eq, hp2] at this
            rw [← k1, ← k2, this]
  -- every assignment is matched by a binding
  have hkeys : ∀ x s t, AnchorArg.assign x s t ∈ as → x ∈ bs.map (·.1) := by
    intro x s t hm1
    obtain ⟨l1, _, l3⟩ := letMappings_length hm ha.ok ha.keys (by simp)
    have hin := l3 x s t hm1
    have hsub : (bs.map fun b => Term.var b.1 ((sortOf b.2).getD .bool)) ⊆ m.map (·.1) := by
      intro k hk
      obtain ⟨b, hb, rfl⟩ := List.mem_map.1 hk
      obtain ⟨p, _, _, s', hs', hg⟩ := forall₂_left hf2 hb
      rw [hs', Option.getD_some]
      exact List.mem_map.2 ⟨_, mem_of_mapGet hg, rfl⟩
    have hnd : (bs.map fun b => Term.var b.1 ((sortOf b.2).getD .bool)).Nodup := by
      have := ha.names
      clear hsub hbind hf2 hpairs hlen hpl hpp
      have hinj : bs.Pairwise fun a b => a.1 ≠ b.1 := List.pairwise_map.1 this
      refine List.pairwise_map.2 (hinj.imp fun hne e => hne ?_)
      injection e
    have hperm : ∀ k ∈ m.map (·.1), k ∈ bs.map fun b => Term.var b.1 ((sortOf b.2).getD .bool) := by
      have := List.Subperm.perm_of_length_le (List.subperm_of_subset hnd hsub) (by simp [hlen])
      exact fun k hk => this.mem_iff.2 hk
    obtain ⟨b, hb, e⟩ := List.mem_map.1 (hperm _ (List.mem_map.2 ⟨_, hin, rfl⟩))
    simp only [Term.var.injEq] at e
    exact List.mem_map.2 ⟨b, hb, e.1⟩
  simp only [eval, evalB_eq_map]
  have e2 : eval I u' ρ = eval I u' ρ0 := hsame u' (by rw [hu']; rfl) ha.right
  rw [← e2, ← hprev]
  have hnm : ((bs.map fun b => (b.1, eval I b.2 ρ0)).map (·.1)) = bs.map (·.1) := by
    rw [List.map_map]; rfl
  symm
  refine eval_congr_fv u (u.choiceOK_of_sort (by rw [hu]; rfl)) (.inr hρ) fun v hv => ?_
  by_cases hn : v.1 ∈ bs.map (·.1)
  · obtain ⟨b, hb, hbv⟩ := List.mem_map.1 hn
    obtain ⟨s, w, hs, hm1, hw⟩ := hbind b hb
    have hsv := ha.uses v hv b hb hbv
    rw [hs] at hsv
    cases hsv
    have hd := eval_dom b.2 hs h0
    rw [letMany_value (v := eval I b.2 ρ0) (by rw [hnm]; exact ha.names)
      (List.mem_map.2 ⟨b, hb, by rw [hbv]⟩) hd, ← hbv, hval b.1 v.2 w hm1, hw]
  · rw [letMany_other (by rw [hnm]; exact hn)]
    refine hoth v fun hm => hn ?_
    obtain ⟨a, haa, e⟩ := List.mem_map.1 hm
    obtain ⟨x, s, t, rfl, _⟩ := ha.assigns a haa
    subst e
    exact hkeys x s t haa

/-! ## `onepoint` -/

/-- **C23**, partial: `onepoint`, for anchors whose assigned variables are determined one after the other by equations
of the formula (`OnepointOK`). -/
theorem c23_onepoint_partial (Γ : List (List AnchorArg)) (as : List AnchorArg) (C C' : CtxStack) (q : Binder)
    (lbs : List (String × Srt)) (phi right psi : Term) (rbs : List (String × Srt)) (previous : List Term)
    (premises : List (List Term)) (h : CleanHistory (Γ ++ [as]) C) (hf : FreshAnchors (Γ ++ [as]))
    (hphi : phi.substSafe = true) (hright : onepointRight q right = .ok (rbs, psi))
    (ho : OnepointOK Γ as phi psi (decide (q = .ex)))
    (hc : ClauseOK [.op .equals [.binder q lbs phi, right]])
    (hok : onepoint C [.op .equals [.binder q lbs phi, right]] (some previous) = .ok C') :
    CloseSound Γ as [] previous premises [.op .equals [.binder q lbs phi, right]] := by
  intro I ρ0 h0 hreach _ hprev
  rw [satC_one, true_eq]
  obtain ⟨_, s, hl, hr⟩ := sort_equals.1 (hc _ (List.mem_singleton_self _))
  simp only [onepoint, bind_ok, get1_ok, match2_ok, asQuantErr_ok, require_ok, orErr_ok, Prod.exists] at hok
  obtain ⟨_, hp, _, hcc, _, _, hcl, _, _, _, ⟨hq, hl'⟩, rbs', psi', hri, _, hp1, e1, e2, rfl, _, he, points, C1, hpts,
    as', has, _, hin, pv, hpv, _, hrbs, _, ⟨hs1, hs2⟩, _⟩ := hok
  cases hp
  cases hcc
  cases hcl
  cases hl'
  subst hp1
  rw [hright] at hri
  cases hri
  obtain ⟨rfl, hne, hphis⟩ := (sort_quant hq).1 hl
  have hN := Term.nice_iff.1 hphi
  obtain ⟨pts', C1', e, hC1, hpt⟩ := applyPoints_ok hf h (ps := findPoints phi (decide (q = .ex)))
    (fun p hp => findPoints_nice hN hp)
  rw [e] at hpts
  cases hpts
  rw [hC1.ctxOK.args] at has
  simp only [lastArgs, orPanic_ok, List.getLast?_append, List.getLast?_singleton, Option.some_or,
    Option.some.injEq] at has
  subst has
  have hfa : freshArgs Γ.flatten as = true := by
    unfold FreshAnchors at hf
    rw [List.flatten_append, freshArgs_append] at hf
    simpa using hf.2
  have hok : ∀ a ∈ as, a.ok = true := freshArgs_ok hfa
  have hy : ∀ x v, (x, v) ∈ assignArgs as → ∃ t, Yields (Γ ++ [as]) phi (decide (q = .ex)) x v t := by
    intro x v hm
    obtain ⟨t, D1, D2, ht, hD, hap⟩ := hpt x v (hin _ hm)
    exact ⟨t, ht, D1, D2, hD, hap⟩
  have hkeys : ∀ b, b ∈ lbs ↔ b ∈ as.map (·.key) := by
    intro b
    have : b ∈ varArgs as ++ pv ↔ b ∈ as.map (·.key) := by
      obtain ⟨x, s⟩ := b
      rw [List.mem_append, mem_varArgs, pointVars_ok hpv, List.mem_map]
      constructor
      · rintro (hm | ⟨t, hm, hs⟩)
        · exact ⟨_, hm, rfl⟩
        · obtain ⟨s', hm⟩ := mem_assignArgs.1 hm
          have := hok _ hm
          simp only [AnchorArg.ok, decide_eq_true_eq] at this
          rw [hs] at this
          cases this
          exact ⟨_, hm, rfl⟩
      · rintro ⟨a, hm, ha⟩
        cases a with
        | var y r => cases ha; exact .inl hm
        | assign y r t =>
          cases ha
          have := hok _ hm
          simp only [AnchorArg.ok, decide_eq_true_eq] at this
          exact .inr ⟨t, mem_assignArgs.2 ⟨_, hm⟩, this⟩
    rw [← this]
    exact ⟨hs1 b, hs2 b⟩
  have hsym : ∀ ρ, I.Enters as ρ0 ρ → eval I phi ρ = eval I psi ρ := by
    intro ρ hen
    have := hprev ρ hen (fun _ h => by cases h)
    rw [satC_one, true_eq] at this
    rcases he with e | e <;> cases e
    · exact this
    · exact this.symm
  have hpsis : sortOf psi = some .bool := by
    rcases onepointRight_ok hright with rfl | ⟨_, rfl⟩
    · exact ((sort_quant hq).1 hr).2.2
    · exact hr
  have hpsi : ∀ {ρ ρ' : Env I.U}, I.EnvOK ρ → (∀ v : String × Srt, (∀ t, AnchorArg.assign v.1 v.2 t ∉ as) →
      ρ v.1 v.2 = ρ' v.1 v.2) → eval I psi ρ = eval I psi ρ' := fun hρ h =>
    eval_congr_fv psi (psi.choiceOK_of_sort (by rw [hpsis]; rfl)) (.inr hρ) fun v hv =>
      h v fun t hm => ho.right v.1 v.2 t hm hv
  have hvar : ∀ b, b ∈ rbs ↔ AnchorArg.var b.1 b.2 ∈ as := fun b => by rw [← hrbs]; exact mem_varArgs
  -- the two sides, as statements about instances
  have main : (∃ ρ1, Upd I lbs ρ0 ρ1 ∧ Signed (decide (q = .ex)) (eval I phi ρ1).T) ↔
      ∃ ρ2, Upd I rbs ρ0 ρ2 ∧ Signed (decide (q = .ex)) (eval I psi ρ2).T := by
    constructor
    · rintro ⟨ρ1, hu, hT⟩
      have hen := ho.enters hf hN hphis hy h0 hreach (hu.mono fun b hb => (hkeys b).1 hb) hT
      rw [hsym ρ1 hen] at hT
      refine ⟨ρ0.setMany rbs (rbs.map fun b => ρ1 b.1 b.2), .setMany h0 (tuple_self hu.1 rbs), ?_⟩
      have hup : Upd I rbs ρ0 (ρ0.setMany rbs (rbs.map fun b => ρ1 b.1 b.2)) := .setMany h0 (tuple_self hu.1 rbs)
      rw [← hpsi hu.1 fun v hv => ?_]
      · exact hT
      · by_cases hm : v ∈ rbs
        · rw [setMany_self, if_pos hm]
        · rw [hup.2 v.1 v.2 hm]
          refine hu.2 v.1 v.2 fun hl => ?_
          obtain ⟨a, ha, e⟩ := List.mem_map.1 ((hkeys v).1 hl)
          cases a with
          | var y r => subst e; exact hm ((hvar _).2 ha)
          | assign y r t => subst e; exact hv t ha
    · rintro ⟨ρ2, hu, hT⟩
      obtain ⟨ρ, hen, hv⟩ := enters_pick hu.1 ρ0 ho.nodup
      have hρ := AnchorArg.enters_ok hok h0 hen
      refine ⟨ρ, ⟨hρ, fun x s hm => AnchorArg.enters_eq hen x s fun a ha e =>
        hm ((hkeys _).2 (List.mem_map.2 ⟨a, ha, e⟩))⟩, ?_⟩
      rw [hsym ρ hen, hpsi (ρ' := ρ2) hρ fun v hna => ?_]
      · exact hT
      · by_cases hm : AnchorArg.var v.1 v.2 ∈ as
        · exact hv v.1 v.2 hm
        · rw [hu.2 v.1 v.2 fun hr => hm ((hvar v).1 hr)]
          refine AnchorArg.enters_eq hen v.1 v.2 fun a ha e => ?_
          cases a with
          | var y r => cases e; exact hm ha
          | assign y r t => cases e; exact hna t ha
  have hright' : Signed (decide (q = .ex)) (eval I right ρ0).T ↔
      ∃ ρ2, Upd I rbs ρ0 ρ2 ∧ Signed (decide (q = .ex)) (eval I psi ρ2).T := by
    rcases onepointRight_ok hright with rfl | ⟨rfl, rfl⟩
    · rcases hq with rfl | rfl
      · simp only [show decide (Binder.all = .ex) = false from rfl, Signed, Bool.false_eq_true, if_false, tr_all h0,
          not_forall, exists_prop]
      · simp only [decide_true, Signed, if_true, tr_ex h0]
    · constructor
      · intro h; exact ⟨ρ0, .refl h0, h⟩
      · rintro ⟨ρ2, hu, h⟩
        have : ρ2 = ρ0 := by funext x s; exact hu.2 x s (by simp)
        rw [this] at h
        exact h
  have hleft' : Signed (decide (q = .ex)) (eval I (.binder q lbs phi) ρ0).T ↔
      ∃ ρ1, Upd I lbs ρ0 ρ1 ∧ Signed (decide (q = .ex)) (eval I phi ρ1).T := by
    rcases hq with rfl | rfl
    · simp only [show decide (Binder.all = .ex) = false from rfl, Signed, Bool.false_eq_true, if_false, tr_all h0,
        not_forall, exists_prop]
    · simp only [decide_true, Signed, if_true, tr_ex h0]
  rw [eq_bool_iff hl hr h0]
  have := hleft'.trans (main.trans hright'.symm)
  rcases hq with rfl | rfl
  · simpa [Signed, not_iff_not] using this
  · simpa [Signed] using this

/-! ## Skolemization -/

/-- The anchor of a skolemization step: every argument assigns a quantified variable, none twice, and no quantified
variable occurs in the values or in the right-hand side. Quantified variables do not interfere with the enclosing
anchors. -/
structure SkoAnchor (Γ : List (List AnchorArg)) (bs : List (String × Srt)) (psi : Term) (as : List AnchorArg) :
    Prop where
  vars : bs.Nodup
  outer : ∀ b ∈ bs, keptVar Γ.flatten b = true ∧ freshFor Γ.flatten b = true
  keys : (as.map (·.key)).Nodup
  assigns : ∀ a ∈ as, ∃ x s t, a = .assign x s t ∧ ∀ k ∈ as.map (·.key), k ∉ t.fv
  bound : ∀ a ∈ as, a.key ∈ bs
  right : ∀ b ∈ bs, b ∉ psi.fv

/-- **C23**, partial: `sko_ex` (for `q = .ex`) and `sko_forall` (for `q = .all`). -/
theorem c23_sko_partial (Γ : List (List AnchorArg)) (as : List AnchorArg) (C C' : CtxStack) (q : Binder)
    (bs : List (String × Srt)) (phi psi : Term) (previous : List Term) (premises : List (List Term))
    (h : CleanHistory (Γ ++ [as]) C) (hf : FreshAnchors (Γ ++ [as])) (hphi : phi.substSafe = true)
    (ha : SkoAnchor Γ bs psi as)
    (hsafe : ∀ cur C1 m, C.applyPrevious phi = .ok (cur, C1) → letMappings as [] = .ok m →
      skoSafe q m bs cur = true)
    (hc : ClauseOK [.op .equals [.binder q bs phi, psi]])
    (hok : skolemize q C [.op .equals [.binder q bs phi, psi]] (some previous) = .ok C') :
    CloseSound Γ as [] previous premises [.op .equals [.binder q bs phi, psi]] := by
  intro I ρ0 h0 hreach _ hprev
  rw [satC_one, true_eq]
  obtain ⟨_, s, hl, hr⟩ := sort_equals.1 (hc _ (List.mem_singleton_self _))
  simp only [skolemize, bind_ok, get1_ok, match2_ok, asQuantErr_ok, require_ok, orErr_ok, assertEq_ok,
    Prod.exists] at hok
  obtain ⟨_, hp, _, hcc, _, _, hcl, _, _, _, ⟨hq, hl'⟩, _, hqq, _, hp1, e1, e2, rfl, _, rfl, _, rfl, cur, C1, hcur,
    as', has, m, hm, _, hloop, _⟩ := hok
  cases hp
  cases hcc
  cases hcl
  cases hl'
  clear hqq
  subst hp1
  obtain ⟨rfl, hne, hphis⟩ := (sort_quant hq).1 hl
  have hcur : C.applyPrevious phi = .ok (cur, C1) := by
    split at hcur
    · exact hcur
    · next hlt =>
      cases hcur
      unfold CtxStack.applyPrevious
      rw [if_pos (by omega)]
  have hcok := h.ctxOK
  obtain ⟨cur', C1', ec, hC1, hsort, hsem, hupd⟩ := hcok.applyPrevious_upd hf (Term.nice_iff.1 hphi)
  rw [hcur] at ec
  cases ec
  rw [hC1.args] at has
  simp only [lastArgs, orPanic_ok, List.getLast?_append, List.getLast?_singleton, Option.some_or,
    Option.some.injEq] at has
  subst has
  rw [List.dropLast_concat] at hsem hupd
  have hfa : freshArgs Γ.flatten as = true := by
    unfold FreshAnchors at hf
    rw [List.flatten_append, freshArgs_append] at hf
    simpa using hf.2
  have hok : ∀ a ∈ as, a.ok = true := freshArgs_ok hfa
  obtain ⟨hmn, hmem⟩ := letMappings_ok hm (by simp)
  -- the variables are assigned the terms of the map
  have hassign : ∀ x s t, mapGet m (.var x s) = some t → AnchorArg.assign x s t ∈ as := by
    intro x s t hg
    rcases hmem _ _ (mem_of_mapGet hg) with h | ⟨x', s1, s2, e, hv1, hm1⟩
    · cases h
    · cases e
      have hok1 := hok _ hm1
      simp only [AnchorArg.ok, decide_eq_true_eq] at hok1
      rw [hv1] at hok1
      cases hok1
      exact hm1
  have hget : ∀ b ∈ bs, ∃ t, mapGet m (.var b.1 b.2) = some t := skoLoop_get hloop
  have hmap : ∀ b ∈ bs, ∀ t, mapGet m (.var b.1 b.2) = some t → sortOf t = some b.2 ∧ ∀ b' ∈ bs, b' ∉ t.fv := by
    intro b hb t ht
    have hm1 := hassign b.1 b.2 t ht
    have hok1 := hok _ hm1
    simp only [AnchorArg.ok, decide_eq_true_eq] at hok1
    obtain ⟨x', s', t', e, hfree⟩ := ha.assigns _ hm1
    cases e
    refine ⟨hok1, fun b' hb' => hfree b' ?_⟩
    obtain ⟨t', ht'⟩ := hget b' hb'
    exact List.mem_map.2 ⟨_, hassign b'.1 b'.2 t' ht', rfl⟩
  have key := skoLoop_sound hq hloop (hsafe cur C1 m hcur hm) ha.vars hmap ρ0 h0
  obtain ⟨ρ, hen⟩ := AnchorArg.enters_exists as ρ0 (I := I)
  have hρ := AnchorArg.enters_ok hok h0 hen
  have hval := enters_closed (as.map (·.key)) (fun a ha => List.mem_map.2 ⟨a, ha, rfl⟩) ha.keys hok ha.assigns h0 hen
  have henv : skoEnv m bs ρ0 = ρ := by
    funext x s
    unfold skoEnv
    split
    · next hb =>
      obtain ⟨t, ht⟩ := hget (x, s) hb
      simp only at ht
      rw [ht]
      exact (hval x s t (hassign x s t ht)).symm
    · next hb =>
      exact (AnchorArg.enters_eq hen x s fun a haa e => hb (e ▸ ha.bound a haa)).symm
  have hprev := hprev ρ hen (fun _ h => by cases h)
  rw [satC_one, true_eq] at hprev
  have hρu : Upd I bs ρ0 ρ := ⟨hρ, fun x s hb => AnchorArg.enters_eq hen x s fun a haa e => hb (e ▸ ha.bound a haa)⟩
  have hpsi : eval I psi ρ = eval I psi ρ0 :=
    eval_congr_fv psi (psi.choiceOK_of_sort (by rw [hr]; rfl)) (.inr hρ) fun v hv =>
      hρu.2 v.1 v.2 fun hb => ha.right v hb hv
  have hcurphi : ∀ ρ', Upd I bs ρ0 ρ' → eval I cur ρ' = eval I phi ρ' := fun ρ' hu =>
    hupd I ρ0 ρ' bs hreach hu ha.outer
  have hrest : (eval I (skoRest q bs cur) ρ0).T ↔ (eval I (.binder q bs phi) ρ0).T := by
    rw [skoRest_tr hq h0]
    rcases hq with rfl | rfl
    · rw [if_pos rfl, tr_all h0]
      exact forall_congr' fun ρ' => forall_congr' fun hu => by rw [hcurphi ρ' hu]
    · rw [if_neg (by decide), tr_ex h0]
      exact exists_congr fun ρ' => and_congr_right fun hu => by rw [hcurphi ρ' hu]
  rw [eq_bool_iff hl hr h0, ← hrest, key, henv, hcurphi ρ hρu, hprev, hpsi]

section Examples

private def X : Term := .var "x" .int
private def Y : Term := .var "y" .int
private def Z : Term := .var "z" .int
private def int (n : Int) : Term := .const (.int n)
private def eq (a b : Term) : Term := .op .equals [a, b]
private def x : String × Srt := ("x", .int)
private def y : String × Srt := ("y", .int)

private theorem noArgs {Γ : List (List AnchorArg)} {C : CtxStack} (h : CtxHistory (fun _ _ => False) Γ C) (ok) :
    CtxHistory ok Γ C := by
  induction h with
  | empty => exact .empty
  | push _ as ih => exact ih.push as
  | pop _ ih => exact ih.pop
  | apply _ h => exact h.elim
  | applyPrevious _ h => exact h.elim

private theorem one (as : List AnchorArg) (ok) : CtxHistory ok ([] ++ [as]) (CtxStack.empty.push as) :=
  noArgs (.push .empty as) ok

/-- Inside the anchor `y, (:= x y)` the step `(= (< x z) (< y z))` is accepted. -/
example :
    let as : List AnchorArg := [.var "y" .int, .assign "x" .int Y]
    let C := CtxStack.empty.push as
    let l : Term := .op .lt [X, Z]
    let r : Term := .op .lt [Y, Z]
    CleanHistory ([] ++ [as]) C ∧ FreshAnchors ([] ++ [as]) ∧ l.substSafe = true ∧ r.substSafe = true ∧
      reflSafe C l r = true ∧ (refl C [eq l r]).isOk = true ∧ (strictRefl C [eq l r]).isOk = true :=
  ⟨one _ _, by unfold FreshAnchors; decide, by decide, by decide, by decide +kernel, by decide +kernel, by decide +kernel⟩

/-- `(= (forall ((x Int)) (< x z)) (forall ((y Int)) (< y z)))`. -/
example :
    let as : List AnchorArg := [.var "y" .int, .assign "x" .int Y]
    let l : Term := .op .lt [X, Z]
    let r : Term := .op .lt [Y, Z]
    let c := [eq (.binder .all [x] l) (.binder .all [y] r)]
    BindAnchor [x] [y] as ∧ l.noLet = true ∧ (∀ v ∈ [x], v ∈ r.fv → v ∈ [y]) ∧ ClauseOK c ∧
      bindRule c ([] ++ [as]) (some [eq l r]) = .ok () :=
  ⟨⟨.cons rfl .nil, by decide, by decide, by decide, [(x, y)], by decide, by decide, by decide⟩, by decide, by decide,
    by unfold ClauseOK; decide, by decide⟩

/-- `(= (let ((x (+ z 1))) (< x z)) (< (+ 1 z) z))`, with the premise `(= (+ 1 z) (+ z 1))`. -/
example :
    let t : Term := .op .add [Z, int 1]
    let t' : Term := .op .add [int 1, Z]
    let as : List AnchorArg := [.assign "x" .int t']
    let u : Term := .op .lt [X, Z]
    let u' : Term := .op .lt [t', Z]
    LetAnchor [("x", t)] u u' as ∧ ClauseOK [eq u u'] ∧
      letRule [eq (.let_ [("x", t)] u) u'] [[eq t' t]] ([] ++ [as]) (some [eq u u']) = .ok () :=
  ⟨⟨by decide, by decide, fun a ha => by
      rw [List.mem_singleton] at ha
      exact ⟨_, _, _, ha, by decide⟩, by decide, by decide, by decide, by decide⟩, by unfold ClauseOK; decide, by decide⟩

/-- `(= (forall ((x Int) (y Int)) (=> (= x z) (< x y))) (forall ((y Int)) (=> (= z z) (< z y))))`. -/
example :
    let as : List AnchorArg := [.var "y" .int, .assign "x" .int Z]
    let C := CtxStack.empty.push as
    let phi : Term := .op .implies [eq X Z, .op .lt [X, Y]]
    let psi : Term := .op .implies [eq Z Z, .op .lt [Z, Y]]
    let c := [eq (.binder .all [x, y] phi) (.binder .all [y] psi)]
    CleanHistory ([] ++ [as]) C ∧ FreshAnchors ([] ++ [as]) ∧ phi.substSafe = true ∧
      onepointRight .all (.binder .all [y] psi) = .ok ([y], psi) ∧ OnepointOK [] as phi psi (decide (Binder.all = .ex)) ∧
      ClauseOK c ∧ (onepoint C c (some [eq phi psi])).isOk = true := by
  refine ⟨one _ _, by unfold FreshAnchors; decide, by decide, by decide, ⟨by decide, ?_, ?_⟩, by unfold ClauseOK; decide,
    by decide⟩
  · intro pre x s v post e _
    match pre, e with
    | [_], e =>
      cases e
      obtain ⟨C', e⟩ : ∃ C', (CtxStack.empty.push [.var "y" .int, .assign "x" .int Z]).apply Z = .ok (Z, C') := ⟨_, rfl⟩
      exact ⟨Z, ⟨by decide, CtxStack.empty.push _, C', one _ _, e⟩, by decide, by decide, by decide,
        fun _ _ _ h => by cases h⟩
    | _ :: _ :: pre, e => simp at e
  · intro x s t h
    rcases List.mem_cons.1 h with h | h
    · cases h
    · rw [List.mem_singleton] at h
      cases h
      decide

/-- `(= (exists ((x Int)) (= x z)) (= (choice ((x Int)) (= x z)) z))`. -/
example :
    let phi : Term := eq X Z
    let e : Term := .binder .choice [x] phi
    let psi : Term := eq e Z
    let as : List AnchorArg := [.assign "x" .int e]
    let C := CtxStack.empty.push as
    let c := [eq (.binder .ex [x] phi) psi]
    CleanHistory ([] ++ [as]) C ∧ FreshAnchors ([] ++ [as]) ∧ phi.substSafe = true ∧ SkoAnchor [] [x] psi as ∧
      (∀ cur C1 m, C.applyPrevious phi = .ok (cur, C1) → letMappings as [] = .ok m → skoSafe .ex m [x] cur = true) ∧
      ClauseOK c ∧ (skolemize .ex C c (some [eq phi psi])).isOk = true := by
  refine ⟨one _ _, by unfold FreshAnchors; decide +kernel, by decide, ⟨by decide, by decide, by decide, ?_, by decide, by decide⟩,
    ?_, by unfold ClauseOK; decide, by decide +kernel⟩
  · intro a ha
    rw [List.mem_singleton] at ha
    exact ⟨_, _, _, ha, by decide⟩
  · intro cur C1 m h1 h2
    have e1 : cur = eq X Z := by
      have : (CtxStack.empty.push [.assign "x" .int (.binder .choice [x] (eq X Z))]).applyPrevious (eq X Z) =
        .ok (eq X Z, CtxStack.empty.push [.assign "x" .int (.binder .choice [x] (eq X Z))]) := by rfl
      rw [this] at h1
      cases h1
      rfl
    have e2 : m = [(X, .binder .choice [x] (eq X Z))] := by
      have : letMappings [.assign "x" .int (.binder .choice [x] (eq X Z))] [] = .ok [(X, .binder .choice [x] (eq X Z))] := by
        rfl
      rw [this] at h2
      cases h2
      rfl
    subst e1 e2
    decide +kernel

/-! ### Refutations -/

/-- A variable that an outer anchor uses in a value is declared again: inside `(:= x y)` and then `y`, the step
`(= x y)` is accepted. -/
theorem c23_refl_fails : ¬ C23Refl refl ∧ ¬ C23Refl strictRefl := by
  have hist : ∀ ok, CtxHistory ok [[.assign "x" .int Y], [.var "y" .int]]
      ((CtxStack.empty.push [.assign "x" .int Y]).push [.var "y" .int]) := fun ok =>
    noArgs ((CtxHistory.empty.push _).push _) ok
  have unsound : ¬ LocalSound [[.assign "x" .int Y], [.var "y" .int]] [] [eq X Y] := by
    intro h
    let M := Witness.model fun _ _ => .int 0
    have hr : M.I.Reach [[.assign "x" .int Y], [.var "y" .int]]
        ((M.env.set "x" .int (M.env "y" .int)).set "y" .int (.int 1)) :=
      ⟨_, ⟨M.env, M.env_dom, rfl⟩, .int 1, (M.I.dom_int _).2 ⟨1, rfl⟩, rfl⟩
    have env : M.env "y" .int = .int 0 := by
      simp [M, Witness.model, Witness.coerce, Witness.valSort]; rfl
    have hd : M.I.EnvOK ((M.env.set "x" .int (M.env "y" .int)).set "y" .int (.int 1)) :=
      (Interp.EnvOK.set M.env_dom (M.env_dom "y" .int)).set ((M.I.dom_int _).2 ⟨1, rfl⟩)
    have := h M.I _ hd hr (fun _ h => by cases h)
    rw [satC_one, show eq X Y = .op .equals [X, Y] from rfl, true_eq] at this
    simp [X, Y, eval, Env.set, env] at this
  have hok : AnchorsOK [[.assign "x" .int Y], [.var "y" .int]] := by unfold AnchorsOK; decide
  constructor
  · intro h
    have hacc : (refl ((CtxStack.empty.push [.assign "x" .int Y]).push [.var "y" .int]) [eq X Y]).isOk = true := by
      decide +kernel
    obtain ⟨C', e⟩ : ∃ C', refl ((CtxStack.empty.push [.assign "x" .int Y]).push [.var "y" .int]) [eq X Y] = .ok C' := by
      revert hacc
      cases refl ((CtxStack.empty.push [.assign "x" .int Y]).push [.var "y" .int]) [eq X Y] with
      | ok C' => exact fun _ => ⟨C', rfl⟩
      | error e => exact fun h => by cases h
    exact unsound (h _ _ C' _ (hist _) hok (by unfold ClauseOK; decide) e)
  · intro h
    have hacc : (strictRefl ((CtxStack.empty.push [.assign "x" .int Y]).push [.var "y" .int]) [eq X Y]).isOk = true := by
      decide +kernel
    obtain ⟨C', e⟩ : ∃ C', strictRefl ((CtxStack.empty.push [.assign "x" .int Y]).push [.var "y" .int]) [eq X Y] =
        .ok C' := by
      revert hacc
      cases strictRefl ((CtxStack.empty.push [.assign "x" .int Y]).push [.var "y" .int]) [eq X Y] with
      | ok C' => exact fun _ => ⟨C', rfl⟩
      | error e => exact fun h => by cases h
    exact unsound (h _ _ C' _ (hist _) hok (by unfold ClauseOK; decide) e)

/-- The assigned value need not be the variable of the other side: with the anchor `(:= x 5)` the step
`(= (forall ((x Int)) (= x 5)) (forall ((y Int)) (= 5 5)))` is accepted. -/
theorem c23_bind_fails : ¬ C23Close (fun C c _ p => bindRule c (C.stack.map (·.1)) (some p)) := by
  intro h
  let as : List AnchorArg := [.assign "x" .int (int 5)]
  have hs := h [] as (CtxStack.empty.push as) [eq (.binder .all [x] (eq X (int 5))) (.binder .all [y] (eq (int 5) (int 5)))]
    [eq (eq X (int 5)) (eq (int 5) (int 5))] [] (one as _) (by unfold AnchorsOK; decide) (by unfold ClauseOK; decide)
    (by unfold ClauseOK; decide) (fun _ h => by cases h) (by decide)
  let M := Witness.model fun _ _ => .int 0
  have := hs M.I M.env M.env_dom M.env_dom (fun _ h => by cases h) (by
    intro ρ he _
    cases he
    rw [satC_one, show ∀ a b, eq a b = .op .equals [a, b] from fun _ _ => rfl, true_eq]
    simp [X, eq, int, eval, Env.set])
  rw [satC_one, show ∀ a b, eq a b = .op .equals [a, b] from fun _ _ => rfl, true_eq,
    eq_bool_iff (by decide) (by decide) M.env_dom, tr_all M.env_dom, tr_all M.env_dom] at this
  have h1 := this.2 (fun ρ _ => by
    change M.I.True ρ (.op .equals [int 5, int 5])
    rw [true_eq]) _ (Upd.setMany (bs := [x]) (vs := [.int 0]) M.env_dom
      (List.Forall₂.cons ((M.I.dom_int _).2 ⟨0, rfl⟩) .nil))
  have h1 := true_eq.1 h1
  simp [X, x, int, eval, Env.setMany, Env.set, evalConst] at h1

/-- The right-hand side may use the variables of the anchor: with the anchor `(:= x 5)` the step
`(= (let ((x 5)) x) x)` is accepted. -/
theorem c23_let_fails : ¬ C23Close (fun C c ps p => letRule c ps (C.stack.map (·.1)) (some p)) := by
  intro h
  let as : List AnchorArg := [.assign "x" .int (int 5)]
  have hs := h [] as (CtxStack.empty.push as) [eq (.let_ [("x", int 5)] X) X] [eq X X] [] (one as _)
    (by unfold AnchorsOK; decide) (by unfold ClauseOK; decide) (by unfold ClauseOK; decide) (fun _ h => by cases h)
    (by decide)
  let M := Witness.model fun _ _ => .int 0
  have env : M.env "x" .int = .int 0 := by
    simp [M, Witness.model, Witness.coerce, Witness.valSort]; rfl
  have := hs M.I M.env M.env_dom M.env_dom (fun _ h => by cases h) (by
    intro ρ _ _
    rw [satC_one, show ∀ a b, eq a b = .op .equals [a, b] from fun _ _ => rfl, true_eq])
  rw [satC_one, show ∀ a b, eq a b = .op .equals [a, b] from fun _ _ => rfl, true_eq] at this
  have hd : M.I.dom .int (.int 5) := (M.I.dom_int _).2 ⟨5, rfl⟩
  simp [X, int, eval, evalConst, Interp.letMany, Interp.letSet, hd, env] at this

/-- The equations that determine the assigned variables may be circular: with the anchor `(:= x 0) (:= y 0)` the step
`(= (forall ((x Int) (y Int)) (=> (= x y) (= x 0))) (=> (= 0 0) (= 0 0)))` is accepted. -/
theorem c23_onepoint_fails : ¬ C23Close (fun C c _ p => (onepoint C c (some p)).drop) := by
  intro h
  let as : List AnchorArg := [.assign "x" .int (int 0), .assign "y" .int (int 0)]
  let phi : Term := .op .implies [eq X Y, eq X (int 0)]
  let psi : Term := .op .implies [eq (int 0) (int 0), eq (int 0) (int 0)]
  have hs := h [] as (CtxStack.empty.push as) [eq (.binder .all [x, y] phi) psi] [eq phi psi] [] (one as _)
    (by unfold AnchorsOK; decide) (by unfold ClauseOK; decide) (by unfold ClauseOK; decide) (fun _ h => by cases h)
    (by decide)
  let M := Witness.model fun _ _ => .int 0
  have := hs M.I M.env M.env_dom M.env_dom (fun _ h => by cases h) (by
    intro ρ he _
    cases he
    rw [satC_one, show ∀ a b, eq a b = .op .equals [a, b] from fun _ _ => rfl, true_eq]
    simp [phi, psi, X, Y, eq, int, eval, Env.set])
  rw [satC_one, show ∀ a b, eq a b = .op .equals [a, b] from fun _ _ => rfl, true_eq,
    eq_bool_iff (by decide) (by decide) M.env_dom, tr_all M.env_dom] at this
  have h1 := this.2 (by simp [psi, eq, int, eval, evalL, evalOp, stdOp, Val.T_prop, Sem.chain, Sem.impl])
    _ (Upd.setMany (bs := [x, y]) (vs := [.int 1, .int 1]) M.env_dom
      (List.Forall₂.cons ((M.I.dom_int _).2 ⟨1, rfl⟩) (.cons ((M.I.dom_int _).2 ⟨1, rfl⟩) .nil)))
  simp [phi, X, Y, x, y, eq, int, eval, evalL, Env.setMany, Env.set, evalConst, evalOp, stdOp, Val.T_prop, Sem.chain,
    Sem.impl] at h1

/-- The right-hand side may use the skolemized variables: with the anchor `(:= x (choice ((x Int)) (= x 0)))` the step
`(= (exists ((x Int)) (= x 0)) (= x 0))` is accepted. -/
theorem c23_sko_ex_fails : ¬ C23Close (fun C c _ p => (skolemize .ex C c (some p)).drop) := by
  intro h
  let phi : Term := eq X (int 0)
  let as : List AnchorArg := [.assign "x" .int (.binder .choice [x] phi)]
  have hs := h [] as (CtxStack.empty.push as) [eq (.binder .ex [x] phi) phi] [eq phi phi] [] (one as _)
    (by unfold AnchorsOK; decide) (by unfold ClauseOK; decide) (by unfold ClauseOK; decide) (fun _ h => by cases h)
    (by decide +kernel)
  let M := Witness.model fun _ _ => .int 1
  have env : M.env "x" .int = .int 1 := by
    simp [M, Witness.model, Witness.coerce, Witness.valSort]; rfl
  have := hs M.I M.env M.env_dom M.env_dom (fun _ h => by cases h) (by
    intro ρ _ _
    rw [satC_one, show ∀ a b, eq a b = .op .equals [a, b] from fun _ _ => rfl, true_eq])
  rw [satC_one, show ∀ a b, eq a b = .op .equals [a, b] from fun _ _ => rfl, true_eq,
    eq_bool_iff (by decide) (by decide) M.env_dom, tr_ex M.env_dom] at this
  have h1 := this.1 ⟨_, Upd.setMany (bs := [x]) (vs := [.int 0]) M.env_dom
      (List.Forall₂.cons ((M.I.dom_int _).2 ⟨0, rfl⟩) .nil), true_eq.2 (by
        simp [X, x, int, eval, Env.setMany, Env.set, evalConst])⟩
  have h1 := true_eq.1 h1
  simp [X, int, eval, evalConst, env] at h1

/-- The same for `sko_forall`: `(= (forall ((x Int)) (= x 0)) (= x 0))`. -/
theorem c23_sko_forall_fails : ¬ C23Close (fun C c _ p => (skolemize .all C c (some p)).drop) := by
  intro h
  let phi : Term := eq X (int 0)
  let as : List AnchorArg := [.assign "x" .int (.binder .choice [x] (.op .not [phi]))]
  have hs := h [] as (CtxStack.empty.push as) [eq (.binder .all [x] phi) phi] [eq phi phi] [] (one as _)
    (by unfold AnchorsOK; decide) (by unfold ClauseOK; decide) (by unfold ClauseOK; decide) (fun _ h => by cases h)
    (by decide +kernel)
  let M := Witness.model fun _ _ => .int 0
  have env : M.env "x" .int = .int 0 := by
    simp [M, Witness.model, Witness.coerce, Witness.valSort]; rfl
  have := hs M.I M.env M.env_dom M.env_dom (fun _ h => by cases h) (by
    intro ρ _ _
    rw [satC_one, show ∀ a b, eq a b = .op .equals [a, b] from fun _ _ => rfl, true_eq])
  rw [satC_one, show ∀ a b, eq a b = .op .equals [a, b] from fun _ _ => rfl, true_eq,
    eq_bool_iff (by decide) (by decide) M.env_dom, tr_all M.env_dom] at this
  have h1 := this.2 (true_eq.2 (by simp [X, int, eval, evalConst, env])) _
    (Upd.setMany (bs := [x]) (vs := [.int 1]) M.env_dom (List.Forall₂.cons ((M.I.dom_int _).2 ⟨1, rfl⟩) .nil))
  have h1 := true_eq.1 h1
  simp [X, x, int, eval, evalConst, Env.setMany, Env.set] at h1

theorem c23_full_fails : ¬ C23Full := fun h => c23_refl_fails.1 h.1

end Examples

end Carcara
