import Verif.Lemmas.ContextRules

/-! # `onepoint` -/

namespace Carcara
open Classical
variable {I : Interp}

theorem mem_findPointsL {pol : Bool} {p : String × Term} : ∀ {ts : List Term},
    p ∈ findPointsL ts pol ↔ ∃ t ∈ ts, p ∈ findPoints t pol
  | [] => by simp [findPointsL]
  | t :: ts => by simp [findPointsL, mem_findPointsL]

theorem asVar_some {t : Term} {x : String} (h : t.asVar = some x) : ∃ s, t = .var x s := by
  cases t <;> simp [Term.asVar] at h
  subst h
  exact ⟨_, rfl⟩

/-- A quantified formula that has a truth value has an instance with that truth value. -/
theorem signed_instance {q : Binder} (hq : q = .all ∨ q = .ex) {bs : List (String × Srt)} {t : Term} {ρ : Env I.U}
    (hρ : I.EnvOK ρ) {pol : Bool} (h : Signed pol (eval I (.binder q bs t) ρ).T) :
    ∃ ρ', Upd I bs ρ ρ' ∧ Signed pol (eval I t ρ').T := by
  rcases hq with rfl | rfl <;> cases pol <;> simp only [Signed, tr_all hρ, tr_ex hρ, if_true, if_false,
    Bool.false_eq_true, not_forall, not_exists] at h ⊢
  · obtain ⟨ρ', hu, h⟩ := h; exact ⟨ρ', hu, h⟩
  · exact ⟨ρ, .refl hρ, h ρ (.refl hρ)⟩
  · exact ⟨ρ, .refl hρ, fun ht => h ρ ⟨.refl hρ, ht⟩⟩
  · exact h

set_option hygiene false in
/-- A part of the current term is smaller than the bound. -/
local macro "small" : tactic => `(tactic| first
  | (simp at hn; omega)
  | (have := List.sizeOf_lt_of_mem hu; simp at hn; omega))

/-- Points are terms the substitution can be applied to. -/
theorem findPoints_nice_aux (n : Nat) : ∀ (t : Term), sizeOf t < n → t.Nice → ∀ (pol : Bool), ∀ p ∈ findPoints t pol,
    p.2.Nice := by
  induction n with
  | zero => intro t hn; omega
  | succ n ih =>
  intro t hn hN pol p hp
  have hop : ∀ {o : Op} {ts : List Term}, (Term.op o ts).Nice → ∀ u ∈ ts, u.Nice := fun h u hu =>
    ⟨sorted_op_mem h.sorted hu, Term.quoteSafeL_iff.1 h.safe u hu⟩
  unfold findPoints at hp
  split at hp
  · next t => exact ih t (by small) (hop hN t (by simp)) _ p hp
  · next bs t => exact ih t (by small) ⟨sorted_binder hN.sorted, (Term.quoteSafe_binder.1 hN.safe).2.2⟩ _ p hp
  · next bs t => exact ih t (by small) ⟨sorted_binder hN.sorted, (Term.quoteSafe_binder.1 hN.safe).2.2⟩ _ p hp
  · next a b =>
    simp only [List.mem_append, List.mem_map] at hp
    rcases hp with ⟨x, _, rfl⟩ | ⟨x, _, rfl⟩
    · exact hop hN b (by simp)
    · exact hop hN a (by simp)
  · next as =>
    obtain ⟨u, hu, hp⟩ := mem_findPointsL.1 hp
    exact ih u (by small) (hop hN u hu) _ p hp
  · next a b =>
    rcases List.mem_append.1 hp with hp | hp
    · exact ih a (by small) (hop hN a (by simp)) _ p hp
    · exact ih b (by small) (hop hN b (by simp)) _ p hp
  · next as =>
    obtain ⟨u, hu, hp⟩ := mem_findPointsL.1 hp
    exact ih u (by small) (hop hN u hu) _ p hp
  · cases hp

theorem findPoints_nice {t : Term} (h : t.Nice) {pol : Bool} {p : String × Term} (hp : p ∈ findPoints t pol) :
    p.2.Nice := findPoints_nice_aux _ t (Nat.lt_succ_self _) h pol p hp

/-- Where the formula has the truth value `pol`, the variable of a point has the value of the term, provided that no
inner quantifier binds a variable of the point. -/
theorem findPoints_sound_aux (n : Nat) : ∀ (t : Term), sizeOf t < n → sortOf t = some .bool → ∀ (pol : Bool) (x : String)
    (u : Term) (s : Srt), (x, u) ∈ findPoints t pol → u.Nice → sortOf u = some s → x ∉ t.boundNames →
    (∀ v ∈ u.fv, v.1 ∉ t.boundNames) → ∀ ρ : Env I.U, I.EnvOK ρ → Signed pol (eval I t ρ).T →
    ρ x s = eval I u ρ := by
  induction n with
  | zero => intro t hn; omega
  | succ n ih =>
  intro t hn hs pol x u s hp hN hus hx hfv ρ hρ hT
  have hbinder : ∀ {q : Binder} {bs : List (String × Srt)} {t : Term}, (q = .all ∨ q = .ex) →
      sizeOf (Term.binder q bs t) < n + 1 → sortOf (.binder q bs t) = some .bool → (x, u) ∈ findPoints t pol →
      x ∉ (Term.binder q bs t).boundNames → (∀ v ∈ u.fv, v.1 ∉ (Term.binder q bs t).boundNames) →
      Signed pol (eval I (.binder q bs t) ρ).T → ρ x s = eval I u ρ := by
    intro q bs t hq hn hs hp hx hfv hT
    obtain ⟨ρ', hup, hT'⟩ := signed_instance hq hρ hT
    simp only [Term.boundNames, List.mem_append, not_or] at hx hfv
    have := ih t (by small) ((sort_quant hq).1 hs).2.2 pol x u s hp hN hus hx.2 (fun v hv => (hfv v hv).2) ρ' hup.1 hT'
    rw [hup.2 x s fun hm => hx.1 (List.mem_map.2 ⟨_, hm, rfl⟩)] at this
    rw [this]
    exact hN.congr fun v hv => hup.2 v.1 v.2 fun hm => (hfv v hv).1 (List.mem_map.2 ⟨_, hm, rfl⟩)
  unfold findPoints at hp
  split at hp
  · next t =>
    simp only [Term.boundNames, Term.boundNamesL, List.append_nil] at hx hfv
    rw [eval_not] at hT
    exact ih t (by small) (sort_not.1 hs).2 _ x u s hp hN hus hx hfv ρ hρ (Signed.not.2 hT)
  · exact hbinder (.inl rfl) hn hs hp hx hfv hT
  · exact hbinder (.inr rfl) hn hs hp hx hfv hT
  · next a b =>
    obtain ⟨_, r, ha, hb⟩ := sort_equals.1 hs
    have hT : eval I a ρ = eval I b ρ := true_eq.1 hT
    simp only [List.mem_append, List.mem_map, Prod.mk.injEq, Option.mem_toList] at hp
    rcases hp with ⟨y, hy, rfl, rfl⟩ | ⟨y, hy, rfl, rfl⟩
    · obtain ⟨s', rfl⟩ := asVar_some hy
      have e1 : s' = r := by simpa [sortOf] using ha
      have e2 : s = r := by rw [hus] at hb; exact Option.some.inj hb
      rw [e2, ← e1]
      exact hT
    · obtain ⟨s', rfl⟩ := asVar_some hy
      have e1 : s' = r := by simpa [sortOf] using hb
      have e2 : s = r := by rw [hus] at ha; exact Option.some.inj ha
      rw [e2, ← e1]
      exact hT.symm
  · next as =>
    obtain ⟨t, hu, hp⟩ := mem_findPointsL.1 hp
    have hsub : ∀ y, y ∉ (Term.op .and as).boundNames → y ∉ t.boundNames := fun y hy h =>
      hy (Term.mem_boundNamesL.2 ⟨t, hu, h⟩)
    exact ih t (by small) ((sort_and.1 hs).2.2 t hu) _ x u s hp hN hus (hsub _ hx) (fun v hv => hsub _ (hfv v hv)) ρ hρ
      (tr_and.1 hT t hu)
  · next a b =>
    obtain ⟨_, ha, hb⟩ := sort_implies.1 hs
    have hsub : ∀ y, y ∉ (Term.op .implies [a, b]).boundNames → y ∉ a.boundNames ∧ y ∉ b.boundNames := fun y hy =>
      ⟨fun h => hy (Term.mem_boundNamesL.2 ⟨a, by simp, h⟩), fun h => hy (Term.mem_boundNamesL.2 ⟨b, by simp, h⟩)⟩
    have hT : ¬ ((eval I a ρ).T → (eval I b ρ).T) := by
      intro h
      refine hT ?_
      obtain ⟨x, hx⟩ := eval_bool ha hρ
      obtain ⟨y, hy⟩ := eval_bool hb hρ
      simp [eval, evalL_eq_map, evalOp, stdOp, Val.T_prop]
      exact h
    rw [Classical.not_imp] at hT
    rcases List.mem_append.1 hp with hp | hp
    · exact ih a (by small) ha true x u s hp hN hus (hsub _ hx).1 (fun v hv => (hsub _ (hfv v hv)).1) ρ hρ hT.1
    · exact ih b (by small) hb false x u s hp hN hus (hsub _ hx).2 (fun v hv => (hsub _ (hfv v hv)).2) ρ hρ hT.2
  · next as =>
    obtain ⟨t, hu, hp⟩ := mem_findPointsL.1 hp
    have hsub : ∀ y, y ∉ (Term.op .or as).boundNames → y ∉ t.boundNames := fun y hy h =>
      hy (Term.mem_boundNamesL.2 ⟨t, hu, h⟩)
    refine ih t (by small) ((sort_or.1 hs).2.2 t hu) _ x u s hp hN hus (hsub _ hx) (fun v hv => hsub _ (hfv v hv)) ρ hρ ?_
    intro h
    exact hT (tr_or.2 ⟨t, hu, h⟩)
  · cases hp

theorem findPoints_sound {t : Term} (hs : sortOf t = some .bool) {pol : Bool} {x : String} {u : Term} {s : Srt}
    (hp : (x, u) ∈ findPoints t pol) (hN : u.Nice) (hus : sortOf u = some s) (hx : x ∉ t.boundNames)
    (hfv : ∀ v ∈ u.fv, v.1 ∉ t.boundNames) {ρ : Env I.U} (hρ : I.EnvOK ρ) (hT : Signed pol (eval I t ρ).T) :
    ρ x s = eval I u ρ :=
  findPoints_sound_aux _ t (Nat.lt_succ_self _) hs pol x u s hp hN hus hx hfv ρ hρ hT

/-! ## Entering an anchor -/

/-- Later arguments do not change the value of a term that was assigned earlier. -/
theorem enters_keeps : ∀ {as A : List AnchorArg} {x : String} {s : Srt} {t : Term} {ρ ρ' : Env I.U},
    freshArgs A as = true → .assign x s t ∈ A → (sortOf t).isSome = true → t ≠ .var x s → I.EnvOK ρ →
    I.Enters as ρ ρ' → eval I t ρ' = eval I t ρ
  | [], _, _, _, _, _, _, _, _, _, _, _, he => by cases he; rfl
  | a :: as, A, x, s, t, ρ, ρ', hf, hm, hs, hne, hρ, he => by
    simp only [freshArgs, Bool.and_eq_true] at hf
    have hstep : ∀ (y : String) (r : Srt) (w : Val I.U), I.dom r w → freshFor A (y, r) = true →
        eval I t (ρ.set y r w) = eval I t ρ := by
      intro y r w hw hfr
      refine eval_congr_fv t (t.choiceOK_of_sort hs) (.inr (hρ.set hw)) fun v hv => ?_
      simp only [Env.set]
      rw [if_neg]
      intro e
      have e : v = (y, r) := Prod.ext e.1 e.2
      exact hne (freshFor_iff.1 hfr x s t hm (e ▸ hv))
    have hm' : AnchorArg.assign x s t ∈ A ++ [a] := List.mem_append_left _ hm
    cases a with
    | var y r =>
      obtain ⟨w, hw, he⟩ := he
      simp only [AnchorArg.fresh, Bool.and_eq_true] at hf
      rw [enters_keeps hf.2 hm' hs hne (hρ.set hw) he, hstep y r w hw hf.1.2]
    | assign y r u =>
      have hu : sortOf u = some r := by simpa [AnchorArg.ok] using AnchorArg.fresh_ok hf.1
      have hd := eval_dom u hu hρ
      rw [enters_keeps (as := as) hf.2 hm' hs hne (hρ.set hd) he]
      simp only [AnchorArg.fresh, Bool.and_eq_true, Bool.or_eq_true, decide_eq_true_eq] at hf
      rcases hf.1.2 with rfl | h
      · refine eval_congr_fv t (t.choiceOK_of_sort hs) (.inr (hρ.set hd)) fun v _ => ?_
        simp only [Env.set, eval]
        split
        · next e => rw [e.1, e.2]
        · rfl
      · exact hstep y r _ hd h.2

/-- Inside an anchor an assigned variable has the value of its term. -/
theorem enters_assigned : ∀ {as A : List AnchorArg} {x : String} {s : Srt} {t : Term} {ρ ρ' : Env I.U},
    freshArgs A as = true → (as.map (·.key)).Nodup → .assign x s t ∈ as → I.EnvOK ρ → I.Enters as ρ ρ' →
    ρ' x s = eval I t ρ'
  | [], _, _, _, _, _, _, _, _, h, _, _ => by cases h
  | a :: as, A, x, s, t, ρ, ρ', hf, hn, hm, hρ, he => by
    simp only [freshArgs, Bool.and_eq_true] at hf
    rw [List.map_cons, List.nodup_cons] at hn
    rcases List.mem_cons.1 hm with rfl | hm'
    · have ht : sortOf t = some s := by simpa [AnchorArg.ok] using AnchorArg.fresh_ok hf.1
      have hd := eval_dom t ht hρ
      by_cases hv : t = .var x s
      · rw [hv]; simp [eval]
      · have hk := enters_keeps (as := as) hf.2 (List.mem_append_right _ (List.mem_singleton_self _)) (by rw [ht]; rfl) hv
          (hρ.set hd) he
        have hx := AnchorArg.enters_eq (as := as) he x s fun a ha e => hn.1 (List.mem_map.2 ⟨a, ha, e⟩)
        rw [hk, hx]
        simp only [AnchorArg.fresh, Bool.and_eq_true, Bool.or_eq_true, decide_eq_true_eq] at hf
        have hxt := (hf.1.2.resolve_left hv).1
        have : eval I t (ρ.set x s (eval I t ρ)) = eval I t ρ := by
          refine eval_congr_fv t (t.choiceOK_of_sort (by rw [ht]; rfl)) (.inr (hρ.set hd)) fun v hvt => ?_
          simp only [Env.set]
          rw [if_neg]
          intro e
          have e : v = (x, s) := Prod.ext e.1 e.2
          exact hxt (e ▸ hvt)
        rw [this]
        simp [Env.set]
    · cases a with
      | var y r =>
        obtain ⟨w, hw, he⟩ := he
        exact enters_assigned hf.2 hn.2 hm' (hρ.set hw) he
      | assign y r u =>
        have hu : sortOf u = some r := by simpa [AnchorArg.ok] using AnchorArg.fresh_ok hf.1
        exact enters_assigned (as := as) hf.2 hn.2 hm' (hρ.set (eval_dom u hu hρ)) he

/-- The declared variables of an anchor can have any values. -/
theorem enters_pick {ρ1 : Env I.U} (h1 : I.EnvOK ρ1) : ∀ {as : List AnchorArg} (ρ0 : Env I.U), (as.map (·.key)).Nodup →
    ∃ ρ, I.Enters as ρ0 ρ ∧ ∀ y r, .var y r ∈ as → ρ y r = ρ1 y r
  | [], ρ0, _ => ⟨ρ0, rfl, fun _ _ h => (by cases h)⟩
  | a :: as, ρ0, hn => by
    rw [List.map_cons, List.nodup_cons] at hn
    cases a with
    | var x s =>
      obtain ⟨ρ, he, hv⟩ := enters_pick h1 (as := as) (ρ0.set x s (ρ1 x s)) hn.2
      refine ⟨ρ, ⟨_, h1 x s, he⟩, fun y r hm => ?_⟩
      rcases List.mem_cons.1 hm with e | hm
      · cases e
        rw [AnchorArg.enters_eq he x s fun a ha e => hn.1 (List.mem_map.2 ⟨a, ha, e⟩)]
        simp [Env.set]
      · exact hv y r hm
    | assign x s t =>
      obtain ⟨ρ, he, hv⟩ := enters_pick h1 (as := as) (ρ0.set x s (eval I t ρ0)) hn.2
      refine ⟨ρ, he, fun y r hm => ?_⟩
      rcases List.mem_cons.1 hm with e | hm
      · cases e
      · exact hv y r hm

/-! ## The rule -/

/-- A point of the formula that becomes the given value under the substitution of the context. -/
def Yields (Γ : List (List AnchorArg)) (phi : Term) (pol : Bool) (x : String) (v t : Term) : Prop :=
  (x, t) ∈ findPoints phi pol ∧ ∃ C C', CleanHistory Γ C ∧ C.apply t = .ok (v, C')

theorem applyPoints_ok {Γ : List (List AnchorArg)} (hf : FreshAnchors Γ) : ∀ {ps : List (String × Term)} {C : CtxStack},
    CleanHistory Γ C → (∀ p ∈ ps, p.2.Nice) → ∃ ps' C', applyPoints C ps = .ok (ps', C') ∧ CleanHistory Γ C' ∧
      ∀ x v, (x, v) ∈ ps' → ∃ t C1 C2, (x, t) ∈ ps ∧ CleanHistory Γ C1 ∧ C1.apply t = .ok (v, C2)
  | [], C, h, _ => ⟨[], C, rfl, h, fun _ _ h => (by cases h)⟩
  | (x, t) :: ps, C, h, hN => by
    have hNt := hN (x, t) (List.mem_cons_self ..)
    obtain ⟨t', C1, e1, h1, _⟩ := h.ctxOK.apply hf hNt
    obtain ⟨ps', C2, e2, h2, hp⟩ := applyPoints_ok hf (h.apply ⟨hf, hNt.substSafe⟩ e1)
      fun p hp => hN p (List.mem_cons_of_mem _ hp)
    refine ⟨(x, t') :: ps', C2, bind_ok.2 ⟨_, e1, bind_ok.2 ⟨_, e2, rfl⟩⟩, h2, fun y v hm => ?_⟩
    rcases List.mem_cons.1 hm with e | hm
    · cases e
      exact ⟨t, C, C1, List.mem_cons_self .., h, e1⟩
    · obtain ⟨u, D1, D2, hu, h'⟩ := hp y v hm
      exact ⟨u, D1, D2, List.mem_cons_of_mem _ hu, h'⟩

theorem mem_varArgs {as : List AnchorArg} {x : String} {s : Srt} : (x, s) ∈ varArgs as ↔ .var x s ∈ as := by
  simp only [varArgs, List.mem_filterMap]
  constructor
  · rintro ⟨a, ha, h⟩
    cases a <;> simp at h
    obtain ⟨rfl, rfl⟩ := h
    exact ha
  · exact fun h => ⟨_, h, rfl⟩

theorem mem_assignArgs {as : List AnchorArg} {x : String} {t : Term} :
    (x, t) ∈ assignArgs as ↔ ∃ s, .assign x s t ∈ as := by
  simp only [assignArgs, List.mem_filterMap]
  constructor
  · rintro ⟨a, ha, h⟩
    cases a <;> simp at h
    obtain ⟨rfl, rfl⟩ := h
    exact ⟨_, ha⟩
  · exact fun ⟨s, h⟩ => ⟨_, h, rfl⟩

theorem pointVars_ok : ∀ {ps : List (String × Term)} {vs : List (String × Srt)}, pointVars ps = .ok vs →
    ∀ x s, (x, s) ∈ vs ↔ ∃ t, (x, t) ∈ ps ∧ sortOf t = some s
  | [], _, h, x, s => by cases h; simp
  | (y, t) :: ps, vs, h, x, s => by
    simp only [pointVars, bind_ok, orPanic_ok] at h
    obtain ⟨r, hr, vs', hvs, h⟩ := h
    cases h
    rw [List.mem_cons, pointVars_ok hvs x s]
    constructor
    · rintro (e | ⟨u, hu, hs⟩)
      · cases e; exact ⟨t, List.mem_cons_self .., hr⟩
      · exact ⟨u, List.mem_cons_of_mem _ hu, hs⟩
    · rintro ⟨u, hu, hs⟩
      rcases List.mem_cons.1 hu with e | hu
      · cases e
        rw [hr] at hs
        exact .inl (by rw [Option.some.inj hs])
      · exact .inr ⟨u, hu, hs⟩

theorem onepointRight_ok {q : Binder} {t r : Term} {bs : List (String × Srt)} (h : onepointRight q t = .ok (bs, r)) :
    t = .binder q bs r ∨ (bs = [] ∧ r = t) := by
  unfold onepointRight at h
  split at h
  · next q' bs' u e =>
    simp only [bind_ok, require_ok, ok_inj, Prod.mk.injEq] at h
    obtain ⟨_, rfl, rfl, rfl⟩ := h
    exact .inl (asQuantErr_ok.1 e).2
  · simp only [ok_inj, Prod.mk.injEq] at h
    exact .inr ⟨h.1.symm, h.2.symm⟩

/-- The assigned variables are determined by the formula, in the order of the anchor. -/
structure OnepointOK (Γ : List (List AnchorArg)) (as : List AnchorArg) (phi psi : Term) (pol : Bool) : Prop where
  nodup : (as.map (·.key)).Nodup
  points : ∀ pre x s v post, as = pre ++ .assign x s v :: post → (∃ t, Yields (Γ ++ [as]) phi pol x v t) →
    ∃ t, Yields (Γ ++ [as]) phi pol x v t ∧ x ∉ phi.boundNames ∧ (∀ w ∈ t.fv, w.1 ∉ phi.boundNames) ∧
      (x, s) ∉ t.fv ∧ ∀ y r u, .assign y r u ∈ post → (y, r) ∉ t.fv
  right : ∀ x s t, .assign x s t ∈ as → (x, s) ∉ psi.fv

/-- Where the quantified formula is decided by an instance, the assigned variables have the assigned values. -/
theorem OnepointOK.enters {Γ : List (List AnchorArg)} {as : List AnchorArg} {phi psi : Term} {pol : Bool}
    (h : OnepointOK Γ as phi psi pol) (hf : FreshAnchors (Γ ++ [as])) (hN : phi.Nice) (hs : sortOf phi = some .bool)
    (hy : ∀ x v, (x, v) ∈ assignArgs as → ∃ t, Yields (Γ ++ [as]) phi pol x v t)
    {ρ0 ρ1 : Env I.U} (h0 : I.EnvOK ρ0) (hr : I.Reach Γ ρ0) (hu : Upd I (as.map (·.key)) ρ0 ρ1)
    (hT : Signed pol (eval I phi ρ1).T) : I.Enters as ρ0 ρ1 := by
  obtain ⟨ρ, he, hvar⟩ := enters_pick hu.1 ρ0 h.nodup
  have hfa : freshArgs Γ.flatten as = true := by
    unfold FreshAnchors at hf
    rw [List.flatten_append, freshArgs_append] at hf
    simpa using hf.2
  have hok : ∀ a ∈ as, a.ok = true := freshArgs_ok hfa
  have hρ := AnchorArg.enters_ok hok h0 he
  have hreach : I.Reach (Γ ++ [as]) ρ := by
    rw [Interp.Reach, List.reverse_append]
    exact ⟨ρ0, hr, he⟩
  have key : ∀ post pre, as = pre ++ post → (∀ x s t, .assign x s t ∈ pre → ρ x s = ρ1 x s) →
      ∀ x s t, .assign x s t ∈ as → ρ x s = ρ1 x s := by
    intro post
    induction post with
    | nil =>
      intro pre e hpre
      rw [List.append_nil] at e
      rw [e]
      exact hpre
    | cons a post ih =>
      intro pre e hpre
      refine ih (pre ++ [a]) (by rw [e, List.append_assoc]; rfl) fun x s t hm => ?_
      rcases List.mem_append.1 hm with hm | hm
      · exact hpre x s t hm
      · rw [List.mem_singleton] at hm
        subst hm
        have hm : AnchorArg.assign x s t ∈ as := by rw [e]; simp
        obtain ⟨u, ⟨hp, C, C', hC, hap⟩, hx, hfv, hxu, hlater⟩ := h.points pre x s t post e
          (hy x t (mem_assignArgs.2 ⟨s, hm⟩))
        have hNu : u.Nice := findPoints_nice hN hp
        obtain ⟨t', C'', e', _, hst, hsem⟩ := hC.ctxOK.apply hf hNu
        rw [hap] at e'
        simp only [ok_inj, Prod.mk.injEq] at e'
        obtain ⟨rfl, _⟩ := e'
        have hts : sortOf t = some s := by simpa [AnchorArg.ok] using hok _ hm
        rw [enters_assigned hfa h.nodup hm h0 he, hsem I ρ hreach,
          findPoints_sound hs hp hNu (hst ▸ hts) hx hfv hu.1 hT]
        refine hNu.congr fun w hw => ?_
        by_cases hk : w ∈ as.map (·.key)
        · obtain ⟨b, hb, hbk⟩ := List.mem_map.1 hk
          cases b with
          | var y r => subst hbk; exact hvar y r hb
          | assign y r z =>
            subst hbk
            rw [e] at hb
            rcases List.mem_append.1 hb with hb | hb
            · exact hpre y r z hb
            · rcases List.mem_cons.1 hb with e2 | hb
              · cases e2; exact absurd hw hxu
              · exact absurd hw (hlater y r z hb)
        · rw [hu.2 w.1 w.2 hk]
          exact AnchorArg.enters_eq he w.1 w.2 fun a ha e => hk (List.mem_map.2 ⟨a, ha, e⟩)
  have : ρ = ρ1 := by
    funext x s
    by_cases hk : (x, s) ∈ as.map (·.key)
    · obtain ⟨b, hb, hbk⟩ := List.mem_map.1 hk
      cases b with
      | var y r => cases hbk; exact hvar _ _ hb
      | assign y r z => cases hbk; exact key as [] rfl (fun _ _ _ h => (by cases h)) _ _ _ hb
    · rw [hu.2 x s hk]
      exact AnchorArg.enters_eq he x s fun a ha e => hk (List.mem_map.2 ⟨a, ha, e⟩)
  rw [← this]
  exact he

end Carcara
