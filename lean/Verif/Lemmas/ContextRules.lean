import Verif.Lemmas.Context

/-! # The rules that close a subproof with anchor arguments -/

namespace Carcara
open Classical
variable {I : Interp}

theorem true_eq {a b : Term} {ρ : Env I.U} : I.True ρ (.op .equals [a, b]) ↔ eval I a ρ = eval I b ρ := by
  simp [Interp.True, eval, evalL_eq_map, evalOp, stdOp, Sem.chain, Val.T_prop]

theorem satC_one {ρ : Env I.U} {t : Term} : I.SatC ρ [t] ↔ I.True ρ t := by simp [Interp.SatC]

theorem freshArgs_ok : ∀ {as A : List AnchorArg}, freshArgs A as = true → ∀ a ∈ as, a.ok = true
  | [], _, _, _, h => by cases h
  | b :: as, A, hf, a, ha => by
    simp only [freshArgs, Bool.and_eq_true] at hf
    rcases List.mem_cons.1 ha with rfl | ha
    · exact AnchorArg.fresh_ok hf.1
    · exact freshArgs_ok hf.2 a ha

theorem tuple_sorts {bs bs' : List (String × Srt)} (hs : List.Forall₂ (fun b b' : String × Srt => b'.2 = b.2) bs bs') :
    ∀ {vs : List (Val I.U)}, I.Tuple bs vs → I.Tuple bs' vs := by
  unfold Interp.Tuple
  induction hs with
  | nil => exact fun h => h
  | cons e _ ih =>
    intro vs hv
    cases hv with
    | cons h1 h2 => exact .cons (e ▸ h1) (ih h2)

/-! ## `bind` -/

/-- The anchor of a `bind` step: the variables of the right-hand side are declared, the variables of the left-hand side
are assigned to them, position by position (assignments of a variable to itself may be left out). The two lists have no
repetitions and share variables only at the same position. -/
structure BindAnchor (bs1 bs2 : List (String × Srt)) (as : List AnchorArg) : Prop where
  sorts : List.Forall₂ (fun b b' : String × Srt => b'.2 = b.2) bs1 bs2
  nodup1 : bs1.Nodup
  nodup2 : bs2.Nodup
  apart : ∀ p ∈ bs1.zip bs2, p.1 ∈ bs2 → p.1 = p.2
  args : ∃ ps : List ((String × Srt) × (String × Srt)),
    as = bs2.map (fun y => .var y.1 y.2) ++ ps.map (fun p => .assign p.1.1 p.1.2 (.var p.2.1 p.2.2)) ∧
    (∀ p ∈ ps, p ∈ bs1.zip bs2) ∧ ∀ p ∈ bs1.zip bs2, p.1 ≠ p.2 → p ∈ ps

theorem enters_vars : ∀ {bs : List (String × Srt)} {vs : List (Val I.U)} {ρ : Env I.U}, I.Tuple bs vs →
    I.Enters (bs.map fun y => .var y.1 y.2) ρ (ρ.setMany bs vs)
  | [], _, _, h => by cases h; rfl
  | (x, s) :: bs, _, _, h => by
    cases h with
    | cons h1 h2 => exact ⟨_, h1, enters_vars h2⟩

/-- Assignments of variables to variables that are not assigned themselves. -/
theorem enters_assigns {bs2 : List (String × Srt)} : ∀ {ps : List ((String × Srt) × (String × Srt))} {ρ : Env I.U},
    (∀ p ∈ ps, p.2 ∈ bs2) → (∀ p ∈ ps, p.1 ∈ bs2 → p.1 = p.2) → (∀ p ∈ ps, ∀ q ∈ ps, p.1 = q.1 → p.2 = q.2) →
    ∃ ρ', I.Enters (ps.map fun p => .assign p.1.1 p.1.2 (.var p.2.1 p.2.2)) ρ ρ' ∧
      (∀ p ∈ ps, ρ' p.1.1 p.1.2 = ρ p.2.1 p.2.2) ∧ ∀ v : String × Srt, (∀ p ∈ ps, p.1 ≠ v) → ρ' v.1 v.2 = ρ v.1 v.2
  | [], ρ, _, _, _ => ⟨ρ, rfl, fun _ h => (by cases h), fun _ _ => rfl⟩
  | p :: ps, ρ, h1, h2, h3 => by
    obtain ⟨ρ', he, hp, hv⟩ := enters_assigns (ps := ps) (ρ := ρ.set p.1.1 p.1.2 (ρ p.2.1 p.2.2))
      (fun q hq => h1 q (List.mem_cons_of_mem _ hq)) (fun q hq => h2 q (List.mem_cons_of_mem _ hq))
      (fun q hq r hr => h3 q (List.mem_cons_of_mem _ hq) r (List.mem_cons_of_mem _ hr))
    have hset : ∀ v : String × Srt, v ∈ bs2 → (ρ.set p.1.1 p.1.2 (ρ p.2.1 p.2.2)) v.1 v.2 = ρ v.1 v.2 := by
      intro v hm
      simp only [Env.set]
      split
      · next e =>
        have e : v = p.1 := Prod.ext e.1 e.2
        have := h2 p (List.mem_cons_self ..) (e ▸ hm)
        rw [e, this]
      · rfl
    refine ⟨ρ', he, fun q hq => ?_, fun v hv' => ?_⟩
    · rcases List.mem_cons.1 hq with rfl | hq
      · by_cases hm : ∃ r ∈ ps, r.1 = q.1
        · obtain ⟨r, hr, e⟩ := hm
          have e2 := h3 r (List.mem_cons_of_mem _ hr) q (List.mem_cons_self ..) e
          rw [← e, hp r hr, e2]
          exact hset _ (h1 q (List.mem_cons_self ..))
        · rw [hv q.1 fun r hr e => hm ⟨r, hr, e⟩]
          simp [Env.set]
      · rw [hp q hq]
        exact hset _ (h1 q (List.mem_cons_of_mem _ hq))
    · rw [hv v fun q hq => hv' q (List.mem_cons_of_mem _ hq)]
      simp only [Env.set]
      rw [if_neg]
      intro e
      exact hv' p (List.mem_cons_self ..) (Prod.ext e.1.symm e.2.symm)

theorem zip_unique {α β : Type} {as : List α} {bs : List β} (h : as.Nodup) {p q : α × β} (hp : p ∈ as.zip bs)
    (hq : q ∈ as.zip bs) (e : p.1 = q.1) : p = q := by
  obtain ⟨i, hi, rfl⟩ := List.mem_iff_getElem.1 hp
  obtain ⟨j, hj, rfl⟩ := List.mem_iff_getElem.1 hq
  simp only [List.getElem_zip] at e ⊢
  have := (List.Nodup.getElem_inj_iff h).1 e
  subst this
  rfl

/-- Inside the anchor of a `bind` step, the two lists of variables can have any values, the same ones. -/
theorem BindAnchor.enters {bs1 bs2 : List (String × Srt)} {as : List AnchorArg} (h : BindAnchor bs1 bs2 as)
    (ρ0 : Env I.U) {vs : List (Val I.U)} (hv : I.Tuple bs1 vs) :
    ∃ ρ, I.Enters as ρ0 ρ ∧ (∀ v ∈ bs1, ρ v.1 v.2 = ρ0.setMany bs1 vs v.1 v.2) ∧
      (∀ v ∈ bs2, ρ v.1 v.2 = ρ0.setMany bs2 vs v.1 v.2) ∧
      ∀ v : String × Srt, v ∉ bs1 → v ∉ bs2 → ρ v.1 v.2 = ρ0 v.1 v.2 := by
  obtain ⟨ps, rfl, hin, hall⟩ := h.args
  have hv2 : I.Tuple bs2 vs := tuple_sorts h.sorts hv
  have hlen : bs1.length = vs.length := List.Forall₂.length_eq hv
  have hzip : ∀ p ∈ ps, p.1 ∈ bs1 ∧ p.2 ∈ bs2 := fun p hp => List.of_mem_zip (a := p.1) (b := p.2) (hin p hp)
  obtain ⟨ρ, he, hp, hother⟩ := enters_assigns (bs2 := bs2) (ps := ps) (ρ := ρ0.setMany bs2 vs)
    (fun p hp => (hzip p hp).2) (fun p hp => h.apart p (hin p hp))
    (fun p hp q hq e => by rw [zip_unique h.nodup1 (hin p hp) (hin q hq) e])
  have hpair : ∀ p ∈ bs1.zip bs2, ρ0.setMany bs2 vs p.2.1 p.2.2 = ρ0.setMany bs1 vs p.1.1 p.1.2 :=
    fun p hp => Env.setMany_pair h.sorts h.nodup1 h.nodup2 hlen hp
  refine ⟨ρ, enters_append.2 ⟨_, enters_vars hv2, he⟩, fun v hv => ?_, fun v hv => ?_, fun v h1 h2 => ?_⟩
  · obtain ⟨i, hi, rfl⟩ := List.mem_iff_getElem.1 hv
    have hi2 : i < bs2.length := by rw [← h.sorts.length_eq]; exact hi
    have hm : (bs1[i], bs2[i]) ∈ bs1.zip bs2 :=
      List.mem_iff_getElem.2 ⟨i, by simp [hi, hi2], by simp⟩
    rw [← hpair _ hm]
    by_cases e : bs1[i] = bs2[i]
    · simp only
      by_cases hq : ∃ p ∈ ps, p.1 = bs1[i]
      · obtain ⟨p, hp', e'⟩ := hq
        have : p.2 = bs2[i] := by rw [zip_unique h.nodup1 (hin p hp') hm e']
        rw [← e', hp p hp', this]
      · rw [hother _ fun p hp' e' => hq ⟨p, hp', e'⟩, e]
    · exact hp _ (hall _ hm e)
  · by_cases hq : ∃ p ∈ ps, p.1 = v
    · obtain ⟨p, hp', e'⟩ := hq
      have : p.1 = p.2 := h.apart p (hin p hp') (by rw [e']; exact hv)
      rw [← e', hp p hp', this]
    · exact hother v fun p hp' e' => hq ⟨p, hp', e'⟩
  · rw [hother v fun p hp' e' => h1 (e' ▸ (hzip p hp').1)]
    exact Env.setMany_of_not_mem h2

theorem asBinderErr_ok {t : Term} {r : Binder × List (String × Srt) × Term} :
    asBinderErr t = .ok r ↔ t = .binder r.1 r.2.1 r.2.2 := by
  obtain ⟨b, bs, u⟩ := r
  cases t <;> simp [asBinderErr]

theorem setOf_nodup_eq {α : Type} [DecidableEq α] {l : List α} (h : l.Nodup) : setOf l = l := by
  have : ∀ (l s : List α), (s ++ l).Nodup → l.foldl setInsert s = s ++ l := by
    intro l
    induction l with
    | nil => intro s _; simp
    | cons a l ih =>
      intro s hs
      rw [List.foldl_cons]
      have ha : a ∉ s := by
        intro hm
        exact (List.nodup_append.1 hs).2.2 a hm a (List.mem_cons_self ..) rfl
      rw [setInsert, if_neg ha, ih]
      · simp
      · simpa using hs
  simpa [setOf] using this l [] (by simpa using h)

/-! ## `let` -/

theorem letMappings_ok : ∀ {as : List AnchorArg} {m m' : List (Term × Term)}, letMappings as m = .ok m' →
    (m.map (·.1)).Nodup → (m'.map (·.1)).Nodup ∧
    ∀ k v, (k, v) ∈ m' → (k, v) ∈ m ∨ ∃ x s s', k = .var x s ∧ sortOf v = some s ∧ .assign x s' v ∈ as
  | [], m, m', h, hn => by
    cases h
    exact ⟨hn, fun k v h => .inl h⟩
  | .var _ _ :: as, m, m', h, hn => by
    obtain ⟨h1, h2⟩ := letMappings_ok (as := as) h hn
    refine ⟨h1, fun k v hk => ?_⟩
    rcases h2 k v hk with h | ⟨x, s, s', h⟩
    · exact .inl h
    · exact .inr ⟨x, s, s', h.1, h.2.1, List.mem_cons_of_mem _ h.2.2⟩
  | .assign x s' t :: as, m, m', h, hn => by
    simp only [letMappings, bind_ok, orPanic_ok] at h
    obtain ⟨s, hs, h⟩ := h
    obtain ⟨h1, h2⟩ := letMappings_ok h (nodup_keys_insert hn)
    refine ⟨h1, fun k v hk => ?_⟩
    rcases h2 k v hk with h | ⟨x, s, s', h⟩
    · rcases mem_mapInsert_cases h with e | h
      · cases e
        exact .inr ⟨x, s, s', rfl, hs, List.mem_cons_self ..⟩
      · exact .inl h
    · exact .inr ⟨x, s, s', h.1, h.2.1, List.mem_cons_of_mem _ h.2.2⟩

/-- Distinct assignments lead to distinct mappings. -/
theorem letMappings_length : ∀ {as : List AnchorArg} {m m' : List (Term × Term)}, letMappings as m = .ok m' →
    (∀ a ∈ as, a.ok = true) → (as.map (·.key)).Nodup → (∀ a ∈ as, Term.var a.key.1 a.key.2 ∉ m.map (·.1)) →
    m'.length = m.length + (assignArgs as).length ∧ (∀ p ∈ m, p ∈ m') ∧
      ∀ x s t, .assign x s t ∈ as → (.var x s, t) ∈ m'
  | [], m, m', h, _, _, _ => by
    cases h
    exact ⟨rfl, fun _ h => h, fun _ _ _ h => (by cases h)⟩
  | .var y r :: as, m, m', h, hok, hn, hf => by
    rw [List.map_cons, List.nodup_cons] at hn
    obtain ⟨h1, h2, h3⟩ := letMappings_length (as := as) h (fun a ha => hok a (List.mem_cons_of_mem _ ha)) hn.2
      (fun a ha => hf a (List.mem_cons_of_mem _ ha))
    refine ⟨by simpa [assignArgs] using h1, h2, fun x s t hm => ?_⟩
    rcases List.mem_cons.1 hm with e | hm
    · cases e
    · exact h3 x s t hm
  | .assign y r u :: as, m, m', h, hok, hn, hf => by
    simp only [letMappings, bind_ok, orPanic_ok] at h
    obtain ⟨s, hs, h⟩ := h
    have hu := hok _ (List.mem_cons_self ..)
    simp only [AnchorArg.ok, decide_eq_true_eq] at hu
    rw [hu] at hs
    cases hs
    have hnew : Term.var y r ∉ m.map (·.1) := hf (.assign y r u) (List.mem_cons_self ..)
    rw [mapInsert_fresh hnew] at h
    rw [List.map_cons, List.nodup_cons] at hn
    obtain ⟨h1, h2, h3⟩ := letMappings_length h (fun a ha => hok a (List.mem_cons_of_mem _ ha)) hn.2 (by
      intro a ha hm
      rw [List.map_append, List.mem_append] at hm
      rcases hm with hm | hm
      · exact hf a (List.mem_cons_of_mem _ ha) hm
      · simp only [List.map_cons, List.map_nil, List.mem_singleton] at hm
        have e : a.key = (y, r) := var_inj (w := (y, r)) hm
        exact hn.1 (List.mem_map.2 ⟨a, ha, e⟩))
    refine ⟨?_, fun p hp => h2 p (List.mem_append_left _ hp), fun x s t hm => ?_⟩
    · rw [h1]
      simp [assignArgs]
      omega
    · rcases List.mem_cons.1 hm with e | hm
      · cases e
        exact h2 _ (by simp)
      · exact h3 x s t hm

theorem letPairs_ok {m : List (Term × Term)} : ∀ {bs : List (String × Term)} {ps : List (Term × Term)},
    letPairs m bs = .ok ps → List.Forall₂ (fun b p => p.2 = b.2 ∧ ∃ s, sortOf b.2 = some s ∧
      mapGet m (.var b.1 s) = some p.1) bs ps
  | [], _, h => by cases h; exact .nil
  | (x, t) :: bs, _, h => by
    simp only [letPairs, bind_ok, orPanic_ok, orErr_ok] at h
    obtain ⟨s, hs, v, hv, ps, hps, h⟩ := h
    cases h
    exact .cons ⟨rfl, s, hs, hv⟩ (letPairs_ok hps)

theorem letPremises_ok : ∀ {ps : List (List Term)} {st : List (Term × Term)}, letPremises ps st = .ok () →
    ps.length = st.length → ∀ p ∈ st, [.op .equals [p.1, p.2]] ∈ ps ∨ [.op .equals [p.2, p.1]] ∈ ps
  | [], [], _, _, _, h => by cases h
  | q :: ps, (s, t) :: st, h, hl, p, hp => by
    simp only [letPremises, bind_ok, get1_ok, match2_ok, require_ok, Prod.exists] at h
    obtain ⟨_, rfl, a, b, rfl, _, hab, h⟩ := h
    rcases List.mem_cons.1 hp with rfl | hp
    · rcases hab with e | e <;> cases e
      · exact .inl (List.mem_cons_self ..)
      · exact .inr (List.mem_cons_self ..)
    · rcases letPremises_ok h (by simpa using hl) p hp with h | h
      · exact .inl (List.mem_cons_of_mem _ h)
      · exact .inr (List.mem_cons_of_mem _ h)

/-- Assignments whose values do not mention any variable of the anchor. -/
theorem enters_closed : ∀ {as : List AnchorArg} {ρ ρ' : Env I.U} (K : List (String × Srt)), (∀ a ∈ as, a.key ∈ K) →
    (as.map (·.key)).Nodup → (∀ a ∈ as, a.ok = true) → (∀ a ∈ as, ∃ x s t, a = .assign x s t ∧ ∀ k ∈ K, k ∉ t.fv) →
    I.EnvOK ρ → I.Enters as ρ ρ' → ∀ x s t, .assign x s t ∈ as → ρ' x s = eval I t ρ
  | [], _, _, _, _, _, _, _, _, _, _, _, _, h => by cases h
  | a :: as, ρ, ρ', K, hK, hn, hok, hcl, hρ, he, x, s, t, hm => by
    obtain ⟨y, r, u, rfl, hu⟩ := hcl a (List.mem_cons_self ..)
    rw [List.map_cons, List.nodup_cons] at hn
    have hur := hok _ (List.mem_cons_self ..)
    simp only [AnchorArg.ok, decide_eq_true_eq] at hur
    have hρ1 := hρ.set (x := y) (eval_dom u hur hρ)
    rcases List.mem_cons.1 hm with e | hm
    · cases e
      have := AnchorArg.enters_eq (as := as) he x s (fun a ha e => hn.1 (List.mem_map.2 ⟨a, ha, e⟩))
      rw [this]
      simp [Env.set]
    · have := enters_closed K (fun a ha => hK a (List.mem_cons_of_mem _ ha)) hn.2
        (fun a ha => hok a (List.mem_cons_of_mem _ ha)) (fun a ha => hcl a (List.mem_cons_of_mem _ ha)) hρ1 he x s t hm
      rw [this]
      obtain ⟨x', s', t', e, ht⟩ := hcl _ (List.mem_cons_of_mem _ hm)
      cases e
      have hts := hok _ (List.mem_cons_of_mem _ hm)
      simp only [AnchorArg.ok, decide_eq_true_eq] at hts
      refine eval_congr_fv _ (Term.choiceOK_of_sort _ (by rw [hts]; rfl)) (.inr hρ1) fun v hv => ?_
      simp only [Env.set]
      rw [if_neg]
      intro e
      have e : v = (y, r) := Prod.ext e.1 e.2
      exact ht (y, r) (hK _ (List.mem_cons_self ..)) (e ▸ hv)

theorem letMany_other : ∀ {bs : List (String × Val I.U)} {ρ : Env I.U} {x : String} {s : Srt},
    x ∉ bs.map (·.1) → I.letMany ρ bs x s = ρ x s
  | [], _, _, _, _ => rfl
  | (y, w) :: bs, ρ, x, s, h => by
    rw [List.map_cons, List.mem_cons, not_or] at h
    rw [Interp.letMany, letMany_other h.2]
    unfold Interp.letSet
    rw [if_neg fun e => h.1 e.1]

/-- Values of `let`-bound variables, for distinct names. -/
theorem letMany_value : ∀ {bs : List (String × Val I.U)} {ρ : Env I.U} {x : String} {s : Srt} {v : Val I.U},
    (bs.map (·.1)).Nodup → (x, v) ∈ bs → I.dom s v → I.letMany ρ bs x s = v
  | (y, w) :: bs, ρ, x, s, v, hn, hm, hd => by
    rw [List.map_cons, List.nodup_cons] at hn
    rw [Interp.letMany]
    rcases List.mem_cons.1 hm with e | hm
    · cases e
      rw [letMany_other hn.1]
      unfold Interp.letSet
      rw [if_pos ⟨rfl, hd⟩]
    · exact letMany_value hn.2 hm hd


end Carcara
