import Verif.Lemmas.RareMeaning
import Verif.Lemmas.PlainSubst
import Verif.Lemmas.FreeVarsModel

/-!
# What `check_rare` compares
-/

namespace Carcara

/-! ## The mapping -/

theorem rareMap_append {params : List (String × RareParam)} {x : String} {t : Term} {tail : List Term} :
    ∀ {xs : List String} {ts : List Term} {m0 m : List (Term × Term)}, xs.length = ts.length →
      (rareMap params (xs ++ [x]) (ts ++ t :: tail) m0 = .ok m ↔
        ∃ m1 p, rareMap params xs ts m0 = .ok m1 ∧ mapGet params x = some p ∧ m = mapInsert m1 (.var x p.sort) t)
  | [], ts, m0, m, hl => by
    cases ts with
    | cons _ _ => cases hl
    | nil =>
      simp only [List.nil_append, rareMap, bind_ok, orPanic_ok, ok_inj]
      constructor
      · rintro ⟨p, hp, rfl⟩; exact ⟨m0, p, rfl, hp, rfl⟩
      · rintro ⟨_, p, rfl, hp, rfl⟩; exact ⟨p, hp, rfl⟩
  | y :: xs, ts, m0, m, hl => by
    cases ts with
    | nil => cases hl
    | cons u ts =>
      have ih := fun m0 m => rareMap_append (params := params) (x := x) (t := t) (tail := tail) (xs := xs) (ts := ts)
        (m0 := m0) (m := m) (by simpa using hl)
      simp only [List.cons_append, rareMap, bind_ok, orPanic_ok, ih]
      constructor
      · rintro ⟨q, hq, m1, p, h1, hp, rfl⟩; exact ⟨m1, p, ⟨q, hq, h1⟩, hp, rfl⟩
      · rintro ⟨m1, p, ⟨q, hq, h1⟩, hp, rfl⟩; exact ⟨q, hq, m1, p, h1, hp, rfl⟩

theorem rareMap_tail {params : List (String × RareParam)} {tail : List Term} :
    ∀ {xs : List String} {ts : List Term} {m0 : List (Term × Term)}, xs.length = ts.length →
      rareMap params xs (ts ++ tail) m0 = rareMap params xs ts m0
  | [], ts, m0, _ => by cases ts <;> cases tail <;> rfl
  | x :: xs, [], _, h => by cases h
  | x :: xs, t :: ts, m0, h => by
    simp only [List.cons_append, rareMap, rareMap_tail (xs := xs) (ts := ts) (by simpa using h)]

/-- The mapping that a step gives rise to. -/
theorem rareMap_spec {params : List (String × RareParam)} {xs : List String} : ∀ {ts : List Term}
    {m : List (Term × Term)}, xs.length = ts.length → rareMap params xs.reverse ts.reverse [] = .ok m →
    (∀ y s, mapGet m (.var y s) = if (mapGet params y).map (·.sort) = some s then argOf xs ts y else none) ∧
      (m.map (·.1)).Nodup ∧ ∀ p ∈ m, ∃ x q, x ∈ xs ∧ mapGet params x = some q ∧ p.1 = .var x q.sort ∧ p.2 ∈ ts := by
  induction xs with
  | nil =>
    intro ts m hl h
    cases ts with
    | cons _ _ => cases hl
    | nil =>
      cases h
      exact ⟨fun y s => by simp [mapGet, argOf], List.nodup_nil, fun p hp => by cases hp⟩
  | cons x xs ih =>
    intro ts m hl h
    cases ts with
    | nil => cases hl
    | cons t ts =>
      have hl : xs.length = ts.length := by simpa using hl
      rw [List.reverse_cons, List.reverse_cons, rareMap_append (by simp [hl])] at h
      obtain ⟨m1, p, h1, hp, rfl⟩ := h
      obtain ⟨i1, i2, i3⟩ := ih hl h1
      refine ⟨fun y s => ?_, nodup_keys_insert i2, fun q hq => ?_⟩
      · rw [mapGet_insert, i1]
        simp only [Term.var.injEq, argOf]
        by_cases hxy : x = y
        · subst hxy
          rw [hp]
          by_cases hs : p.sort = s
          · subst hs
            simp
          · simp [hs]
        · simp [hxy]
      · rcases mem_mapInsert_cases hq with rfl | hq
        · exact ⟨x, p, List.mem_cons_self .., hp, rfl, List.mem_cons_self ..⟩
        · obtain ⟨y, r, h1, h2, h3, h4⟩ := i3 q hq
          exact ⟨y, r, List.mem_cons_of_mem _ h1, h2, h3, List.mem_cons_of_mem _ h4⟩

/-- The mapping exists if the names are declared. -/
theorem rareMap_total {params : List (String × RareParam)} {xs : List String} : ∀ {ts : List Term} {m0 : List (Term × Term)},
    xs.length ≤ ts.length → (∀ x ∈ xs, (mapGet params x).isSome = true) → ∃ m, rareMap params xs ts m0 = .ok m := by
  induction xs with
  | nil => intro ts m0 _ _; exact ⟨m0, by cases ts <;> rfl⟩
  | cons x xs ih =>
    intro ts m0 hl hx
    cases ts with
    | nil => simp at hl
    | cons t ts =>
      obtain ⟨p, hp⟩ := Option.isSome_iff_exists.1 (hx x (List.mem_cons_self ..))
      obtain ⟨m, hm⟩ := ih (ts := ts) (m0 := mapInsert m0 (.var x p.sort) t) (by simpa using hl)
        fun x h => hx x (List.mem_cons_of_mem _ h)
      exact ⟨m, bind_ok.2 ⟨p, orPanic_ok.2 hp, hm⟩⟩

/-- Applying the mapping to terms without binders is replacing the parameters. -/
theorem rareMap_put {r : RareRule} {ts : List Term} {m : List (Term × Term)} (hl : r.args.length = ts.length)
    (h : rareMap r.params r.args.reverse ts.reverse [] = .ok m) : PutOK (r.inst ts) ⟨m, none, []⟩ := by
  obtain ⟨h1, h2, h3⟩ := rareMap_spec hl h
  refine ⟨fun p hp => ?_, h2, fun v => ?_, fun k u h => by cases h⟩
  · obtain ⟨x, q, _, _, e, _⟩ := h3 p hp
    rw [e]
    rfl
  · rw [substOf_eq, h1, RareRule.inst]
    by_cases hs : (mapGet r.params v.1).map (·.sort) = some v.2
    · rw [if_pos hs, if_pos hs]
    · rw [if_neg hs, if_neg hs]
      rfl

/-! ## The comparison -/

theorem rarePremises_put {f : String × Srt → Term} {rs : List Term} : ∀ {ps : List (List Term)} {σ σ' : Subst},
    PutOK f σ → (∀ r ∈ rs, r.plain = true) → rs.length = ps.length → rarePremises σ rs ps = .ok σ' →
    PutOK f σ' ∧ List.Forall₂ (fun r p => ∃ t, p = [t] ∧ rewriteMeta (r.put f) = .ok t) rs ps := by
  induction rs with
  | nil =>
    intro ps σ σ' hσ _ hl h
    cases ps with
    | cons _ _ => cases hl
    | nil => cases h; exact ⟨hσ, .nil⟩
  | cons r rs ih =>
    intro ps σ σ' hσ hp hl h
    cases ps with
    | nil => cases hl
    | cons p ps =>
      obtain ⟨σ1, e1, hσ1⟩ := hσ.apply (hp r (List.mem_cons_self ..))
      simp only [rarePremises, bind_ok, get1_ok, assertEq_ok, e1, ok_inj, Prod.exists, Prod.mk.injEq] at h
      obtain ⟨t, rfl, _, _, ⟨rfl, rfl⟩, u', hu, _, rfl, h⟩ := h
      obtain ⟨i1, i2⟩ := ih hσ1 (fun r hr => hp r (List.mem_cons_of_mem _ hr)) (by simpa using hl) h
      exact ⟨i1, .cons ⟨_, rfl, hu⟩ i2⟩

theorem rarePremises_complete {f : String × Srt → Term} {rs : List Term} : ∀ {ps : List (List Term)} {σ : Subst},
    PutOK f σ → (∀ r ∈ rs, r.plain = true) →
    List.Forall₂ (fun r p => ∃ t, p = [t] ∧ rewriteMeta (r.put f) = .ok t) rs ps →
    ∃ σ', rarePremises σ rs ps = .ok σ' ∧ PutOK f σ' := by
  induction rs with
  | nil => intro ps σ hσ _ h; cases h; exact ⟨σ, rfl, hσ⟩
  | cons r rs ih =>
    intro ps σ hσ hp h
    cases h with
    | cons h1 h2 =>
      obtain ⟨t, rfl, ht⟩ := h1
      obtain ⟨σ1, e1, hσ1⟩ := hσ.apply (hp r (List.mem_cons_self ..))
      obtain ⟨σ', h3, h4⟩ := ih hσ1 (fun r hr => hp r (List.mem_cons_of_mem _ hr)) h2
      refine ⟨σ', ?_, h4⟩
      simp only [rarePremises, bind_ok, get1_ok, assertEq_ok, e1, ok_inj, Prod.exists, Prod.mk.injEq]
      exact ⟨t, rfl, _, _, ⟨rfl, rfl⟩, t, ht, (), rfl, h3⟩

theorem rareSorts_ok {params : List (String × RareParam)} {m : List (Term × Term)} :
    rareSorts params m = .ok () ↔ ∀ p ∈ m, sortOf p.1 = sortOf p.2 ∨ rarePoly params p.1 = true := by
  induction m with
  | nil => simp [rareSorts]
  | cons p m ih =>
    obtain ⟨k, v⟩ := p
    simp [rareSorts, bind_ok, require_ok, ih]

theorem rareStable_ok {ps : List (List Term)} :
    rareStable ps = .ok () ↔ ∀ p ∈ ps, ∃ t, p = [t] ∧ rewriteMeta t = .ok t := by
  induction ps with
  | nil => simp [rareStable]
  | cons p ps ih =>
    simp only [rareStable, bind_ok, get1_ok, assertEq_ok, ih, List.forall_mem_cons]
    constructor
    · rintro ⟨t, rfl, t', ht, _, rfl, h⟩; exact ⟨⟨t, rfl, ht⟩, h⟩
    · rintro ⟨⟨t, rfl, ht⟩, h⟩; exact ⟨t, rfl, t, ht, (), rfl, h⟩

/-- The rule, for user-supplied rules without binders. -/
theorem checkRare_iff {rules : List (String × RareRule)} {name : String} {r : RareRule} (hr : mapGet rules name = some r)
    (hplain : ∀ t ∈ r.conclusion :: r.premises, t.plain = true) {conclusion : List Term} {premises : List (List Term)}
    {args : List Term} :
    checkRare rules conclusion premises (.const (.str name) :: args) = .ok () ↔
      r.args.length = args.length ∧ (∃ c, conclusion = [c] ∧ rewriteMeta (r.conclusion.put (r.inst args)) = .ok c) ∧
      (∃ m, rareMap r.params r.args.reverse args.reverse [] = .ok m ∧
        ∀ p ∈ m, sortOf p.1 = sortOf p.2 ∨ rarePoly r.params p.1 = true) ∧
      List.Forall₂ (fun q p => ∃ t, p = [t] ∧ rewriteMeta (q.put (r.inst args)) = .ok t ∧ rewriteMeta t = .ok t)
        r.premises premises := by
  have hlen : ∀ {rs : List Term} {ps : List (List Term)} {R : Term → List Term → Prop}, List.Forall₂ R rs ps →
      rs.length = ps.length := fun h => by
    induction h with
    | nil => rfl
    | cons _ _ ih => simp [ih]
  have hstable : ∀ {f : String × Srt → Term} {rs : List Term} {ps : List (List Term)},
      List.Forall₂ (fun q p => ∃ t, p = [t] ∧ rewriteMeta (q.put f) = .ok t) rs ps →
      (∀ p ∈ ps, ∃ t, p = [t] ∧ rewriteMeta t = .ok t) →
      List.Forall₂ (fun q p => ∃ t, p = [t] ∧ rewriteMeta (q.put f) = .ok t ∧ rewriteMeta t = .ok t) rs ps := by
    intro f rs ps h hst
    induction h with
    | nil => exact .nil
    | cons h _ ih =>
      obtain ⟨t, rfl, ht⟩ := h
      obtain ⟨_, e, ht'⟩ := hst _ (List.mem_cons_self ..)
      cases e
      exact .cons ⟨_, rfl, ht, ht'⟩ (ih fun p hp => hst p (List.mem_cons_of_mem _ hp))
  have hstable' : ∀ {f : String × Srt → Term} {rs : List Term} {ps : List (List Term)},
      List.Forall₂ (fun q p => ∃ t, p = [t] ∧ rewriteMeta (q.put f) = .ok t ∧ rewriteMeta t = .ok t) rs ps →
      ∀ p ∈ ps, ∃ t, p = [t] ∧ rewriteMeta t = .ok t := by
    intro f rs ps h
    induction h with
    | nil => intro p hp; cases hp
    | cons h _ ih =>
      obtain ⟨t, rfl, ht, ht'⟩ := h
      exact List.forall_mem_cons.2 ⟨⟨t, rfl, ht'⟩, ih⟩
  simp only [checkRare, bind_ok, orErr_ok, hr, Option.some.injEq, require_ok, get1_ok, List.length_cons, List.reverse_cons,
    assertEq_ok, Prod.exists, Nat.add_right_cancel_iff]
  constructor
  · rintro ⟨_, rfl, _, hl, c, rfl, m, hm, _, hpl, _, hs, σ, hσ, got, σ', hgot, _, hst, _, hc, rfl⟩
    rw [rareMap_tail (by simp [hl])] at hm
    obtain ⟨h1, h2⟩ := rarePremises_put (rareMap_put hl hm) (fun t ht => hplain t (List.mem_cons_of_mem _ ht)) hpl hσ
    obtain ⟨_, e, _⟩ := h1.apply (hplain _ (List.mem_cons_self ..))
    rw [e] at hgot
    cases hgot
    exact ⟨hl, ⟨_, rfl, hc⟩, ⟨m, hm, rareSorts_ok.1 hs⟩, hstable h2 (rareStable_ok.1 hst)⟩
  · rintro ⟨hl, ⟨c, rfl, hc⟩, ⟨m, hm, hs⟩, h2⟩
    obtain ⟨σ, hσ, h1⟩ := rarePremises_complete (rareMap_put hl hm) (fun t ht => hplain t (List.mem_cons_of_mem _ ht))
      (h2.imp fun _ _ ⟨t, e, ht, _⟩ => ⟨t, e, ht⟩)
    obtain ⟨σ', e, _⟩ := h1.apply (hplain _ (List.mem_cons_self ..))
    exact ⟨r, rfl, (), hl, c, rfl, m, by rwa [rareMap_tail (by simp [hl])], (), hlen h2, (), rareSorts_ok.2 hs, σ, hσ, _, σ',
      e, (), rareStable_ok.2 (hstable' h2), c, hc, rfl⟩

end Carcara
