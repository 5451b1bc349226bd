import Verif.Model.Context
import Verif.Spec.Context
import Verif.Spec.ContextHistory
import Verif.Lemmas.SubstitutionLet
import Verif.Lemmas.Scope
import Verif.Lemmas.Alpha

/-! # Cumulative substitutions -/

namespace Carcara
variable {I : Interp}

theorem freshFor_iff {A : List AnchorArg} {k : String × Srt} :
    freshFor A k = true ↔ ∀ y s t, .assign y s t ∈ A → k ∈ t.fv → t = .var y s := by
  unfold freshFor
  rw [List.all_eq_true]
  constructor
  · intro h y s t hm hk
    have := h _ hm
    simp only [decide_eq_true_eq] at this
    exact this hk
  · rintro h (⟨x, s⟩ | ⟨y, s, t⟩) hm
    · rfl
    · simp only [decide_eq_true_eq]; exact h y s t hm

theorem keptVar_iff {A : List AnchorArg} {k : String × Srt} :
    keptVar A k = true ↔ ∀ t, .assign k.1 k.2 t ∈ A → t = .var k.1 k.2 := by
  unfold keptVar
  rw [List.all_eq_true]
  constructor
  · intro h t hm
    have := h _ hm
    simpa using this
  · rintro h (⟨x, s⟩ | ⟨y, s, t⟩) hm
    · rfl
    · simp only [decide_eq_true_eq]
      rintro rfl
      exact h t hm

theorem enters_append {as bs : List AnchorArg} : ∀ {ρ ρ' : Env I.U},
    I.Enters (as ++ bs) ρ ρ' ↔ ∃ ρ1, I.Enters as ρ ρ1 ∧ I.Enters bs ρ1 ρ' := by
  induction as with
  | nil => intro ρ ρ'; simp [Interp.Enters]
  | cons a as ih =>
    intro ρ ρ'
    cases a with
    | var x s =>
      simp only [List.cons_append, Interp.Enters, ih]
      constructor
      · rintro ⟨v, hv, ρ1, h1, h2⟩; exact ⟨ρ1, ⟨v, hv, h1⟩, h2⟩
      · rintro ⟨ρ1, ⟨v, hv, h1⟩, h2⟩; exact ⟨v, hv, ρ1, h1, h2⟩
    | assign x s t => simp only [List.cons_append, Interp.Enters, ih]

theorem reachR_iff : ∀ {Γ : List (List AnchorArg)} {ρ : Env I.U},
    I.ReachR Γ ρ ↔ ∃ ρ0, I.EnvOK ρ0 ∧ I.Enters Γ.reverse.flatten ρ0 ρ
  | [], ρ => by
    simp only [Interp.ReachR, List.reverse_nil, List.flatten_nil, Interp.Enters]
    exact ⟨fun h => ⟨ρ, h, rfl⟩, fun ⟨_, h, e⟩ => e ▸ h⟩
  | as :: Γ, ρ => by
    simp only [Interp.ReachR, reachR_iff, List.reverse_cons, List.flatten_append, List.flatten_cons,
      List.flatten_nil, List.append_nil, enters_append]
    constructor
    · rintro ⟨ρ1, ⟨ρ0, h0, h1⟩, h2⟩; exact ⟨ρ0, h0, ρ1, h1, h2⟩
    · rintro ⟨ρ0, h0, ρ1, h1, h2⟩; exact ⟨ρ1, ⟨ρ0, h0, h1⟩, h2⟩

theorem reach_iff {Γ : List (List AnchorArg)} {ρ : Env I.U} :
    I.Reach Γ ρ ↔ ∃ ρ0, I.EnvOK ρ0 ∧ I.Enters Γ.flatten ρ0 ρ := by
  rw [Interp.Reach, reachR_iff, List.reverse_reverse]

theorem AnchorArg.fresh_ok {A : List AnchorArg} {a : AnchorArg} (h : a.fresh A = true) : a.ok = true := by
  cases a with
  | var x s => rfl
  | assign x s t =>
    simp only [AnchorArg.fresh, Bool.and_eq_true] at h
    exact h.1.1

/-- The value of a term does not depend on a variable. -/
def Indep (k : String × Srt) (t : Term) : Prop :=
  ∀ (I : Interp) (ρ ρ' : Env I.U), I.EnvOK ρ → I.EnvOK ρ' → (∀ v, v ≠ k → ρ v.1 v.2 = ρ' v.1 v.2) →
    eval I t ρ = eval I t ρ'

/-- The cumulative substitution for the arguments `A` gives every variable its value inside the anchors. -/
structure CumOK (A : List AnchorArg) (σ : Subst) : Prop where
  good : SubstGood False σ
  nolet : σ.NoLet
  nodup : (σ.map.map (·.1)).Nodup
  ok : ∀ a ∈ A, a.ok = true
  indep : ∀ k, freshFor A k = true → ∀ v, v ≠ k → Indep k (substOf σ.map v)
  reach : ∀ (I : Interp) (ρ0 ρ : Env I.U), I.EnvOK ρ0 → I.Enters A ρ0 ρ → ∀ v : String × Srt,
    eval I (substOf σ.map v) ρ = ρ v.1 v.2
  ident : ∀ k, keptVar A k = true → ∀ (I : Interp) (ρ : Env I.U), I.EnvOK ρ →
    eval I (substOf σ.map k) ρ = ρ k.1 k.2

theorem CumOK.empty : CumOK [] .empty where
  good := ⟨fun p h => (by cases h), fun h => h.elim, fun l h => (by cases h), fun t u h => (by cases h)⟩
  nolet := .empty
  nodup := List.nodup_nil
  ok := fun _ h => (by cases h)
  indep := fun k _ v hv I ρ ρ' _ _ h => h v hv
  reach := fun _ _ _ _ _ _ => rfl
  ident := fun _ _ _ _ _ => rfl

/-- Changing the map without changing the meaning. -/
theorem CumOK.apply {A : List AnchorArg} {σ : Subst} (h : CumOK A σ) {t : Term} (ht : t.Nice) :
    ∃ t' σ', σ.apply t = .ok (t', σ') ∧ σ'.map = σ.map ∧ CumOK A σ' ∧ SubstPost False σ.map t t' ∧
      t'.noLet = true := by
  obtain ⟨t', σ', h1, h2, h3, h4⟩ := applyGo_ok t.size False σ t (Nat.le_refl _) ht h.good
  obtain ⟨h5, h6⟩ := applyGo_noLet _ _ _ _ _ h.nolet ht.noLet h1
  refine ⟨t', σ', h1, h2, ⟨h3, h6, ?_, h.ok, ?_, ?_, ?_⟩, h4, h5⟩
  · rw [h2]; exact h.nodup
  · rw [h2]; exact h.indep
  · rw [h2]; exact h.reach
  · rw [h2]; exact h.ident

/-- Inside the anchors the substitution does not change values. -/
theorem CumOK.sem {A : List AnchorArg} {σ : Subst} (h : CumOK A σ) {t t' : Term} (ht : t.Nice)
    (hp : SubstPost False σ.map t t') {ρ0 ρ : Env I.U} (h0 : I.EnvOK ρ0) (he : I.Enters A ρ0 ρ) :
    eval I t' ρ = eval I t ρ := by
  rw [hp.sem I ρ (AnchorArg.enters_ok h.ok h0 he)]
  exact ht.congr fun v _ => h.reach I ρ0 ρ h0 he v

theorem Subst.insert_spec {σ σ' : Subst} {x t : Term} (h : σ.insert x t = .ok σ') (v : String × Srt) :
    substOf σ'.map v = if x = .var v.1 v.2 then t else substOf σ.map v := by
  unfold Subst.insert at h
  split at h
  · split at h
    · cases h
      simp only [substOf_eq, mapGet_insert]
      split <;> simp
    · cases h
  · cases h

theorem CumOK.var {A : List AnchorArg} {σ : Subst} (h : CumOK A σ) {x : String} {s : Srt}
    (hf : (AnchorArg.var x s).fresh A = true) : CumOK (A ++ [.var x s]) (σ.remove (.var x s)) := by
  simp only [AnchorArg.fresh, Bool.and_eq_true] at hf
  have hmap : ∀ v, substOf (σ.remove (.var x s)).map v =
      if v = (x, s) then .var x s else substOf σ.map v := by
    intro v
    unfold Subst.remove
    split
    · next hs =>
      simp only [substOf_eq, mapGet_remove h.nodup]
      by_cases e : v = (x, s)
      · subst e; simp
      · rw [if_neg e, if_neg]
        intro e'
        exact e (var_inj (v := (x, s)) e').symm
    · next hs =>
      by_cases e : v = (x, s)
      · subst e
        rw [substOf_eq]
        simp only [Option.not_isSome_iff_eq_none] at hs
        simp [hs]
      · rw [if_neg e]
  have hid := h.ident (x, s) hf.1
  -- the meaning does not change
  have hsem : ∀ v (I : Interp) (ρ : Env I.U), I.EnvOK ρ →
      eval I (substOf (σ.remove (.var x s)).map v) ρ = eval I (substOf σ.map v) ρ := by
    intro v I ρ hρ
    rw [hmap]
    split
    · next e => subst e; exact (hid I ρ hρ).symm
    · rfl
  have hok : ∀ a ∈ A ++ [AnchorArg.var x s], a.ok = true := by
    intro a ha
    rcases List.mem_append.1 ha with ha | ha
    · exact h.ok a ha
    · rw [List.mem_singleton.1 ha]; rfl
  have hfr : ∀ k, freshFor (A ++ [AnchorArg.var x s]) k = true → freshFor A k = true := by
    intro k hk
    simp only [freshFor, List.all_append, Bool.and_eq_true] at hk ⊢
    exact hk.1
  refine ⟨?_, h.nolet.remove, ?_, hok, ?_, ?_, ?_⟩
  · have hmo : MapOK (σ.remove (.var x s)).map := by
      unfold Subst.remove
      split
      · exact fun p hp => h.good.map p (MultiSet.mem_mapRemove hp)
      · exact h.good.map
    refine ⟨hmo, fun h => h.elim, ?_, ?_⟩
    · unfold Subst.remove
      split
      · intro l hl; cases hl
      · exact h.good.names
    · have hc : (σ.remove (.var x s)).cache = σ.cache := by unfold Subst.remove; split <;> rfl
      intro t u htu
      rw [hc] at htu
      obtain ⟨hn, hp⟩ := h.good.cache t u htu
      refine ⟨hn, fun I ρ hρ => ?_, hp.sort, hp.const, fun h => h.elim⟩
      rw [hp.sem I ρ hρ]
      exact hn.congr fun v _ => (hsem v I ρ hρ).symm
  · unfold Subst.remove
    split
    · exact nodup_keys_remove h.nodup
    · exact h.nodup
  · intro k hk v hv I ρ ρ' hρ hρ' ha
    rw [hsem v I ρ hρ, hsem v I ρ' hρ']
    exact h.indep k (hfr k hk) v hv I ρ ρ' hρ hρ' ha
  · intro I ρ0 ρ h0 he v
    have hρ := AnchorArg.enters_ok hok h0 he
    obtain ⟨ρ1, h1, w, hw, h2⟩ := enters_append.1 he
    cases h2
    have hρ1 := AnchorArg.enters_ok h.ok h0 h1
    rw [hsem v I _ hρ]
    by_cases e : v = (x, s)
    · subst e; exact hid I _ hρ
    · have hne : ∀ u : String × Srt, u ≠ (x, s) → ρ1 u.1 u.2 = (ρ1.set x s w) u.1 u.2 := by
        intro u hu
        simp only [Env.set]
        rw [if_neg fun e => hu (Prod.ext e.1 e.2)]
      rw [← h.indep (x, s) hf.2 v e I ρ1 _ hρ1 hρ hne, h.reach I ρ0 ρ1 h0 h1 v]
      exact hne v e
  · intro k hk I ρ hρ
    rw [hsem k I ρ hρ]
    refine h.ident k ?_ I ρ hρ
    simp only [keptVar, List.all_append, Bool.and_eq_true] at hk ⊢
    exact hk.1

theorem CumOK.assign {A : List AnchorArg} {σ : Subst} (h : CumOK A σ) {x : String} {s : Srt} {t : Term}
    (hf : (AnchorArg.assign x s t).fresh A = true) :
    ∃ t' σ1 σ2, σ.apply t = .ok (t', σ1) ∧ σ1.insert (.var x s) t' = .ok σ2 ∧ CumOK (A ++ [.assign x s t]) σ2 := by
  have hf0 := hf
  simp only [AnchorArg.fresh, Bool.and_eq_true, Bool.or_eq_true, decide_eq_true_eq] at hf
  obtain ⟨⟨hs, hq⟩, hf⟩ := hf
  have hn : t.Nice := ⟨by rw [hs]; rfl, hq⟩
  obtain ⟨t', σ1, e1, e2, h1, hp, hl⟩ := h.apply hn
  have hs' : sortOf t' = some s := hp.sort.trans hs
  have hcl : t'.closedParts = true := Term.closedParts_of_sort t' (by rw [hs']; rfl) hl
  have hins : ∃ σ2, σ1.insert (.var x s) t' = .ok σ2 := by
    unfold Subst.insert
    simp only
    rw [if_pos (by rw [hs']; rfl)]
    exact ⟨_, rfl⟩
  obtain ⟨σ2, hins⟩ := hins
  refine ⟨t', σ1, σ2, e1, hins, ?_⟩
  obtain ⟨hg, hm⟩ := Subst.insert_good h1.good hcl hins
  have hmap : ∀ v, substOf σ2.map v = if v = (x, s) then t' else substOf σ.map v := by
    intro v
    rw [Subst.insert_spec hins, e2]
    by_cases e : v = (x, s)
    · subst e; simp
    · rw [if_neg e, if_neg fun e' => e (var_inj (v := (x, s)) e').symm]
  have hok : ∀ a ∈ A ++ [AnchorArg.assign x s t], a.ok = true := by
    intro a ha
    rcases List.mem_append.1 ha with ha | ha
    · exact h.ok a ha
    · rw [List.mem_singleton.1 ha]; exact AnchorArg.fresh_ok hf0
  have hnd : (σ2.map.map (·.1)).Nodup := by rw [hm]; exact nodup_keys_insert h1.nodup
  rcases hf with rfl | ⟨hx, hff⟩
  · -- an identity
    have hsem : ∀ v (I : Interp) (ρ : Env I.U), I.EnvOK ρ →
        eval I (substOf σ2.map v) ρ = eval I (substOf σ.map v) ρ := by
      intro v I ρ hρ
      rw [hmap]
      split
      · next e => subst e; rw [hp.sem I ρ hρ]; rfl
      · rfl
    refine ⟨hg, h1.nolet.insert hl hins, hnd, hok, ?_, ?_, ?_⟩
    · intro k hk v hv I ρ ρ' hρ hρ' ha
      rw [hsem v I ρ hρ, hsem v I ρ' hρ']
      refine h.indep k ?_ v hv I ρ ρ' hρ hρ' ha
      simp only [freshFor, List.all_append, Bool.and_eq_true] at hk ⊢
      exact hk.1
    · intro I ρ0 ρ h0 he v
      have hρ := AnchorArg.enters_ok hok h0 he
      obtain ⟨ρ1, h1, h2⟩ := enters_append.1 he
      have : ρ = ρ1 := by
        simp only [Interp.Enters, eval] at h2
        rw [h2]
        funext y r
        simp only [Env.set]
        split
        · next e => rw [e.1, e.2]
        · rfl
      rw [hsem v I ρ hρ, this]
      exact h.reach I ρ0 ρ1 h0 h1 v
    · intro k hk I ρ hρ
      rw [hsem k I ρ hρ]
      refine h.ident k ?_ I ρ hρ
      simp only [keptVar, List.all_append, Bool.and_eq_true] at hk ⊢
      exact hk.1
  · have hnv : t ≠ .var x s := by
      rintro rfl
      exact hx (by simp [Term.fv])
    refine ⟨hg, h1.nolet.insert hl hins, hnd, hok, ?_, ?_, ?_⟩
    · intro k hk v hv I ρ ρ' hρ hρ' ha
      have hk1 : freshFor A k = true := by
        simp only [freshFor, List.all_append, Bool.and_eq_true] at hk ⊢
        exact hk.1
      rw [hmap]
      split
      · rw [hp.sem I ρ hρ, hp.sem I ρ' hρ']
        refine hn.congr fun u hu => ?_
        refine h.indep k hk1 u ?_ I ρ ρ' hρ hρ' ha
        rintro rfl
        exact hnv (freshFor_iff.1 hk x s t (by simp) hu)
      · exact h.indep k hk1 v hv I ρ ρ' hρ hρ' ha
    · intro I ρ0 ρ h0 he v
      have hρ := AnchorArg.enters_ok hok h0 he
      obtain ⟨ρ1, h1, h2⟩ := enters_append.1 he
      simp only [Interp.Enters] at h2
      have hρ1 := AnchorArg.enters_ok h.ok h0 h1
      have hne : ∀ u : String × Srt, u ≠ (x, s) → ρ1 u.1 u.2 = ρ u.1 u.2 := by
        intro u hu
        rw [h2]
        simp only [Env.set]
        rw [if_neg fun e => hu (Prod.ext e.1 e.2)]
      have hval : ∀ u : String × Srt, u ≠ (x, s) → eval I (substOf σ.map u) ρ = ρ1 u.1 u.2 := by
        intro u hu
        rw [← h.indep (x, s) hff u hu I ρ1 ρ hρ1 hρ hne, h.reach I ρ0 ρ1 h0 h1 u]
      rw [hmap]
      by_cases e : v = (x, s)
      · subst e
        rw [if_pos rfl, hp.sem I ρ hρ]
        have : ρ x s = eval I t ρ1 := by rw [h2]; simp [Env.set]
        rw [this]
        refine hn.congr fun u hu => hval u ?_
        rintro rfl
        exact hx hu
      · rw [if_neg e, hval v e]
        exact hne v e
    · intro k hk I ρ hρ
      rw [hmap, if_neg]
      · refine h.ident k ?_ I ρ hρ
        simp only [keptVar, List.all_append, Bool.and_eq_true] at hk ⊢
        exact hk.1
      · rintro rfl
        exact hnv (keptVar_iff.1 hk t (by simp))

theorem CumOK.extend : ∀ {as A : List AnchorArg} {σ : Subst}, CumOK A σ → freshArgs A as = true →
    ∃ σ', CtxStack.extend σ as = .ok σ' ∧ CumOK (A ++ as) σ'
  | [], A, σ, h, _ => ⟨σ, rfl, by simpa using h⟩
  | .var x s :: as, A, σ, h, hf => by
    simp only [freshArgs, Bool.and_eq_true] at hf
    obtain ⟨σ', e, h'⟩ := (h.var hf.1).extend hf.2
    exact ⟨σ', e, by simpa using h'⟩
  | .assign x s t :: as, A, σ, h, hf => by
    simp only [freshArgs, Bool.and_eq_true] at hf
    obtain ⟨t', σ1, σ2, e1, e2, h2⟩ := h.assign hf.1
    obtain ⟨σ', e, h'⟩ := h2.extend hf.2
    refine ⟨σ', bind_ok.2 ⟨(t', σ1), e1, ?_⟩, by simpa using h'⟩
    simp only [e2]
    exact e

theorem set_of_getElem? {α : Type} {l : List α} {i : Nat} {a : α} (h : l[i]? = some a) : l.set i a = l := by
  obtain ⟨hi, rfl⟩ := List.getElem?_eq_some_iff.1 h
  exact List.set_getElem_self hi

theorem freshArgs_append : ∀ {as bs A : List AnchorArg},
    freshArgs A (as ++ bs) = true ↔ freshArgs A as = true ∧ freshArgs (A ++ as) bs = true
  | [], bs, A => by simp [freshArgs]
  | a :: as, bs, A => by
    simp only [List.cons_append, freshArgs, Bool.and_eq_true, freshArgs_append, and_assoc, List.append_assoc,
      List.nil_append]

theorem FreshAnchors.take {Γ : List (List AnchorArg)} (h : FreshAnchors Γ) (i : Nat) : FreshAnchors (Γ.take i) := by
  unfold FreshAnchors at h ⊢
  rw [← List.take_append_drop i Γ, List.flatten_append, freshArgs_append] at h
  exact h.1

/-- What holds of the context stack inside the anchors `Γ`. -/
structure CtxOK (Γ : List (List AnchorArg)) (C : CtxStack) : Prop where
  args : C.stack.map (·.1) = Γ
  num : C.num ≤ C.stack.length
  cum : ∀ i, i < C.num → ∃ as σ, C.stack[i]? = some (as, some σ) ∧ CumOK (Γ.take (i + 1)).flatten σ

theorem CtxOK.length {Γ : List (List AnchorArg)} {C : CtxStack} (h : CtxOK Γ C) : C.stack.length = Γ.length := by
  rw [← h.args, List.length_map]

theorem CtxOK.empty : CtxOK [] .empty := ⟨rfl, Nat.le_refl _, fun _ h => absurd h (Nat.not_lt_zero _)⟩

theorem CtxOK.push {Γ : List (List AnchorArg)} {C : CtxStack} (h : CtxOK Γ C) (as : List AnchorArg) :
    CtxOK (Γ ++ [as]) (C.push as) := by
  refine ⟨by simp [CtxStack.push, h.args], ?_, fun i hi => ?_⟩
  · have := h.num
    simp only [CtxStack.push, List.length_append, List.length_singleton]
    omega
  · have hi' : i < C.num := hi
    obtain ⟨as', σ, e, hc⟩ := h.cum i hi'
    have hlt : i < C.stack.length := Nat.lt_of_lt_of_le hi' h.num
    refine ⟨as', σ, ?_, ?_⟩
    · simp only [CtxStack.push]
      rw [List.getElem?_append_left hlt, e]
    · rw [List.take_append_of_le_length (by rw [← h.length]; omega)]
      exact hc

theorem CtxOK.pop {Γ : List (List AnchorArg)} {C : CtxStack} (h : CtxOK Γ C) : CtxOK Γ.dropLast C.pop := by
  refine ⟨by simp [CtxStack.pop, ← h.args], ?_, fun i hi => ?_⟩
  · simp only [CtxStack.pop]; omega
  · simp only [CtxStack.pop] at hi ⊢
    obtain ⟨as', σ, e, hc⟩ := h.cum i (by omega)
    have hlt : i < C.stack.dropLast.length := by omega
    refine ⟨as', σ, ?_, ?_⟩
    · rw [List.length_dropLast] at hlt
      rw [List.getElem?_dropLast, if_pos hlt, e]
    · rw [List.length_dropLast, h.length] at hlt
      rw [List.dropLast_eq_take, List.take_take, Nat.min_eq_left (by omega)]
      exact hc

theorem CtxOK.compute {Γ : List (List AnchorArg)} {C : CtxStack} (h : CtxOK Γ C) (hf : FreshAnchors Γ)
    (hlt : C.num < C.stack.length) :
    ∃ C', C.compute C.num = .ok C' ∧ CtxOK Γ C' ∧ C'.num = C.num + 1 := by
  obtain ⟨e, he⟩ : ∃ e, C.stack[C.num]? = some e := ⟨_, List.getElem?_eq_getElem hlt⟩
  have hΓ : Γ[C.num]? = some e.1 := by rw [← h.args, List.getElem?_map, he]; rfl
  have hΓl : C.num < Γ.length := by rw [← h.length]; exact hlt
  have htake : Γ.take (C.num + 1) = Γ.take C.num ++ [e.1] := by
    rw [List.take_succ, hΓ]; rfl
  have hfr : freshArgs (Γ.take C.num).flatten e.1 = true := by
    have := hf.take (C.num + 1)
    unfold FreshAnchors at this
    rw [htake, List.flatten_append, freshArgs_append] at this
    simpa using this.2
  obtain ⟨base, hb, hbase⟩ : ∃ base, (if C.num = 0 then .ok .empty else do
      let p ← orPanic C.stack[C.num - 1]?
      orPanic p.2 : Res Subst) = .ok base ∧ CumOK (Γ.take C.num).flatten base := by
    split
    · next e0 => exact ⟨_, rfl, by rw [e0]; exact .empty⟩
    · next e0 =>
      obtain ⟨as', σ, e1, hc⟩ := h.cum (C.num - 1) (by omega)
      rw [Nat.sub_add_cancel (by omega)] at hc
      exact ⟨σ, bind_ok.2 ⟨_, by rw [e1]; rfl, rfl⟩, hc⟩
  obtain ⟨σ, hσ, hcum⟩ := hbase.extend hfr
  refine ⟨⟨C.stack.set C.num (e.1, some σ), C.num + 1⟩, ?_, ⟨?_, ?_, ?_⟩, rfl⟩
  · exact bind_ok.2 ⟨e, by rw [he]; rfl, bind_ok.2 ⟨base, hb, bind_ok.2 ⟨σ, hσ, rfl⟩⟩⟩
  · rw [List.map_set, h.args]
    exact set_of_getElem? hΓ
  · simp only [List.length_set]; exact hlt
  · intro i hi
    simp only at hi ⊢
    by_cases hic : i = C.num
    · subst hic
      refine ⟨e.1, σ, by rw [List.getElem?_set_self hlt], ?_⟩
      rw [htake, List.flatten_append]
      simpa using hcum
    · obtain ⟨as', σ', e1, hc⟩ := h.cum i (by omega)
      exact ⟨as', σ', by rw [List.getElem?_set_ne (fun e => hic e.symm), e1], hc⟩

theorem CtxOK.computeFrom {Γ : List (List AnchorArg)} (hf : FreshAnchors Γ) : ∀ (n : Nat) {C : CtxStack}, CtxOK Γ C →
    C.num + n ≤ C.stack.length →
    ∃ C', CtxStack.computeFrom n C.num C = .ok C' ∧ CtxOK Γ C' ∧ C'.num = C.num + n
  | 0, C, h, _ => ⟨C, rfl, h, rfl⟩
  | n + 1, C, h, hn => by
    obtain ⟨C1, e1, h1, n1⟩ := h.compute hf (by omega)
    obtain ⟨C2, e2, h2, n2⟩ := CtxOK.computeFrom hf n h1 (by rw [h1.length, ← h.length]; omega)
    rw [n1] at e2
    exact ⟨C2, bind_ok.2 ⟨C1, e1, e2⟩, h2, by omega⟩

/-- The environments in which the substitution does not change values: those reached inside the anchors, updated at
variables that do not interfere with them. -/
theorem CumOK.upd {A : List AnchorArg} {σ : Subst} (h : CumOK A σ) : ∀ {bs : List (String × Srt)} {vs : List (Val I.U)}
    {ρ : Env I.U}, I.EnvOK ρ → (∀ v : String × Srt, eval I (substOf σ.map v) ρ = ρ v.1 v.2) → I.Tuple bs vs →
    (∀ b ∈ bs, keptVar A b = true ∧ freshFor A b = true) →
    ∀ v : String × Srt, eval I (substOf σ.map v) (ρ.setMany bs vs) = ρ.setMany bs vs v.1 v.2
  | [], _, _, _, hp, ht, _, v => by cases ht; exact hp v
  | (x, s) :: bs, _, ρ, hρ, hp, ht, hb, v => by
    cases ht with
    | cons hd ht =>
    rename_i w vs
    refine CumOK.upd h (bs := bs) (ρ := ρ.set x s w) (hρ.set hd) (fun u => ?_) ht
      (fun b hm => hb b (List.mem_cons_of_mem _ hm)) v
    obtain ⟨h1, h2⟩ := hb (x, s) (List.mem_cons_self ..)
    by_cases e : u = (x, s)
    · subst e
      exact h.ident _ h1 I _ (hρ.set hd)
    · have hne : ∀ u : String × Srt, u ≠ (x, s) → ρ u.1 u.2 = (ρ.set x s w) u.1 u.2 := by
        intro u hu
        simp only [Env.set]
        rw [if_neg fun e => hu (Prod.ext e.1 e.2)]
      rw [← h.indep (x, s) h2 u e I ρ _ hρ (hρ.set hd) hne, hp u]
      exact hne u e

theorem CtxOK.applyAt {Γ : List (List AnchorArg)} {C : CtxStack} (h : CtxOK Γ C) (hf : FreshAnchors Γ) {i : Nat}
    (hi : i < Γ.length) {t : Term} (ht : t.Nice) :
    ∃ t' C', C.applyAt i t = .ok (t', C') ∧ CtxOK Γ C' ∧ sortOf t' = sortOf t ∧
      (∀ (I : Interp) (ρ : Env I.U), I.Reach (Γ.take (i + 1)) ρ → eval I t' ρ = eval I t ρ) ∧
      ∀ (I : Interp) (ρ ρ' : Env I.U) (bs : List (String × Srt)), I.Reach (Γ.take (i + 1)) ρ → Upd I bs ρ ρ' →
        (∀ b ∈ bs, keptVar (Γ.take (i + 1)).flatten b = true ∧ freshFor (Γ.take (i + 1)).flatten b = true) →
        eval I t' ρ' = eval I t ρ' := by
  have hmax : max (i + 1) C.stack.length = C.stack.length := by
    have := h.length
    omega
  obtain ⟨C1, e1, h1, n1⟩ := CtxOK.computeFrom hf (C.stack.length - C.num) h (by have := h.num; omega)
  have hcu : C.catchUp i = .ok C1 := by rw [CtxStack.catchUp, hmax]; exact e1
  have hn1 : C1.num = Γ.length := by have := h.num; have := h.length; omega
  obtain ⟨as, σ, e, hc⟩ := h1.cum i (by omega)
  obtain ⟨t', σ', e2, em, hc', hp, _⟩ := hc.apply ht
  refine ⟨t', { C1 with stack := C1.stack.set i (as, some σ') }, ?_, ⟨?_, ?_, ?_⟩, hp.sort, ?_, ?_⟩
  · exact bind_ok.2 ⟨C1, hcu, bind_ok.2 ⟨_, by rw [e]; rfl, bind_ok.2 ⟨σ, rfl, bind_ok.2 ⟨_, e2, rfl⟩⟩⟩⟩
  · rw [List.map_set, h1.args]
    refine set_of_getElem? ?_
    rw [← h1.args, List.getElem?_map, e]; rfl
  · simp only [List.length_set]; exact h1.num
  · intro j hj
    simp only at hj ⊢
    by_cases hji : j = i
    · subst hji
      refine ⟨as, σ', by rw [List.getElem?_set_self (by rw [h1.length]; omega)], hc'⟩
    · obtain ⟨as', σ'', e1, hc⟩ := h1.cum j hj
      exact ⟨as', σ'', by rw [List.getElem?_set_ne (fun e => hji e.symm), e1], hc⟩
  · intro I ρ hr
    obtain ⟨ρ0, h0, he⟩ := reach_iff.1 hr
    exact hc.sem ht hp h0 he
  · intro I ρ ρ' bs hr hu hb
    obtain ⟨ρ0, h0, he⟩ := reach_iff.1 hr
    have hρ := AnchorArg.enters_ok hc.ok h0 he
    have := hc.upd (vs := bs.map fun b => ρ' b.1 b.2) hρ (hc.reach I ρ0 ρ h0 he) (tuple_self hu.1 bs) hb
    rw [← hu.eq_setMany] at this
    rw [hp.sem I ρ' hu.1]
    exact ht.congr fun v _ => this v

theorem CtxOK.apply {Γ : List (List AnchorArg)} {C : CtxStack} (h : CtxOK Γ C) (hf : FreshAnchors Γ) {t : Term}
    (ht : t.Nice) :
    ∃ t' C', C.apply t = .ok (t', C') ∧ CtxOK Γ C' ∧ sortOf t' = sortOf t ∧
      ∀ (I : Interp) (ρ : Env I.U), I.Reach Γ ρ → eval I t' ρ = eval I t ρ := by
  unfold CtxStack.apply
  split
  · exact ⟨t, C, rfl, h, rfl, fun _ _ _ => rfl⟩
  · next e0 =>
    rw [h.length] at e0 ⊢
    obtain ⟨t', C', e, h', hs, hsem, _⟩ := h.applyAt hf (i := Γ.length - 1) (by omega) ht
    refine ⟨t', C', e, h', hs, fun I ρ hr => hsem I ρ ?_⟩
    rw [Nat.sub_add_cancel (by omega), List.take_length]
    exact hr

theorem CtxOK.applyPrevious_upd {Γ : List (List AnchorArg)} {C : CtxStack} (h : CtxOK Γ C) (hf : FreshAnchors Γ)
    {t : Term} (ht : t.Nice) :
    ∃ t' C', C.applyPrevious t = .ok (t', C') ∧ CtxOK Γ C' ∧ sortOf t' = sortOf t ∧
      (∀ (I : Interp) (ρ : Env I.U), I.Reach Γ.dropLast ρ → eval I t' ρ = eval I t ρ) ∧
      ∀ (I : Interp) (ρ ρ' : Env I.U) (bs : List (String × Srt)), I.Reach Γ.dropLast ρ → Upd I bs ρ ρ' →
        (∀ b ∈ bs, keptVar Γ.dropLast.flatten b = true ∧ freshFor Γ.dropLast.flatten b = true) →
        eval I t' ρ' = eval I t ρ' := by
  unfold CtxStack.applyPrevious
  split
  · exact ⟨t, C, rfl, h, rfl, fun _ _ _ => rfl, fun _ _ _ _ _ _ _ => rfl⟩
  · next e0 =>
    rw [h.length] at e0 ⊢
    obtain ⟨t', C', e, h', hs, hsem, hupd⟩ := h.applyAt hf (i := Γ.length - 2) (by omega) ht
    rw [show Γ.length - 2 + 1 = Γ.length - 1 by omega, ← List.dropLast_eq_take] at hsem hupd
    exact ⟨t', C', e, h', hs, hsem, hupd⟩

theorem CtxOK.applyPrevious {Γ : List (List AnchorArg)} {C : CtxStack} (h : CtxOK Γ C) (hf : FreshAnchors Γ) {t : Term}
    (ht : t.Nice) :
    ∃ t' C', C.applyPrevious t = .ok (t', C') ∧ CtxOK Γ C' ∧ sortOf t' = sortOf t ∧
      ∀ (I : Interp) (ρ : Env I.U), I.Reach Γ.dropLast ρ → eval I t' ρ = eval I t ρ := by
  obtain ⟨t', C', e, h', hs, hsem, _⟩ := h.applyPrevious_upd hf ht
  exact ⟨t', C', e, h', hs, hsem⟩

theorem Term.nice_iff {t : Term} : t.substSafe = true ↔ t.Nice := by
  rw [Term.substSafe, Bool.and_eq_true]
  exact ⟨fun h => ⟨h.1, h.2⟩, fun h => ⟨h.1, h.2⟩⟩

theorem Term.Nice.substSafe {t : Term} (h : t.Nice) : t.substSafe = true := Term.nice_iff.2 h

theorem CtxHistory.ctxOK {Γ : List (List AnchorArg)} {C : CtxStack} (h : CleanHistory Γ C) : CtxOK Γ C := by
  induction h with
  | empty => exact .empty
  | push _ as ih => exact ih.push as
  | pop _ ih => exact ih.pop
  | apply _ ht e ih =>
    obtain ⟨t', C', e', h', _⟩ := ih.apply ht.1 (Term.nice_iff.1 ht.2)
    rw [e] at e'
    cases e'
    exact h'
  | applyPrevious _ ht e ih =>
    obtain ⟨t', C', e', h', _⟩ := ih.applyPrevious ht.1 (Term.nice_iff.1 ht.2)
    rw [e] at e'
    cases e'
    exact h'

theorem alphaSafe_sound {a b : Term} (h : alphaSafe a b = true) (he : alphaEquiv a b = .ok true) : Same a b := by
  simp only [alphaSafe, Bool.or_eq_true, Bool.and_eq_true, decide_eq_true_eq] at h
  rcases h with rfl | ⟨⟨⟨⟨⟨⟨⟨h1, h2⟩, h3⟩, h4⟩, h5⟩, h6⟩, h7⟩, h8⟩
  · exact fun _ _ _ => rfl
  · exact alphaWith_sound rfl rfl he ⟨h1, h2, h3, h4, h5⟩ h6 h7 h8

end Carcara
