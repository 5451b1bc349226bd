import Verif.Lemmas.SubstitutionLet

/-! # Substitution preserves sorts, for all terms -/

namespace Carcara

/-- `t'` has the sort of `t`, and is `t` if that is a constant. -/
structure SortPost (t t' : Term) : Prop where
  sort : (sortOf t).isSome = true → sortOf t' = sortOf t
  const : ∀ c, t = .const c → t' = t

/-- The mappings and the remembered results preserve sorts. -/
structure Subst.Sorted (σ : Subst) : Prop where
  map : ∀ p ∈ σ.map, SortPost p.1 p.2
  cache : ∀ p ∈ σ.cache, SortPost p.1 p.2

theorem SortPost.refl (t : Term) : SortPost t t := ⟨fun _ => rfl, fun _ _ => rfl⟩

theorem SortPost.trans {t u v : Term} (h : SortPost t u) (h' : SortPost u v) : SortPost t v where
  sort hs := by
    have e := h.sort hs
    rw [h'.sort (by rw [e]; exact hs), e]
  const c hc := by
    have e := h.const c hc
    rw [h'.const c (e.trans hc), e]

theorem Subst.Sorted.empty : Subst.empty.Sorted := ⟨fun _ h => (by cases h), fun _ h => (by cases h)⟩

theorem Subst.Sorted.insert {σ σ' : Subst} {x t : Term} (h : σ.Sorted) (e : σ.insert x t = .ok σ') : σ'.Sorted := by
  unfold Subst.insert at e
  split at e
  · split at e
    · next hs =>
      cases e
      refine ⟨fun p hp => ?_, fun p hp => h.cache p (List.mem_filter.1 hp).1⟩
      rcases mem_mapInsert_cases hp with rfl | hp
      · exact ⟨fun _ => hs.symm, fun c hc => (by cases hc)⟩
      · exact h.map p hp
    · cases e
  · cases e

theorem checkMap_sorted : ∀ {m : List (Term × Term)}, Subst.checkMap m = .ok () → ∀ p ∈ m, SortPost p.1 p.2
  | [], _, _, hp => by cases hp
  | (k, v) :: m, e, p, hp => by
    unfold Subst.checkMap at e
    split at e
    · next hv =>
      split at e
      · next hs =>
        rcases List.mem_cons.1 hp with rfl | hp
        · refine ⟨fun _ => hs.symm, ?_⟩
          rintro c rfl
          cases hv
        · exact checkMap_sorted e p hp
      · cases e
    · cases e

theorem Subst.Sorted.new {m : List (Term × Term)} {σ : Subst} (e : Subst.new m = .ok σ) : σ.Sorted := by
  simp only [Subst.new, bind_ok] at e
  obtain ⟨_, e1, e⟩ := e
  cases e
  exact ⟨checkMap_sorted e1, fun p hp => by cases hp⟩

theorem Subst.Sorted.computeRen {σ : Subst} (h : σ.Sorted) : σ.computeRen.Sorted := by
  unfold Subst.computeRen
  split
  · exact h
  · exact ⟨h.map, h.cache⟩

/-- A function in the place of `apply` preserves sorts. -/
def SortApplier (f : Applier) : Prop :=
  ∀ σ t t' σ', Subst.Sorted σ → f σ t = .ok (t', σ') → SortPost t t' ∧ Subst.Sorted σ'

theorem SortApplier.list {f : Applier} (hf : SortApplier f) : ∀ {as as' : List Term} {σ σ' : Subst}, σ.Sorted →
    applyList f σ as = .ok (as', σ') → List.Forall₂ SortPost as as' ∧ σ'.Sorted
  | [], _, _, _, h, e => by cases e; exact ⟨.nil, h⟩
  | a :: as, _, _, _, h, e => by
    simp only [applyList, bind_ok, Prod.exists] at e
    obtain ⟨a', σ1, e1, as', σ2, e2, e⟩ := e
    cases e
    obtain ⟨h1, h2⟩ := hf _ _ _ _ h e1
    obtain ⟨h3, h4⟩ := hf.list h2 e2
    exact ⟨.cons h1 h3, h4⟩

theorem SortPost.list {as as' : List Term} (h : List.Forall₂ SortPost as as') {ss : List Srt} (hs : sortOfL as = some ss) :
    sortOfL as' = some ss := by
  induction h generalizing ss with
  | nil => exact hs
  | @cons a a' as as' h _ ih =>
    simp only [sortOfL] at hs ⊢
    split at hs
    · next s ss' h1 h2 =>
      cases hs
      rw [h.sort (by simp [h1]), h1, ih h2]
    · cases hs

theorem renameVars_sorted {avoid : List String} : ∀ {bs bs' : List (String × Srt)} {new r : Subst} {names : List String},
    new.Sorted → renameVars avoid bs new names = .ok (bs', r) →
      List.Forall₂ (fun b b' : String × Srt => b'.2 = b.2) bs bs' ∧ r.Sorted
  | [], _, _, _, _, h, e => by cases e; exact ⟨.nil, h⟩
  | (x, s) :: bs, _, new, _, names, h, e => by
    simp only [renameVars, bind_ok, Prod.exists] at e
    obtain ⟨new', e1, bs', r, e2, e⟩ := e
    cases e
    have h' : new'.Sorted := by
      split at e1
      · cases e1; exact h
      · exact h.insert e1
    obtain ⟨h1, h2⟩ := renameVars_sorted h' e2
    exact ⟨.cons rfl h1, h2⟩

theorem renameLet_sorted {f : Applier} (hf : SortApplier f) {avoid : List String} :
    ∀ {bs bs' : List (String × Term)} {new r : Subst} {names : List String}, new.Sorted →
      renameLet f avoid bs new names = .ok (bs', r) → (sortOfB bs = true → sortOfB bs' = true) ∧ r.Sorted
  | [], _, _, _, _, h, e => by cases e; exact ⟨fun _ => rfl, h⟩
  | (x, t) :: bs, _, new, _, names, h, e => by
    simp only [renameLet, bind_ok, Prod.exists] at e
    obtain ⟨s, _, new', e1, t', new'', e2, bs', r, e3, e⟩ := e
    cases e
    have h' : new'.Sorted := by
      split at e1
      · cases e1; exact h
      · exact h.insert e1
    obtain ⟨i1, i2⟩ := hf _ _ _ _ h' e2
    obtain ⟨j1, j2⟩ := renameLet_sorted hf i2 e3
    refine ⟨fun hb => ?_, j2⟩
    simp only [sortOfB, Bool.and_eq_true] at hb ⊢
    exact ⟨by rw [i1.sort hb.1]; exact hb.1, j1 hb.2⟩

theorem SortApplier.body {f : Applier} (hf : SortApplier f) {σ ren σ' : Subst} {t t' : Term} (h : σ.Sorted) (hr : ren.Sorted)
    (e : applyBody f σ ren t = .ok (t', σ')) : SortPost t t' ∧ σ'.Sorted := by
  unfold applyBody at e
  split at e
  · exact hf _ _ _ _ h e
  · simp only [bind_ok, Prod.exists] at e
    obtain ⟨u, _, e4, e5⟩ := e
    obtain ⟨h1, _⟩ := hf _ _ _ _ hr e4
    obtain ⟨h2, h3⟩ := hf _ _ _ _ h e5
    exact ⟨h1.trans h2, h3⟩

theorem SortApplier.node {f : Applier} (hf : SortApplier f) : SortApplier (applyNode f) := by
  intro σ t t' σ' h e
  cases t with
  | const c => cases e; exact ⟨.refl _, h⟩
  | var x s => cases e; exact ⟨.refl _, h⟩
  | app g as =>
    simp only [applyNode, bind_ok, Prod.exists] at e
    obtain ⟨as', σ1, e1, g', σ2, e2, e⟩ := e
    cases e
    obtain ⟨h1, h2⟩ := hf.list h e1
    obtain ⟨h3, h4⟩ := hf _ _ _ _ h2 e2
    refine ⟨⟨fun hs => ?_, fun c hc => (by cases hc)⟩, h4⟩
    have hg := (sorted_app hs).1
    simp only [sortOf, h3.sort hg] at hs ⊢
    split at hs
    · next hg' hl => rw [SortPost.list h1 hl, hg']
    · simp at hs
  | op o as =>
    simp only [applyNode, bind_ok, Prod.exists] at e
    obtain ⟨as', σ1, e1, e⟩ := e
    cases e
    obtain ⟨h1, h2⟩ := hf.list h e1
    refine ⟨⟨fun hs => ?_, fun c hc => (by cases hc)⟩, h2⟩
    by_cases ho : o = .bvConst
    · subst ho
      obtain ⟨s, hs'⟩ := Option.isSome_iff_exists.1 hs
      simp only [sortOf] at hs'
      split at hs'
      · next a w hl =>
        have hl' := SortPost.list h1 hl
        cases h1 with
        | cons i1 h1 =>
          cases h1 with
          | cons i2 h1 =>
            cases h1
            rw [i2.const _ rfl] at hl' ⊢
            simp only [sortOf, hl, hl']
      · cases hs'
    · rw [sortOf_op_eq ho, sortOf_op_eq ho]
      rw [sortOf_op_eq ho] at hs
      cases hl : sortOfL as with
      | none => simp [hl] at hs
      | some ss => rw [SortPost.list h1 hl]
  | paramOp o ps as =>
    simp only [applyNode, bind_ok, Prod.exists] at e
    obtain ⟨as', σ1, e1, e⟩ := e
    cases e
    obtain ⟨h1, h2⟩ := hf.list h e1
    refine ⟨⟨fun hs => ?_, fun c hc => (by cases hc)⟩, h2⟩
    simp only [sortOf] at hs ⊢
    split at hs
    · next hl => rw [SortPost.list h1 hl]
    · simp at hs
  | let_ bs body =>
    have main : ∀ {bs' body'}, (sortOfB bs = true → sortOfB bs' = true) → SortPost body body' →
        SortPost (.let_ bs body) (.let_ bs' body') := by
      intro bs' body' hb ht
      refine ⟨fun hs => ?_, fun c hc => (by cases hc)⟩
      simp only [sortOf] at hs ⊢
      split at hs
      · next hb' => rw [if_pos (hb hb'), if_pos hb', ht.sort hs]
      · simp at hs
    cases bs with
    | nil =>
      simp only [applyNode, applyLet, bind_ok, Prod.exists] at e
      obtain ⟨body', σ1, e1, e⟩ := e
      cases e
      obtain ⟨h1, h2⟩ := hf _ _ _ _ h e1
      exact ⟨main id h1, h2⟩
    | cons b bs =>
      simp only [applyNode, applyLet, bind_ok, Prod.exists] at e
      obtain ⟨l, _, bs', ren, e1, body', σ2, e2, e⟩ := e
      cases e
      obtain ⟨h1, h2⟩ := renameLet_sorted hf .empty e1
      obtain ⟨h3, h4⟩ := hf.body h h2 e2
      exact ⟨main h1 h3, h4⟩
  | binder b bs body =>
    simp only [applyNode, applyBinder, bind_ok] at e
    obtain ⟨k, _, e⟩ := e
    split at e
    · cases e; exact ⟨.refl _, h.computeRen⟩
    · simp only [bind_ok, Prod.exists] at e
      obtain ⟨l, _, bs', ren, e2, body', σ2, e3, e⟩ := e
      cases e
      obtain ⟨h1, hr⟩ := renameVars_sorted .empty e2
      obtain ⟨h2, h3⟩ := hf.body h.computeRen hr e3
      exact ⟨⟨fun hs => sort_binder_congr h1 (h2.sort (sorted_binder hs)), fun c hc => (by cases hc)⟩, h3⟩

theorem applyGo_sort : ∀ n, SortApplier (applyGo n)
  | 0 => fun _ _ _ _ _ e => (by cases e)
  | n + 1 => by
    intro σ t t' σ' h e
    unfold applyGo at e
    split at e
    · next u hu => cases e; exact ⟨h.cache _ (mem_of_mapGet hu), h⟩
    · split at e
      · next u hu => cases e; exact ⟨h.map _ (mem_of_mapGet hu), h⟩
      · simp only [bind_ok, Prod.exists] at e
        obtain ⟨u, σ1, e1, e⟩ := e
        cases e
        obtain ⟨h1, h2⟩ := (applyGo_sort n).node _ _ _ _ h e1
        refine ⟨h1, h2.map, fun p hp => ?_⟩
        rcases mem_mapInsert_cases hp with rfl | hp
        · exact h1
        · exact h2.cache p hp

/-- Whatever the names in it, a substitution that the code accepts preserves the sort of a term. -/
theorem Subst.apply_sort {m : List (Term × Term)} {σ σ' : Subst} {t t' : Term} (hm : Subst.new m = .ok σ)
    (hs : (sortOf t).isSome = true) (e : σ.apply t = .ok (t', σ')) : sortOf t' = sortOf t :=
  ((applyGo_sort _ _ _ _ _ (.new hm) e).1).sort hs

end Carcara
