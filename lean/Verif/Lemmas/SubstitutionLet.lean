import Verif.Lemmas.SubstitutionApply
import Verif.Lemmas.Utils

/-! # Substitution does not introduce `let` -/

namespace Carcara

/-- No value of the substitution and no remembered result contains a `let`. -/
structure Subst.NoLet (σ : Subst) : Prop where
  map : ∀ p ∈ σ.map, p.2.noLet = true
  cache : ∀ p ∈ σ.cache, p.2.noLet = true

theorem Subst.NoLet.empty : Subst.empty.NoLet := ⟨fun _ h => (by cases h), fun _ h => (by cases h)⟩

theorem Subst.NoLet.insert {σ σ' : Subst} {x t : Term} (h : σ.NoLet) (ht : t.noLet = true)
    (e : σ.insert x t = .ok σ') : σ'.NoLet := by
  unfold Subst.insert at e
  split at e
  · split at e
    · cases e
      refine ⟨fun p hp => ?_, fun p hp => h.cache p (List.mem_filter.1 hp).1⟩
      rcases mem_mapInsert_cases hp with rfl | hp
      · exact ht
      · exact h.map p hp
    · cases e
  · cases e

theorem Subst.NoLet.computeRen {σ : Subst} (h : σ.NoLet) : σ.computeRen.NoLet := by
  unfold Subst.computeRen
  split
  · exact h
  · exact ⟨h.map, h.cache⟩

/-- A function in the place of `apply` introduces no `let`. -/
def NoLetApplier (f : Applier) : Prop :=
  ∀ σ t t' σ', Subst.NoLet σ → t.noLet = true → f σ t = .ok (t', σ') → t'.noLet = true ∧ Subst.NoLet σ'

theorem NoLetApplier.list {f : Applier} (hf : NoLetApplier f) : ∀ {as as' : List Term} {σ σ' : Subst}, σ.NoLet →
    Term.noLetL as = true → applyList f σ as = .ok (as', σ') → Term.noLetL as' = true ∧ σ'.NoLet
  | [], _, _, _, h, _, e => by cases e; exact ⟨rfl, h⟩
  | a :: as, _, _, _, h, ha, e => by
    simp only [applyList, bind_ok, Prod.exists] at e
    obtain ⟨a', σ1, e1, as', σ2, e2, e⟩ := e
    cases e
    simp only [Term.noLetL, Bool.and_eq_true] at ha ⊢
    obtain ⟨h1, h2⟩ := hf _ _ _ _ h ha.1 e1
    obtain ⟨h3, h4⟩ := hf.list h2 ha.2 e2
    exact ⟨⟨h1, h3⟩, h4⟩

theorem renameVars_noLet {avoid : List String} : ∀ {bs bs' : List (String × Srt)} {new r : Subst} {names : List String},
    new.NoLet → renameVars avoid bs new names = .ok (bs', r) → r.NoLet
  | [], _, _, _, _, h, e => by cases e; exact h
  | (x, s) :: bs, _, new, _, names, h, e => by
    simp only [renameVars, bind_ok, Prod.exists] at e
    obtain ⟨new', e1, bs', r, e2, e⟩ := e
    cases e
    refine renameVars_noLet ?_ e2
    split at e1
    · cases e1; exact h
    · exact h.insert rfl e1

theorem NoLetApplier.node {f : Applier} (hf : NoLetApplier f) : NoLetApplier (applyNode f) := by
  intro σ t t' σ' h ht e
  cases t with
  | const c => cases e; exact ⟨rfl, h⟩
  | var x s => cases e; exact ⟨rfl, h⟩
  | let_ bs t => simp [Term.noLet] at ht
  | app g as =>
    simp only [applyNode, bind_ok, Prod.exists] at e
    obtain ⟨as', σ1, e1, g', σ2, e2, e⟩ := e
    cases e
    simp only [Term.noLet, Bool.and_eq_true] at ht ⊢
    obtain ⟨h1, h2⟩ := hf.list h ht.2 e1
    obtain ⟨h3, h4⟩ := hf _ _ _ _ h2 ht.1 e2
    exact ⟨⟨h3, h1⟩, h4⟩
  | op o as =>
    simp only [applyNode, bind_ok, Prod.exists] at e
    obtain ⟨as', σ1, e1, e⟩ := e
    cases e
    exact hf.list h ht e1
  | paramOp o ps as =>
    simp only [applyNode, bind_ok, Prod.exists] at e
    obtain ⟨as', σ1, e1, e⟩ := e
    cases e
    simp only [Term.noLet, Bool.and_eq_true] at ht ⊢
    obtain ⟨h1, h2⟩ := hf.list h ht.2 e1
    exact ⟨⟨ht.1, h1⟩, h2⟩
  | binder b bs body =>
    simp only [applyNode, applyBinder, bind_ok] at e
    obtain ⟨k, _, e⟩ := e
    split at e
    · cases e; exact ⟨ht, h.computeRen⟩
    · simp only [bind_ok, Prod.exists] at e
      obtain ⟨l, _, bs', ren, e2, body', σ2, e3, e⟩ := e
      cases e
      have hr := renameVars_noLet .empty e2
      unfold applyBody at e3
      split at e3
      · exact hf _ body body' _ h.computeRen ht e3
      · simp only [bind_ok, Prod.exists] at e3
        obtain ⟨u, _, e4, e5⟩ := e3
        exact hf _ _ body' _ h.computeRen (hf _ body _ _ hr ht e4).1 e5

theorem applyGo_noLet : ∀ n, NoLetApplier (applyGo n)
  | 0 => fun _ _ _ _ _ _ e => (by cases e)
  | n + 1 => by
    intro σ t t' σ' h ht e
    unfold applyGo at e
    split at e
    · next u hu => cases e; exact ⟨h.cache _ (mem_of_mapGet hu), h⟩
    · split at e
      · next u hu => cases e; exact ⟨h.map _ (mem_of_mapGet hu), h⟩
      · simp only [bind_ok, Prod.exists] at e
        obtain ⟨u, σ1, e1, e⟩ := e
        cases e
        obtain ⟨h1, h2⟩ := (applyGo_noLet n).node _ _ _ _ h ht e1
        refine ⟨h1, h2.map, fun p hp => ?_⟩
        rcases mem_mapInsert_cases hp with rfl | hp
        · exact h1
        · exact h2.cache p hp

theorem Subst.NoLet.remove {σ : Subst} {x : Term} (h : σ.NoLet) : (σ.remove x).NoLet := by
  unfold Subst.remove
  split
  · exact ⟨fun p hp => h.map p (MultiSet.mem_mapRemove hp), h.cache⟩
  · exact h

end Carcara
