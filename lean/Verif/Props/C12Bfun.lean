import Verif.Lemmas.BfunElim
import Verif.Lemmas.Subproof
import Verif.Spec.Witness

/-!
# C12: the rule `bfun_elim`

The rule removes quantified variables of sort `Bool`, and arguments of sort `Bool` from functions.
-/

namespace Carcara
open Classical

/-- **C12**, partial: `apply_bfun_elim` ends with a result, which has the value of the term. Missing: terms with `let`, and terms in which
names with the same characters before the first quote are bound twice or confused, for which it fails (`c12_bfun_elim_fails`). -/
theorem c12_bfun_elim_term_partial (t : Term) (hs : (sortOf t).isSome = true) (hq : t.quoteSafe = true) :
    ∃ r, bfunElimTerm t = .ok r ∧ sortOf r = sortOf t ∧ Same t r := by
  obtain ⟨r, e, p⟩ := bfunElimTerm_ok ⟨hs, hq⟩
  exact ⟨r, e, p.sort, p.same⟩

private theorem comparable_kept {c t r : Term} (h : Comparable false c t) (hs : (sortOf r).isSome = true) (k : KeptBy t r) : Comparable false c r := by
  refine ⟨h.sort_left, hs, h.clean_left, k.clean h.clean_right, fun u hu v hv => ?_⟩
  cases v with
  | const k' => exact h.separate u hu _ (k.consts k' hv)
  | _ => cases u <;> simp [sepNode]

/-- **C12**, partial: `bfun_elim`; the conclusion even has the same value as the premise. Missing: as for the theorem before, and terms
that cannot be compared (C07). -/
theorem c12_bfun_elim_partial (c : List Term) (ps : List (List Term)) (as : List Term) (h : bfunElim c ps as = .ok ())
    (hp : ∀ p ∈ ps, ClauseOK p) (hq : ∀ p ∈ ps, ∀ t ∈ p, t.quoteSafe = true)
    (hcomp : ∀ t ∈ c, ∀ p ∈ ps, ∀ u ∈ p, Comparable false t u) :
    Entails ps c ∧ ∀ (M : Model), M.Sat c → ∀ p ∈ ps, M.Sat p := by
  simp only [bfunElim, bind_ok, premiseTerm_ok, get1_ok, assertPolyeq_ok] at h
  obtain ⟨psi, rfl, c0, rfl, r, hr, h⟩ := h
  obtain ⟨r', e, post⟩ := bfunElimTerm_ok (t := psi)
    ⟨by rw [hp [psi] (List.mem_singleton.2 rfl) psi (List.mem_singleton.2 rfl)]; rfl, hq [psi] (List.mem_singleton.2 rfl) psi (List.mem_singleton.2 rfl)⟩
  obtain rfl : r' = r := ok_inj.1 (e.symm.trans hr)
  have hcmp := hcomp c0 (List.mem_singleton.2 rfl) [psi] (List.mem_singleton.2 rfl) psi (List.mem_singleton.2 rfl)
  have hc' := comparable_kept hcmp (by rw [post.sort]; exact hcmp.sort_right) post.kept
  have same : Same c0 r' := polyeqWith_sound rfl h hc'
  have key : ∀ M : Model, M.Holds c0 ↔ M.Holds psi := fun M => (same.holds M).trans (post.same.holds M).symm
  constructor
  · intro M hM
    have := hM [psi] (List.mem_singleton.2 rfl)
    rw [Model.sat_singleton] at this ⊢
    exact (key M).2 this
  · intro M hM p hp
    rw [List.mem_singleton.1 hp]
    rw [Model.sat_singleton] at hM ⊢
    exact (key M).1 hM

section Examples
open Witness

private abbrev b (x : String) : String × Srt := (x, .bool)
private abbrev p : Term := .var "p" .bool
private abbrev q : Term := .var "q" .bool
private abbrev x : Term := .var "x" .int
private abbrev f (t u : Term) : Term := .app (.var "f" (.fn [.int, .bool] .bool)) [t, u]

/-- `(forall ((x Int) (p Bool)) (f x (and p q)))` becomes a quantifier over integers of a conjunction of choices. -/
example :
    let prem : List (List Term) := [[.binder .all [("x", .int), b "p"] (f x (.op .and [p, q]))]]
    let c : List Term := [.binder .all [("x", .int)] (.op .and [
      .op .ite [.op .and [.fls, q], f x .tru, f x .fls], .op .ite [.op .and [.tru, q], f x .tru, f x .fls]])]
    bfunElim c prem [] = .ok () ∧ (∀ p ∈ prem, ClauseOK p) ∧ (∀ p ∈ prem, ∀ t ∈ p, t.quoteSafe = true) ∧
      ∀ t ∈ c, ∀ p ∈ prem, ∀ u ∈ p, Comparable false t u := by
  refine ⟨by decide +kernel, by unfold ClauseOK; decide +kernel, by decide +kernel, fun t ht p hp u hu => ?_⟩
  cases List.mem_singleton.1 ht
  cases List.mem_singleton.1 hp
  cases List.mem_singleton.1 hu
  exact ⟨by decide +kernel, by decide +kernel, by decide +kernel, by decide +kernel, by decide +kernel⟩

/-- A disjunction does not do. -/
example : bfunElim [.op .or [.fls, .tru]] [[.binder .all [b "p"] p]] [] = err := by decide +kernel

/-- A variable named `p'`. -/
private abbrev p' : Term := .var "p'" .bool

/-- `p'` is true. -/
private noncomputable def yes : Model := model fun _ _ => .bool true

/-- From `(forall ((p Bool)) (forall ((p Bool) (p Bool)) p'))`, a conjunction of `true` and `false` follows: one of the variables is renamed
to `p'`. -/
theorem c12_bfun_elim_fails : ¬ SoundRule bfunElim := by
  intro h
  have := h [.op .and [.op .and [.fls, .tru, .fls, .tru], .op .and [.fls, .tru, .fls, .tru]]]
    [[.binder .all [b "p"] (.binder .all [b "p", b "p"] p')]] [] (by decide +kernel)
    (by unfold ClauseOK; decide +kernel) (by unfold ClauseOK; decide +kernel) yes (by
      intro c hc
      rw [List.mem_singleton.1 hc, Model.sat_singleton]
      refine (tr_all yes.env_dom).2 fun ρ1 h1 => (tr_all h1.1).2 fun ρ2 h2 => ?_
      have e : ρ2 "p'" .bool = .bool true := by
        rw [h2.2 _ _ (by decide), h1.2 _ _ (by decide)]
        simp [yes, model, coerce, valSort]; rfl
      simp [eval, e])
  rw [Model.sat_singleton] at this
  simp [Model.Holds, Model.val, eval, evalL_eq_map, evalOp, stdOp, Term.fls, Term.tru] at this

end Examples

end Carcara
