import Verif.Lemmas.FreeVarsModel
import Verif.Spec.Witness

/-!
# C26: free variables are complete

"If a variable is not reported among the free variables of a term, changing its value does not change the value of the
term."
-/

namespace Carcara
open Classical Val

/-- The claim for one term: the value is determined by the values of the reported variables. -/
def FreeVarsComplete (t : Term) : Prop :=
  ∀ (I : Interp) (ρ ρ' : Env I.U), I.EnvOK ρ → I.EnvOK ρ' → (∀ v ∈ freeVars t, ρ v.1 v.2 = ρ' v.1 v.2) →
    eval I t ρ = eval I t ρ'

/-- The full claim. -/
def C26Full : Prop := ∀ t : Term, (sortOf t).isSome = true → FreeVarsComplete t

/-- Partial: the claim holds for well-sorted terms in which the values of `let` bindings are closed. Missing: `let`
bindings with open values, for which the claim is false (`c26_free_vars_fails`). -/
theorem c26_free_vars_complete_partial (t : Term) (hs : (sortOf t).isSome = true) (hc : t.closedParts = true) :
    FreeVarsComplete t := by
  intro I ρ ρ' hρ _ h
  exact eval_congr_fv t (t.choiceOK_of_sort hs) (.inr hρ) fun v hv => h v ((mem_freeVars hc).2 hv)

/-- Terms without `let` satisfy the side condition: for them the claim holds in full. -/
theorem c26_free_vars_complete_without_let_partial (t : Term) (hs : (sortOf t).isSome = true)
    (hl : t.noLet = true) : FreeVarsComplete t :=
  c26_free_vars_complete_partial t hs (t.closedParts_of_sort hs hl)

/-- The other direction: nothing is reported that is not a free occurrence. -/
theorem c26_free_vars_exact_partial (t : Term) (hc : t.closedParts = true) (x : String) (s : Srt) :
    (x, s) ∈ freeVars t ↔ (x, s) ∈ t.fv := mem_freeVars hc

/-- No variable is reported twice (the result is a set). -/
theorem c26_free_vars_nodup (t : Term) : (freeVars t).Nodup := nodup_freeVars t

/-- `(forall ((x Int)) (= x y))`: only `y` is reported. -/
example : let t : Term := .binder .all [("x", .int)] (.op .equals [.var "x" .int, .var "y" .int])
    (sortOf t).isSome = true ∧ t.noLet = true ∧ freeVars t = [("y", .int)] := by decide

/-- `(let ((z 1)) (and (forall ((x Int)) (= x y)) (= x z)))` has a `let` with a closed value. -/
example :
    let t : Term := .let_ [("z", .const (.int 1))]
        (.op .and [.binder .all [("x", .int)] (.op .equals [.var "x" .int, .var "y" .int]),
          .op .equals [.var "x" .int, .var "z" .int]])
    (sortOf t).isSome = true ∧ t.closedParts = true ∧ freeVars t = [("y", .int), ("x", .int)] := by decide

/-- `(let ((y x)) y)`: the free variable `x` of the value is not reported. -/
theorem c26_free_vars_fails : ¬ C26Full := by
  intro h
  have hc := h (.let_ [("y", .var "x" .int)] (.var "y" .int)) (by decide)
  let M := Witness.model fun _ _ => .int 0
  let ρ' : Env M.I.U := M.env.set "x" .int (.int 1)
  have hρ : M.I.EnvOK M.env := M.env_dom
  have hρ' : M.I.EnvOK ρ' := hρ.set ((M.I.dom_int _).2 ⟨1, rfl⟩)
  have e := hc M.I M.env ρ' hρ hρ' (by
    intro v hv
    have : freeVars (.let_ [("y", .var "x" .int)] (.var "y" .int)) = [] := by decide
    rw [this] at hv
    cases hv)
  have e0 : M.env "x" .int = .int 0 := by simp [M, Witness.model, Witness.coerce, Witness.valSort]; rfl
  have e1 : ρ' "x" .int = .int 1 := by simp [ρ', Env.set]
  simp only [eval, evalB_eq_map, List.map_cons, List.map_nil, Interp.letMany, Interp.letSet, e0, e1,
    (M.I.dom_int _).2 ⟨0, rfl⟩, (M.I.dom_int _).2 ⟨1, rfl⟩, and_self, if_true] at e
  simp at e

end Carcara
