import Verif.Lemmas.Polyeq
import Verif.Lemmas.PolyFuel
import Verif.Lemmas.Checker
import Verif.Lemmas.Holds
import Verif.Spec.Witness

/-!
# C07: assumptions come from the problem

The claim is false of the code: the comparison identifies terms with different meanings. `c07_assume_partial` proves
it for terms without the offending constructs (`Comparable`).
-/

namespace Carcara
open Witness

/-- The claim of **C07** for one configuration: an assumption accepted at the top level has in every model the truth
value of some assertion. -/
def AssumeSound (P : Params) (cfg : Config) : Prop :=
  ∀ (prem : List Term) (t : Term), checkAssume P cfg prem false t = .ok true → sortOf t = some .bool →
    (∀ u ∈ prem, sortOf u = some .bool) → ∃ u ∈ prem, Same t u

/-- **C07**, partial: for terms that are clean and separate (see `Comparable`) the claim holds. -/
theorem c07_assume_partial {P : Params} (hP : P.assumeEq = assumeEq) {cfg : Config} {prem : List Term} {t : Term}
    (h : checkAssume P cfg prem false t = .ok true) (hc : ∀ u ∈ prem, Comparable true t u) :
    ∃ u ∈ prem, Same t u := by
  simp only [checkAssume, Bool.false_eq_true, if_false] at h
  split at h
  · next hm => exact ⟨t, hm, fun _ _ _ => rfl⟩
  · split at h
    · simp at h
    · obtain ⟨u, hu, h⟩ := anyRes_true h
      rw [hP] at h
      exact ⟨u, hu, polyeqWith_sound rfl h (hc u hu)⟩

/-- **C07** holds without restrictions under the `elaborated` configuration: only literally equal terms match. -/
theorem c07_assume_elaborated {P : Params} {cfg : Config} (he : cfg.elaborated = true) {prem : List Term} {t : Term}
    (h : checkAssume P cfg prem false t = .ok true) : t ∈ prem := by
  simp only [checkAssume, Bool.false_eq_true, if_false] at h
  split at h
  · assumption
  · simp [he] at h

/-- The comparison modulo reordering (`assert_polyeq`, used by most rules) relates only terms with the same meaning,
for well-sorted, clean and separate terms. -/
theorem c07_polyeq_partial {a b : Term} (h : polyeq a b = .ok true) (hc : Comparable false a b) : Same a b :=
  polyeqWith_sound rfl h hc

/-- The comparison ends with a verdict or a panic; the step counter of the model plays no role. -/
theorem c07_comparison_total (cfg : PolyConfig) (a b : Term) :
    polyeqWith cfg a b = panic ∨ ∃ r, polyeqWith cfg a b = .ok r := by
  cases h : polyeqWith cfg a b with
  | ok r => exact Or.inr ⟨r, rfl⟩
  | error f =>
    cases f with
    | err => exact absurd h (polyeq_not_stuck cfg a b)
    | panic => exact Or.inl rfl

/-! ## Refutations -/

private abbrev x : Term := .var "x" .int
private abbrev xr : Term := .var "x" .real
private abbrev zero : Term := .const (.int 0)
private abbrev real (q : Rat) : Term := .const (.real q)
/-- `x` is one. -/
private noncomputable def one : Model := model fun _ s => if s = .int then .int 1 else .real 1
/-- `x` is minus three quarters. -/
private noncomputable def neg34 : Model := model fun _ _ => .real (-3/4)
/-- `x` is three fifths. -/
private noncomputable def pos35 : Model := model fun _ _ => .real (3/5)

/-- `(assert (> x 0))` justifies `(assume h (> (- x) 0))`: with n-ary expansion a unary `-` is dropped. -/
theorem c07_unary_minus_fails {P : Params} (hP : P.assumeEq = assumeEq) : ¬ AssumeSound P {} := by
  intro h
  obtain ⟨u, hu, hs⟩ := h [.op .gt [x, zero]] (.op .gt [.op .sub [x], zero])
    (by simp only [checkAssume, hP]; decide) (by decide) (by decide)
  rw [List.mem_singleton] at hu
  subst hu
  have := hs one.I one.env one.env_dom
  have hx : one.env "x" .int = .int 1 := by
    simp [one, model, coerce, valSort]; rfl
  simp only [eval, evalL_eq_map, List.map_cons, List.map_nil, hx, evalConst, zero] at this
  norm_num [evalOp, stdOp, stdSub, stdCmp, Val.asInts, Val.asNums, Val.num, subL, Sem.chain, Val.prop] at this

/-- `(assert (> x (- 1)))`, written with a negative literal, justifies `(assume h (> x (- 0.5)))`: a negative integer
literal is compared with the numerator of the negated real literal. -/
theorem c07_numerator_fails {P : Params} (hP : P.assumeEq = assumeEq) : ¬ AssumeSound P {} := by
  intro h
  obtain ⟨u, hu, hs⟩ := h [.op .gt [xr, .const (.int (-1))]] (.op .gt [xr, .op .sub [real (1/2)]])
    (by simp only [checkAssume, hP]; decide +kernel) (by decide) (by decide)
  rw [List.mem_singleton] at hu
  subst hu
  have := hs neg34.I neg34.env neg34.env_dom
  have hx : neg34.env "x" .real = .real (-3/4) := by
    simp [neg34, model, coerce, valSort]; rfl
  simp only [eval, evalL_eq_map, List.map_cons, List.map_nil, hx, evalConst, real] at this
  norm_num [evalOp, stdOp, stdSub, stdCmp, Val.asInts, Val.asNums, Val.num, subL, Sem.chain, Val.prop] at this

/-- `(assert (> x (/ 1.0 2.0 x)))` justifies `(assume h (> x 0.5))`: only the first two arguments of a quotient are
compared. -/
theorem c07_quotient_fails {P : Params} (hP : P.assumeEq = assumeEq) : ¬ AssumeSound P {} := by
  intro h
  obtain ⟨u, hu, hs⟩ := h [.op .gt [xr, .op .realDiv [real 1, real 2, xr]]] (.op .gt [xr, real (1/2)])
    (by simp only [checkAssume, hP]; decide +kernel) (by decide) (by decide)
  rw [List.mem_singleton] at hu
  subst hu
  have := hs pos35.I pos35.env pos35.env_dom
  have hx : pos35.env "x" .real = .real (3/5) := by
    simp [pos35, model, coerce, valSort]; rfl
  simp only [eval, evalL_eq_map, List.map_cons, List.map_nil, hx, evalConst, real] at this
  norm_num [evalOp, stdOp, stdSub, stdCmp, Val.asInts, Val.asNums, Val.num, subL, Sem.chain, Val.prop, Interp.rdiv] at this

/-- Some comparisons panic: `unreachable!` in `compare_assoc`, and a zero denominator. -/
theorem c40_polyeq_panics :
    assumeEq (.op .cl []) (.op .cl [x, zero]) = panic ∧
    polyeq (real 1) (.op .realDiv [real 1, real 0]) = panic := by decide +kernel

/-! ## Examples -/

/-- An equality may be flipped, and n-ary applications may be nested; the terms meet the hypotheses. -/
example : let t : Term := .op .and [.op .and [.op .equals [x, zero], .var "p" .bool], .var "q" .bool]
    let u : Term := .op .and [.op .equals [zero, x], .var "p" .bool, .var "q" .bool]
    assumeEq t u = .ok true ∧ Comparable true t u :=
  ⟨by decide, ⟨by decide, by decide, by decide, by decide, by decide⟩⟩
/-- Chains are compared with conjunctions. -/
example : let t : Term := .op .lt [x, zero, .var "y" .int]
    let u : Term := .op .and [.op .lt [x, zero], .op .lt [zero, .var "y" .int]]
    assumeEq t u = .ok true ∧ Comparable true t u :=
  ⟨by decide, ⟨by decide, by decide, by decide, by decide, by decide⟩⟩
/-- Literals: `0.5` and `(/ 1.0 2.0)`, `-0.5` and `(- (/ 1.0 2.0))`. -/
example : polyeq (real (1/2)) (.op .realDiv [real 1, real 2]) = .ok true ∧
    polyeq (.op .sub [.op .realDiv [real 1, real 2]]) (real (-1/2)) = .ok true ∧
    Comparable false (.op .sub [.op .realDiv [real 1, real 2]]) (real (-1/2)) :=
  ⟨by decide +kernel, by decide +kernel, ⟨by decide, by decide, by decide, by decide, by decide⟩⟩

end Carcara
