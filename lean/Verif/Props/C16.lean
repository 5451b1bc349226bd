import Verif.Lemmas.Linear
import Verif.Lemmas.MapRes
import Verif.Spec.Witness

/-!
# C16: `la_generic` accepts only valid clauses

This is false: the strengthening step of the rule rounds constants although the terms may be real numbers, and it tests
whether the product of the constant with the coefficient is an integer instead of the constant itself. Proved are the
refutations and soundness for the clauses where the rounding is harmless.
-/

namespace Carcara
open Classical Val Sem Witness

/-- The full claim. -/
def LaGenericSound : Prop := SoundRule laGeneric

/-- **C16 (partial).** If the clause is accepted, it is valid, provided that every literal is a negated equality, has a
strict negation between integer terms, or has a weak negation between terms with integral numerals and an integral
coefficient; moreover integer divisions of literals must leave no remainder. -/
theorem c16_la_generic_partial {c : List Term} {ps : List (List Term)} {as : List Term} (h : laGeneric c ps as = .ok ())
    (hc : ClauseOK c) (hf : List.Forall₂ FarkasOK c as) (hx : ∀ t ∈ c, t.exactDivs = true) (M : Model) : M.Sat c := by
  simp only [laGeneric, bind_ok, require_ok, Prod.exists, mapRes_ok, orErr_ok] at h
  obtain ⟨_, hlen, qs, hqs, o, d, hsum, ht, hz⟩ := h
  by_contra hns
  have hfalse : ∀ t ∈ c, ¬ M.Holds t := fun t ht hh => hns ⟨t, ht, hh⟩
  have hks : List.Forall₂ (fun k a => k.asFraction = .ok (some a)) as qs :=
    hqs.imp fun k a hk => by obtain ⟨f, h1, rfl⟩ := hk; exact h1
  have hok := sum_ok (M := M) hsum (Or.inl ⟨rfl, by simp [LinComb.zero]⟩) (by rw [← hks.length_eq, hlen]) hks hf
    fun t htc => ⟨hc t htc, hx t htc, hfalse t htc⟩
  rw [zeroCompares_ok hok ht] at hz
  cases hz

namespace C16
/-- An integer variable. -/
abbrev x : Term := .var "x" .int
/-- An integer variable. -/
abbrev y : Term := .var "y" .int
/-- A real variable. -/
abbrev r : Term := .var "r" .real
/-- An integer numeral. -/
abbrev n (z : ℤ) : Term := .const (.int z)
/-- A real numeral. -/
abbrev d (q : ℚ) : Term := .const (.real q)
/-- The example of the comment in `linear_arithmetic.rs:222-241`. -/
abbrev documented : List Term :=
  [.op .not [.op .le [.op .sub [n 1], x]], .op .not [.op .le [.op .sub [n 1], .op .add [x, y]]],
    .op .le [.op .sub [n 2], .op .mult [n 2, x]], .op .not [.op .le [y, n 1]]]
/-- A clause over the reals. -/
abbrev reals : List Term := [.op .not [.op .le [r, d 1]], .op .not [.op .ge [r, d 2]]]
end C16
open C16

/-- Strict and weak negations between integers. -/
example : laGeneric [.op .not [.op .le [.op .mult [n 2, x], n 1]], .op .le [x, n 0]] [] [n 1, n 2] = .ok () ∧
    ClauseOK [.op .not [.op .le [.op .mult [n 2, x], n 1]], .op .le [x, n 0]] ∧
    List.Forall₂ FarkasOK [.op .not [.op .le [.op .mult [n 2, x], n 1]], .op .le [x, n 0]] [n 1, n 2] ∧
    ∀ t ∈ [Term.op .not [.op .le [.op .mult [n 2, x], n 1]], .op .le [x, n 0]], t.exactDivs = true := by
  refine ⟨by decide +kernel, by simp [ClauseOK]; decide +kernel, ?_, by decide +kernel⟩
  exact .cons (.weak (.op .mult [n 2, x]) (n 1) _ (by simp [weakNegation]) (by decide) (by decide) (by decide))
    (.cons (.strict x (n 0) _ (by simp [strictNegation]) (by decide +kernel) (by decide +kernel)) .nil)

/-- A clause over the reals. -/
example : laGeneric reals [] [n 1, n 1] = .ok () ∧ ClauseOK reals ∧ List.Forall₂ FarkasOK reals [n 1, n 1] ∧
    ∀ t ∈ reals, t.exactDivs = true := by
  refine ⟨by decide +kernel, by simp [ClauseOK]; decide +kernel, ?_, by decide +kernel⟩
  exact .cons (.weak r (d 1) _ (by simp [weakNegation]) (by decide +kernel) (by decide +kernel) (by decide))
    (.cons (.weak r (d 2) _ (by simp [weakNegation]) (by decide +kernel) (by decide +kernel) (by decide)) .nil)

example : laGeneric documented [] [n 1, n 1, n 1, n 1] = .ok () := by decide +kernel

/-- A negated equality may have a fractional coefficient. -/
example : laGeneric [.op .not [.op .equals [.op .mult [n 2, x], n 1]], .op .le [x, n 0], .op .ge [x, n 1]] []
    [n 0, n 1, n 1] = .ok () := by decide +kernel

namespace C16
/-- `x < 1 ∨ x > 1`. -/
abbrev badInt : List Term := [.op .lt [x, n 1], .op .gt [x, n 1]]
/-- `r ≤ 0 ∨ r ≥ 1`. -/
abbrev badReal : List Term := [.op .le [r, d 0], .op .ge [r, d 1]]

/-- All integers are 1, all reals are 1/2. -/
noncomputable def M : Model := model fun _ s => if s = .int then .int 1 else .real (1 / 2)

theorem env_x : M.env "x" .int = .int 1 := by simp [M, model, coerce, valSort]; rfl
theorem env_r : M.env "r" .real = .real (1 / 2) := by simp [M, model, coerce, valSort]; rfl
end C16

/-- **C16.** The claim fails for integers: with the coefficients 1/2 the rule accepts `x < 1 ∨ x > 1`. -/
theorem c16_la_generic_int_fails : laGeneric badInt [] [d (1 / 2), d (1 / 2)] = .ok () ∧ ClauseOK badInt ∧
    (∀ t ∈ badInt, t.exactDivs = true) ∧ ∃ M : Model, ¬ M.Sat badInt := by
  refine ⟨by decide +kernel, by simp [ClauseOK]; decide +kernel, by decide +kernel, M, ?_⟩
  simp only [Model.Sat, badInt, List.mem_cons, List.not_mem_nil, or_false, exists_eq_or_imp, exists_eq_left,
    Model.Holds, Model.val, eval, evalL_eq_map, List.map_cons, List.map_nil, env_x, evalConst]
  norm_num [evalOp, stdOp, stdCmp, Val.asNums, Val.num, Sem.chain]

/-- **C16.** The claim fails for real numbers: the rule accepts `r ≤ 0 ∨ r ≥ 1`. -/
theorem c16_la_generic_real_fails : laGeneric badReal [] [n 1, n 1] = .ok () ∧ ClauseOK badReal ∧
    (∀ t ∈ badReal, t.exactDivs = true) ∧ ∃ M : Model, ¬ M.Sat badReal := by
  refine ⟨by decide +kernel, by simp [ClauseOK]; decide +kernel, by decide +kernel, M, ?_⟩
  simp only [Model.Sat, badReal, List.mem_cons, List.not_mem_nil, or_false, exists_eq_or_imp, exists_eq_left,
    Model.Holds, Model.val, eval, evalL_eq_map, List.map_cons, List.map_nil, env_r, evalConst]
  norm_num [evalOp, stdOp, stdCmp, Val.asNums, Val.num, Sem.chain]

/-- **C16.** The full claim is false. -/
theorem c16_la_generic_fails : ¬ LaGenericSound := by
  intro h
  obtain ⟨h1, h2, -, M, hM⟩ := c16_la_generic_int_fails
  exact hM (h badInt [] _ h1 h2 (by simp) M (by simp))

end Carcara
