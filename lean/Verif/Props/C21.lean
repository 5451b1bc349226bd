import Verif.Lemmas.EvaluateTerm
import Verif.Spec.Witness

/-!
# C21: constant evaluation agrees with SMT-LIB

Refuted: integer division and remainder round towards zero; signed bit-vector operators lose the sign; extraction loses the topmost bit; bit-vector
constants that do not fit their width are compared by their numbers. Proved for all terms on which none of this matters.
-/

namespace Carcara
open Classical Val Sem Value

/-- The claim of **C21**. -/
def C21Full : Prop := ∀ (t v : Term) (ps : List (List Term)) (as : List Term), evaluateRule [.op .equals [t, v]] ps as = .ok () →
  ClauseOK [.op .equals [t, v]] → ∀ M : Model, M.val t = M.val v

/-- **C21**, for models in which no application meets one of the defects. What is missing: `SafeTerm` excludes, by the values of the
arguments, inexact division of negative integers, signed bit-vector operators on vectors with the sign bit set (division: if the signs differ), extraction
with the topmost bit set, and bit-vector constants that do not fit their width. -/
theorem c21_evaluate_partial {c : List Term} {ps : List (List Term)} {as : List Term} (h : evaluateRule c ps as = .ok ())
    (hc : ClauseOK c) : ∃ t v, c = [.op .equals [t, v]] ∧ sortOf v = sortOf t ∧
      ∀ M : Model, SafeTerm M t → M.val t = M.val v ∧ M.Sat c := by
  simp only [evaluateRule, bind_ok, get1_ok, match2_ok, require_ok, Prod.exists] at h
  obtain ⟨_, rfl, t, v, rfl, u, h1, rfl⟩ := h
  obtain ⟨_, s, ht, hv⟩ := sort_equals.1 (hc _ (List.mem_singleton_self _))
  refine ⟨t, u, rfl, by rw [ht, hv], fun M hM => ?_⟩
  have h := (evaluate_kept t h1 ht hM).2.1.symm
  exact ⟨h, by rw [Model.sat_singleton, M.holds_eq]; exact h⟩

/-- **C21** for terms without the defective operators: the conclusion is valid. -/
theorem c21_evaluate_plain_partial {t v : Term} {ps : List (List Term)} {as : List Term}
    (h : evaluateRule [.op .equals [t, v]] ps as = .ok ()) (hc : ClauseOK [.op .equals [t, v]]) (hp : PlainTerm t) :
    Valid [.op .equals [t, v]] := by
  obtain ⟨t', v', e, _, hM⟩ := c21_evaluate_partial h hc
  cases e
  exact fun M => (hM M (hp.safe M)).2

namespace C21Ex

abbrev i (z : ℤ) : Term := .const (.int z)
abbrev bv (v : ℤ) (w : ℕ) : Term := .const (.bv v w)
abbrev eq (a b : Term) : Term := .op .equals [a, b]

/-- An accepted equality between terms of different values. -/
def Wrong (t v : Term) : Prop :=
  ClauseOK [eq t v] ∧ evaluateRule [eq t v] [] [] = .ok () ∧ ∀ M : Model, M.val t ≠ M.val v ∧ ¬ M.Sat [eq t v]

theorem wrong {t v : Term} (h1 : sortOf (eq t v) = some .bool) (h2 : evaluateRule [eq t v] [] [] = .ok ())
    (h3 : ∀ M : Model, M.val t ≠ M.val v) : Wrong t v := by
  refine ⟨by simpa [ClauseOK] using h1, h2, fun M => ⟨h3 M, ?_⟩⟩
  rw [Model.sat_singleton, M.holds_eq]
  exact h3 M

theorem val_i (M : Model) (z : ℤ) : M.val (i z) = .int z := rfl
theorem val_bv (M : Model) (v : ℤ) (w : ℕ) : M.val (bv v w) = .bv w (BitVec.ofInt w v) := rfl

/-- `(- 7)`. -/
abbrev m7 : Term := .op .sub [i 7]

theorem val_m7 (M : Model) : M.val m7 = .int (-7) := by
  rw [M.val_op]
  simp only [List.map_cons, List.map_nil, val_i]
  rfl

end C21Ex
open C21Ex

/-- `(= (abs (div (- 7) 2)) 3)` is accepted; the quotient is `-4`. -/
theorem c21_div_fails : Wrong (.op .abs [.op .intDiv [m7, i 2]]) (i 3) := by
  refine wrong (by decide +kernel) (by decide +kernel) fun M => ?_
  rw [M.val_op, List.map_cons, List.map_nil, M.val_op]
  simp only [List.map_cons, List.map_nil, val_i, val_m7, evalOp, stdOp, asInts, Option.map_some, List.foldl_cons, List.foldl_nil,
    Interp.idiv, Option.getD_some]
  norm_num

/-- `(= (abs (mod (- 7) 3)) 1)` is accepted; the remainder is `2`. -/
theorem c21_mod_fails : Wrong (.op .abs [.op .mod [m7, i 3]]) (i 1) := by
  refine wrong (by decide +kernel) (by decide +kernel) fun M => ?_
  rw [M.val_op, List.map_cons, List.map_nil, M.val_op]
  simp only [List.map_cons, List.map_nil, val_i, val_m7, evalOp, stdOp, Interp.imod, Option.getD_some]
  norm_num

/-- `(= (bvsub #b101 #b001) #b010)` is accepted. -/
theorem c21_bvsub_fails : Wrong (.op .bvSub [bv 5 3, bv 1 3]) (bv 2 3) := by
  refine wrong (by decide +kernel) (by decide +kernel) fun M => ?_
  rw [M.val_op]
  simp only [List.map_cons, List.map_nil, val_bv, evalOp, stdOp, bvBin_two, Option.getD_some, ne_eq, Val.bv.injEq, heq_eq_eq, true_and]
  decide

/-- `(= (bvsdiv #b101 #b001) #b011)` is accepted. -/
theorem c21_bvsdiv_fails : Wrong (.op .bvSDiv [bv 5 3, bv 1 3]) (bv 3 3) := by
  refine wrong (by decide +kernel) (by decide +kernel) fun M => ?_
  rw [M.val_op]
  simp only [List.map_cons, List.map_nil, val_bv, evalOp, stdOp, bvBin_two, Option.getD_some, ne_eq, Val.bv.injEq, heq_eq_eq, true_and]
  decide

/-- `(= (bvsrem #b101 #b010) #b001)` is accepted. -/
theorem c21_bvsrem_fails : Wrong (.op .bvSRem [bv 5 3, bv 2 3]) (bv 1 3) := by
  refine wrong (by decide +kernel) (by decide +kernel) fun M => ?_
  rw [M.val_op]
  simp only [List.map_cons, List.map_nil, val_bv, evalOp, stdOp, bvBin_two, Option.getD_some, ne_eq, Val.bv.injEq, heq_eq_eq, true_and]
  decide

/-- `(= (bvsmod #b1011 #b0011) #b0010)` is accepted. -/
theorem c21_bvsmod_fails : Wrong (.op .bvSMod [bv 11 4, bv 3 4]) (bv 2 4) := by
  refine wrong (by decide +kernel) (by decide +kernel) fun M => ?_
  rw [M.val_op]
  simp only [List.map_cons, List.map_nil, val_bv, evalOp, stdOp, bvBin_two, Option.getD_some, ne_eq, Val.bv.injEq, heq_eq_eq, true_and]
  decide

/-- `(= (bvslt #b101 #b001) false)` is accepted; also `bvsle`, and `true` for `bvsgt` and `bvsge`. -/
theorem c21_bvslt_fails : Wrong (.op .bvSLt [bv 5 3, bv 1 3]) (.op .fls []) ∧ Wrong (.op .bvSLe [bv 5 3, bv 1 3]) (.op .fls []) ∧
    Wrong (.op .bvSGt [bv 5 3, bv 1 3]) (.op .tru []) ∧ Wrong (.op .bvSGe [bv 5 3, bv 1 3]) (.op .tru []) := by
  have h1 : (BitVec.ofInt 3 5).toInt < (BitVec.ofInt 3 1).toInt := by decide
  refine ⟨wrong (by decide +kernel) (by decide +kernel) fun M => ?_, wrong (by decide +kernel) (by decide +kernel) fun M => ?_,
    wrong (by decide +kernel) (by decide +kernel) fun M => ?_, wrong (by decide +kernel) (by decide +kernel) fun M => ?_⟩ <;>
  · rw [M.val_op, M.val_op]
    simp only [List.map_cons, List.map_nil, val_bv, evalOp, stdOp, bvBin_two, Option.getD_some, ne_eq, prop, Val.bool.injEq,
      decide_eq_false_iff_not, decide_eq_true_iff]
    omega

/-- `(= (sbv_to_int #b101) 3)` is accepted. -/
theorem c21_sbv_to_int_fails : Wrong (.op .sbvToInt [bv 5 3]) (i 3) := by
  refine wrong (by decide +kernel) (by decide +kernel) fun M => ?_
  rw [M.val_op]
  simp only [List.map_cons, List.map_nil, val_bv, val_i, evalOp, stdOp, bvUn, Option.getD_some, ne_eq, Val.int.injEq]
  decide

/-- `(= ((_ sign_extend 1) #b101) #b0011)` is accepted. -/
theorem c21_sign_extend_fails : Wrong (.paramOp .signExtend [i 1] [bv 5 3]) (bv 3 4) := by
  refine wrong (by decide +kernel) (by decide +kernel) fun M => ?_
  show evalPop M.I .signExtend [.int 1] [.bv 3 (BitVec.ofInt 3 5)] ≠ .bv 4 (BitVec.ofInt 4 3)
  simp only [evalPop, stdPop, Option.getD_some, Int.reduceLE, if_true, ne_eq]
  intro h
  exact absurd (eq_of_heq (Val.bv.inj h).2) (by decide)

/-- `(= ((_ extract 2 0) #b101) #b001)` is accepted. -/
theorem c21_extract_fails : Wrong (.paramOp .bvExtract [i 2, i 0] [bv 5 3]) (bv 1 3) := by
  refine wrong (by decide +kernel) (by decide +kernel) fun M => ?_
  show evalPop M.I .bvExtract [.int 2, .int 0] [.bv 3 (BitVec.ofInt 3 5)] ≠ .bv 3 (BitVec.ofInt 3 1)
  simp only [evalPop, stdPop, Option.getD_some, le_refl, Int.reduceLE, and_self, if_true, ne_eq]
  intro h
  exact absurd (eq_of_heq (Val.bv.inj h).2) (by decide)

/-- `(= (= (_ bv8 3) (_ bv0 3)) false)` is accepted. -/
theorem c21_constant_fails : Wrong (eq (bv 8 3) (bv 0 3)) (.op .fls []) := by
  refine wrong (by decide +kernel) (by decide +kernel) fun M => ?_
  rw [M.val_op, M.val_op]
  simp only [List.map_cons, List.map_nil, val_bv, evalOp, stdOp, Option.getD_some, ne_eq, prop, Val.bool.injEq,
      decide_eq_false_iff_not, chain, and_true, not_not]
  exact congrArg _ (by decide)

/-- The claim of **C21** does not hold. -/
theorem c21_fails : ¬ C21Full := fun h => by
  obtain ⟨h1, h2, h3⟩ := c21_div_fails
  refine (h3 Witness.allTrue).1 (h _ _ _ _ h2 h1 _)

/-! ## Examples -/

/-- `(= (ite (< (+ 1 (* 2 3)) (div 17 2)) (bvadd #b110 #b011) (bvneg x)) #b001)` meets the hypotheses. -/
example : let t : Term := .op .ite [.op .lt [.op .add [i 1, .op .mult [i 2, i 3]], .op .intDiv [i 17, i 2]],
      .op .bvAdd [bv 6 3, bv 3 3], .op .bvShl [bv 1 3, bv 2 3]]
    evaluateRule [eq t (bv 1 3)] [] [] = .ok () ∧ ClauseOK [eq t (bv 1 3)] ∧ ∀ M : Model, SafeTerm M t := by
  refine ⟨by decide +kernel, ?_, fun M => ?_⟩
  · have : sortOf (eq (.op .ite [.op .lt [.op .add [i 1, .op .mult [i 2, i 3]], .op .intDiv [i 17, i 2]],
      .op .bvAdd [bv 6 3, bv 3 3], .op .bvShl [bv 1 3, bv 2 3]]) (bv 1 3)) = some .bool := by decide +kernel
    simpa [ClauseOK] using this
  · have : SafeOp .intDiv [Val.int 17, (Val.int 2 : Val M.I.U)] := by
      intro z zs h
      simp only [asInts, Option.map_some, Option.some.injEq, List.cons.injEq] at h
      obtain ⟨rfl, rfl⟩ := h
      exact ⟨.inl (by decide), trivial⟩
    simp only [SafeTerm, SafeTermL, SafeOp, List.map_cons, List.map_nil, val_i, Const.InRange] at this ⊢
    refine ⟨trivial, ⟨trivial, ⟨trivial, ?_⟩, ⟨this, ?_⟩, ?_⟩, ?_⟩ <;> norm_num

/-- A partially evaluated term: `(= (and (> 2 1) (= x (+ 1 1))) (and true (= x 2)))`. -/
example : let x : Term := .var "x" .int
    let t : Term := .op .and [.op .gt [i 2, i 1], eq x (.op .add [i 1, i 1])]
    let v : Term := .op .and [.op .tru [], eq x (i 2)]
    evaluateRule [eq t v] [] [] = .ok () ∧ sortOf (eq t v) = some .bool ∧ PlainTerm t :=
  ⟨by decide +kernel, by decide +kernel, by simp [PlainTerm, PlainTermL, Op.Rounds, Const.InRange]⟩

/-- Negative dividends are fine if the division is exact, and so is signed division if both signs agree. -/
example : evaluateRule [eq (.op .intDiv [.op .sub [i 6], i 2]) (i (-3))] [] [] = .ok () ∧
    evaluateRule [eq (.op .bvSDiv [bv 4 3, bv 6 3]) (bv 2 3)] [] [] = .ok () ∧
    SafeOp .intDiv [Val.int (-6), (Val.int 2 : Val Unit)] ∧ SafeOp .bvSDiv [Val.bv 3 4#3, (Val.bv 3 6#3 : Val Unit)] := by
  refine ⟨by decide +kernel, by decide +kernel, ?_, ?_⟩
  · intro z zs h
    simp only [asInts, Option.map_some, Option.some.injEq, List.cons.injEq] at h
    obtain ⟨rfl, rfl⟩ := h
    exact ⟨.inr (by decide), trivial⟩
  · intro w a b h
    simp only [List.cons.injEq, Val.bv.injEq, and_true] at h
    obtain ⟨⟨rfl, h1⟩, -, h2⟩ := h
    cases h1
    cases h2
    decide

end Carcara
