import Verif.Lemmas.NoPanicPb
import Verif.Spec.Witness

/-!
# C40: panics of the cutting planes rules and of pseudo-Boolean blasting

Sixteen of the twenty-one rules read `conclusion[0]` without checking the length of the clause, and two read
`premises[0].clause[0]`. The theorems say exactly when the cutting planes rules panic, and give conditions under which
the rules for blasting do not.
-/

namespace Carcara

open Witness

/-- `cp_addition` and `cp_multiplication` never panic. -/
theorem c40_cp_no_panic (pr : Term → String) (c : List Term) (ps : List (List Term)) (as : List Term) :
    cpAddition pr c ps as ≠ panic ∧ cpMultiplication pr c ps as ≠ panic :=
  ⟨cpAddition_panic c ps as, cpMultiplication_panic c ps as⟩

/-- `cp_division` panics exactly on steps whose only premise is the empty clause. -/
theorem c40_cp_division_panics_iff (pr : Term → String) (c : List Term) (ps : List (List Term)) (as : List Term) :
    cpDivision pr c ps as = panic ↔ ps = [[]] := cpDivision_panic

/-- `cp_saturation` panics exactly on steps without arguments whose only premise is the empty clause. -/
theorem c40_cp_saturation_panics_iff (pr : Term → String) (c : List Term) (ps : List (List Term)) (as : List Term) :
    cpSaturation pr c ps as = panic ↔ ps = [[]] ∧ as = [] := cpSaturation_panic

/-- `cp_literal` panics exactly on steps with one argument that conclude the empty clause. -/
theorem c40_cp_literal_panics_iff (c : List Term) (ps : List (List Term)) (as : List Term) :
    cpLiteral c ps as = panic ↔ c = [] ∧ as.length = 1 := cpLiteral_panic

/-- `cp_normalize` does not panic if the conclusion is well-sorted. -/
theorem c40_cp_normalize_no_panic_partial {c : List Term} (ps : List (List Term)) (as : List Term) (hc : ClauseOK c) :
    cpNormalize c ps as ≠ panic := cpNormalize_panic hc

/-- The condition is necessary: `-` without arguments. -/
theorem c40_cp_normalize_fails :
    cpNormalize [.op .equals [.op .ge [.op .sub [], .const (.int 0)], .op .ge [.const (.int 0), .const (.int 0)]]] [] [] = panic := by
  decide +kernel

/-- The rules for pseudo-Boolean blasting (`checker/shared.rs:316-330`). -/
def pbRows : List (String × Rule) := [
  ("pbblast_bveq", pbBveq), ("pbblast_bvult", pbBvult), ("pbblast_bvugt", pbBvugt), ("pbblast_bvuge", pbBvuge),
  ("pbblast_bvule", pbBvule), ("pbblast_bvslt", pbBvslt), ("pbblast_bvsgt", pbBvsgt), ("pbblast_bvsge", pbBvsge),
  ("pbblast_bvsle", pbBvsle), ("pbblast_pbbvar", pbVar), ("pbblast_pbbconst", pbConst), ("pbblast_bvxor", pbBvxor),
  ("pbblast_bvand", pbBvand), ("pbblast_bvxor_ith_bit", pbBvxorIthBit), ("pbblast_bvand_ith_bit", pbBvandIthBit)]

/-- On well-sorted conclusions that are not empty and have no bit-vectors without bits, the rules for blasting do not
panic. -/
theorem c40_pb_no_panic_partial {c : List Term} (ps : List (List Term)) (as : List Term) (hn : c ≠ []) (hc : ClauseOK c)
    (hw : NoEmptyBv c) : ∀ x ∈ pbRows, x.2 c ps as ≠ panic := by
  simp only [pbRows, List.forall_mem_cons]
  refine ⟨?_, ?_, ?_, ?_, ?_, ?_, ?_, ?_, ?_, ?_, ?_, ?_, ?_, ?_, ?_, by simp⟩
  · exact pbUnsigned_panic (by decide) hc hn
  · exact pbUnsignedRev_panic (by decide) hc hn
  · exact pbUnsigned_panic (by decide) hc hn
  · exact pbUnsigned_panic (by decide) hc hn
  · exact pbUnsignedRev_panic (by decide) hc hn
  · exact pbSignedRev_panic (by decide) hc hw hn
  · exact pbSigned_panic (by decide) hc hw hn
  · exact pbSigned_panic (by decide) hc hw hn
  · exact pbSignedRev_panic (by decide) hc hw hn
  · exact fun h => hn (pbVar_panic.1 h)
  · exact fun h => hn (pbConst_panic.1 h)
  · exact pbBitwise_panic (.inl rfl) (fun _ _ _ h => checkXorBit_panic h) hc hn
  · exact pbBitwise_panic (.inr rfl) (fun _ _ _ h => checkAndBit_panic h) hc hn
  · exact fun h => hn (pbBvxorIthBit_panic.1 h).1
  · exact fun h => hn (pbBvandIthBit_panic.1 h).1

/-- Each of the rules panics on a step that concludes the empty clause, which is well-sorted. -/
theorem c40_pb_no_panic_fails : ∀ x ∈ pbRows, ∃ as : List Term, (∀ a ∈ as, (sortOf a).isSome = true) ∧ x.2 [] [] as = panic := by
  simp only [pbRows, List.forall_mem_cons]
  refine ⟨?_, ?_, ?_, ?_, ?_, ?_, ?_, ?_, ?_, ?_, ?_, ?_, ?_, ?_, ?_, by simp⟩
  iterate 13 exact ⟨[], by simp, rfl⟩
  iterate 2 exact ⟨[.const (.int 0), .const (.int 0)], by decide, rfl⟩

private def e0 : Term := .var "e" (.bv 0)
private def bit (v : Term) : Term := .op .mult [.const (.int 1), .paramOp .bvIntOf [.const (.int 0)] [v]]

/-- The signed comparisons panic for bit-vectors without bits: `2 ^ (n - 1)` is computed. -/
theorem c40_pb_empty_bit_vector_panics :
    let c := Term.op .equals [.op .bvSGt [e0, e0], .op .ge [.op .add [.op .sub [bit e0, bit e0], .op .sub [bit e0, bit e0]], .const (.int 1)]]
    ClauseOK [c] ∧ pbBvsgt [c] [] [] = panic := by unfold ClauseOK; intro c; decide +kernel

private def v1 : Term := .var "v" (.bv 2)
private def u1 : Term := .var "u" (.bv 2)
private def sumOf (v : Term) : Term :=
  .op .add [bit v, .op .mult [.const (.int 2), .paramOp .bvIntOf [.const (.int 1)] [v]]]
private def good : Term :=
  .op .equals [.op .bvULt [u1, v1], .op .ge [.op .sub [sumOf v1, sumOf u1], .const (.int 1)]]

/-- The hypotheses hold of a step that is accepted. -/
example : ([good] : List Term) ≠ [] ∧ ClauseOK [good] ∧ NoEmptyBv [good] ∧ pbBvult [good] [] [] = .ok () := by
  unfold ClauseOK; decide +kernel

private def x1 : Term := .var "x" .int
private def norm : Term := .op .equals [.op .gt [.op .sub [.const (.int 3), x1], .const (.int 1)],
  .op .ge [.op .mult [.const (.int 1), .op .sub [.const (.int 1), x1]], .const (.int 0)]]

example : ClauseOK [norm] ∧ cpNormalize [norm] [] [] = .ok () := by unfold ClauseOK; decide +kernel

end Carcara
