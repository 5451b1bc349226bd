import Verif.Lemmas.NoPanicSorted
import Verif.Lemmas.NoPanicPolyeq
import Verif.Lemmas.NoPanicCheck
import Verif.Lemmas.Scope
import Verif.Props.C04
import Verif.Props.C10
import Verif.Spec.Witness

/-!
# C40: checking never panics

A panic is a value of the model (`panic`), different from an error. `forall_inst`, `la_mult_pos`, `la_mult_neg` and
`bitblast_equal` panic on well-sorted steps. The other rules of the table do not, under four conditions: the step is
well-sorted, there are no divisions by literal zeros, no indices of 2^64 or more and no bit-vectors without bits. Each
condition is necessary.
-/

namespace Carcara

open Witness

/-- The rules that panic even on the steps described by `SafeStep`. -/
def mayPanic : List String := ["forall_inst", "la_mult_pos", "la_mult_neg", "bitblast_equal"]

/-- What is assumed about a step. -/
structure SafeStep (c : List Term) (ps : List (List Term)) (as : List Term) : Prop where
  sorted : ClauseOK c
  premisesSorted : ∀ p ∈ ps, ClauseOK p
  noZero : ∀ t ∈ c, t.NoZeroDivision
  premisesNoZero : ∀ p ∈ ps, ∀ t ∈ p, t.NoZeroDivision
  argsNoZero : ∀ t ∈ as, t.NoZeroDivision
  indices : ∀ t ∈ as, ∀ n : ℤ, t = .const (.int n) → n < 2 ^ 64
  width : NoEmptyBv c

/-- The modelled rules that take only conclusion, premises and arguments, other than `mayPanic`, do not panic on safe
steps. -/
theorem c40_rules_no_panic_partial {c : List Term} {ps : List (List Term)} {as : List Term} (h : SafeStep c ps as) :
    ∀ x ∈ plainRows, x.1 ∉ mayPanic → x.2 c ps as ≠ panic := by
  unfold plainRows
  refine List.forall_mem_cons.2 ⟨fun _ => show trueRule c ps as ≠ panic from neverPanics_trueRule c ps as, ?_⟩
  refine List.forall_mem_cons.2 ⟨fun _ => show falseRule c ps as ≠ panic from neverPanics_falseRule c ps as, ?_⟩
  refine List.forall_mem_cons.2 ⟨fun _ => show notNot c ps as ≠ panic from neverPanics_notNot c ps as, ?_⟩
  refine List.forall_mem_cons.2 ⟨fun _ => show andPos c ps as ≠ panic from andPos_panic h.indices, ?_⟩
  refine List.forall_mem_cons.2 ⟨fun _ => show andNeg c ps as ≠ panic from neverPanics_andNeg c ps as, ?_⟩
  refine List.forall_mem_cons.2 ⟨fun _ => show orPos c ps as ≠ panic from neverPanics_orPos c ps as, ?_⟩
  refine List.forall_mem_cons.2 ⟨fun _ => show orNeg c ps as ≠ panic from orNeg_panic h.indices, ?_⟩
  refine List.forall_mem_cons.2 ⟨fun _ => show xorPos1 c ps as ≠ panic from neverPanics_xorPos1 c ps as, ?_⟩
  refine List.forall_mem_cons.2 ⟨fun _ => show xorPos2 c ps as ≠ panic from neverPanics_xorPos2 c ps as, ?_⟩
  refine List.forall_mem_cons.2 ⟨fun _ => show xorNeg1 c ps as ≠ panic from neverPanics_xorNeg1 c ps as, ?_⟩
  refine List.forall_mem_cons.2 ⟨fun _ => show xorNeg2 c ps as ≠ panic from neverPanics_xorNeg2 c ps as, ?_⟩
  refine List.forall_mem_cons.2 ⟨fun _ => show impliesPos c ps as ≠ panic from neverPanics_impliesPos c ps as, ?_⟩
  refine List.forall_mem_cons.2 ⟨fun _ => show impliesNeg1 c ps as ≠ panic from neverPanics_impliesNeg1 c ps as, ?_⟩
  refine List.forall_mem_cons.2 ⟨fun _ => show impliesNeg2 c ps as ≠ panic from neverPanics_impliesNeg2 c ps as, ?_⟩
  refine List.forall_mem_cons.2 ⟨fun _ => show equivPos1 c ps as ≠ panic from neverPanics_equivPos1 c ps as, ?_⟩
  refine List.forall_mem_cons.2 ⟨fun _ => show equivPos2 c ps as ≠ panic from neverPanics_equivPos2 c ps as, ?_⟩
  refine List.forall_mem_cons.2 ⟨fun _ => show equivNeg1 c ps as ≠ panic from neverPanics_equivNeg1 c ps as, ?_⟩
  refine List.forall_mem_cons.2 ⟨fun _ => show equivNeg2 c ps as ≠ panic from neverPanics_equivNeg2 c ps as, ?_⟩
  refine List.forall_mem_cons.2 ⟨fun _ => show itePos1 c ps as ≠ panic from neverPanics_itePos1 c ps as, ?_⟩
  refine List.forall_mem_cons.2 ⟨fun _ => show itePos2 c ps as ≠ panic from neverPanics_itePos2 c ps as, ?_⟩
  refine List.forall_mem_cons.2 ⟨fun _ => show iteNeg1 c ps as ≠ panic from neverPanics_iteNeg1 c ps as, ?_⟩
  refine List.forall_mem_cons.2 ⟨fun _ => show iteNeg2 c ps as ≠ panic from neverPanics_iteNeg2 c ps as, ?_⟩
  refine List.forall_mem_cons.2 ⟨fun _ => show eqReflexive c ps as ≠ panic from neverPanics_eqReflexive c ps as, ?_⟩
  refine List.forall_mem_cons.2 ⟨fun _ => show eqTransitive c ps as ≠ panic from neverPanics_eqTransitive c ps as, ?_⟩
  refine List.forall_mem_cons.2 ⟨fun _ => show eqCongruent c ps as ≠ panic from neverPanics_eqCongruent c ps as, ?_⟩
  refine List.forall_mem_cons.2 ⟨fun _ => show eqCongruentPred c ps as ≠ panic from neverPanics_eqCongruentPred c ps as, ?_⟩
  refine List.forall_mem_cons.2 ⟨fun _ => show distinctElim c ps as ≠ panic from distinctElim_panic h.sorted, ?_⟩
  refine List.forall_mem_cons.2 ⟨fun _ => show laRwEq c ps as ≠ panic from neverPanics_laRwEq c ps as, ?_⟩
  refine List.forall_mem_cons.2 ⟨fun _ => show laGeneric c ps as ≠ panic from laGeneric_panic h.sorted h.noZero h.argsNoZero, ?_⟩
  refine List.forall_mem_cons.2 ⟨fun _ => show laDisequality c ps as ≠ panic from neverPanics_laDisequality c ps as, ?_⟩
  refine List.forall_mem_cons.2 ⟨fun _ => show laTotality c ps as ≠ panic from neverPanics_laTotality c ps as, ?_⟩
  refine List.forall_mem_cons.2 ⟨fun _ => show laTautology c ps as ≠ panic from laTautology_panic h.sorted h.noZero, ?_⟩
  refine List.forall_mem_cons.2 ⟨fun _ => show polySimpRel c ps as ≠ panic from polySimpRel_panic h.premisesSorted h.premisesNoZero, ?_⟩
  refine List.forall_mem_cons.2 ⟨fun _ => show polySimpRel c ps as ≠ panic from polySimpRel_panic h.premisesSorted h.premisesNoZero, ?_⟩
  refine List.forall_mem_cons.2 ⟨fun hn => absurd (by decide : "forall_inst" ∈ mayPanic) hn, ?_⟩
  refine List.forall_mem_cons.2 ⟨fun _ => show qntJoin c ps as ≠ panic from neverPanics_qntJoin c ps as, ?_⟩
  refine List.forall_mem_cons.2 ⟨fun _ => show qntRmUnused c ps as ≠ panic from neverPanics_qntRmUnused c ps as, ?_⟩
  refine List.forall_mem_cons.2 ⟨fun _ => show trans c ps as ≠ panic from neverPanics_trans c ps as, ?_⟩
  refine List.forall_mem_cons.2 ⟨fun _ => show cong c ps as ≠ panic from neverPanics_cong c ps as, ?_⟩
  refine List.forall_mem_cons.2 ⟨fun _ => show hoCong c ps as ≠ panic from neverPanics_hoCong c ps as, ?_⟩
  refine List.forall_mem_cons.2 ⟨fun _ => show andIntro c ps as ≠ panic from neverPanics_andIntro c ps as, ?_⟩
  refine List.forall_mem_cons.2 ⟨fun _ => show andRule c ps as ≠ panic from andRule_panic h.indices, ?_⟩
  refine List.forall_mem_cons.2 ⟨fun _ => show notOr c ps as ≠ panic from notOr_panic h.indices, ?_⟩
  refine List.forall_mem_cons.2 ⟨fun _ => show orRule c ps as ≠ panic from neverPanics_orRule c ps as, ?_⟩
  refine List.forall_mem_cons.2 ⟨fun _ => show notAnd c ps as ≠ panic from neverPanics_notAnd c ps as, ?_⟩
  refine List.forall_mem_cons.2 ⟨fun _ => show xor1 c ps as ≠ panic from neverPanics_xor1 c ps as, ?_⟩
  refine List.forall_mem_cons.2 ⟨fun _ => show xor2 c ps as ≠ panic from neverPanics_xor2 c ps as, ?_⟩
  refine List.forall_mem_cons.2 ⟨fun _ => show notXor1 c ps as ≠ panic from neverPanics_notXor1 c ps as, ?_⟩
  refine List.forall_mem_cons.2 ⟨fun _ => show notXor2 c ps as ≠ panic from neverPanics_notXor2 c ps as, ?_⟩
  refine List.forall_mem_cons.2 ⟨fun _ => show impliesRule c ps as ≠ panic from neverPanics_impliesRule c ps as, ?_⟩
  refine List.forall_mem_cons.2 ⟨fun _ => show notImplies1 c ps as ≠ panic from neverPanics_notImplies1 c ps as, ?_⟩
  refine List.forall_mem_cons.2 ⟨fun _ => show notImplies2 c ps as ≠ panic from neverPanics_notImplies2 c ps as, ?_⟩
  refine List.forall_mem_cons.2 ⟨fun _ => show equiv1 c ps as ≠ panic from neverPanics_equiv1 c ps as, ?_⟩
  refine List.forall_mem_cons.2 ⟨fun _ => show equiv2 c ps as ≠ panic from neverPanics_equiv2 c ps as, ?_⟩
  refine List.forall_mem_cons.2 ⟨fun _ => show notEquiv1 c ps as ≠ panic from neverPanics_notEquiv1 c ps as, ?_⟩
  refine List.forall_mem_cons.2 ⟨fun _ => show notEquiv2 c ps as ≠ panic from neverPanics_notEquiv2 c ps as, ?_⟩
  refine List.forall_mem_cons.2 ⟨fun _ => show ite1 c ps as ≠ panic from neverPanics_ite1 c ps as, ?_⟩
  refine List.forall_mem_cons.2 ⟨fun _ => show ite2 c ps as ≠ panic from neverPanics_ite2 c ps as, ?_⟩
  refine List.forall_mem_cons.2 ⟨fun _ => show notIte1 c ps as ≠ panic from neverPanics_notIte1 c ps as, ?_⟩
  refine List.forall_mem_cons.2 ⟨fun _ => show notIte2 c ps as ≠ panic from neverPanics_notIte2 c ps as, ?_⟩
  refine List.forall_mem_cons.2 ⟨fun _ => show connectiveDef c ps as ≠ panic from neverPanics_connectiveDef c ps as, ?_⟩
  refine List.forall_mem_cons.2 ⟨fun _ => show iteSimplify c ps as ≠ panic from neverPanics_genericSimplify (fun _ => by simp [panic]) c ps as, ?_⟩
  refine List.forall_mem_cons.2 ⟨fun _ => show eqSimplify c ps as ≠ panic from neverPanics_genericSimplify (fun _ => by simp [panic]) c ps as, ?_⟩
  refine List.forall_mem_cons.2 ⟨fun _ => show andSimplify c ps as ≠ panic from neverPanics_andOr c ps as, ?_⟩
  refine List.forall_mem_cons.2 ⟨fun _ => show orSimplify c ps as ≠ panic from neverPanics_andOr c ps as, ?_⟩
  refine List.forall_mem_cons.2 ⟨fun _ => show notSimplify c ps as ≠ panic from neverPanics_genericSimplify (fun _ => by simp [panic]) c ps as, ?_⟩
  refine List.forall_mem_cons.2 ⟨fun _ => show impliesSimplify c ps as ≠ panic from neverPanics_genericSimplify (fun _ => by simp [panic]) c ps as, ?_⟩
  refine List.forall_mem_cons.2 ⟨fun _ => show equivSimplify c ps as ≠ panic from neverPanics_genericSimplify (fun _ => by simp [panic]) c ps as, ?_⟩
  refine List.forall_mem_cons.2 ⟨fun _ => show boolSimplify c ps as ≠ panic from neverPanics_genericSimplify (fun _ => by simp [panic]) c ps as, ?_⟩
  refine List.forall_mem_cons.2 ⟨fun _ => show qntSimplify c ps as ≠ panic from neverPanics_qntSimplify c ps as, ?_⟩
  refine List.forall_mem_cons.2 ⟨fun _ => show divSimplify c ps as ≠ panic from divSimplify_panic h.sorted h.noZero, ?_⟩
  refine List.forall_mem_cons.2 ⟨fun _ => show prodSimplify c ps as ≠ panic from sumProdSimplify_panic (.inr rfl) h.sorted h.noZero, ?_⟩
  refine List.forall_mem_cons.2 ⟨fun _ => show minusSimplify c ps as ≠ panic from neverPanics_minusSimplify c ps as, ?_⟩
  refine List.forall_mem_cons.2 ⟨fun _ => show minusSimplify c ps as ≠ panic from neverPanics_minusSimplify c ps as, ?_⟩
  refine List.forall_mem_cons.2 ⟨fun _ => show sumSimplify c ps as ≠ panic from sumProdSimplify_panic (.inl rfl) h.sorted h.noZero, ?_⟩
  refine List.forall_mem_cons.2 ⟨fun _ => show compSimplify c ps as ≠ panic from compSimplify_panic h.noZero, ?_⟩
  refine List.forall_mem_cons.2 ⟨fun _ => show naryElim c ps as ≠ panic from neverPanics_naryElim c ps as, ?_⟩
  refine List.forall_mem_cons.2 ⟨fun _ => show acSimp c ps as ≠ panic from neverPanics_acSimp c ps as, ?_⟩
  refine List.forall_mem_cons.2 ⟨fun _ => show qntCnf c ps as ≠ panic from qntCnf_panic h.sorted, ?_⟩
  refine List.forall_mem_cons.2 ⟨fun _ => show miniscopeDistribute c ps as ≠ panic from neverPanics_miniscopeDistribute c ps as, ?_⟩
  refine List.forall_mem_cons.2 ⟨fun _ => show miniscopeSplit c ps as ≠ panic from neverPanics_miniscopeSplit c ps as, ?_⟩
  refine List.forall_mem_cons.2 ⟨fun _ => show miniscopeIte c ps as ≠ panic from neverPanics_miniscopeIte c ps as, ?_⟩
  refine List.forall_mem_cons.2 ⟨fun _ => show reordering c ps as ≠ panic from neverPanics_reordering c ps as, ?_⟩
  refine List.forall_mem_cons.2 ⟨fun _ => show shuffle c ps as ≠ panic from neverPanics_shuffle c ps as, ?_⟩
  refine List.forall_mem_cons.2 ⟨fun _ => show symm c ps as ≠ panic from neverPanics_symm c ps as, ?_⟩
  refine List.forall_mem_cons.2 ⟨fun _ => show notSymm c ps as ≠ panic from neverPanics_notSymm c ps as, ?_⟩
  refine List.forall_mem_cons.2 ⟨fun _ => show eqSymmetric c ps as ≠ panic from neverPanics_eqSymmetric c ps as, ?_⟩
  refine List.forall_mem_cons.2 ⟨fun _ => show weakening c ps as ≠ panic from neverPanics_weakening c ps as, ?_⟩
  refine List.forall_mem_cons.2 ⟨fun hn => absurd (by decide : "la_mult_pos" ∈ mayPanic) hn, ?_⟩
  refine List.forall_mem_cons.2 ⟨fun hn => absurd (by decide : "la_mult_neg" ∈ mayPanic) hn, ?_⟩
  refine List.forall_mem_cons.2 ⟨fun _ => show modSimplify c ps as ≠ panic from neverPanics_modSimplify c ps as, ?_⟩
  refine List.forall_mem_cons.2 ⟨fun _ => neverPanics_tautology c ps as, ?_⟩
  refine List.forall_mem_cons.2 ⟨fun _ => neverPanics_contraction c ps as, ?_⟩
  refine List.forall_mem_cons.2 ⟨fun _ => show strictResolution c ps as ≠ panic from neverPanics_strictResolution c ps as, ?_⟩
  refine List.forall_mem_cons.2 ⟨fun _ => show bbValueRule c ps as ≠ panic from neverPanics_bbValueRule c ps as, ?_⟩
  refine List.forall_mem_cons.2 ⟨fun _ => show bbVar c ps as ≠ panic from bbVar_panic h.sorted, ?_⟩
  refine List.forall_mem_cons.2 ⟨fun _ => show bbAnd c ps as ≠ panic from bbAnd_panic h.sorted, ?_⟩
  refine List.forall_mem_cons.2 ⟨fun _ => show bbOr c ps as ≠ panic from bbOr_panic h.sorted, ?_⟩
  refine List.forall_mem_cons.2 ⟨fun _ => show bbXor c ps as ≠ panic from bbXor_panic h.sorted, ?_⟩
  refine List.forall_mem_cons.2 ⟨fun _ => show bbXnor c ps as ≠ panic from bbXnor_panic h.sorted, ?_⟩
  refine List.forall_mem_cons.2 ⟨fun _ => show bbNot c ps as ≠ panic from bbNot_panic h.sorted, ?_⟩
  refine List.forall_mem_cons.2 ⟨fun _ => show bbComp c ps as ≠ panic from bbComp_panic h.sorted h.width, ?_⟩
  refine List.forall_mem_cons.2 ⟨fun _ => show bbUlt c ps as ≠ panic from bbUlt_panic h.sorted h.width, ?_⟩
  refine List.forall_mem_cons.2 ⟨fun _ => show bbSlt c ps as ≠ panic from bbSlt_panic h.sorted h.width, ?_⟩
  refine List.forall_mem_cons.2 ⟨fun _ => show bbAdd c ps as ≠ panic from bbAdd_panic h.sorted, ?_⟩
  refine List.forall_mem_cons.2 ⟨fun _ => show bbMult c ps as ≠ panic from bbMult_panic h.sorted h.width, ?_⟩
  refine List.forall_mem_cons.2 ⟨fun _ => show bbNeg c ps as ≠ panic from bbNeg_panic h.sorted, ?_⟩
  refine List.forall_mem_cons.2 ⟨fun hn => absurd (by decide : "bitblast_equal" ∈ mayPanic) hn, ?_⟩
  refine List.forall_mem_cons.2 ⟨fun _ => show bbExtract c ps as ≠ panic from bbExtract_panic h.sorted, ?_⟩
  refine List.forall_mem_cons.2 ⟨fun _ => show bbConcat c ps as ≠ panic from bbConcat_panic h.sorted, ?_⟩
  refine List.forall_mem_cons.2 ⟨fun _ => show bbSignExtend c ps as ≠ panic from bbSignExtend_panic h.sorted h.width, ?_⟩
  exact fun _ hx => absurd hx (List.not_mem_nil)

/-- The two rules for resolution, with and without the pivots as arguments, never panic. -/
theorem c40_resolution_no_panic (c : List Term) (ps : List (List Term)) (as : List Term) :
    resolution c ps as ≠ panic ∧ resolutionWithArgs c ps as ≠ panic :=
  ⟨neverPanics_resolution c ps as, neverPanics_resolutionWithArgs c ps as⟩

/-- `poly_simp` and `bv_poly_simp`. -/
theorem c40_poly_simp_no_panic_partial {c : List Term} {ps : List (List Term)} {as : List Term} (h : SafeStep c ps as)
    (addr : Term → Nat) : polySimp addr c ps as ≠ panic := polySimp_panic h.sorted h.noZero

/-- `la_mult_pos` and `la_mult_neg` do not panic if the multiplied term is a comparison. -/
theorem c40_la_mult_no_panic_partial {c : List Term} {ps : List (List Term)} {as : List Term}
    (h : ∀ p o l r s, c = [.op .implies [.op .and [p, .op o [l, r]], s]] →
      o = .equals ∨ o = .lt ∨ o = .gt ∨ o = .le ∨ o = .ge) :
    laMultPos c ps as ≠ panic ∧ laMultNeg c ps as ≠ panic := ⟨laMult_panic h, laMult_panic h⟩

/-- `bitblast_equal` does not panic if the compared terms are bit-vectors. -/
theorem c40_bitblast_equal_no_panic_partial {c : List Term} {ps : List (List Term)} {as : List Term} (h : SafeStep c ps as)
    (hs : ∀ a b, (∃ r, c = [.op .equals [.op .equals [a, b], r]]) → ∃ w, sortOf a = some (.bv w) ∧ sortOf b = some (.bv w)) :
    bbEqual c ps as ≠ panic := bbEqual_panic h.width hs

/-! ## The whole checker -/

/-- Comparisons, with any configuration, of terms without empty associative applications and zero divisions do not
panic. -/
theorem c40_polyeq_no_panic_partial {cfg : PolyConfig} {a b : Term} (ha : a.CanCompare) (hb : b.CanCompare) :
    polyeqWith cfg a b ≠ panic := polyeqWith_panic ha hb

/-- Whatever the rules and the comparison are: checking a parsed proof panics only if a rule panics, run with the
arguments of one of the steps, or the comparison of an assumption with a premise of the problem. -/
theorem c40_loop_no_panic {P : Params} {cfg : Config} {prem : List Term} {rs : List RawCommand} {proof : List Command}
    (h : parseProof rs = .ok proof)
    (hrule : ∀ F Γ s a r, Occ proof F Γ (.step s) → F.argsFor Γ s a → P.rule s.rule = some r → r a ≠ panic)
    (hassume : ∀ (i : ℕ) id t, proof[i]? = some (.assume id t) → ∀ u ∈ prem, P.assumeEq t u ≠ panic) :
    check P cfg prem proof ≠ panic := by
  refine check_panic (c04_parse_wf h) (fun F Γ s ho => c04_parse_scoped h ho) fun F Γ c ho => ?_
  cases c with
  | assume id t =>
    intro hl _ _
    cases ho with
    | top hi => exact hassume _ id t hi
    | sub ho _ =>
      have := ho.ctx_length
      simp at hl
      simp [hl] at this
  | step s => exact fun a r ha hr _ => hrule F Γ s a r ho ha hr
  | subproof _ _ _ => trivial

/-- What is assumed about a proof and the premises of its problem. -/
structure SafeProof (prem : List Term) (proof : List Command) : Prop where
  sorted : ∀ F Γ c cl, Occ proof F Γ c → c.clause = .ok cl → ClauseOK cl
  noZero : ∀ F Γ c cl, Occ proof F Γ c → c.clause = .ok cl → ∀ t ∈ cl, t.NoZeroDivision ∧ t.CanCompare
  width : ∀ F Γ s, Occ proof F Γ (.step s) → NoEmptyBv s.clause
  args : ∀ F Γ s, Occ proof F Γ (.step s) → ∀ t ∈ s.args, t.NoZeroDivision ∧ ∀ n : ℤ, t = .const (.int n) → n < 2 ^ 64
  rules : ∀ F Γ s, Occ proof F Γ (.step s) → s.rule ∉ mayPanic
  drup : ∀ F Γ s, Occ proof F Γ (.step s) → s.rule = "drup" ∨ s.rule = "drat" →
    ∀ a ∈ s.args, (∃ terms, a = .op .cl terms) ∨ ∃ t terms, a = .op .delete [.op .cl (t :: terms)]
  premises : ∀ u ∈ prem, u.CanCompare

/-- Checking a parsed proof does not panic if the proof is safe and the rules that are not modelled do not panic. -/
theorem c40_check_no_panic_partial {E : TableEnv} {cfg : Config} {prem : List Term} {rs : List RawCommand}
    {proof : List Command} (h : parseProof rs = .ok proof) (hs : SafeProof prem proof)
    (hord : ∀ i db, (E.order i db).Perm db) (hother : ∀ n a, E.other n a ≠ panic) :
    check (E.params cfg) cfg prem proof ≠ panic := by
  refine c40_loop_no_panic h (fun F Γ s a r ho ha hr => ?_) fun i id t hi u hu => ?_
  · have hsc := c04_parse_scoped h ho
    have hocc : ∀ p ∈ s.premises ++ s.discharge, ∀ c, F.lookup p = some c → ∃ F' Γ', Occ proof F' Γ' c := by
      intro p hp c hc
      obtain ⟨j, cs, c', h1, h2, h3⟩ := hsc p hp
      obtain ⟨A, B, rfl, hB⟩ := reverse_split h1
      have : c = c' := by
        simp only [Frames.lookup, h1] at hc
        exact Option.some.inj (hc.symm.trans h3)
      subst this
      exact ⟨_, _, ho.enclosing h3⟩
    have hprem : ∀ p ∈ a.premises, ∃ F' Γ' c, Occ proof F' Γ' c ∧ c.clause = .ok p := by
      intro p hp
      obtain ⟨q, hq, c, hc, hcl⟩ := forall₂_right ha.2.2.2.1 hp
      obtain ⟨F', Γ', ho'⟩ := hocc q (List.mem_append_left _ hq) c hc
      exact ⟨F', Γ', c, ho', hcl⟩
    have hstep : SafeStep a.conclusion a.premises a.args := by
      rw [ha.1, ha.2.1]
      refine ⟨hs.sorted _ _ _ _ ho rfl, fun p hp => ?_, fun t ht => (hs.noZero _ _ _ _ ho rfl t ht).1, fun p hp t ht => ?_,
        fun t ht => (hs.args _ _ _ ho t ht).1, fun t ht => (hs.args _ _ _ ho t ht).2, hs.width _ _ _ ho⟩
      · obtain ⟨F', Γ', c, ho', hcl⟩ := hprem p hp
        exact hs.sorted _ _ _ _ ho' hcl
      · obtain ⟨F', Γ', c, ho', hcl⟩ := hprem p hp
        exact (hs.noZero _ _ _ _ ho' hcl t ht).1
    have hdrup := hs.drup _ _ _ ho
    rw [← ha.2.1] at hdrup
    have hrules := hs.rules _ _ _ ho
    simp only [TableEnv.params, getRule] at hr
    split at hr
    · simp only [Option.some.injEq] at hr
      subst hr
      simp only [Rule.lift]
      split
      · exact (c40_resolution_no_panic _ _ _).2
      · exact (c40_resolution_no_panic _ _ _).1
    · split at hr
      · simp only [Option.some.injEq] at hr
        subst hr
        exact c40_poly_simp_no_panic_partial hstep E.addr
      · split at hr
        · simp only [Option.some.injEq] at hr
          subst hr
          refine subproof_panic (fun l hl => ?_) (fun id t ht => ?_) fun cl hcl l hl => ?_
          · rw [ha.1] at hl
            exact (hs.noZero _ _ _ _ ho rfl l hl).2
          · obtain ⟨q, hq, hc⟩ := forall₂_right ha.2.2.2.2.1 ht
            obtain ⟨F', Γ', ho'⟩ := hocc q (List.mem_append_right _ hq) _ hc
            exact (hs.noZero _ _ _ _ ho' rfl t (by simp)).2
          · rcases ha.2.2.2.2.2 with ⟨-, i, cs, F', c, cl', rfl, hc, hcl', e⟩ | ⟨-, e⟩
            · rw [e] at hcl
              cases hcl
              exact (hs.noZero _ _ _ _ (ho.enclosing (A := []) hc) hcl' l hl).2
            · rw [e] at hcl
              cases hcl
        · split at hr
          · next hn =>
            simp only [Option.some.injEq] at hr
            subst hr
            exact c40_drup_no_panic false hord _ _ _ (hdrup (.inl hn))
          · split at hr
            · next hn =>
              simp only [Option.some.injEq] at hr
              subst hr
              exact c40_drup_no_panic true hord _ _ _ (hdrup (.inr hn))
            · split at hr
              · simp only [Option.some.injEq] at hr
                subst hr
                simp [nopanic]
              · split at hr
                · next r' hr' =>
                  simp only [Option.some.injEq] at hr
                  subst hr
                  obtain ⟨x, hx, e⟩ : ∃ x ∈ plainRows, x = (s.rule, r') := by
                    obtain ⟨l1, l2, e, -⟩ := List.lookup_eq_some_iff.1 hr'
                    exact ⟨_, by rw [e]; simp, rfl⟩
                  have := c40_rules_no_panic_partial hstep x hx
                  subst e
                  exact this hrules
                · split at hr
                  · simp only [Option.some.injEq] at hr
                    subst hr
                    exact hother _ _
                  · simp at hr
  · exact c40_polyeq_no_panic_partial (hs.noZero _ _ _ _ (.top hi) rfl t (by simp)).2 (hs.premises u hu)

/-! ## Steps on which rules panic -/

private def p : Term := .var "p" .bool
private def q : Term := .var "q" .bool
private def x : Term := .var "x" .int
private def r : Term := .var "r" .real
private def int (n : ℤ) : Term := .const (.int n)
private def real (q : Rat) : Term := .const (.real q)
private def bv0 : Term := .var "b" (.bv 0)

/-- The rules of `mayPanic` do panic on safe steps: `forall_inst` on `(or (not (forall ((r Real)) (= (/ 1.0 r) 1.0)))
(= 1.0 1.0))` with the argument `0.0`; `la_mult_pos` and `la_mult_neg` if the second conjunct is no comparison;
`bitblast_equal` on integers. -/
theorem c40_rules_no_panic_fails : ∀ n ∈ mayPanic, ∃ rule c ps as, (n, rule) ∈ plainRows ∧ SafeStep c ps as ∧
    rule c ps as = panic := by
  have hs : ∀ c as, ClauseOK c → (∀ t ∈ c, t.NoZeroDivision) → (∀ t ∈ as, t.NoZeroDivision) → NoEmptyBv c →
      (∀ t ∈ as, ∀ n : ℤ, t = .const (.int n) → n < 2 ^ 64) → SafeStep c [] as :=
    fun c as h1 h2 h3 h4 h5 => ⟨h1, by simp, h2, by simp, h3, h5, h4⟩
  have hmem : ∀ i (e : plainRows[i]?.isSome = true), plainRows[i]?.get e ∈ plainRows := fun i e =>
    List.mem_of_getElem? (Option.some_get e).symm
  refine List.forall_mem_cons.2 ⟨?_, List.forall_mem_cons.2 ⟨?_, List.forall_mem_cons.2 ⟨?_, List.forall_mem_cons.2 ⟨?_, by simp⟩⟩⟩⟩
  · refine ⟨forallInst, [.op .or [.op .not [.binder .all [("r", .real)] (.op .equals [.op .realDiv [real 1, r], real 1])],
      .op .equals [real 1, real 1]]], [], [real 0], hmem 34 rfl, hs _ _ ?_ ?_ ?_ ?_ ?_, ?_⟩
    · unfold ClauseOK; decide +kernel
    · decide +kernel
    · decide +kernel
    · decide +kernel
    · simp [real]
    · decide +kernel
  · refine ⟨laMultPos, [.op .implies [.op .and [.op .gt [x, int 0], .op .or [p, q]], p]], [], [], hmem 88 rfl, hs _ _ ?_ ?_ ?_ ?_ ?_, ?_⟩
    · unfold ClauseOK; decide +kernel
    · decide +kernel
    · decide +kernel
    · decide +kernel
    · simp
    · decide +kernel
  · refine ⟨laMultNeg, [.op .implies [.op .and [.op .lt [x, int 0], .op .or [p, q]], p]], [], [], hmem 89 rfl, hs _ _ ?_ ?_ ?_ ?_ ?_, ?_⟩
    · unfold ClauseOK; decide +kernel
    · decide +kernel
    · decide +kernel
    · decide +kernel
    · simp
    · decide +kernel
  · refine ⟨bbEqual, [.op .equals [.op .equals [x, x], p]], [], [], hmem 107 rfl, hs _ _ ?_ ?_ ?_ ?_ ?_, ?_⟩
    · unfold ClauseOK; decide +kernel
    · decide +kernel
    · decide +kernel
    · decide +kernel
    · simp
    · decide +kernel

/-- An index of 2^64 panics, although the step is otherwise safe. -/
theorem c40_index_panics :
    andPos [.op .not [.op .and [p, q]], p] [] [int (2 ^ 64)] = panic ∧
    orNeg [.op .or [p, q], .op .not [p]] [] [int (2 ^ 64)] = panic ∧
    andRule [p] [[.op .and [p, q]]] [int (2 ^ 64)] = panic ∧
    notOr [.op .not [p]] [[.op .not [.op .or [p, q]]]] [int (2 ^ 64)] = panic := by decide +kernel

/-- A division by a literal zero panics. -/
theorem c40_zero_division_panics :
    laGeneric [.op .le [r, .op .realDiv [real 1, real 0]]] [] [int 1] = panic ∧
    laGeneric [.op .le [r, r]] [] [.op .realDiv [int 1, int 0]] = panic ∧
    laTautology [.op .le [r, .op .realDiv [real 1, real 0]]] [] [] = panic ∧
    divSimplify [.op .equals [.op .realDiv [real 4, real 2], .op .realDiv [real 1, real 0]]] [] [] = panic ∧
    sumSimplify [.op .equals [.op .add [r, .op .realDiv [real 1, real 0]], r]] [] [] = panic ∧
    prodSimplify [.op .equals [.op .mult [r, .op .realDiv [real 1, real 0]], r]] [] [] = panic ∧
    compSimplify [.op .equals [.op .lt [.op .realDiv [real 1, real 0], r], .tru]] [] [] = panic ∧
    polySimp (fun _ => 0) [.op .equals [.op .realDiv [r, .op .realDiv [real 1, real 0]], r]] [] [] = panic := by decide +kernel

/-- Bit-vectors without bits panic. -/
theorem c40_empty_bit_vector_panics :
    bbUlt [.op .equals [.op .bvULt [bv0, bv0], p]] [] [] = panic ∧
    bbSlt [.op .equals [.op .bvSLt [bv0, bv0], p]] [] [] = panic ∧
    bbMult [.op .equals [.op .bvMul [bv0, bv0], bv0]] [] [] = panic ∧
    bbSignExtend [.op .equals [.paramOp .signExtend [int 1] [bv0], .var "c" (.bv 1)]] [] [] = panic := by decide +kernel

/-- Ill-sorted terms panic: a sum of "bit-vectors" that are integers. -/
theorem c40_ill_sorted_panics : bbAdd [.op .equals [.op .bvAdd [x, x], x]] [] [] = panic := by decide +kernel

/-! ## Examples -/

/-- A step that meets the conditions and that is accepted. -/
example : SafeStep [.op .not [.op .and [p, .op .lt [r, .op .realDiv [real 1, real 2]]]], p] [] [int 0] ∧
    andPos [.op .not [.op .and [p, .op .lt [r, .op .realDiv [real 1, real 2]]]], p] [] [int 0] = .ok () := by
  refine ⟨⟨?_, by simp, ?_, by simp, ?_, by simp [int], ?_⟩, ?_⟩
  · unfold ClauseOK; decide +kernel
  · decide +kernel
  · decide +kernel
  · decide +kernel
  · decide +kernel

private def text : List RawCommand :=
  [.assume "h1" (.op .and [p, q]), .step ⟨"t1", [p], "and", ["h1"], [int 0], []⟩, .anchor "t2" [], .assume "t2.h1" q,
   .step ⟨"t2.t1", [q], "hole", [], [], []⟩, .step ⟨"t2", [.op .not [q], q], "subproof", [], [], ["h1"]⟩]
private def commands : List Command :=
  [.assume "h1" (.op .and [p, q]), .step ⟨"t1", [p], "and", [(0, 0)], [int 0], []⟩,
   .subproof [.assume "t2.h1" q, .step ⟨"t2.t1", [q], "hole", [], [], []⟩,
     .step ⟨"t2", [.op .not [q], q], "subproof", [], [], [(1, 0)]⟩] [] 0]

/-- A proof that meets the conditions. -/
example : parseProof text = .ok commands ∧ SafeProof [.op .and [p, q]] commands := by
  have key : ∀ o ∈ allPositions commands,
      (∀ cl, o.cmd.clause = .ok cl → ClauseOK cl ∧ ∀ t ∈ cl, t.NoZeroDivision ∧ t.CanCompare) ∧
      (∀ s, o.cmd = .step s → NoEmptyBv s.clause ∧ s.rule ∉ mayPanic ∧ s.rule ≠ "drup" ∧ s.rule ≠ "drat" ∧
        ∀ t ∈ s.args, t.NoZeroDivision ∧ ∀ n : ℤ, t = .const (.int n) → n < 2 ^ 64) := by
    have e : allPositions commands = [⟨_, _, _⟩, ⟨_, _, _⟩, ⟨_, _, _⟩, ⟨_, _, _⟩, ⟨_, _, _⟩, ⟨_, _, _⟩] := rfl
    rw [e]
    simp only [List.forall_mem_cons, List.not_mem_nil, false_imp_iff, implies_true, and_true, Command.clause, ok_inj,
      Command.clauseLast, forall_eq', reduceCtorEq, Command.step.injEq]
    unfold ClauseOK
    simp only [List.forall_mem_cons, List.not_mem_nil, false_imp_iff, implies_true, and_true, int, Term.const.injEq,
      Const.int.injEq, forall_eq']
    decide +kernel
  have hp := fun F Γ c (ho : Occ commands F Γ c) => key ⟨F, Γ, c⟩ (allPositions_iff.2 ho)
  refine ⟨by decide +kernel, ⟨fun F Γ c cl ho hc => ((hp F Γ c ho).1 cl hc).1, fun F Γ c cl ho hc => ((hp F Γ c ho).1 cl hc).2,
    fun F Γ s ho => ((hp F Γ _ ho).2 s rfl).1, fun F Γ s ho => ((hp F Γ _ ho).2 s rfl).2.2.2.2,
    fun F Γ s ho => ((hp F Γ _ ho).2 s rfl).2.1, fun F Γ s ho hd => ?_, by decide +kernel⟩⟩
  have := ((hp F Γ _ ho).2 s rfl).2.2
  tauto

end Carcara
