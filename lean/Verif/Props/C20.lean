import Verif.Lemmas.CpNormalize
import Verif.Lemmas.Cnf
import Verif.Spec.Witness
import Mathlib.Tactic.NormNum

/-!
# C20: cutting planes

The claim is false of every rule. It holds of constraints whose literals occur once per sign and are printed apart, with further conditions for each
rule; they are necessary, as the refutations show.
-/

namespace Carcara

open Spec Classical

variable {pr : Term → String} {conclusion : List Term} {premises : List (List Term)} {args : List Term}

/-- **C20 (partial).** Sums. Missing are conclusions with a coefficient 0, literals that occur twice, and literals printed alike; see
`c20_addition_fails`, `c20_addition_duplicate_fails` and `c20_addition_names_fails`. -/
theorem c20_addition_partial (h : cpAddition pr conclusion premises args = .ok ()) (hc : ClauseOK conclusion) (hp : ∀ p ∈ premises, ClauseOK p)
    (hn : NamesApart pr (conclusion :: premises).flatten) (hd : ∀ t ∈ (conclusion :: premises).flatten, DistinctLiterals t)
    (h0 : ∀ t ∈ conclusion, ∀ a ∈ pbAddends t, a.1 ≠ 0) (M : Model) (hz : ∀ t ∈ (conclusion :: premises).flatten, ZeroOne M t)
    (hM : ∀ p ∈ premises, M.Sat p) : M.Sat conclusion := by
  simp only [cpAddition, bind_ok, get1_ok, get2_ok, require_ok, Prod.exists, sameKeys] at h
  obtain ⟨pl, pr', rfl, l, rfl, r, rfl, _, -, c, rfl, sumL, kL, hL, sumR, kR, hR, sumC, kC, hC, _, hk, _, ⟨_, h1, h2⟩, h3⟩ := h
  obtain ⟨-, nL, eL⟩ := unwrap_constraint hn hd hz (t := l) (by simp) hL (hp [l] (by simp) l (by simp))
  obtain ⟨-, nR, eR⟩ := unwrap_constraint hn hd hz (t := r) (by simp) hR (hp [r] (by simp) r (by simp))
  obtain ⟨dC, nC, eC⟩ := unwrap_constraint hn hd hz (t := c) (by simp) hC (hc c (by simp))
  have sL := hM [l] (by simp)
  have sR := hM [r] (by simp)
  rw [Model.sat_singleton] at sL sR ⊢
  have hneg := fun s => keyVal_neg pr M ([[c], [l], [r]].flatten.flatMap pbLiterals) (s := s)
  generalize keyVal pr M _ = ν at eL eR eC hneg
  rw [eL] at sL
  rw [eR] at sR
  rw [eC]
  have nS := addPbsums_keys (b := sumR) nL
  have eS := addPbsums_eval ν (a := sumL) (b := sumR)
  have eRed := reduce_eval (fun lit => hneg lit) (hm := addPbsums sumL sumR) nS (fun e he => pbGet_of_mem nS he) (fun _ _ _ => ⟨rfl, rfl⟩)
  have nRed := applyChanges_keys (cs := (reduceLoop (addPbsums sumL sumR) (addPbsums sumL sumR)).1) nS
  simp only [reducePbsum] at hk h1 h2 h3
  obtain ⟨K, e1, e2⟩ := eval_le_of_coeff (ν := ν) nRed nC
  have : pbEval ν sumC = pbEval ν (applyChanges (addPbsums sumL sumR) (reduceLoop (addPbsums sumL sumR) (addPbsums sumL sumR)).1) := by
    rw [e1, e2]
    refine Finset.sum_congr rfl fun k _ => ?_
    congr 1
    cases hg : mapGet sumC k with
    | none => rw [subsetKeys_ok h1 hg, pbCoeff, hg]; rfl
    | some v =>
      have hm := pbMem_of_get hg
      rcases h3 _ hm with hv | hv
      · rw [dC] at hm
        obtain ⟨a, ha, he⟩ := List.mem_map.1 hm
        have : a.1 = v := congrArg Prod.snd he
        exact absurd (this.trans hv) (h0 c (by simp) a ha)
      · rw [pbCoeff, pbCoeff, hg, hv]
  rw [this]
  linarith

/-- **C20 (partial).** Multiplication with a constant. Missing are negative constants, literals that occur twice, and literals printed alike; see
`c20_multiplication_fails`. -/
theorem c20_multiplication_partial (h : cpMultiplication pr conclusion premises args = .ok ()) (hc : ClauseOK conclusion)
    (hp : ∀ p ∈ premises, ClauseOK p) (hn : NamesApart pr (conclusion :: premises).flatten)
    (hd : ∀ t ∈ (conclusion :: premises).flatten, DistinctLiterals t) (h0 : ∀ z : ℤ, args = [.const (.int z)] → 0 ≤ z) (M : Model)
    (hz : ∀ t ∈ (conclusion :: premises).flatten, ZeroOne M t) (hM : ∀ p ∈ premises, M.Sat p) : M.Sat conclusion := by
  simp only [cpMultiplication, bind_ok, get1_ok, require_ok, Prod.exists, asIntegerErr_ok] at h
  obtain ⟨_, rfl, p, rfl, _, rfl, scalar, rfl, c, rfl, sumP, kP, hP, sumC, kC, hC, _, hk, _, h1, h2⟩ := h
  obtain ⟨-, nP, eP⟩ := unwrap_constraint hn hd hz (t := p) (by simp) hP (hp [p] (by simp) p (by simp))
  obtain ⟨-, nC, eC⟩ := unwrap_constraint hn hd hz (t := c) (by simp) hC (hc c (by simp))
  have sP := hM [p] (by simp)
  rw [Model.sat_singleton] at sP ⊢
  rw [eP] at sP
  rw [eC]
  obtain ⟨K, e1, e2⟩ := eval_le_of_coeff (ν := keyVal pr M ([[c], [p]].flatten.flatMap pbLiterals)) nP nC
  have coeff := checkCoeffs_ok (f := (scalar * ·)) (by simp) h1 h2
  have : pbEval (keyVal pr M ([[c], [p]].flatten.flatMap pbLiterals)) sumC =
      scalar * pbEval (keyVal pr M ([[c], [p]].flatten.flatMap pbLiterals)) sumP := by
    rw [e1, e2, Finset.mul_sum]
    refine Finset.sum_congr rfl fun k _ => ?_
    rw [coeff, mul_assoc]
  rw [this, ← hk]
  exact mul_le_mul_of_nonneg_left sP (h0 scalar rfl)

/-- **C20 (partial).** Division; rounding towards zero does no harm. Missing are premises with several literals, literals that occur twice, and
literals printed alike; see `c20_division_fails`. -/
theorem c20_division_partial (h : cpDivision pr conclusion premises args = .ok ()) (hc : ClauseOK conclusion)
    (hp : ∀ p ∈ premises, ClauseOK p) (hn : NamesApart pr (conclusion :: premises).flatten)
    (hd : ∀ t ∈ (conclusion :: premises).flatten, DistinctLiterals t) (h1' : ∀ p ∈ premises, p.length = 1) (M : Model)
    (hz : ∀ t ∈ (conclusion :: premises).flatten, ZeroOne M t) (hM : ∀ p ∈ premises, M.Sat p) : M.Sat conclusion := by
  simp only [cpDivision, bind_ok, get1_ok, require_ok, Prod.exists, asIntegerErr_ok, orPanic_ok] at h
  obtain ⟨q, rfl, p, hq, _, rfl, d, rfl, _, hpos, c, rfl, sumP, kP, hP, sumC, kC, hC, _, hk, _, h1, h2⟩ := h
  obtain ⟨p', rfl⟩ := List.length_eq_one_iff.1 (h1' q (by simp))
  cases hq
  obtain ⟨-, nP, eP⟩ := unwrap_constraint hn hd hz (t := p) (by simp) hP (hp [p] (by simp) p (by simp))
  obtain ⟨-, nC, eC⟩ := unwrap_constraint hn hd hz (t := c) (by simp) hC (hc c (by simp))
  have sP := hM [p] (by simp)
  have h01 := keyVal_01 pr M ([[c], [p]].flatten.flatMap pbLiterals)
  rw [Model.sat_singleton] at sP ⊢
  generalize keyVal pr M _ = ν at eP eC h01
  rw [eP] at sP
  rw [eC, ← hk]
  obtain ⟨K, e1, e2⟩ := eval_le_of_coeff (ν := ν) nP nC
  have coeff := checkCoeffs_ok (ceilDiv_zero hpos) h1 h2
  have : pbEval ν sumC = ∑ k ∈ K, ceilDiv d (pbCoeff sumP k * ν k) := by
    rw [e2]
    refine Finset.sum_congr rfl fun k _ => ?_
    rcases h01 k with h | h <;> simp [h, coeff, ceilDiv_zero hpos]
  rw [this]
  refine le_trans (ceilDiv_mono hpos sP) ?_
  rw [e1]
  exact Finset.le_sum_of_subadditive (ceilDiv d) (ceilDiv_zero hpos).le (fun a b => ceilDiv_add hpos) K _

/-- **C20 (partial).** Saturation. Missing are negative coefficients and constants, premises with several literals, literals that occur twice, and
literals printed alike; see `c20_saturation_fails`, `c20_saturation_constant_fails` and `c20_saturation_clause_fails`. -/
theorem c20_saturation_partial (h : cpSaturation pr conclusion premises args = .ok ()) (hc : ClauseOK conclusion)
    (hp : ∀ p ∈ premises, ClauseOK p) (hn : NamesApart pr (conclusion :: premises).flatten)
    (hd : ∀ t ∈ (conclusion :: premises).flatten, DistinctLiterals t) (h1' : ∀ p ∈ premises, p.length = 1)
    (hpos : ∀ p ∈ premises, ∀ t ∈ p, ∀ a ∈ pbAddends t, 0 ≤ a.1) (hk0 : ∀ p ∈ premises, ∀ u z, .op .ge [u, .const (.int z)] ∈ p → 0 ≤ z) (M : Model)
    (hz : ∀ t ∈ (conclusion :: premises).flatten, ZeroOne M t) (hM : ∀ p ∈ premises, M.Sat p) : M.Sat conclusion := by
  simp only [cpSaturation, bind_ok, get1_ok, require_ok, Prod.exists, orPanic_ok] at h
  obtain ⟨q, rfl, _, -, p, hq, c, rfl, sumP, kP, hP, sumC, kC, hC, _, rfl, _, h1, h2⟩ := h
  obtain ⟨p', rfl⟩ := List.length_eq_one_iff.1 (h1' q (by simp))
  cases hq
  obtain ⟨dP, nP, eP⟩ := unwrap_constraint hn hd hz (t := p) (by simp) hP (hp [p] (by simp) p (by simp))
  obtain ⟨-, nC, eC⟩ := unwrap_constraint hn hd hz (t := c) (by simp) hC (hc c (by simp))
  have hk : 0 ≤ kP := by
    simp only [unwrapPb, bind_ok, match2_ok, Prod.exists, asIntegerErr_ok] at hP
    obtain ⟨u, _, rfl, z, rfl, _, -, he⟩ := hP
    have := ok_inj.1 he
    simp only [Prod.mk.injEq] at this
    exact this.2 ▸ hk0 [.op .ge [u, .const (.int z)]] (by simp) u z (by simp)
  have hco : ∀ k, 0 ≤ pbCoeff sumP k := by
    intro k
    rw [pbCoeff]
    cases hg : mapGet sumP k with
    | none => exact le_refl 0
    | some v =>
      have hm := pbMem_of_get hg
      rw [dP] at hm
      obtain ⟨a, ha, he⟩ := List.mem_map.1 hm
      have : a.1 = v := congrArg Prod.snd he
      exact this ▸ hpos [p] (by simp) p (by simp) a ha
  have sP := hM [p] (by simp)
  have h01 := keyVal_01 pr M ([[c], [p]].flatten.flatMap pbLiterals)
  rw [Model.sat_singleton] at sP ⊢
  generalize keyVal pr M _ = ν at eP eC h01
  rw [eP] at sP
  rw [eC]
  obtain ⟨K, e1, e2⟩ := eval_le_of_coeff (ν := ν) nP nC
  have coeff := checkCoeffs_ok (f := min kP) (min_eq_right hk) h1 h2
  have : pbEval ν sumC = ∑ k ∈ K, min kP (pbCoeff sumP k * ν k) := by
    rw [e2]
    refine Finset.sum_congr rfl fun k _ => ?_
    rcases h01 k with h | h <;> simp [h, coeff, hk]
  rw [this]
  refine le_trans (le_min (le_refl _) sP) ?_
  rw [e1]
  refine Finset.le_sum_of_subadditive_on_pred (min kP) (fun x => 0 ≤ x) (min_le_right _ _) ?_ (fun _ _ => add_nonneg) _ ?_
  · intro x y hx hy
    omega
  · intro k _
    rcases h01 k with h | h <;> simp [h, hco]

/-- **C20 (partial).** The literal axioms. Missing are arguments that do not have the values 0 and 1; see `c20_literal_fails`. -/
theorem c20_literal_partial (h : cpLiteral conclusion premises args = .ok ()) (hc : ClauseOK conclusion) (ha : ∀ a ∈ args, ∃ s, sortOf a = some s)
    (M : Model) (hz : ∀ a ∈ args, M.numv a = 0 ∨ M.numv a = 1) : M.Sat conclusion := by
  simp only [cpLiteral, bind_ok, get1_ok, orPanic_ok] at h
  obtain ⟨a, rfl, c, hcc, h⟩ := h
  refine ⟨c, List.mem_of_head? hcc, ?_⟩
  have hs := hc c (List.mem_of_head? hcc)
  obtain ⟨sa, hsa⟩ := ha a (by simp)
  have nonneg : 0 ≤ M.numv a := by
    rcases hz a (by simp) with h | h <;> rw [h] <;> norm_num
  cases hg : matchGeZero c with
  | none => rw [hg] at h; cases h
  | some t =>
    rw [hg] at h
    unfold matchGeZero at hg
    split at hg
    · rename_i t' z
      split at hg
      · rename_i h0
        cases hg
        obtain ⟨-, st, sz, ht, hsz, nt, nz⟩ := (sort_cmp (by simp [Op.IsCmp])).1 hs
        rw [(M.holds_cmp ht hsz nt nz).2.2.2]
        have hz0 : M.numv z = 0 := by
          cases z with
          | const c => cases c <;> simp_all [Term.asNumber, Model.numv, Model.val, eval, Val.num, evalConst]
          | _ => simp [Term.asNumber] at h0
        rw [hz0]
        have one : ∀ {one l : Term} {σ : Srt}, isOne one = true → sortOf (.op .sub [one, l]) = some σ → oneMinus l = a →
            0 ≤ M.numv (.op .sub [one, l]) := by
          intro one l σ h1 hσ he
          rw [numv_oneMinus h1 hσ, ← numv_oneMinus (a := .const (.int 1)) rfl (he ▸ hsa), ← oneMinus, he]
          exact nonneg
        have prod : ∀ {k : ℤ} {u : Term} {σ : Srt}, k = 1 → sortOf (.op .mult [.const (.int k), u]) = some σ → 0 ≤ M.numv u →
            0 ≤ M.numv (.op .mult [.const (.int k), u]) := by
          rintro k u σ rfl hσ hu
          rw [M.numv_mult hσ]
          simpa [numv_intConst] using hu
        simp only at h
        split at h
        · rename_i k l hm
          simp only [bind_ok, require_ok, asIntegerErr_ok] at h
          obtain ⟨_, rfl, _, hk, he⟩ := h
          unfold matchNegProd at hm
          split at hm
          · rename_i c0 u hu
            rw [Option.map_eq_some_iff] at hm
            obtain ⟨l0, hl, hm⟩ := hm
            simp only [Prod.mk.injEq] at hm
            obtain ⟨rfl, rfl⟩ := hm
            cases matchProd_some hu
            obtain ⟨o, ho, rfl⟩ := matchOneMinus_some hl
            exact prod hk ht (one ho (arith_child (by simp) ht (by simp)) he)
          · cases hm
        · split at h
          · rename_i k l hm
            simp only [bind_ok, require_ok, asIntegerErr_ok] at h
            obtain ⟨_, rfl, _, hk, rfl⟩ := h
            cases matchProd_some hm
            exact prod hk ht nonneg
          · split at h
            · rename_i l hm
              obtain ⟨o, ho, rfl⟩ := matchOneMinus_some hm
              exact one ho ht (require_ok.1 h)
            · exact require_ok.1 h ▸ nonneg
      · cases hg
    · cases hg

/-- **C20 (partial).** Normalization; the literals need not be 0 or 1. Missing are relations between reals, unary minus, and `(- 1 (- 1 l))` in the
normalized constraint; see `c20_normalize_real_fails`, `c20_normalize_unary_fails` and `c20_normalize_double_fails`. -/
theorem c20_normalize_partial (h : cpNormalize conclusion premises args = .ok ()) (hc : ClauseOK conclusion)
    (hi : ∀ o a b g, conclusion = [.op .equals [.op o [a, b], g]] →
      sortOf a = some .int ∧ sortOf b = some .int ∧ noUnaryMinus a = true ∧ noUnaryMinus b = true)
    (hd : ∀ l s k, conclusion = [.op .equals [l, .op .ge [s, k]]] → noDoubleMinus s = true)
    (hd2 : ∀ l s k s' k', conclusion = [.op .equals [l, .op .and [.op .ge [s, k], .op .ge [s', k']]]] →
      noDoubleMinus s = true ∧ noDoubleMinus s' = true) (M : Model) : M.Sat conclusion := by
  simp only [cpNormalize, bind_ok, get1_ok, match2_ok, Prod.exists] at h
  obtain ⟨_, rfl, g, n, rfl, o, a, b, hrel, vl, kl, hl, vr, kr, hr, h⟩ := h
  have ho : o ∈ [Op.equals, .gt, .lt, .ge, .le] ∧ g = .op o [a, b] := by
    unfold matchRelation at hrel
    split at hrel
    · split at hrel
      · rename_i ho
        split at hrel
        · have := ok_inj.1 hrel
          simp only [Prod.mk.injEq] at this
          obtain ⟨rfl, rfl, rfl⟩ := this
          exact ⟨ho, rfl⟩
        · cases hrel
      · cases hrel
    · cases hrel
  obtain ⟨ho, rfl⟩ := ho
  obtain ⟨sa, sb, ua, ub⟩ := hi o a b n rfl
  obtain ⟨ea, oka⟩ := flatten_spec M a sa ua hl
  obtain ⟨eb, okb⟩ := flatten_spec M b sb ub hr
  have ok := append_ok oka (negateSum_ok okb)
  have hs := hc _ (List.mem_singleton_self _)
  obtain ⟨-, r, hg, hn⟩ := sort_equals.1 hs
  have hsum : ctvSum M (vl ++ negateSum vr) = ctvSum M vl - ctvSum M vr := by
    rw [ctvSum_append, ctvSum_negate]; ring
  rw [Model.sat_singleton]
  split at h
  · rename_i heq
    subst heq
    simp only [bind_ok, match2_ok, Prod.exists] at h
    obtain ⟨n1, n2, rfl, s1, k1, rfl, s2, k2, rfl, v1, h1, z1, hz1, _, c1, v2, h2, z2, hz2, c2⟩ := h
    obtain ⟨d1, d2⟩ := hd2 _ s1 k1 s2 k2 rfl
    obtain ⟨rfl, -, hpq⟩ := sort_and.1 hn
    have w1 := hpq (.op .ge [s1, k1]) (by simp)
    have w2 := hpq (.op .ge [s2, k2]) (by simp)
    obtain ⟨okp, ep⟩ := pushNegation_spec M (vl ++ negateSum vr) (kr - kl) ok
    have m1 := normalized_spec M ok w1 d1 h1 hz1 c1
    have m2 := normalized_spec M (negateSum_ok okp) w2 d2 h2 hz2 c2
    rw [M.holds_eq_bool hs (.inl hg), M.holds_eq, M.val_eq_iff sa sb (.inl rfl), M.holds_and]
    simp only [List.mem_cons, List.not_mem_nil, or_false, forall_eq_or_imp, forall_eq, m1, m2, ctvSum_negate, ea, eb]
    push_cast at ep ⊢
    constructor
    · intro h
      constructor <;> linarith
    · rintro ⟨h1, h2⟩
      linarith
  · rename_i heq
    simp only [bind_ok, match2_ok, Prod.exists] at h
    obtain ⟨s, k, rfl, v, h1, z, hz, hchk⟩ := h
    have d := hd _ s k rfl
    obtain ⟨rfl, sa', sb', -⟩ := (sort_cmp (by simp [Op.IsCmp])).1 hn
    obtain ⟨za, hza⟩ := M.numv_int_exists sa
    obtain ⟨zb, hzb⟩ := M.numv_int_exists sb
    have hcmp := M.holds_cmp sa sb (.inl rfl) (.inl rfl)
    rw [M.holds_eq_bool hs (.inl hg)]
    simp only [List.mem_cons, List.not_mem_nil, or_false] at ho
    have hab : ctvSum M vl - ctvSum M vr = (za - zb : ℤ) - kl + kr := by
      push_cast
      linarith
    rcases ho with rfl | rfl | rfl | rfl | rfl
    · exact absurd rfl heq
    · rw [hcmp.2.1, normalized_spec M (k := kr - kl + 1) ok hn d h1 hz hchk, hsum, hab, hza, hzb]
      norm_cast
      omega
    · rw [hcmp.1, normalized_spec M (k := 1 - (kr - kl)) (negateSum_ok ok) hn d h1 hz hchk, ctvSum_negate, hsum, hab, hza, hzb]
      norm_cast
      omega
    · rw [hcmp.2.2.2, normalized_spec M (k := kr - kl) ok hn d h1 hz hchk, hsum, hab, hza, hzb]
      norm_cast
      omega
    · rw [hcmp.2.2.1, normalized_spec M (k := -(kr - kl)) (negateSum_ok ok) hn d h1 hz hchk, ctvSum_negate, hsum, hab, hza, hzb]
      norm_cast
      omega

/-! ## Refutations

The literals are variables, and variables are printed as their names.
-/

namespace C20

def v (x : String) : Term := .var x .int
def n (z : ℤ) : Term := .const (.int z)

/-- An addend: the coefficient, whether the variable is negated, and the variable. -/
def addend (a : ℤ × Bool × String) : Term := .op .mult [n a.1, if a.2.1 then .op .sub [n 1, v a.2.2] else v a.2.2]
def addends : List (ℤ × Bool × String) → Term
  | [a] => addend a
  | as => .op .add (as.map addend)
def pb (as : List (ℤ × Bool × String)) (k : ℤ) : Term := .op .ge [addends as, n k]

/-- Variables are printed as their names. -/
def Prints (pr : Term → String) : Prop := ∀ x, pr (v x) = x

/-- The hash map of a constraint. -/
def table (as : List (ℤ × Bool × String)) : PbHash := as.foldl (fun hm a => mapInsert hm (if a.2.1 then "~" ++ a.2.2 else a.2.2) a.1) []

theorem unwrap_pb (hpr : Prints pr) (as : List (ℤ × Bool × String)) (k : ℤ) : unwrapPb pr (pb as k) = .ok (table as, k) := by
  have entry : ∀ a, pbEntry pr (addend a) = .ok (if a.2.1 then "~" ++ a.2.2 else a.2.2, a.1) := by
    rintro ⟨c, b, x⟩
    cases b <;> simp [pbEntry, pbKey, addend, matchNegProd, matchProd, matchOneMinus, n, v, Term.asNumber, asIntegerErr_ok]
    · exact hpr x
    · exact hpr x
  have loop : ∀ (as : List (ℤ × Bool × String)) hm, pbLoop pr hm (as.map addend) =
      .ok (as.foldl (fun hm a => mapInsert hm (if a.2.1 then "~" ++ a.2.2 else a.2.2) a.1) hm) := by
    intro as
    induction as with
    | nil => intro hm; rfl
    | cons a as ih =>
      intro hm
      rw [List.map_cons, pbLoop, entry]
      exact ih _
  have split : splitSummation (addends as) = as.map addend := by
    unfold addends
    split <;> rfl
  have get : getPbHashmap pr (addends as) = .ok (table as) := by
    unfold getPbHashmap
    rw [split]
    split
    · rename_i t this
      split
      · rename_i z hz
        obtain ⟨a, -, e⟩ := List.mem_map.1 (this ▸ List.mem_singleton_self t : t ∈ as.map addend)
        rw [← e] at hz
        cases hz
      · rw [← this, loop]
        rfl
    · exact loop as []
  simp only [unwrapPb, pb, bind_ok, match2_ok, Prod.exists, asIntegerErr_ok]
  exact ⟨_, _, rfl, k, rfl, _, get, rfl⟩

/-- The variables named in the list are 1, the other ones 0. -/
noncomputable def ones (xs : List String) : Model := Witness.model fun x _ => .int (if x ∈ xs then 1 else 0)

theorem ones_v (xs : List String) (x : String) : (ones xs).numv (v x) = if x ∈ xs then 1 else 0 := by
  simp only [Model.numv, ones, v, Witness.val_var, Witness.coerce, Witness.valSort, if_true, Val.num]
  split <;> simp

theorem sort_addend (a : ℤ × Bool × String) : sortOf (addend a) = some .int := by
  obtain ⟨c, b, x⟩ := a
  cases b <;> rfl

theorem sort_addends {as : List (ℤ × Bool × String)} (h : as ≠ []) : sortOf (addends as) = some .int := by
  unfold addends
  split
  · exact sort_addend _
  · rename_i hne
    have all : ∀ as : List (ℤ × Bool × String), sortOfL (as.map addend) = some (as.map fun _ => .int) := by
      intro as
      induction as with
      | nil => rfl
      | cons a as ih => rw [List.map_cons, sortOfL_cons]; exact ⟨_, _, rfl, sort_addend a, ih⟩
    have int : ∀ as : List (ℤ × Bool × String), allSort .int (as.map fun _ => Srt.int) = true := by
      intro as
      induction as with
      | nil => rfl
      | cons a as ih => simpa [allSort] using ih
    match as, h, hne with
    | [a], _, hne => exact absurd rfl (hne a)
    | a :: b :: as, _, _ =>
      rw [sortOf_op_eq (by decide), all]
      show opSort .add _ = _
      rw [opSort, if_pos ⟨by simp, int _⟩]

theorem sort_pb {as : List (ℤ × Bool × String)} (h : as ≠ []) (k : ℤ) : sortOf (pb as k) = some .bool :=
  (sort_cmp (by simp [Op.IsCmp])).2 ⟨rfl, _, _, sort_addends h, rfl, .inl rfl, .inl rfl⟩

theorem pb_holds (xs : List String) {as : List (ℤ × Bool × String)} (h : as ≠ []) {k : ℤ} :
    (ones xs).Holds (pb as k) ↔ k ≤ (as.map fun a => a.1 * (if (a.2.2 ∈ xs) = (a.2.1 = true) then 0 else 1)).sum := by
  have one : ∀ a, (ones xs).numv (addend a) = ((a.1 * (if (a.2.2 ∈ xs) = (a.2.1 = true) then 0 else 1) : ℤ) : ℝ) := by
    rintro ⟨c, b, x⟩
    rw [addend, Model.numv_mult _ (sort_addend (c, b, x))]
    cases b
    · simp [n, numv_intConst, ones_v]
    · have : (ones xs).numv (.op .sub [n 1, v x]) = 1 - (ones xs).numv (v x) := numv_oneMinus rfl rfl
      simp [n, numv_intConst] at this ⊢
      rw [this, ones_v]
      split <;> simp
  have sum : (ones xs).numv (addends as) = (as.map fun a => (ones xs).numv (addend a)).sum := by
    have := sort_addends h
    unfold addends at this ⊢
    split
    · simp
    · rename_i hne
      rw [Model.numv_add _ (by split at this <;> first | exact this | exact absurd rfl (hne _)), List.map_map]
      rfl
  rw [pb, ((ones xs).holds_cmp (sort_addends h) (show sortOf (n k) = some .int from rfl) (.inl rfl) (.inl rfl)).2.2.2, n, numv_intConst, sum, ge_iff_le]
  simp only [one]
  rw [← Int.cast_le (R := ℝ), cast_sum, List.map_map]
  rfl

theorem pb_literals {as : List (ℤ × Bool × String)} {k : ℤ} {l : Term} (hl : l ∈ pbLiterals (pb as k)) : ∃ a ∈ as, l = v a.2.2 := by
  obtain ⟨a, ha, rfl⟩ := List.mem_map.1 hl
  rw [pb, pbAddends_eq] at ha
  have split : splitSummation (addends as) = as.map addend := by
    unfold addends
    split <;> rfl
  rw [split] at ha
  obtain ⟨t, ht, e⟩ := List.mem_filterMap.1 ha
  obtain ⟨⟨c, b, x⟩, hm, rfl⟩ := List.mem_map.1 ht
  refine ⟨_, hm, ?_⟩
  cases b
  · simp [addend, pbAddend, n, v] at e; rw [← e]; rfl
  · simp [addend, pbAddend, n, v, isOne] at e; rw [← e]; rfl

theorem pb_names (hpr : Prints pr) {cs : List (List (ℤ × Bool × String) × ℤ)} (h : ∀ c ∈ cs, ∀ a ∈ c.1, a.2.2.toList.head? ≠ some '~') :
    NamesApart pr (cs.map fun c => pb c.1 c.2) := by
  constructor
  · intro t ht t' ht' l hl l' hl' e
    obtain ⟨c, -, rfl⟩ := List.mem_map.1 ht
    obtain ⟨c', -, rfl⟩ := List.mem_map.1 ht'
    obtain ⟨a, -, rfl⟩ := pb_literals hl
    obtain ⟨a', -, rfl⟩ := pb_literals hl'
    rw [hpr, hpr] at e
    rw [e]
  · intro t ht l hl
    obtain ⟨c, hc, rfl⟩ := List.mem_map.1 ht
    obtain ⟨a, ha, rfl⟩ := pb_literals hl
    rw [hpr]
    exact h c hc a ha

theorem pb_zeroOne (xs : List String) (as : List (ℤ × Bool × String)) (k : ℤ) : ZeroOne (ones xs) (pb as k) := by
  intro l hl
  obtain ⟨a, -, rfl⟩ := pb_literals hl
  rw [ones_v]
  split <;> simp

/-- All variables have the value `z`. -/
noncomputable def const (z : ℤ) : Model := Witness.model fun _ s => if s = .int then .int z else .real z

theorem const_var (z : ℤ) (x : String) {s : Srt} (hs : s = .int ∨ s = .real) : (const z).numv (.var x s) = z := by
  rcases hs with rfl | rfl <;> simp [const, Model.numv, Witness.val_var, Witness.coerce, Witness.valSort, Val.num]

theorem holds_ge (M : Model) {a b : Term} {s : Srt} (h : sortOf (.op .ge [a, b]) = some s) : M.Holds (.op .ge [a, b]) ↔ M.numv b ≤ M.numv a := by
  obtain ⟨-, sa, sb, ha, hb, na, nb⟩ := (sort_cmp (by simp [Op.IsCmp])).1 h
  exact (M.holds_cmp ha hb na nb).2.2.2

end C20

open C20

/-- **C20.** The claim for sums fails: from `x ≥ 1` and `y ≥ 0` the rule concludes `0 x + y ≥ 1`. -/
theorem c20_addition_fails (hpr : Prints pr) : ¬ PbSound (cpAddition pr) := by
  intro h
  have := h [pb [(0, false, "x"), (1, false, "y")] 1] [[pb [(1, false, "x")] 1], [pb [(1, false, "y")] 0]] []
    (by
      simp only [cpAddition, bind_ok, get1_ok, get2_ok, Prod.exists]
      exact ⟨_, _, rfl, _, rfl, _, rfl, _, rfl, _, rfl, _, _, unwrap_pb hpr _ _, _, _, unwrap_pb hpr _ _, _, _, unwrap_pb hpr _ _, (),
        by decide +kernel, (), by decide +kernel, by decide +kernel⟩)
    (by simp [ClauseOK, sort_pb]) (by simp [ClauseOK, sort_pb]) (ones ["x"]) (by simp [pb_zeroOne]) (by simp [Model.sat_singleton, pb_holds])
  simp [Model.sat_singleton, pb_holds] at this

/-- **C20.** Literals that occur twice: `2 x + 0 x ≥ 1` and `y ≥ 0` give `y ≥ 1`. -/
theorem c20_addition_duplicate_fails (hpr : Prints pr) : ¬ ∀ (conclusion : List Term) (premises : List (List Term)) (args : List Term),
    cpAddition pr conclusion premises args = .ok () → ClauseOK conclusion → (∀ p ∈ premises, ClauseOK p) →
    NamesApart pr (conclusion :: premises).flatten → (∀ t ∈ conclusion, ∀ a ∈ pbAddends t, a.1 ≠ 0) →
    ∀ M : Model, (∀ t ∈ (conclusion :: premises).flatten, ZeroOne M t) → (∀ p ∈ premises, M.Sat p) → M.Sat conclusion := by
  intro h
  have := h [pb [(1, false, "y")] 1] [[pb [(2, false, "x"), (0, false, "x")] 1], [pb [(1, false, "y")] 0]] []
    (by
      simp only [cpAddition, bind_ok, get1_ok, get2_ok, Prod.exists]
      exact ⟨_, _, rfl, _, rfl, _, rfl, _, rfl, _, rfl, _, _, unwrap_pb hpr _ _, _, _, unwrap_pb hpr _ _, _, _, unwrap_pb hpr _ _, (),
        by decide +kernel, (), by decide +kernel, by decide +kernel⟩)
    (by simp [ClauseOK, sort_pb]) (by simp [ClauseOK, sort_pb])
    (pb_names hpr (cs := [([(1, false, "y")], 1), ([(2, false, "x"), (0, false, "x")], 1), ([(1, false, "y")], 0)]) (by decide))
    (by simp [pb, addends, addend, n, v, pbAddends, pbAddend] <;> omega)
    (ones ["x"]) (by simp [pb_zeroOne]) (by simp [Model.sat_singleton, pb_holds])
  simp [Model.sat_singleton, pb_holds] at this

/-- **C20.** Literals printed alike: from `(- 1 x) ≥ 1` and `y ≥ 0` the rule concludes `z + y ≥ 1` if the name of `z` is that of `x` after `~`. -/
theorem c20_addition_names_fails (hpr : Prints pr) : ¬ ∀ (conclusion : List Term) (premises : List (List Term)) (args : List Term),
    cpAddition pr conclusion premises args = .ok () → ClauseOK conclusion → (∀ p ∈ premises, ClauseOK p) →
    (∀ t ∈ (conclusion :: premises).flatten, DistinctLiterals t) → (∀ t ∈ conclusion, ∀ a ∈ pbAddends t, a.1 ≠ 0) →
    ∀ M : Model, (∀ t ∈ (conclusion :: premises).flatten, ZeroOne M t) → (∀ p ∈ premises, M.Sat p) → M.Sat conclusion := by
  intro h
  have := h [pb [(1, false, "~x"), (1, false, "y")] 1] [[pb [(1, true, "x")] 1], [pb [(1, false, "y")] 0]] []
    (by
      simp only [cpAddition, bind_ok, get1_ok, get2_ok, Prod.exists]
      exact ⟨_, _, rfl, _, rfl, _, rfl, _, rfl, _, rfl, _, _, unwrap_pb hpr _ _, _, _, unwrap_pb hpr _ _, _, _, unwrap_pb hpr _ _, (),
        by decide +kernel, (), by decide +kernel, by decide +kernel⟩)
    (by simp [ClauseOK, sort_pb]) (by simp [ClauseOK, sort_pb])
    (by simp [DistinctLiterals, pb, addends, addend, n, v, pbAddends, pbAddend, isOne])
    (by simp [pb, addends, addend, n, v, pbAddends, pbAddend] <;> omega)
    (ones []) (by simp [pb_zeroOne]) (by simp [Model.sat_singleton, pb_holds])
  simp [Model.sat_singleton, pb_holds] at this

/-- **C20.** The claim for products fails: `x ≥ 0` times `-1` gives `-x ≥ 0`. -/
theorem c20_multiplication_fails (hpr : Prints pr) : ¬ PbSound (cpMultiplication pr) := by
  intro h
  have := h [pb [(-1, false, "x")] 0] [[pb [(1, false, "x")] 0]] [n (-1)]
    (by
      simp only [cpMultiplication, bind_ok, get1_ok, Prod.exists]
      exact ⟨_, rfl, _, rfl, _, rfl, _, rfl, _, rfl, _, _, unwrap_pb hpr _ _, _, _, unwrap_pb hpr _ _, (),
        by decide +kernel, (), by decide +kernel, by decide +kernel⟩)
    (by simp [ClauseOK, sort_pb]) (by simp [ClauseOK, sort_pb]) (ones ["x"]) (by simp [pb_zeroOne]) (by simp [Model.sat_singleton, pb_holds])
  simp [Model.sat_singleton, pb_holds] at this

/-- **C20.** The claim for quotients fails: only the first literal of the premise `(cl (>= x 1) (>= y 1))` is looked at, and `x ≥ 1` is concluded. -/
theorem c20_division_fails (hpr : Prints pr) : ¬ PbSound (cpDivision pr) := by
  intro h
  have := h [pb [(1, false, "x")] 1] [[pb [(1, false, "x")] 1, pb [(1, false, "y")] 1]] [n 1]
    (by
      simp only [cpDivision, bind_ok, get1_ok, Prod.exists]
      exact ⟨_, rfl, _, rfl, _, rfl, _, rfl, (), by decide, _, rfl, _, _, unwrap_pb hpr _ _, _, _, unwrap_pb hpr _ _, (),
        by decide +kernel, (), by decide +kernel, by decide +kernel⟩)
    (by simp [ClauseOK, sort_pb]) (by simp [ClauseOK, sort_pb]) (ones ["y"]) (by simp [pb_zeroOne]) (by simp [Model.Sat, pb_holds])
  simp [Model.sat_singleton, pb_holds] at this

/-- **C20.** The claim for saturation fails: `2 x + 2 y - 3 z ≥ 1` gives `x + y - 3 z ≥ 1`. -/
theorem c20_saturation_fails (hpr : Prints pr) : ¬ PbSound (cpSaturation pr) := by
  intro h
  have := h [pb [(1, false, "x"), (1, false, "y"), (-3, false, "z")] 1] [[pb [(2, false, "x"), (2, false, "y"), (-3, false, "z")] 1]] []
    (by
      simp only [cpSaturation, bind_ok, get1_ok, Prod.exists]
      exact ⟨_, rfl, (), by decide, _, rfl, _, rfl, _, _, unwrap_pb hpr _ _, _, _, unwrap_pb hpr _ _, (),
        by decide +kernel, (), by decide +kernel, by decide +kernel⟩)
    (by simp [ClauseOK, sort_pb]) (by simp [ClauseOK, sort_pb]) (ones ["x", "y", "z"]) (by simp [pb_zeroOne])
    (by simp [Model.sat_singleton, pb_holds])
  simp [Model.sat_singleton, pb_holds] at this

/-- **C20.** Saturation with a negative constant: `x + y ≥ -1` gives `-x - y ≥ -1`. -/
theorem c20_saturation_constant_fails (hpr : Prints pr) : ¬ ∀ (conclusion : List Term) (premises : List (List Term)) (args : List Term),
    cpSaturation pr conclusion premises args = .ok () → ClauseOK conclusion → (∀ p ∈ premises, ClauseOK p) →
    (∀ p ∈ premises, ∀ t ∈ p, ∀ a ∈ pbAddends t, 0 ≤ a.1) →
    ∀ M : Model, (∀ t ∈ (conclusion :: premises).flatten, ZeroOne M t) → (∀ p ∈ premises, M.Sat p) → M.Sat conclusion := by
  intro h
  have := h [pb [(-1, false, "x"), (-1, false, "y")] (-1)] [[pb [(1, false, "x"), (1, false, "y")] (-1)]] []
    (by
      simp only [cpSaturation, bind_ok, get1_ok, Prod.exists]
      exact ⟨_, rfl, (), by decide, _, rfl, _, rfl, _, _, unwrap_pb hpr _ _, _, _, unwrap_pb hpr _ _, (),
        by decide +kernel, (), by decide +kernel, by decide +kernel⟩)
    (by simp [ClauseOK, sort_pb]) (by simp [ClauseOK, sort_pb]) (by simp [pb, addends, addend, n, v, pbAddends, pbAddend] <;> omega)
    (ones ["x", "y"]) (by simp [pb_zeroOne]) (by simp [Model.sat_singleton, pb_holds])
  simp [Model.sat_singleton, pb_holds] at this

/-- **C20.** Saturation looks at the first literal of the premise only. -/
theorem c20_saturation_clause_fails (hpr : Prints pr) : ¬ ∀ (conclusion : List Term) (premises : List (List Term)) (args : List Term),
    cpSaturation pr conclusion premises args = .ok () → ClauseOK conclusion → (∀ p ∈ premises, ClauseOK p) →
    (∀ p ∈ premises, ∀ t ∈ p, ∀ a ∈ pbAddends t, 0 ≤ a.1) → (∀ p ∈ premises, ∀ u z, .op .ge [u, .const (.int z)] ∈ p → 0 ≤ z) →
    ∀ M : Model, (∀ t ∈ (conclusion :: premises).flatten, ZeroOne M t) → (∀ p ∈ premises, M.Sat p) → M.Sat conclusion := by
  intro h
  have := h [pb [(1, false, "x")] 1] [[pb [(1, false, "x")] 1, pb [(1, false, "y")] 1]] []
    (by
      simp only [cpSaturation, bind_ok, get1_ok, Prod.exists]
      exact ⟨_, rfl, (), by decide, _, rfl, _, rfl, _, _, unwrap_pb hpr _ _, _, _, unwrap_pb hpr _ _, (),
        by decide +kernel, (), by decide +kernel, by decide +kernel⟩)
    (by simp [ClauseOK, sort_pb]) (by simp [ClauseOK, sort_pb]) (by simp [pb, addends, addend, n, v, pbAddends, pbAddend] <;> omega)
    (by simp [pb, n]; omega) (ones ["y"]) (by simp [pb_zeroOne]) (by simp [Model.Sat, pb_holds])
  simp [Model.sat_singleton, pb_holds] at this

/-- The claim for the rules without premises: what they accept holds in the models in which the variables are 0 or 1. -/
def CpAxiomSound (r : Rule) : Prop :=
  ∀ (conclusion : List Term) (premises : List (List Term)) (args : List Term), r conclusion premises args = .ok () →
    ClauseOK conclusion → (∀ a ∈ args, ∃ s, sortOf a = some s) →
    ∀ M : Model, (∀ x s, s = .int ∨ s = .real → M.numv (.var x s) = 0 ∨ M.numv (.var x s) = 1) → M.Sat conclusion

/-- **C20.** The claim for the literal axioms fails: `(>= (- 0 x) 0)` is accepted. -/
theorem c20_literal_fails : ¬ CpAxiomSound cpLiteral := by
  intro h
  have := h [.op .ge [.op .sub [n 0, v "x"], n 0]] [] [.op .sub [n 0, v "x"]] (by decide +kernel) (by simp [ClauseOK]; decide +kernel)
    (by simp; exact ⟨.int, by decide +kernel⟩) (const 1) (fun x s hs => .inr (by simp [const_var 1 x hs]))
  rw [Model.sat_singleton, holds_ge _ (s := .bool) (by decide +kernel), Model.numv_sub _ (s := .int) (by decide +kernel)] at this
  norm_num [n, v, numv_intConst, const_var] at this

/-- **C20.** The claim for normalization fails for a unary minus: `(= (>= (- x) 0) (>= (* 1 x) 0))` is accepted. -/
theorem c20_normalize_unary_fails : ¬ CpAxiomSound cpNormalize := by
  intro h
  have := h [.op .equals [.op .ge [.op .sub [v "x"], n 0], .op .ge [.op .mult [n 1, v "x"], n 0]]] [] [] (by decide +kernel)
    (by simp [ClauseOK]; decide +kernel) (by simp) (const 1) (fun x s hs => .inr (by simp [const_var 1 x hs]))
  rw [Model.sat_singleton, Model.holds_eq_bool _ (by decide +kernel) (.inl (by decide +kernel)), holds_ge _ (s := .bool) (by decide +kernel),
    holds_ge _ (s := .bool) (by decide +kernel), Model.numv_neg _ (s := .int) (by decide +kernel),
    Model.numv_mult _ (s := .int) (by decide +kernel)] at this
  norm_num [n, v, numv_intConst, const_var] at this

/-- **C20.** Without a unary minus: `(= (>= (* 1 (- 1 x)) 1) (>= (* 1 (- 1 (- 1 x))) 1))` is accepted. -/
theorem c20_normalize_double_fails : ¬ ∀ (a b s : Term) (k : ℤ),
    cpNormalize [.op .equals [.op .ge [a, b], .op .ge [s, .const (.int k)]]] [] [] = .ok () →
    ClauseOK [.op .equals [.op .ge [a, b], .op .ge [s, .const (.int k)]]] → sortOf a = some .int → sortOf b = some .int →
    noUnaryMinus a = true → noUnaryMinus b = true → ∀ M : Model, (∀ x s, s = .int ∨ s = .real → M.numv (.var x s) = 0 ∨ M.numv (.var x s) = 1) →
    M.Sat [.op .equals [.op .ge [a, b], .op .ge [s, .const (.int k)]]] := by
  intro h
  have := h (.op .mult [n 1, .op .sub [n 1, v "x"]]) (n 1) (.op .mult [n 1, .op .sub [n 1, .op .sub [n 1, v "x"]]]) 1 (by decide +kernel)
    (by simp [ClauseOK]; decide +kernel) (by decide +kernel) (by decide +kernel) (by decide +kernel) (by decide +kernel)
    (const 0) (fun x s hs => .inl (by simp [const_var 0 x hs]))
  rw [Model.sat_singleton, Model.holds_eq_bool _ (by decide +kernel) (.inl (by decide +kernel)), holds_ge _ (s := .bool) (by decide +kernel),
    holds_ge _ (s := .bool) (by decide +kernel), Model.numv_mult _ (s := .int) (by decide +kernel),
    Model.numv_mult _ (s := .int) (by decide +kernel)] at this
  simp only [List.map_cons, List.map_nil] at this
  rw [numv_oneMinus rfl (s := .int) (by decide +kernel), numv_oneMinus rfl (s := .int) (by decide +kernel),
    numv_oneMinus rfl (s := .int) (by decide +kernel)] at this
  norm_num [n, v, numv_intConst, const_var] at this

/-- **C20.** Relations between reals: `(= (> (/ x 2.0) 0) (>= (/ x 2.0) 1))` is accepted. -/
theorem c20_normalize_real_fails : ¬ ∀ (a b s : Term) (k : ℤ),
    cpNormalize [.op .equals [.op .gt [a, b], .op .ge [s, .const (.int k)]]] [] [] = .ok () →
    ClauseOK [.op .equals [.op .gt [a, b], .op .ge [s, .const (.int k)]]] → noUnaryMinus a = true → noUnaryMinus b = true →
    noDoubleMinus s = true → ∀ M : Model, (∀ x s, s = .int ∨ s = .real → M.numv (.var x s) = 0 ∨ M.numv (.var x s) = 1) →
    M.Sat [.op .equals [.op .gt [a, b], .op .ge [s, .const (.int k)]]] := by
  intro h
  have hs : sortOf (.op .realDiv [.var "x" .real, .const (.real 2)]) = some .real := by decide +kernel
  have hv : (const 1).numv (.op .realDiv [.var "x" .real, .const (.real 2)]) = 1 / 2 := by
    have h2 : (const 1).numv (.const (.real 2)) = 2 := by simp [Model.numv, Model.val, eval, evalConst, Val.num]
    rw [Model.numv_real _ (Model.numv_realDiv _ hs), h2, const_var 1 "x" (.inr rfl), Interp.rdiv]
    norm_num
  have := h (.op .realDiv [.var "x" .real, .const (.real 2)]) (n 0) (.op .realDiv [.var "x" .real, .const (.real 2)]) 1 (by decide +kernel)
    (by simp [ClauseOK]; decide +kernel) (by decide +kernel) (by decide +kernel) (by decide +kernel)
    (const 1) (fun x s hs => .inr (by simp [const_var 1 x hs]))
  rw [Model.sat_singleton, Model.holds_eq_bool _ (by decide +kernel) (.inl (by decide +kernel)), holds_ge _ (s := .bool) (by decide +kernel),
    ((const 1).holds_cmp hs (show sortOf (n 0) = some .int from rfl) (.inr rfl) (.inl rfl)).2.1, hv, n, numv_intConst, numv_intConst] at this
  norm_num at this

/-! ## Examples -/

example (hpr : Prints pr) : cpAddition pr [pb [(2, false, "x"), (1, true, "y")] 2]
    [[pb [(2, false, "x"), (3, true, "y")] 3], [pb [(2, false, "y")] 1]] [] = .ok () ∧
    NamesApart pr [pb [(2, false, "x"), (1, true, "y")] 2, pb [(2, false, "x"), (3, true, "y")] 3, pb [(2, false, "y")] 1] := by
  refine ⟨?_, pb_names hpr (cs := [([(2, false, "x"), (1, true, "y")], 2), ([(2, false, "x"), (3, true, "y")], 3), ([(2, false, "y")], 1)])
    (by decide)⟩
  simp only [cpAddition, bind_ok, get1_ok, get2_ok, Prod.exists]
  exact ⟨_, _, rfl, _, rfl, _, rfl, _, rfl, _, rfl, _, _, unwrap_pb hpr _ _, _, _, unwrap_pb hpr _ _, _, _, unwrap_pb hpr _ _, (),
    by decide +kernel, (), by decide +kernel, by decide +kernel⟩

example : DistinctLiterals (pb [(2, false, "x"), (3, true, "x")] 3) ∧ ClauseOK [pb [(2, false, "x"), (3, true, "x")] 3] ∧
    ZeroOne (ones ["x"]) (pb [(2, false, "x"), (3, true, "x")] 3) :=
  ⟨by simp [DistinctLiterals, pb, addends, addend, n, v, pbAddends, pbAddend, isOne], by simp [ClauseOK, sort_pb], pb_zeroOne _ _ _⟩

example (hpr : Prints pr) : cpMultiplication pr [pb [(6, false, "x"), (3, true, "y")] 9] [[pb [(2, false, "x"), (1, true, "y")] 3]] [n 3]
    = .ok () := by
  simp only [cpMultiplication, bind_ok, get1_ok, Prod.exists]
  exact ⟨_, rfl, _, rfl, _, rfl, _, rfl, _, rfl, _, _, unwrap_pb hpr _ _, _, _, unwrap_pb hpr _ _, (), by decide +kernel, (), by decide +kernel,
    by decide +kernel⟩

example (hpr : Prints pr) : cpDivision pr [pb [(2, false, "x"), (-1, true, "y")] 2] [[pb [(3, false, "x"), (-3, true, "y")] 3]] [n 2]
    = .ok () := by
  simp only [cpDivision, bind_ok, get1_ok, Prod.exists]
  exact ⟨_, rfl, _, rfl, _, rfl, _, rfl, (), by decide, _, rfl, _, _, unwrap_pb hpr _ _, _, _, unwrap_pb hpr _ _, (), by decide +kernel, (),
    by decide +kernel, by decide +kernel⟩

example (hpr : Prints pr) : cpSaturation pr [pb [(2, false, "x"), (1, true, "y")] 2] [[pb [(5, false, "x"), (1, true, "y")] 2]] [] = .ok () := by
  simp only [cpSaturation, bind_ok, get1_ok, Prod.exists]
  exact ⟨_, rfl, (), by decide, _, rfl, _, rfl, _, _, unwrap_pb hpr _ _, _, _, unwrap_pb hpr _ _, (), by decide +kernel, (), by decide +kernel,
    by decide +kernel⟩

example : cpLiteral [.op .ge [.op .mult [n 1, .op .sub [n 1, v "x"]], n 0]] [] [.op .sub [n 1, v "x"]] = .ok () := by decide +kernel

example : cpNormalize [.op .equals [.op .lt [.op .add [.op .mult [n 2, v "x"], n 1], v "y"],
    .op .ge [.op .add [.op .mult [n 2, .op .sub [n 1, v "x"]], .op .mult [n 1, v "y"]], n 4]]] [] [] = .ok () := by decide +kernel

example : cpNormalize [.op .equals [.op .equals [v "x", v "y"], .op .and [
    .op .ge [.op .add [v "x", .op .sub [n 1, v "y"]], n 1], .op .ge [.op .add [.op .sub [n 1, v "x"], v "y"], n 1]]]] [] [] = .ok () := by
  decide +kernel

end Carcara
