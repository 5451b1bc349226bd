import Verif.Lemmas.PolyBv
import Verif.Lemmas.PolyFuel
import Verif.Spec.Witness

/-!
# C15: arithmetic simplification rules

`minus_simplify` and `mod_simplify` are sound. The other rules are not: `div_simplify` accepts `(= (div x x) 1)`, and
the others read the term `(div 1 2)` as the rational number 1/2. They are sound if integer divisions of literals leave
no remainder, and `div_simplify` is sound in all interpretations where the denominator is not zero.
-/

namespace Carcara
open Classical Val Sem

/-- Reduces soundness to equality of the two values. -/
theorem sound_of_eq {r : Rule} (h : ∀ a b ps as s, r [.op .equals [a, b]] ps as = .ok () → sortOf a = some s →
    sortOf b = some s → ∀ M : Model, M.val a = M.val b)
    (hr : ∀ c ps as, r c ps as = .ok () → ∃ a b, c = [.op .equals [a, b]]) : SoundRule r := by
  intro c ps as hc hok hps M hM
  obtain ⟨a, b, rfl⟩ := hr c ps as hc
  obtain ⟨-, s, ha, hb⟩ := sort_equals.1 (hok _ (List.mem_singleton_self _))
  rw [Model.sat_singleton, M.holds_eq]
  exact h a b ps as s hc ha hb M

/-- **C15.** -/
theorem c15_minus_simplify : SoundRule minusSimplify := by
  refine sound_of_eq ?_ ?_
  · intro l r ps as s h hl hr M
    simp only [minusSimplify, bind_ok, get1_ok, match2_ok, Prod.exists] at h
    obtain ⟨_, e, l', r', rfl, h⟩ := h
    cases e
    split at h
    · next hu =>
      rw [Bool.or_eq_true] at hu
      rcases hu with hu | hu
      · exact tryUnaryMinus_ok hu hl hr M
      · exact (tryUnaryMinus_ok hu hr hl M).symm
    · rw [tryOr_ok] at h
      simp only [bind_ok, match2_ok, Prod.exists] at h
      obtain ⟨t1, t2, rfl, h⟩ | ⟨-, t1, t2, rfl, h⟩ := h
      · exact (minusCheck_ok h hr hl M).symm
      · exact minusCheck_ok h hl hr M
  · intro c ps as h
    simp only [minusSimplify, bind_ok, get1_ok, match2_ok, Prod.exists] at h
    obtain ⟨_, rfl, l', r', rfl, h⟩ := h
    exact ⟨_, _, rfl⟩

/-- **C15.** -/
theorem c15_mod_simplify : SoundRule modSimplify := by
  refine sound_of_eq ?_ ?_
  · intro l r ps as s h hl hr M
    simp only [modSimplify, integerLiteral, bind_ok, get1_ok, match2_ok, Prod.exists, orErr_ok] at h
    obtain ⟨_, e, l', r', rfl, a, b, rfl, x, ⟨p, hp, hx⟩, y, ⟨q, hq, hy⟩, v, hv, h⟩ := h
    cases e
    split at h
    · cases h
    next hy0 =>
    rw [require_ok] at h
    split at hx
    swap
    · cases hx
    next hpd =>
    split at hy
    swap
    · cases hy
    next hqd =>
    simp only [ok_inj] at hx hy
    subst hx hy
    obtain ⟨sa, sb, ha, hb, hs⟩ := pair_sorts (by decide) hl
    simp only [opSort, Option.ite_none_right_eq_some, List.cons.injEq, Option.some.injEq, and_true] at hs
    obtain ⟨⟨rfl, rfl⟩, rfl⟩ := hs
    obtain ⟨x, ex⟩ := M.val_int ha
    obtain ⟨y, ey⟩ := M.val_int hb
    have hx : (x : ℝ) = p := by rw [← M.numv_int ex, M.numv_of_num (Term.asSignedNumber_val hp M)]
    have hy : (y : ℝ) = q := by rw [← M.numv_int ey, M.numv_of_num (Term.asSignedNumber_val hq M)]
    have hx : x = p.num := by
      have : (x : Rat) = p := by exact_mod_cast hx
      rw [← this]; rfl
    have hy : y = q.num := by
      have : (y : Rat) = q := by exact_mod_cast hy
      rw [← this]; rfl
    rw [M.val_eq_iff hl hr (Or.inl rfl), M.numv_of_num (Term.asSignedNumber_val hv M),
      M.numv_int (z := M.I.imod x y) (by simp [M.val_op, ex, ey, evalOp, stdOp]), h, Interp.imod, hx, hy, if_neg hy0]
    push_cast; rfl
  · intro c ps as h
    simp only [modSimplify, bind_ok, get1_ok, match2_ok, Prod.exists] at h
    obtain ⟨_, rfl, l', r', rfl, h⟩ := h
    exact ⟨_, _, rfl⟩

/-- **C15 (partial).** `div_simplify` is sound in every model where the denominator is not zero. -/
theorem c15_div_simplify_partial {l r : Term} {ps : List (List Term)} {as : List Term}
    (h : divSimplify [.op .equals [l, r]] ps as = .ok ()) {s : Srt} (hl : sortOf l = some s) (hr : sortOf r = some s)
    (M : Model) (hd : ∀ o n d, l = .op o [n, d] → M.numv d ≠ 0) : M.val l = M.val r := by
  simp only [divSimplify, bind_ok, get1_ok, match2_ok, Prod.exists] at h
  obtain ⟨_, e, l', r', rfl, h⟩ := h
  cases e
  split at h
  · split at h
    · rw [assertEq_ok] at h; rw [h]
    · cases h
  simp only [bind_ok, Prod.exists] at h
  obtain ⟨n, d, int, hm, h⟩ := h
  have hl' : (int = true ∧ l = .op .intDiv [n, d]) ∨ (int = false ∧ l = .op .realDiv [n, d]) := by
    unfold matchDivision at hm
    split at hm
    · simp only [ok_inj, Prod.mk.injEq] at hm; obtain ⟨rfl, rfl, rfl⟩ := hm; exact Or.inl ⟨rfl, rfl⟩
    · simp only [ok_inj, Prod.mk.injEq] at hm; obtain ⟨rfl, rfl, rfl⟩ := hm; exact Or.inr ⟨rfl, rfl⟩
    · cases hm
  have hd0 : M.numv d ≠ 0 := by rcases hl' with ⟨-, rfl⟩ | ⟨-, rfl⟩ <;> exact hd _ _ _ rfl
  -- the value of the quotient
  have key : s.IsNum ∧ sortOf n = some s ∧ sortOf d = some s ∧
      (int = true → s = .int ∧ ∃ x y : ℤ, M.numv n = x ∧ M.numv d = y ∧ M.numv l = ((x / y : ℤ) : ℝ)) ∧
      (int = false → s = .real ∧ M.numv l = M.numv n / M.numv d) := by
    rcases hl' with ⟨rfl, rfl⟩ | ⟨rfl, rfl⟩
    · obtain ⟨-, rfl, hn, hdn⟩ | ⟨e, -⟩ := sort_division (Or.inl rfl) hl
      · obtain ⟨x, y, hx, hy, e⟩ := M.numv_intDiv hl
        have hy0 : y ≠ 0 := by rintro rfl; exact hd0 (by simpa using hy)
        rw [Interp.idiv, if_neg hy0] at e
        exact ⟨Or.inl rfl, hn, hdn, fun _ => ⟨rfl, x, y, hx, hy, M.numv_int e⟩, fun e => (by cases e)⟩
      · cases e
    · obtain ⟨e, -⟩ | ⟨-, rfl, hn, hdn⟩ := sort_division (Or.inr rfl) hl
      · cases e
      · refine ⟨Or.inr rfl, hn, hdn, fun e => (by cases e), fun _ => ⟨rfl, ?_⟩⟩
        rw [M.numv_real (M.numv_realDiv hl), Interp.rdiv, if_neg hd0]
  obtain ⟨hnum, hn, hdn, hi, hre⟩ := key
  rw [M.val_eq_iff hl hr hnum]
  split at h
  · next hnd =>
    simp only [bind_ok, orErr_ok, require_ok] at h
    obtain ⟨q, hq, rfl⟩ := h
    rw [M.numv_of_num (Term.asSignedNumber_val hq M)]
    subst hnd
    cases int
    · rw [(hre rfl).2, div_self hd0]; simp
    · obtain ⟨-, x, y, hx, hy, e⟩ := hi rfl
      have : x = y := by have := hx.symm.trans hy; exact_mod_cast this
      subst this
      have hx0 : x ≠ 0 := by rintro rfl; exact hd0 (by simpa using hx)
      rw [e, Int.ediv_self hx0]; simp
  split at h
  · next h1 =>
    rw [assertEq_ok] at h
    subst h
    have hd1 : M.numv d = 1 := by rw [M.numv_of_num (Term.asNumber_val h1 M)]; simp
    cases int
    · rw [(hre rfl).2, hd1, div_one]
    · obtain ⟨-, x, y, hx, hy, e⟩ := hi rfl
      have : y = 1 := by rw [hd1] at hy; exact_mod_cast hy.symm
      rw [e, hx, this, Int.ediv_one]
  simp only [bind_ok, orErr_ok] at h
  obtain ⟨dv, hdv, h⟩ := h
  split at h
  · cases h
  next hz =>
  simp only [bind_ok, orErr_ok, require_ok] at h
  obtain ⟨nv, hnv, e, he, f, hf, q, rfl, rfl⟩ := h
  have hnv' := M.numv_of_num (Term.asSignedNumber_val hnv M)
  have hdv' := M.numv_of_num (Term.asSignedNumber_val hdv M)
  cases int
  · obtain ⟨rfl, el⟩ := hre rfl
    simp only [divisionValue, Bool.false_eq_true, if_false, ok_inj] at he
    rw [(asFraction_spec hf hr (asFraction_exact hf hr fun e => (by cases e))).2.2, el, hnv', hdv', ← he]
    push_cast; rfl
  · obtain ⟨rfl, x, y, hx, hy, el⟩ := hi rfl
    simp only [divisionValue, if_true] at he
    split at he
    swap
    · cases he
    simp only [ok_inj] at he
    rw [(asFraction_spec hf hr (asFraction_exact hf hr fun _ => by rw [← he]; simp)).2.2, el, ← he]
    have hx' : x = nv.num := by
      have : (x : Rat) = nv := by have := hx.symm.trans hnv'; exact_mod_cast this
      rw [← this]; rfl
    have hy' : y = dv.num := by
      have : (y : Rat) = dv := by have := hy.symm.trans hdv'; exact_mod_cast this
      rw [← this]; rfl
    rw [hx', hy']; push_cast; rfl

/-- The accepted equality of a sum or product. -/
theorem sumProdSimplify_ok {k : Op} (hk : k = .add ∨ k = .mult) {l r : Term} {ps : List (List Term)} {as : List Term}
    (h : sumProdSimplify k [.op .equals [l, r]] ps as = .ok ()) {s : Srt} (hl : sortOf l = some s)
    (hr : sortOf r = some s) (xl : l.exactDivs = true) (xr : r.exactDivs = true) (M : Model) : M.val l = M.val r := by
  simp only [sumProdSimplify, bind_ok, get1_ok, match2_ok, Prod.exists, tryOr_ok] at h
  obtain ⟨_, e, l', r', rfl, h⟩ := h
  cases e
  obtain h | ⟨-, h⟩ := h
  · exact (sumProdCheck_ok hk h hr hl xr xl M).symm
  · exact sumProdCheck_ok hk h hl hr xl xr M

/-- **C15 (partial).** Missing: integer divisions of literals with a remainder. -/
theorem c15_sum_simplify_partial {l r : Term} {ps : List (List Term)} {as : List Term}
    (h : sumSimplify [.op .equals [l, r]] ps as = .ok ()) {s : Srt} (hl : sortOf l = some s)
    (hr : sortOf r = some s) (xl : l.exactDivs = true) (xr : r.exactDivs = true) (M : Model) : M.val l = M.val r :=
  sumProdSimplify_ok (Or.inl rfl) h hl hr xl xr M

/-- **C15 (partial).** Missing: integer divisions of literals with a remainder. -/
theorem c15_prod_simplify_partial {l r : Term} {ps : List (List Term)} {as : List Term}
    (h : prodSimplify [.op .equals [l, r]] ps as = .ok ()) {s : Srt} (hl : sortOf l = some s)
    (hr : sortOf r = some s) (xl : l.exactDivs = true) (xr : r.exactDivs = true) (M : Model) : M.val l = M.val r :=
  sumProdSimplify_ok (Or.inr rfl) h hl hr xl xr M

/-- **C15 (partial).** Missing: integer divisions of literals with a remainder. -/
theorem c15_comp_simplify_partial {l r : Term} {ps : List (List Term)} {as : List Term}
    (h : compSimplify [.op .equals [l, r]] ps as = .ok ()) {s : Srt} (hl : sortOf l = some s)
    (hr : sortOf r = some s) (xl : l.exactDivs = true) (xr : r.exactDivs = true) (M : Model) : M.val l = M.val r :=
  genericSimplify_sound_on compRewrite_ok h hl hr xl xr M

/-- **C15 (partial).** Missing: integer divisions of literals with a remainder. The condition is needed only for
numbers, not for bit-vectors and other sorts. -/
theorem c15_poly_simp_partial (addr : Term → Nat) {l r : Term} {ps : List (List Term)} {as : List Term}
    (h : polySimp addr [.op .equals [l, r]] ps as = .ok ()) {s : Srt} (hl : sortOf l = some s) (hr : sortOf r = some s)
    (hx : s = .int ∨ s = .real → l.exactDivs = true ∧ r.exactDivs = true) (M : Model) : M.val l = M.val r := by
  simp only [polySimp, bind_ok, get1_ok, match2_ok, Prod.exists] at h
  obtain ⟨_, e, l', r', rfl, p, hp, q, hq, h⟩ := h
  cases e
  rw [hl] at h
  split at h
  · cases h
  · next e =>
    cases e
    simp only [bind_ok, orPanic_ok, require_ok] at h
    obtain ⟨p', hp', q', hq', h⟩ := h
    exact poly_bv hl hr hp hq hp' hq' h
  · next hnb e =>
    cases e
    rw [require_ok] at h
    by_cases hn : s.IsNum
    · rw [M.val_eq_iff hl hr hn, ← fromTerm_num hl hn (hx hn).1 hp, ← fromTerm_num hr hn (hx hn).2 hq]
      have := Polynom.isZero_eval M.numv h
      rw [Polynom.eval_sub] at this
      linarith
    · rw [poly_other hl hr hn (fun w e => hnb w (by rw [e])) hp hq h]

/-- A difference under an optional conversion. -/
theorem matchDifference_ok {t x y : Term} (h : matchDifference t = .ok (x, y)) {s : Srt} (hs : sortOf t = some s)
    (M : Model) : M.numv t = M.numv x - M.numv y := by
  unfold matchDifference at h
  split at h
  · simp only [ok_inj, Prod.mk.injEq] at h
    obtain ⟨rfl, rfl⟩ := h
    obtain ⟨-, -, h⟩ := sort_toReal hs
    rw [M.numv_toReal h, M.numv_minus h]
  · simp only [ok_inj, Prod.mk.injEq] at h
    obtain ⟨rfl, rfl⟩ := h
    exact M.numv_minus hs
  · cases h

theorem matchDifference_num {t x y : Term} (h : matchDifference t = .ok (x, y)) {s s' : Srt} (hs : sortOf t = some s)
    (hx : sortOf x = some s') : s'.IsNum := by
  unfold matchDifference at h
  split at h
  · simp only [ok_inj, Prod.mk.injEq] at h
    obtain ⟨rfl, rfl⟩ := h
    obtain ⟨-, -, h⟩ := sort_toReal hs
    obtain ⟨hn, h, -⟩ := sort_minus h
    rw [hx] at h; cases h; exact hn
  · simp only [ok_inj, Prod.mk.injEq] at h
    obtain ⟨rfl, rfl⟩ := h
    obtain ⟨hn, h, -⟩ := sort_minus hs
    rw [hx] at h; cases h; exact hn
  · cases h

/-- Scaling with factors of the same sign keeps comparisons. -/
theorem sign_iff {k1 k2 a b c d : ℝ} (h : k1 * (a - b) = k2 * (c - d)) (h1 : k1 ≠ 0) (h2 : k2 ≠ 0)
    (hs : 0 < k1 ↔ 0 < k2) : (a < b ↔ c < d) ∧ (a > b ↔ c > d) ∧ (a ≤ b ↔ c ≤ d) ∧ (a ≥ b ↔ c ≥ d) := by
  have key : ∃ m : ℝ, 0 < m ∧ c - d = m * (a - b) := by
    refine ⟨k1 / k2, ?_, ?_⟩
    · rcases lt_or_gt_of_ne h1 with hn | hp
      · have : k2 < 0 := lt_of_le_of_ne (not_lt.1 fun h => absurd (hs.2 h) (not_lt.2 hn.le)) h2
        exact div_pos_of_neg_of_neg hn this
      · exact div_pos hp (hs.1 hp)
    · field_simp; linarith
  obtain ⟨m, hm, e⟩ := key
  have lt : a < b ↔ c < d := by
    rw [← sub_neg, ← sub_neg (a := c), e]
    exact ⟨fun h => mul_neg_of_pos_of_neg hm h, fun h => (pos_iff_neg_of_mul_neg h).1 hm⟩
  have gt : a > b ↔ c > d := by
    rw [gt_iff_lt, gt_iff_lt, ← sub_pos, ← sub_pos (a := c), e]
    exact ⟨fun h => mul_pos hm h, fun h => (pos_iff_pos_of_mul_pos h).1 hm⟩
  exact ⟨lt, gt, by rw [← not_lt, ← not_lt (a := d)]; exact not_congr gt, by
    rw [ge_iff_le, ge_iff_le, ← not_lt, ← not_lt (b := d)]; exact not_congr lt⟩

/-- **C15 (partial).** Missing: integer divisions of literals with a remainder. -/
theorem c15_poly_simp_rel_partial {c : List Term} {ps : List (List Term)} {as : List Term}
    (h : polySimpRel c ps as = .ok ()) (hc : ClauseOK c) (hps : ∀ p ∈ ps, ClauseOK p)
    (hx : ∀ p ∈ ps, ∀ t ∈ p, t.exactDivs = true) : Entails ps c := by
  intro M hM
  simp only [polySimpRel, bind_ok, get1_ok] at h
  obtain ⟨prem, hprem, t, rfl, h⟩ := h
  have := premiseTerm_ok.1 hprem
  subst this
  have hs := hc _ (List.mem_singleton_self _)
  have hp := hps _ (List.mem_singleton_self _) _ (List.mem_singleton_self _)
  have hxp := hx _ (List.mem_singleton_self _) _ (List.mem_singleton_self _)
  have hh := hM _ (List.mem_singleton_self _)
  rw [Model.sat_singleton] at hh ⊢
  split at h
  swap
  · cases h
  next l r =>
  rw [M.holds_eq] at hh
  obtain ⟨-, s, hl, hr⟩ := sort_equals.1 hp
  have hxl := exact_args hxp l (by simp)
  have hxr := exact_args hxp r (by simp)
  split at h
  · next c1 x1 x2 c2 y1 y2 h1 h2 =>
    unfold matchBvScaled at h1 h2
    split at h1
    swap
    · cases h1
    split at h2
    swap
    · cases h2
    cases h1
    cases h2
    split at h
    swap
    · cases h
    next w hcw =>
    simp only [bind_ok, match2_ok, Prod.exists, assertEq_ok] at h
    obtain ⟨_, ho1, _, ho2, left, right, rfl, l1, l2, rfl, r1, r2, rfl, _, rfl, _, rfl, _, rfl, rfl⟩ := h
    have odd : ∀ {k x y : Term}, assertOddBv k = .ok () → sortOf (.op .bvMul [k, .op .bvSub [x, y]]) = some s →
        ∃ w, s = .bv w ∧ (M.bits w (.op .bvMul [k, .op .bvSub [x, y]]) = 0 ↔ M.val x = M.val y) := by
      intro k x y hk hs
      obtain ⟨w, rfl, -, ht⟩ := sort_bvNary (by simp) hs
      obtain ⟨w', _, _, e, e', hx, hy⟩ := sort_bvBin (by simp) (ht (.op .bvSub [x, y]) (by simp))
      cases e
      cases e'
      refine ⟨w, rfl, ?_⟩
      unfold assertOddBv at hk
      split at hk
      swap
      · cases hk
      next v w' =>
      rw [require_ok] at hk
      have hkw := ht (.const (.bv v w')) (by simp)
      simp only [sortOf, Const.sort, Option.some.injEq, Srt.bv.injEq] at hkw
      subst hkw
      rw [M.bits_mul hs]
      simp only [List.map_cons, List.map_nil, List.prod_cons, List.prod_nil, mul_one, M.bits_sub hx hy]
      rw [M.bits_of_val (t := .const (.bv v w')) (b := BitVec.ofInt w' v) rfl]
      have := odd_bv_mul hk (M.bits w' x - M.bits w' y)
      rw [show BitVec.ofInt w' v = (v : BitVec w') from rfl, this, sub_eq_zero, M.val_bits hx, M.val_bits hy]
      simp
    obtain ⟨w1, rfl, e1⟩ := odd ho1 hl
    obtain ⟨w2, e, e2⟩ := odd ho2 hr
    cases e
    obtain ⟨-, s', h1, h2⟩ := sort_equals.1 hs
    rw [M.holds_eq]
    obtain ⟨rfl, -⟩ := sort_equals.1 h1
    refine M.val_eq_of_holds h1 h2 ?_
    rw [M.holds_eq, M.holds_eq, ← e1, ← e2]
    rw [M.val_bits hl, M.val_bits hr] at hh
    injection hh with _ hh
    rw [hh]
  · simp only [polySimpRelNum, bind_ok, match2_ok, Prod.exists, orErr_ok, require_ok] at h
    obtain ⟨c1, xs, rfl, c2, ys, rfl, x1, x2, hx12, y1, y2, hy12, _, hk1, k1, rfl, _, hk2, k2, rfl, _, hk10, _,
      hk20, left, right, rfl, h⟩ := h
    split at h
    swap
    · cases h
    next o' l1 l2 o r1 r2 =>
    split at h
    swap
    · cases h
    next ho =>
    obtain ⟨ho, rfl⟩ := ho
    simp only [bind_ok, require_ok, assertEq_ok] at h
    obtain ⟨_, hsign, _, rfl, _, rfl, _, rfl, rfl⟩ := h
    obtain ⟨hn, hcl⟩ := fold_children (Or.inr rfl) hl
    obtain ⟨-, hcr⟩ := fold_children (Or.inr rfl) hr
    have v1 := (asFraction_spec hk1 (hcl c1 (by simp)) (exact_args hxl c1 (by simp))).2.2 M
    have v2 := (asFraction_spec hk2 (hcr c2 (by simp)) (exact_args hxr c2 (by simp))).2.2 M
    have d1 := matchDifference_ok hx12 (hcl xs (by simp)) M
    have d2 := matchDifference_ok hy12 (hcr ys (by simp)) M
    rw [M.val_eq_iff hl hr hn, M.numv_mult hl, M.numv_mult hr] at hh
    simp only [List.map_cons, List.map_nil, List.prod_cons, List.prod_nil, mul_one, v1, v2, d1, d2] at hh
    obtain ⟨-, s', h1, h2⟩ := sort_equals.1 hs
    have hk1' : (k1 : ℝ) ≠ 0 := by exact_mod_cast hk10
    have hk2' : (k2 : ℝ) ≠ 0 := by exact_mod_cast hk20
    rw [M.holds_eq]
    by_cases heq : o = .equals
    · subst heq
      obtain ⟨rfl, s1, ha, hb⟩ := sort_equals.1 h1
      obtain ⟨-, s2, ha', hb'⟩ := sort_equals.1 h2
      have n1 : s1.IsNum := matchDifference_num hx12 (hcl xs (by simp)) ha
      have n2 : s2.IsNum := matchDifference_num hy12 (hcr ys (by simp)) ha'
      refine M.val_eq_of_holds h1 h2 ?_
      rw [M.holds_eq, M.holds_eq, M.val_eq_iff ha hb n1, M.val_eq_iff ha' hb' n2, ← sub_eq_zero, ← sub_eq_zero (b := M.numv r2)]
      constructor
      · intro e; rw [e, mul_zero] at hh; exact (mul_eq_zero.1 hh.symm).resolve_left hk2'
      · intro e; rw [e, mul_zero] at hh; exact (mul_eq_zero.1 hh).resolve_left hk1'
    · have hc : o.IsCmp := by unfold Op.IsCmp; tauto
      have hsg : (0 : ℝ) < k1 ↔ (0 : ℝ) < k2 := by
        have := hsign.resolve_left heq
        exact_mod_cast this
      obtain ⟨rfl, sa, sb, ha, hb, na, nb⟩ := (sort_cmp hc).1 h1
      obtain ⟨-, sa', sb', ha', hb', na', nb'⟩ := (sort_cmp hc).1 h2
      refine M.val_eq_of_holds h1 h2 ?_
      obtain ⟨q1, q2, q3, q4⟩ := M.holds_cmp ha hb na nb
      obtain ⟨q1', q2', q3', q4'⟩ := M.holds_cmp ha' hb' na' nb'
      obtain ⟨a1, a2, a3, a4⟩ := sign_iff hh hk1' hk2' hsg
      rcases hc with rfl | rfl | rfl | rfl
      · rw [q1, q1']; exact a1
      · rw [q2, q2']; exact a2
      · rw [q3, q3']; exact a3
      · rw [q4, q4']; exact a4

/-! ## Termination of the loop in `comp_simplify` -/

/-- A measure for the rewriting of comparisons. -/
def compMeasure : Term → Nat
  | .op .lt _ | .op .gt _ | .op .ge _ => 2
  | .op .le _ => 1
  | _ => 0

theorem compRewrite_decreases : Decreases compRewrite compMeasure := by
  intro t u h
  have hb : ∀ b, compMeasure (Term.ofBool b) = 0 := by intro b; cases b <;> rfl
  unfold compRewrite at h
  split at h
  · simp only [bind_ok] at h
    obtain ⟨p, -, q, -, h⟩ := h
    split at h
    · simp only [ok_inj, Option.some.injEq] at h; subst h; rw [hb]; simp [compMeasure]
    · split at h <;> simp only [ok_inj, Option.some.injEq] at h <;> subst h <;> simp [compMeasure]
  · simp only [bind_ok] at h
    obtain ⟨p, -, q, -, h⟩ := h
    split at h
    · simp only [ok_inj, Option.some.injEq] at h; subst h; rw [hb]; simp [compMeasure]
    · split at h
      · simp only [ok_inj, Option.some.injEq] at h; subst h; simp [compMeasure]
      · simp at h
  · simp only [ok_inj, Option.some.injEq] at h; subst h; simp [compMeasure]
  · simp only [ok_inj, Option.some.injEq] at h; subst h; simp [compMeasure]
  · simp at h

/-- **C15.** No infinite sequence of rewrites exists. -/
theorem c15_comp_rewriting_terminates : WellFounded fun u t => compRewrite t = .ok (some u) :=
  compRewrite_decreases.wf

/-- **C15.** The bound on the number of rounds in the model of the loop is never reached. -/
theorem c15_comp_loop_terminates (goal t : Term) {n : Nat} (hn : simplifyRounds t ≤ n) :
    simplifyFix compRewrite goal n [] t = simplifyFix compRewrite goal (simplifyRounds t) [] t := by
  have hle : compMeasure t ≤ 2 := by unfold compMeasure; split <;> omega
  unfold simplifyRounds at hn ⊢
  have := t.size_pos
  exact compRewrite_decreases.rounds goal (by omega) (by omega)

namespace C15
/-- An integer variable. -/
abbrev x : Term := .var "x" .int
/-- An integer variable. -/
abbrev y : Term := .var "y" .int
/-- A bit-vector variable. -/
abbrev b : Term := .var "b" (.bv 8)
/-- A bit-vector variable. -/
abbrev c : Term := .var "c" (.bv 8)
/-- An integer numeral. -/
abbrev n (z : ℤ) : Term := .const (.int z)
/-- A bit-vector numeral. -/
abbrev v (z : ℤ) : Term := .const (.bv z 8)
/-- An equality. -/
abbrev eq (a b : Term) : List Term := [.op .equals [a, b]]
/-- `(div 1 2)`, whose value is 0. -/
abbrev half : Term := .op .intDiv [n 1, n 2]
end C15
open C15

example : minusSimplify (eq (.op .sub [n 3, n 5]) (.op .sub [n 2])) [] [] = .ok () := by decide +kernel
example : modSimplify (eq (.op .mod [.op .sub [n 7], n 2]) (n 1)) [] [] = .ok () := by decide +kernel
example : divSimplify (eq (.op .intDiv [.op .sub [n 7], n 2]) (.op .sub [n 4])) [] [] = .ok () ∧
    sortOf (.op .intDiv [.op .sub [n 7], n 2]) = some .int := by decide +kernel
example : sumSimplify (eq (.op .add [n 1, x, n 2, y]) (.op .add [n 3, x, y])) [] [] = .ok () ∧
    (Term.op .add [n 1, x, n 2, y]).exactDivs = true := by decide +kernel
example : prodSimplify (eq (.op .mult [n 2, x, n 0]) (n 0)) [] [] = .ok () ∧
    (Term.op .mult [n 2, x, n 0]).exactDivs = true := by decide +kernel
example : compSimplify (eq (.op .lt [x, y]) (.op .not [.op .le [y, x]])) [] [] = .ok () ∧
    (Term.op .lt [x, y]).exactDivs = true := by decide +kernel
example : polySimp (fun t => if t = x then 0 else 1) (eq (.op .mult [.op .add [x, y], .op .sub [x, y]])
    (.op .sub [.op .mult [x, x], .op .mult [y, y]])) [] [] = .ok () ∧
    (Term.op .mult [.op .add [x, y], .op .sub [x, y]]).exactDivs = true := by decide +kernel
example : polySimp Term.size (eq (.op .bvAdd [.op .bvMul [v 255, b], b]) (v 0)) [] [] = err := by decide +kernel
example : polySimp Term.size (eq (.op .bvSub [b, c]) (.op .bvAdd [.op .bvMul [v 255, c], b])) [] [] = .ok () := by
  decide +kernel
example : polySimpRel (eq (.op .le [x, y]) (.op .le [n 0, .op .sub [y, x]]))
    [eq (.op .mult [n 2, .op .sub [x, y]]) (.op .mult [n 2, .op .sub [n 0, .op .sub [y, x]]])] [] = .ok () := by
  decide +kernel
example : polySimpRel (eq (.op .equals [b, c]) (.op .equals [c, b]))
    [eq (.op .bvMul [v 1, .op .bvSub [b, c]]) (.op .bvMul [v 255, .op .bvSub [c, b]])] [] = .ok () := by
  decide +kernel

/-! ## The unrestricted claims are false -/

/-- A clause accepted by a rule but false in some model refutes soundness. -/
theorem not_sound_of {r : Rule} {c : List Term} {ps : List (List Term)} {as : List Term} (h : r c ps as = .ok ())
    (hc : ClauseOK c) (hps : ∀ p ∈ ps, ClauseOK p) (M : Model) (hM : ∀ p ∈ ps, M.Sat p) (hn : ¬ M.Sat c) :
    ¬ SoundRule r := fun hs => hn (hs c ps as h hc hps M hM)

namespace C15
/-- A model where all integer variables are 0 and `(div 0 0)` is 0. -/
noncomputable def M : Model := Witness.model fun _ _ => .int 0
theorem env_x : M.env "x" .int = .int 0 := by simp [M, Witness.model, Witness.coerce, Witness.valSort]; rfl
theorem divZero : M.I.divZero 0 = 0 := rfl
theorem env_y : M.env "y" .int = .int 0 := by simp [M, Witness.model, Witness.coerce, Witness.valSort]; rfl
end C15

/-- Evaluates the clause in the model. -/
macro "refute_eval" : tactic => `(tactic| (
  rw [Model.sat_singleton]
  simp only [Model.Holds, Model.val, eval, evalL_eq_map, List.map_cons, List.map_nil, evalConst, C15.env_x, C15.env_y]
  norm_num [evalOp, stdOp, stdCmp, stdAdd, stdMult, stdSub, subL, Val.asInts, Val.asNums, Val.num, Sem.chain,
    Interp.idiv, Val.prop, Val.T, C15.divZero, if_neg (List.cons_ne_nil _ _)]))

/-- **C15.** `div_simplify` accepts `(= (div x x) 1)`, which fails if `x` is 0. -/
theorem c15_div_simplify_fails : ¬ SoundRule divSimplify := by
  refine not_sound_of (c := eq (.op .intDiv [x, x]) (n 1)) (ps := []) (as := []) (by decide +kernel)
    (by simp [ClauseOK]; decide +kernel) (by simp) C15.M (by simp) ?_
  refute_eval

/-- **C15.** `prod_simplify` accepts `(= (* (div 1 2) 2) 1)`. -/
theorem c15_prod_simplify_fails : ¬ SoundRule prodSimplify := by
  refine not_sound_of (c := eq (.op .mult [half, n 2]) (n 1)) (ps := []) (as := []) (by decide +kernel)
    (by simp [ClauseOK]; decide +kernel) (by simp) C15.M (by simp) ?_
  refute_eval

/-- **C15.** `sum_simplify` accepts `(= (+ (div 1 2) (div 1 2)) 1)`. -/
theorem c15_sum_simplify_fails : ¬ SoundRule sumSimplify := by
  refine not_sound_of (c := eq (.op .add [half, half]) (n 1)) (ps := []) (as := []) (by decide +kernel)
    (by simp [ClauseOK]; decide +kernel) (by simp) C15.M (by simp) ?_
  refute_eval

/-- **C15.** `comp_simplify` accepts `(= (<= (div 1 2) 0) false)`. -/
theorem c15_comp_simplify_fails : ¬ SoundRule compSimplify := by
  refine not_sound_of (c := eq (.op .le [half, n 0]) .fls) (ps := []) (as := []) (by decide +kernel)
    (by simp [ClauseOK]; decide +kernel) (by simp) C15.M (by simp) ?_
  refute_eval

/-- **C15.** `poly_simp` accepts `(= (+ (div 1 2) (div 1 2)) 1)`. -/
theorem c15_poly_simp_fails : ¬ SoundRule (polySimp Term.size) := by
  refine not_sound_of (c := eq (.op .add [half, half]) (n 1)) (ps := []) (as := []) (by decide +kernel)
    (by simp [ClauseOK]; decide +kernel) (by simp) C15.M (by simp) ?_
  refute_eval

/-- **C15.** `poly_simp_rel` uses `(div 1 2)` as a non-zero factor. -/
theorem c15_poly_simp_rel_fails : ¬ SoundRule polySimpRel := by
  refine not_sound_of (c := eq (.op .equals [x, n 1]) (.op .equals [y, n 0])) (as := [])
    (ps := [eq (.op .mult [half, .op .sub [x, n 1]]) (.op .mult [half, .op .sub [y, n 0]])]) (by decide +kernel)
    (by simp [ClauseOK]; decide +kernel) (by simp [ClauseOK]; decide +kernel) C15.M ?_ ?_
  · simp only [List.mem_singleton, forall_eq]
    refute_eval
  · refute_eval

end Carcara
