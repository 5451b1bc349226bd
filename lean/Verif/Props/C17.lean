import Verif.Lemmas.Linear
import Verif.Spec.Witness

/-!
# C17: the other linear arithmetic rules

`la_rw_eq`, `la_disequality`, `la_totality`, `la_mult_pos` and `la_mult_neg` are sound. `la_tautology` is sound if integer
divisions of literals leave no remainder.
-/

namespace Carcara
open Classical

/-- Value of a comparison with `≤`. -/
theorem Model.holds_le (M : Model) {a b : Term} {s : Srt} (h : sortOf (.op .le [a, b]) = some s) :
    M.Holds (.op .le [a, b]) ↔ M.numv a ≤ M.numv b := by
  obtain ⟨-, sa, sb, ha, hb, na, nb⟩ := (sort_cmp (by simp [Op.IsCmp])).1 h
  exact (M.holds_cmp ha hb na nb).2.2.1

/-- **C17.** -/
theorem c17_la_rw_eq : SoundRule laRwEq := by
  intro c ps as h hc hps M hM
  simp only [laRwEq, bind_ok, get1_ok, match2_ok, assertEq_ok, Prod.exists] at h
  obtain ⟨_, rfl, l, r, rfl, t1, u1, rfl, p, q, rfl, t2, u2, rfl, u3, t3, rfl, _, rfl, _, rfl, _, rfl, rfl⟩ := h
  have hs := hc _ (List.mem_singleton_self _)
  obtain ⟨-, s, hl, hr⟩ := sort_equals.1 hs
  obtain ⟨rfl, r, ht, hu⟩ := sort_equals.1 hl
  obtain ⟨-, -, hpq⟩ := sort_and.1 hr
  have h1 := hpq (.op .le [t1, u1]) (by simp)
  have h2 := hpq (.op .le [u1, t1]) (by simp)
  obtain ⟨-, sa, sb, ha, hb, na, nb⟩ := (sort_cmp (by simp [Op.IsCmp])).1 h1
  rw [ht] at ha; cases ha
  rw [Model.sat_singleton, M.holds_eq]
  refine M.val_eq_of_holds hl hr ?_
  rw [M.holds_eq, M.val_eq_iff ht hu na, M.holds_and]
  simp only [List.mem_cons, List.not_mem_nil, or_false, forall_eq_or_imp, forall_eq, M.holds_le h1, M.holds_le h2]
  exact le_antisymm_iff

/-- **C17.** -/
theorem c17_la_disequality : SoundRule laDisequality := by
  intro c ps as h hc hps M hM
  simp only [laDisequality, bind_ok, get1_ok, match1_ok, match2_ok, match3_ok, assertEq_ok, Prod.exists] at h
  obtain ⟨_, rfl, p, q, r, rfl, t1, u1, rfl, _, rfl, t2, u2, rfl, _, rfl, u3, t3, rfl, _, rfl, _, rfl, _, rfl, rfl⟩ := h
  have hs := hc _ (List.mem_singleton_self _)
  obtain ⟨-, -, hpq⟩ := sort_or.1 hs
  obtain ⟨-, r, ht, hu⟩ := sort_equals.1 (hpq (.op .equals [t1, u1]) (by simp))
  have h1 := (sort_not.1 (hpq (.op .not [.op .le [t1, u1]]) (by simp))).2
  have h2 := (sort_not.1 (hpq (.op .not [.op .le [u1, t1]]) (by simp))).2
  obtain ⟨-, sa, sb, ha, hb, na, nb⟩ := (sort_cmp (by simp [Op.IsCmp])).1 h1
  rw [ht] at ha; cases ha
  rw [Model.sat_singleton, M.holds_or]
  simp only [List.mem_cons, List.not_mem_nil, or_false, exists_eq_or_imp, exists_eq_left, M.holds_not, M.holds_eq,
    M.val_eq_iff ht hu na, M.holds_le h1, M.holds_le h2]
  grind

/-- **C17.** -/
theorem c17_la_totality : SoundRule laTotality := by
  intro c ps as h hc hps M hM
  simp only [laTotality, bind_ok, get1_ok, match2_ok, assertEq_ok, Prod.exists] at h
  obtain ⟨_, rfl, p, q, rfl, t1, u1, rfl, u2, t2, rfl, _, rfl, rfl⟩ := h
  obtain ⟨-, -, hpq⟩ := sort_or.1 (hc _ (List.mem_singleton_self _))
  have h1 := hpq (.op .le [t1, u1]) (by simp)
  have h2 := hpq (.op .le [u1, t1]) (by simp)
  rw [Model.sat_singleton, M.holds_or]
  simp only [List.mem_cons, List.not_mem_nil, or_false, exists_eq_or_imp, exists_eq_left, M.holds_le h1, M.holds_le h2]
  exact le_total _ _

/-- The sorts and the values of the two comparisons in a tautology. -/
theorem Model.numv_signed (M : Model) {t : Term} {q : Rat} (h : t.asSignedNumber = some q) : M.numv t = q :=
  M.numv_of_num (Term.asSignedNumber_val h M)

theorem Model.holds_cmp_pair (M : Model) {o : Op} (ho : o.IsCmp) {a b : Term} {s : Srt}
    (h : sortOf (.op o [a, b]) = some s) : M.Holds (.op o [a, b]) ↔ cmpRel o (M.numv a) (M.numv b) := by
  obtain ⟨-, sa, sb, ha, hb, na, nb⟩ := (sort_cmp ho).1 h
  obtain ⟨h1, h2, h3, h4⟩ := M.holds_cmp ha hb na nb
  rcases ho with rfl | rfl | rfl | rfl
  exacts [h1, h2, h3, h4]

/-- The disjunctions of `la_tautology`. -/
theorem tautologyCase_ok {a b : Term} (h : tautologyCase a b = .ok ()) (hs : sortOf (.op .or [a, b]) = some .bool)
    (M : Model) : M.Holds (.op .or [a, b]) := by
  obtain ⟨-, -, hpq⟩ := sort_or.1 hs
  have ha := hpq a (by simp)
  have hb := hpq b (by simp)
  rw [M.holds_or]
  simp only [List.mem_cons, List.not_mem_nil, or_false, exists_eq_or_imp, exists_eq_left]
  unfold tautologyCase at h
  split at h
  · simp only [bind_ok, assertEq_ok, assertLessEq, orErr_ok, require_ok] at h
    obtain ⟨_, rfl, p, hp, q, hq, hle⟩ := h
    rw [M.holds_not, M.holds_cmp_pair (by simp [Op.IsCmp]) (sort_not.1 ha).2, M.holds_cmp_pair (by simp [Op.IsCmp]) hb]
    simp only [cmpRel, M.numv_signed hp, M.numv_signed hq]
    have : (p : ℝ) ≤ q := by exact_mod_cast hle
    rw [← imp_iff_not_or]
    exact fun h => h.trans this
  · simp only [bind_ok, assertEq_ok] at h
    obtain ⟨_, rfl, rfl⟩ := h
    rw [M.holds_not]; exact Classical.em _
  · simp only [bind_ok, assertEq_ok, assertLessEq, orErr_ok, require_ok] at h
    obtain ⟨_, rfl, p, hp, q, hq, hle⟩ := h
    rw [M.holds_not, M.holds_cmp_pair (by simp [Op.IsCmp]) (sort_not.1 ha).2, M.holds_cmp_pair (by simp [Op.IsCmp]) hb]
    simp only [cmpRel, M.numv_signed hp, M.numv_signed hq, ge_iff_le]
    have : (p : ℝ) ≤ q := by exact_mod_cast hle
    rw [← imp_iff_not_or]
    exact fun h => this.trans h
  · simp only [bind_ok, assertEq_ok] at h
    obtain ⟨_, rfl, rfl⟩ := h
    rw [M.holds_not]; exact Classical.em _
  · simp only [bind_ok, assertEq_ok, assertLessThan, orErr_ok, require_ok] at h
    obtain ⟨_, rfl, p, hp, q, hq, hlt⟩ := h
    rw [M.holds_not, M.holds_not, M.holds_cmp_pair (by simp [Op.IsCmp]) (sort_not.1 ha).2,
      M.holds_cmp_pair (by simp [Op.IsCmp]) (sort_not.1 hb).2]
    simp only [cmpRel, M.numv_signed hp, M.numv_signed hq, ge_iff_le]
    have : (p : ℝ) < q := by exact_mod_cast hlt
    rw [← imp_iff_not_or]
    exact fun h h' => by linarith
  · simp [err] at h

/-- The full claim for `la_tautology`. -/
def LaTautologySound : Prop := SoundRule laTautology

/-- **C17 (partial).** Missing are clauses where an integer division of literals leaves a remainder; see
`c17_la_tautology_fails`. Disjunctions need no condition. -/
theorem c17_la_tautology_partial {c : List Term} {ps : List (List Term)} {as : List Term}
    (h : laTautology c ps as = .ok ()) (hc : ClauseOK c) (hx : ∀ t ∈ c, t.exactDivs = true ∨ ∃ a b, t = .op .or [a, b])
    (M : Model) : M.Sat c := by
  simp only [laTautology, bind_ok, get1_ok] at h
  obtain ⟨t, rfl, h⟩ := h
  have hs := hc _ (List.mem_singleton_self _)
  rw [Model.sat_singleton]
  split at h
  · exact tautologyCase_ok h hs M
  · next hno =>
    obtain hx | ⟨a, b, e⟩ := hx _ (List.mem_singleton_self _)
    swap
    · exact absurd e (hno a b)
    simp only [bind_ok, require_ok, Prod.exists] at h
    obtain ⟨o, d, hn, ht, hd⟩ := h
    by_contra hf
    obtain ⟨ho, hcmp⟩ := normalize_ok (M := M) hn hs hx hf
    rw [ht, coeffEval_nil] at hcmp
    rcases hd with hd | ⟨rfl, hd⟩
    · have hd' : (0 : ℝ) < d.const := by exact_mod_cast hd
      rcases ho with rfl | rfl | rfl <;> simp only [cmpRel] at hcmp <;> linarith
    · rw [hd] at hcmp; simp [cmpRel] at hcmp

/-- The condition under which `la_mult_pos` and `la_mult_neg` scale a comparison. -/
theorem laMult_sound (pos : Bool) : SoundRule (laMult pos) := by
  intro c ps as h hc hps M hM
  simp only [laMult, bind_ok, get1_ok, match2_ok, orErr_ok, require_ok, Prod.exists] at h
  obtain ⟨_, rfl, p, scaled, rfl, cmp, original, rfl, m, zero, rfl, z, hz, _, rfl, h⟩ := h
  have hs := hc _ (List.mem_singleton_self _)
  split at h
  swap
  · simp [err] at h
  next o l r =>
  simp only [bind_ok, match2_ok, assertEq_ok, Prod.exists] at h
  obtain ⟨o', ho', ml, mr, hm, m1, l1, rfl, m2, r2, rfl, _, rfl, _, rfl, _, rfl, rfl⟩ := h
  obtain ⟨-, hp, hsc⟩ := sort_implies.1 hs
  obtain ⟨-, -, hcs⟩ := sort_and.1 hp
  have hcmp := hcs _ (List.mem_cons_self ..)
  have hor := hcs (.op o [l, r]) (by simp)
  rw [Model.sat_singleton, M.holds_implies, M.holds_and]
  simp only [List.mem_cons, List.not_mem_nil, or_false, forall_eq_or_imp, forall_eq, and_imp]
  intro hmc ho
  unfold matchComparison at hm
  split at hm
  swap
  · simp [panic] at hm
  next hocmp =>
  rw [match2_ok] at hm
  subst hm
  have hz0 : M.numv zero = 0 := by
    rw [M.numv_signed (q := 0)]
    · simp
    · unfold Term.asSignedNumber
      split
      · simp [Term.asNumber] at hz
      · exact hz
  have hml : M.val l = M.val r → M.val (.op .mult [m, l]) = M.val (.op .mult [m, r]) := by
    intro e; simp [M.val_op, e]
  have hcm : (if pos then Op.gt else Op.lt).IsCmp := by cases pos <;> simp [Op.IsCmp]
  rw [M.holds_cmp_pair hcm hcmp, hz0] at hmc
  by_cases heq : o' = .equals
  · subst heq
    have : o = .equals := by
      cases pos
      · simp only [Bool.false_eq_true, if_false, mirrorOperator] at ho'
        split at ho' <;> simp_all [panic]
      · simpa using ho'
    subst this
    rw [M.holds_eq] at ho ⊢
    exact hml ho
  have hc' : o'.IsCmp := by unfold Op.IsCmp; tauto
  have hoc : o.IsCmp := by
    cases pos
    · simp only [Bool.false_eq_true, if_false, mirrorOperator] at ho'
      split at ho' <;> simp_all [panic, Op.IsCmp]
    · simp only [if_true, ok_inj] at ho'; exact ho' ▸ hc'
  obtain ⟨-, sa, sb, ha, hb, na, nb⟩ := (sort_cmp hc').1 hsc
  rw [M.holds_cmp_pair hoc hor] at ho
  rw [M.holds_cmp_pair hc' hsc, M.numv_mult ha, M.numv_mult hb]
  simp only [List.map_cons, List.map_nil, List.prod_cons, List.prod_nil, mul_one]
  cases pos
  · simp only [Bool.false_eq_true, if_false, cmpRel] at hmc
    rcases hoc with rfl | rfl | rfl | rfl <;>
      simp only [Bool.false_eq_true, if_false, mirrorOperator, ok_inj] at ho' <;> subst ho' <;>
      simp only [cmpRel] at ho ⊢ <;> nlinarith
  · simp only [if_true, cmpRel, ok_inj] at hmc ho'
    subst ho'
    rcases hoc with rfl | rfl | rfl | rfl <;> simp only [cmpRel] at ho ⊢ <;> nlinarith

/-- **C17.** -/
theorem c17_la_mult_pos : SoundRule laMultPos := laMult_sound true
/-- **C17.** -/
theorem c17_la_mult_neg : SoundRule laMultNeg := laMult_sound false

namespace C17
/-- An integer variable. -/
abbrev x : Term := .var "x" .int
/-- An integer variable. -/
abbrev y : Term := .var "y" .int
/-- An integer numeral. -/
abbrev n (z : ℤ) : Term := .const (.int z)
/-- `(> (div 1 2) 0)`; the rule reads the quotient as 1/2. -/
abbrev bad : Term := .op .gt [.op .intDiv [n 1, n 2], n 0]
end C17
open C17

/-- **C17.** The claim for `la_tautology` fails: `(> (div 1 2) 0)` is accepted, but the quotient is 0. -/
theorem c17_la_tautology_fails : ¬ LaTautologySound := by
  intro h
  have hM := h [bad] [] [] (by decide +kernel) (by simp [ClauseOK]; decide +kernel) (by simp)
    (Witness.model fun _ _ => .int 0) (by simp)
  rw [Model.sat_singleton] at hM
  simp only [Model.Holds, Model.val, eval, evalL_eq_map, List.map_cons, List.map_nil, evalConst] at hM
  norm_num [evalOp, stdOp, stdCmp, Val.asInts, Val.asNums, Val.num, Sem.chain, Interp.idiv] at hM

example : laRwEq [.op .equals [.op .equals [x, y], .op .and [.op .le [x, y], .op .le [y, x]]]] [] [] = .ok () := by
  decide
example : laDisequality [.op .or [.op .equals [x, y], .op .not [.op .le [x, y]], .op .not [.op .le [y, x]]]] [] []
    = .ok () := by decide
example : laTotality [.op .or [.op .le [x, y], .op .le [y, x]]] [] [] = .ok () := by decide
example : laTautology [.op .or [.op .not [.op .le [x, n 1]], .op .not [.op .ge [x, n 2]]]] [] [] = .ok () := by
  decide +kernel
example : laTautology [.op .not [.op .lt [.op .add [x, n 1], x]]] [] [] = .ok () ∧
    (Term.op .not [.op .lt [.op .add [x, n 1], x]]).exactDivs = true ∧
    ClauseOK [.op .not [.op .lt [.op .add [x, n 1], x]]] :=
  ⟨by decide +kernel, by decide, by simp [ClauseOK]; decide +kernel⟩
example : laMultPos [.op .implies [.op .and [.op .gt [n 2, n 0], .op .le [x, y]],
    .op .le [.op .mult [n 2, x], .op .mult [n 2, y]]]] [] [] = .ok () := by decide +kernel
example : laMultNeg [.op .implies [.op .and [.op .lt [x, n 0], .op .le [x, y]],
    .op .ge [.op .mult [x, x], .op .mult [x, y]]]] [] [] = .ok () := by decide +kernel

end Carcara
