import Verif.Spec.Arith
import Verif.Model.ArithSimplify
import Verif.Lemmas.Arith
import Verif.Lemmas.Simplify

/-! # Values of arithmetic terms -/

namespace Carcara
open Classical Val Sem

theorem cast_sum (zs : List ℤ) : (zs.sum : ℝ) = (zs.map (Int.cast : ℤ → ℝ)).sum := by
  induction zs with
  | nil => simp
  | cons z zs ih => simp [ih]

theorem cast_prod (zs : List ℤ) : (zs.prod : ℝ) = (zs.map (Int.cast : ℤ → ℝ)).prod := by
  induction zs with
  | nil => simp
  | cons z zs ih => simp [ih]

/-- Sort of numbers. -/
def Srt.IsNum (s : Srt) : Prop := s = .int ∨ s = .real

namespace Model
variable (M : Model)

theorem num_eq {t : Term} {s : Srt} (h : sortOf t = some s) (hs : s.IsNum) : (M.val t).num = some (M.numv t) := by
  unfold numv
  rcases hs with rfl | rfl
  · obtain ⟨z, e⟩ := M.val_int h; simp [e, Val.num]
  · obtain ⟨z, e⟩ := M.val_real h; simp [e, Val.num]

theorem numv_of_num {t : Term} {r : ℝ} (h : (M.val t).num = some r) : M.numv t = r := by simp [numv, h]

theorem numv_int {t : Term} {z : ℤ} (h : M.val t = .int z) : M.numv t = z := by simp [numv, h, Val.num]
theorem numv_real {t : Term} {z : ℝ} (h : M.val t = .real z) : M.numv t = z := by simp [numv, h, Val.num]

theorem val_eq_iff {a b : Term} {s : Srt} (ha : sortOf a = some s) (hb : sortOf b = some s) (hs : s.IsNum) :
    M.val a = M.val b ↔ M.numv a = M.numv b := by
  rcases hs with rfl | rfl
  · obtain ⟨z, e⟩ := M.val_int ha
    obtain ⟨y, e'⟩ := M.val_int hb
    simp [M.numv_int e, M.numv_int e', e, e']
  · obtain ⟨z, e⟩ := M.val_real ha
    obtain ⟨y, e'⟩ := M.val_real hb
    simp [M.numv_real e, M.numv_real e', e, e']

theorem numv_eq_of_val {a b : Term} (h : M.val a = M.val b) : M.numv a = M.numv b := by simp [numv, h]

theorem numv_int_exists {t : Term} (h : sortOf t = some .int) : ∃ z : ℤ, M.numv t = z := by
  obtain ⟨z, e⟩ := M.val_int h
  exact ⟨z, M.numv_int e⟩

theorem map_numv_int {ts : List Term} {zs : List ℤ} (h : ts.map M.val = zs.map .int) :
    ts.map M.numv = zs.map (Int.cast : ℤ → ℝ) := by
  induction ts generalizing zs with
  | nil => cases zs <;> simp_all
  | cons t ts ih =>
    cases zs with
    | nil => simp at h
    | cons z zs =>
      simp only [List.map_cons, List.cons.injEq] at h ⊢
      exact ⟨M.numv_int h.1, ih h.2⟩

theorem map_numv_real {ts : List Term} {zs : List ℝ} (h : ts.map M.val = zs.map .real) : ts.map M.numv = zs := by
  induction ts generalizing zs with
  | nil => cases zs <;> simp_all
  | cons t ts ih =>
    cases zs with
    | nil => simp at h
    | cons z zs =>
      simp only [List.map_cons, List.cons.injEq] at h ⊢
      exact ⟨M.numv_real h.1, ih h.2⟩

theorem numv_add {ts : List Term} {s : Srt} (h : sortOf (.op .add ts) = some s) :
    M.numv (.op .add ts) = (ts.map M.numv).sum := by
  obtain ⟨hne, ⟨rfl, hi⟩ | ⟨rfl, hr⟩⟩ := arith_children (Or.inl rfl) h
  · obtain ⟨zs, e⟩ := M.vals_int hi
    rw [M.map_numv_int e, M.numv_int (z := zs.sum) (by rw [M.val_op, e, evalOp_add_int])]
    exact cast_sum _
  · obtain ⟨zs, e⟩ := M.vals_real hr
    have : zs ≠ [] := by rintro rfl; simp at e; exact hne e
    rw [M.map_numv_real e, M.numv_real (z := zs.sum) (by rw [M.val_op, e, evalOp_add_real _ _ this])]

theorem numv_mult {ts : List Term} {s : Srt} (h : sortOf (.op .mult ts) = some s) :
    M.numv (.op .mult ts) = (ts.map M.numv).prod := by
  obtain ⟨hne, ⟨rfl, hi⟩ | ⟨rfl, hr⟩⟩ := arith_children (Or.inr (Or.inr rfl)) h
  · obtain ⟨zs, e⟩ := M.vals_int hi
    rw [M.map_numv_int e, M.numv_int (z := zs.prod) (by rw [M.val_op, e, evalOp_mult_int])]
    exact cast_prod _
  · obtain ⟨zs, e⟩ := M.vals_real hr
    have : zs ≠ [] := by rintro rfl; simp at e; exact hne e
    rw [M.map_numv_real e, M.numv_real (z := zs.prod) (by rw [M.val_op, e, evalOp_mult_real _ _ this])]

theorem foldl_sub_eq {A : Type} [AddCommGroup A] (zs : List A) (z : A) : zs.foldl (· - ·) z = z - zs.sum := by
  induction zs generalizing z with
  | nil => simp
  | cons y zs ih => simp [ih, sub_sub]

theorem subL_cons {A : Type} [AddCommGroup A] (z y : A) (zs : List A) : subL (z :: y :: zs) = z - (y :: zs).sum := by
  simp only [subL]; rw [foldl_sub_eq]

theorem numv_neg {t : Term} {s : Srt} (h : sortOf (.op .sub [t]) = some s) :
    M.numv (.op .sub [t]) = - M.numv t := by
  obtain ⟨hne, ⟨rfl, hi⟩ | ⟨rfl, hr⟩⟩ := arith_children (Or.inr (Or.inl rfl)) h
  · exact M.numv_of_num (num_neg M (M.num_eq (hi t (by simp)) (Or.inl rfl)))
  · exact M.numv_of_num (num_neg M (M.num_eq (hr t (by simp)) (Or.inr rfl)))

theorem numv_sub {a b : Term} {ts : List Term} {s : Srt} (h : sortOf (.op .sub (a :: b :: ts)) = some s) :
    M.numv (.op .sub (a :: b :: ts)) = M.numv a - ((b :: ts).map M.numv).sum := by
  obtain ⟨hne, ⟨rfl, hi⟩ | ⟨rfl, hr⟩⟩ := arith_children (Or.inr (Or.inl rfl)) h
  · obtain ⟨zs, e⟩ := M.vals_int hi
    match zs, e with
    | z :: y :: zs, e =>
      have e1 := M.map_numv_int e
      simp only [List.map_cons, List.cons.injEq] at e1
      rw [M.numv_int (z := z - (y :: zs).sum) (by rw [M.val_op, e, evalOp_sub_int _ _ (by simp), subL_cons])]
      simp [e1, cast_sum]
    | [_], e => simp at e
    | [], e => simp at e
  · obtain ⟨zs, e⟩ := M.vals_real hr
    match zs, e with
    | z :: y :: zs, e =>
      have e1 := M.map_numv_real e
      simp only [List.map_cons, List.cons.injEq] at e1
      rw [M.numv_real (z := z - (y :: zs).sum) (by rw [M.val_op, e, evalOp_sub_real _ _ (by simp), subL_cons])]
      simp [e1]
    | [_], e => simp at e
    | [], e => simp at e

end Model

/-! ## Sorts -/

theorem pair_sorts {o : Op} (ho : o ≠ .bvConst) {a b : Term} {s : Srt} (h : sortOf (.op o [a, b]) = some s) :
    ∃ sa sb, sortOf a = some sa ∧ sortOf b = some sb ∧ opSort o [sa, sb] = some s := by
  obtain ⟨ss, h1, h2⟩ := sortOf_op ho h
  rw [sortOfL_cons] at h1
  obtain ⟨sa, ss', rfl, ha, h1⟩ := h1
  rw [sortOfL_cons] at h1
  obtain ⟨sb, ss', rfl, hb, h1⟩ := h1
  simp only [sortOfL, Option.some.injEq] at h1
  subst h1
  exact ⟨sa, sb, ha, hb, h2⟩

/-- A comparison operator. -/
def Op.IsCmp (o : Op) : Prop := o = .lt ∨ o = .gt ∨ o = .le ∨ o = .ge

theorem sort_cmp {o : Op} (ho : o.IsCmp) {a b : Term} {s : Srt} :
    sortOf (.op o [a, b]) = some s ↔
      s = .bool ∧ ∃ sa sb, sortOf a = some sa ∧ sortOf b = some sb ∧ sa.IsNum ∧ sb.IsNum := by
  constructor
  · intro h
    obtain ⟨sa, sb, ha, hb, h⟩ := pair_sorts (by rcases ho with rfl | rfl | rfl | rfl <;> decide) h
    rcases ho with rfl | rfl | rfl | rfl <;>
    · simp only [opSort, List.length_cons, List.length_nil, List.all_cons, List.all_nil, Bool.and_true, Bool.and_eq_true,
        Bool.or_eq_true, decide_eq_true_eq, Option.ite_none_right_eq_some, Option.some.injEq] at h
      exact ⟨h.2.symm, sa, sb, ha, hb, h.1.2.1, h.1.2.2⟩
  · rintro ⟨rfl, sa, sb, ha, hb, na, nb⟩
    rw [sortOf_op_eq (by rcases ho with rfl | rfl | rfl | rfl <;> decide)]
    simp only [sortOfL, ha, hb]
    rcases na with rfl | rfl <;> rcases nb with rfl | rfl <;> rcases ho with rfl | rfl | rfl | rfl <;> rfl

namespace Model
variable (M : Model)

theorem holds_cmp {a b : Term} {sa sb : Srt} (ha : sortOf a = some sa) (hb : sortOf b = some sb) (na : sa.IsNum)
    (nb : sb.IsNum) :
    (M.Holds (.op .lt [a, b]) ↔ M.numv a < M.numv b) ∧ (M.Holds (.op .gt [a, b]) ↔ M.numv a > M.numv b) ∧
    (M.Holds (.op .le [a, b]) ↔ M.numv a ≤ M.numv b) ∧ (M.Holds (.op .ge [a, b]) ↔ M.numv a ≥ M.numv b) := by
  have h1 := M.num_eq ha na
  have h2 := M.num_eq hb nb
  simp [Model.Holds, M.val_op, evalOp, stdOp, stdCmp, asNums, h1, h2, chain]

theorem numv_intDiv {a b : Term} (h : sortOf (.op .intDiv [a, b]) = some .int) :
    ∃ x y : ℤ, M.numv a = x ∧ M.numv b = y ∧ M.val (.op .intDiv [a, b]) = .int (M.I.idiv x y) := by
  obtain ⟨sa, sb, ha, hb, h⟩ := pair_sorts (by decide) h
  simp [opSort, allSort] at h
  obtain ⟨rfl, rfl⟩ := h
  obtain ⟨x, e⟩ := M.val_int ha
  obtain ⟨y, e'⟩ := M.val_int hb
  exact ⟨x, y, M.numv_int e, M.numv_int e', by simp [M.val_op, e, e', evalOp, stdOp, asInts]⟩

theorem numv_realDiv {a b : Term} (h : sortOf (.op .realDiv [a, b]) = some .real) :
    M.val (.op .realDiv [a, b]) = .real (M.I.rdiv (M.numv a) (M.numv b)) := by
  obtain ⟨sa, sb, ha, hb, h⟩ := pair_sorts (by decide) h
  simp [opSort, allSort] at h
  obtain ⟨rfl, rfl⟩ := h
  have h1 := M.num_eq ha (Or.inr rfl)
  have h2 := M.num_eq hb (Or.inr rfl)
  simp [M.val_op, evalOp, stdOp, asNums, h1, h2]

end Model

theorem sort_division {o : Op} {a b : Term} {s : Srt} (ho : o = .intDiv ∨ o = .realDiv)
    (h : sortOf (.op o [a, b]) = some s) :
    (o = .intDiv ∧ s = .int ∧ sortOf a = some .int ∧ sortOf b = some .int) ∨
    (o = .realDiv ∧ s = .real ∧ sortOf a = some .real ∧ sortOf b = some .real) := by
  obtain ⟨sa, sb, ha, hb, h⟩ := pair_sorts (by rcases ho with rfl | rfl <;> decide) h
  rcases ho with rfl | rfl <;> simp [opSort, allSort] at h <;> obtain ⟨⟨rfl, rfl⟩, rfl⟩ := h <;> simp [ha, hb]

theorem sort_neg {t : Term} {s : Srt} (h : sortOf (.op .sub [t]) = some s) : sortOf t = some s ∧ s.IsNum := by
  obtain ⟨hne, ⟨rfl, hi⟩ | ⟨rfl, hr⟩⟩ := arith_children (Or.inr (Or.inl rfl)) h
  · exact ⟨hi t (by simp), Or.inl rfl⟩
  · exact ⟨hr t (by simp), Or.inr rfl⟩

/-! ## Literals and fractions -/

theorem asNumber_int {t : Term} {q : Rat} (h : t.asNumber = some q) (hs : sortOf t = some .int) :
    ∃ z : ℤ, t = .const (.int z) ∧ q = z := by
  unfold Term.asNumber at h
  split at h
  · simp [sortOf, Const.sort] at hs
  · next z => cases h; exact ⟨z, rfl, rfl⟩
  · cases h

theorem asSignedNumber_int {t : Term} {q : Rat} (h : t.asSignedNumber = some q) (hs : sortOf t = some .int) :
    ∃ z : ℤ, t.intLit = some z ∧ q = z := by
  unfold Term.asSignedNumber at h
  split at h
  · simp only [Option.map_eq_some_iff] at h
    obtain ⟨r, hr, rfl⟩ := h
    obtain ⟨z, rfl, rfl⟩ := asNumber_int hr (sort_neg hs).1
    exact ⟨-z, rfl, by push_cast; rfl⟩
  · obtain ⟨z, rfl, rfl⟩ := asNumber_int h hs
    exact ⟨z, rfl, rfl⟩

theorem intLit_numv {t : Term} {z : ℤ} (h : t.intLit = some z) (M : Model) : M.numv t = z := by
  have : t.asSignedNumber = some (z : Rat) := by
    unfold Term.intLit at h
    split at h <;> cases h <;> simp [Term.asSignedNumber, Term.asNumber]
  rw [M.numv_of_num (Term.asSignedNumber_val this M)]; push_cast; rfl

theorem asNumber_num {t : Term} {q : Rat} {s : Srt} (h : t.asNumber = some q) (hs : sortOf t = some s) : s.IsNum := by
  unfold Term.asNumber at h
  split at h
  · simp [sortOf, Const.sort] at hs; exact Or.inr hs.symm
  · simp [sortOf, Const.sort] at hs; exact Or.inl hs.symm
  · cases h

theorem asSignedNumber_num {t : Term} {q : Rat} {s : Srt} (h : t.asSignedNumber = some q) (hs : sortOf t = some s) :
    s.IsNum := by
  unfold Term.asSignedNumber at h
  split at h
  · exact (sort_neg hs).2
  · exact asNumber_num h hs

theorem asUnsignedFraction_spec {t : Term} {q : Rat} {s : Srt} (h : t.asUnsignedFraction = .ok (some q))
    (hs : sortOf t = some s) (hx : t.exactDivs = true) :
    s.IsNum ∧ (s = .int → q.den = 1) ∧ ∀ M : Model, M.numv t = q := by
  unfold Term.asUnsignedFraction at h
  split at h
  · next a b =>
    split at h
    · next p r hp hr =>
      split at h
      · simp at h
      next hz =>
      simp only [ok_inj, Option.some.injEq] at h
      obtain ⟨-, rfl, ha, hb⟩ | ⟨e, -⟩ := sort_division (Or.inl rfl) hs
      · obtain ⟨x, hx1, rfl⟩ := asSignedNumber_int hp ha
        obtain ⟨y, hy1, rfl⟩ := asSignedNumber_int hr hb
        simp only [Term.exactDivs, hx1, hy1, Bool.and_eq_true, decide_eq_true_eq] at hx
        have hy0 : y ≠ 0 := by exact_mod_cast hz
        obtain ⟨k, rfl⟩ := hx.1
        have hq : q = k := by
          rw [← h]; push_cast; field_simp
        refine ⟨Or.inl rfl, fun _ => by rw [hq]; simp, fun M => ?_⟩
        obtain ⟨u, v, hu, hv, e⟩ := M.numv_intDiv hs
        rw [intLit_numv hx1 M] at hu
        rw [intLit_numv hy1 M] at hv
        have hu : y * k = u := by exact_mod_cast hu
        have hv : y = v := by exact_mod_cast hv
        subst hv hu
        rw [M.numv_int e, hq, Interp.idiv, if_neg hy0, Int.mul_ediv_cancel_left _ hy0]
        push_cast; rfl
      · cases e
    · simp at h
  · next a b =>
    split at h
    · next p r hp hr =>
      split at h
      · simp at h
      next hz =>
      simp only [ok_inj, Option.some.injEq] at h
      obtain ⟨e, -⟩ | ⟨-, rfl, ha, hb⟩ := sort_division (Or.inr rfl) hs
      · cases e
      · refine ⟨Or.inr rfl, fun e => (by cases e), fun M => ?_⟩
        have h1 := M.numv_of_num (Term.asSignedNumber_val hp M)
        have h2 := M.numv_of_num (Term.asSignedNumber_val hr M)
        rw [M.numv_real (M.numv_realDiv hs), h1, h2, Interp.rdiv, if_neg (by exact_mod_cast hz), ← h]
        push_cast; rfl
    · simp at h
  · simp only [ok_inj] at h
    refine ⟨asNumber_num h hs, ?_, fun M => M.numv_of_num (Term.asNumber_val h M)⟩
    rintro rfl
    obtain ⟨z, -, rfl⟩ := asNumber_int h hs
    simp

theorem asFraction_spec {t : Term} {q : Rat} {s : Srt} (h : t.asFraction = .ok (some q)) (hs : sortOf t = some s)
    (hx : t.exactDivs = true) : s.IsNum ∧ (s = .int → q.den = 1) ∧ ∀ M : Model, M.numv t = q := by
  unfold Term.asFraction at h
  split at h
  · next x =>
    simp only [bind_ok, ok_inj, Option.map_eq_some_iff] at h
    obtain ⟨r, hr, p, rfl, rfl⟩ := h
    have hx' : x.exactDivs = true := by
      simp only [Term.exactDivs, Term.exactDivsL, Bool.and_true, Bool.and_eq_true] at hx; exact hx.2
    obtain ⟨h1, h2, h3⟩ := asUnsignedFraction_spec hr (sort_neg hs).1 hx'
    refine ⟨h1, fun e => by simpa using h2 e, fun M => ?_⟩
    rw [M.numv_neg hs, h3]; push_cast; rfl
  · exact asUnsignedFraction_spec h hs hx

end Carcara
