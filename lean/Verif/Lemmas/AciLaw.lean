import Verif.Model.AciSimp
import Verif.Lemmas.Simplify
import Verif.Lemmas.Bv
import Verif.Lemmas.Arith
import Verif.Lemmas.AciIdem

/-!
# The monoids behind the operators of `aci_simp`
-/

namespace Carcara
open Val Sem

/-- The operator is the multiplication of a monoid, on the terms whose sort satisfies `S`. -/
structure OpLaw (M : Model) (o : Op) (S : Srt → Prop) where
  /-- The carrier. -/
  A : Type
  /-- Multiplication. -/
  mul : A → A → A
  /-- Neutral element. -/
  one : A
  /-- The carrier as values. -/
  c : A → Val M.I.U
  inj : ∀ {x y : A}, c x = c y → x = y
  assoc : ∀ x y z, mul (mul x y) z = mul x (mul y z)
  one_mul : ∀ x, mul one x = x
  mul_one : ∀ x, mul x one = x
  dom : ∀ {t : Term} {s : Srt}, S s → sortOf t = some s → ∃ z, M.val t = c z
  arg : ∀ {ts : List Term} {s : Srt}, S s → sortOf (.op o ts) = some s → ts ≠ [] ∧ ∀ t ∈ ts, ∃ s', S s' ∧ sortOf t = some s'
  eval : ∀ {t : Term} {ts : List Term} {z : A} {zs : List A}, M.val t = c z → ts.map M.val = zs.map c → M.val (.op o (t :: ts)) = c (zs.foldl mul z)

namespace OpLaw
variable {M : Model} {o : Op} {S : Srt → Prop} (L : OpLaw M o S)

/-- Product of a list. -/
def prod (zs : List L.A) : L.A := zs.foldr L.mul L.one

theorem foldl_eq (zs : List L.A) (z : L.A) : zs.foldl L.mul z = L.mul z (L.prod zs) := by
  induction zs generalizing z with
  | nil => exact (L.mul_one z).symm
  | cons y zs ih => rw [List.foldl_cons, ih, L.assoc]; rfl

theorem prod_append (xs ys : List L.A) : L.prod (xs ++ ys) = L.mul (L.prod xs) (L.prod ys) := by
  induction xs with
  | nil => exact (L.one_mul _).symm
  | cons x xs ih => rw [List.cons_append, prod, List.foldr_cons, ← prod, ih, ← L.assoc]; rfl

theorem prod_flatten (xss : List (List L.A)) : L.prod xss.flatten = L.prod (xss.map L.prod) := by
  induction xss with
  | nil => rfl
  | cons xs xss ih => rw [List.flatten_cons, prod_append, ih]; rfl

theorem prod_perm (hc : ∀ x y, L.mul x y = L.mul y x) {xs ys : List L.A} (h : xs.Perm ys) : L.prod xs = L.prod ys := by
  induction h with
  | nil => rfl
  | cons x _ ih => exact congrArg (L.mul x) ih
  | swap x y l =>
    change L.mul y (L.mul x (L.prod l)) = L.mul x (L.mul y (L.prod l))
    rw [← L.assoc, hc y x, L.assoc]
  | trans _ _ ih1 ih2 => exact ih1.trans ih2

theorem map_inj {xs ys : List L.A} (h : xs.map L.c = ys.map L.c) : xs = ys :=
  List.map_injective_iff.2 (fun _ _ h => L.inj h) h

/-- Value of an application. -/
theorem val_prod {ts : List Term} (hne : ts ≠ []) {zs : List L.A} (h : ts.map M.val = zs.map L.c) :
    M.val (.op o ts) = L.c (L.prod zs) := by
  match ts, hne, zs with
  | t :: ts, _, z :: zs =>
    simp only [List.map_cons, List.cons.injEq] at h
    rw [L.eval h.1 h.2, L.foldl_eq]
    rfl
  | t :: ts, _, [] => simp at h

theorem doms {ts : List Term} (h : ∀ t ∈ ts, ∃ s, S s ∧ sortOf t = some s) : ∃ zs : List L.A, ts.map M.val = zs.map L.c := by
  induction ts with
  | nil => exact ⟨[], rfl⟩
  | cons t ts ih =>
    obtain ⟨s, h1, h2⟩ := h t (by simp)
    obtain ⟨z, hz⟩ := L.dom h1 h2
    obtain ⟨zs, hzs⟩ := ih fun t ht => h t (by simp [ht])
    exact ⟨z :: zs, by simp [hz, hzs]⟩

end OpLaw

/-! ## The ten operators -/

theorem allSort_children {o : Op} {ts : List Term} {s : Srt} (ho : o.folds = true) (h : sortOf (.op o ts) = some s) :
    ts ≠ [] ∧ ∀ t ∈ ts, ∃ s', s' = s ∧ sortOf t = some s' :=
  have h := folds_sorts ho h
  ⟨h.1, fun t ht => ⟨s, rfl, h.2.1 t ht⟩⟩

theorem bool_dom (M : Model) {t : Term} (h : sortOf t = some .bool) : ∃ z, M.val t = .bool z :=
  (M.I.dom_bool _).1 (eval_dom t h M.env_dom)

/-- Conjunction. -/
def andLaw (M : Model) : OpLaw M .and (· = .bool) where
  A := Bool
  mul := (· && ·)
  one := true
  c := .bool
  inj h := by simpa using h
  assoc := Bool.and_assoc
  one_mul := Bool.true_and
  mul_one := Bool.and_true
  dom := by rintro t _ rfl h; exact bool_dom M h
  arg := by rintro ts _ rfl h; exact allSort_children rfl h
  eval := by
    intro t ts z zs h1 h2
    rw [M.val_op, List.map_cons, h1, h2]
    simp only [evalOp, stdOp, Option.getD]
    exact prop_eq_bool (by rw [foldl_and_eq]; simp only [List.forall_mem_cons, List.forall_mem_map, T_bool])

/-- Disjunction. -/
def orLaw (M : Model) : OpLaw M .or (· = .bool) where
  A := Bool
  mul := (· || ·)
  one := false
  c := .bool
  inj h := by simpa using h
  assoc := Bool.or_assoc
  one_mul := Bool.false_or
  mul_one := Bool.or_false
  dom := by rintro t _ rfl h; exact bool_dom M h
  arg := by rintro ts _ rfl h; exact allSort_children rfl h
  eval := by
    intro t ts z zs h1 h2
    rw [M.val_op, List.map_cons, h1, h2]
    simp only [evalOp, stdOp, Option.getD]
    exact prop_eq_bool (by rw [foldl_or_eq]; simp only [List.mem_cons, exists_eq_or_imp, List.mem_map, exists_exists_and_eq_and, T_bool])

/-- Addition of integers. -/
def addIntLaw (M : Model) : OpLaw M .add (· = .int) where
  A := ℤ
  mul := (· + ·)
  one := 0
  c := .int
  inj h := by simpa using h
  assoc := Int.add_assoc
  one_mul := Int.zero_add
  mul_one := Int.add_zero
  dom := by rintro t _ rfl h; exact M.val_int h
  arg := by rintro ts _ rfl h; exact allSort_children rfl h
  eval := by
    intro t ts z zs h1 h2
    rw [M.val_op, List.map_cons, h1, h2, ← List.map_cons]
    simp only [evalOp, stdOp, stdAdd, asInts_map, Option.getD, foldl_add_eq, List.sum_cons]

/-- Addition of reals. -/
noncomputable def addRealLaw (M : Model) : OpLaw M .add (· = .real) where
  A := ℝ
  mul := (· + ·)
  one := 0
  c := .real
  inj h := by simpa using h
  assoc := add_assoc
  one_mul := zero_add
  mul_one := add_zero
  dom := by rintro t _ rfl h; exact M.val_real h
  arg := by rintro ts _ rfl h; exact allSort_children rfl h
  eval := by
    intro t ts z zs h1 h2
    rw [M.val_op, List.map_cons, h1, h2, ← List.map_cons]
    simp only [evalOp, stdOp, stdAdd, asInts_map_real_none (List.cons_ne_nil z zs), asNums_map, Option.getD,
      foldl_add_eq, List.sum_cons]

/-- Multiplication of integers. -/
def multIntLaw (M : Model) : OpLaw M .mult (· = .int) where
  A := ℤ
  mul := (· * ·)
  one := 1
  c := .int
  inj h := by simpa using h
  assoc := Int.mul_assoc
  one_mul := Int.one_mul
  mul_one := Int.mul_one
  dom := by rintro t _ rfl h; exact M.val_int h
  arg := by rintro ts _ rfl h; exact allSort_children rfl h
  eval := by
    intro t ts z zs h1 h2
    rw [M.val_op, List.map_cons, h1, h2, ← List.map_cons]
    simp only [evalOp, stdOp, stdMult, asInts_map, Option.getD, foldl_mul_eq, List.prod_cons]

/-- Multiplication of reals. -/
noncomputable def multRealLaw (M : Model) : OpLaw M .mult (· = .real) where
  A := ℝ
  mul := (· * ·)
  one := 1
  c := .real
  inj h := by simpa using h
  assoc := mul_assoc
  one_mul := _root_.one_mul
  mul_one := _root_.mul_one
  dom := by rintro t _ rfl h; exact M.val_real h
  arg := by rintro ts _ rfl h; exact allSort_children rfl h
  eval := by
    intro t ts z zs h1 h2
    rw [M.val_op, List.map_cons, h1, h2, ← List.map_cons]
    simp only [evalOp, stdOp, stdMult, asInts_map_real_none (List.cons_ne_nil z zs), asNums_map, Option.getD,
      foldl_mul_eq, List.prod_cons]

/-- The associative operators on bit-vectors of the same width. -/
def bvLaw (M : Model) (o : Op) (f : (w : ℕ) → BitVec w → BitVec w → BitVec w) (w : ℕ) (one : BitVec w)
    (hf : ∀ vs, stdOp M.I o vs = bvNary f vs)
    (ho : o = .bvAdd ∨ o = .bvMul ∨ o = .bvAnd ∨ o = .bvOr ∨ o = .bvXor)
    (h1 : ∀ x y z, f w (f w x y) z = f w x (f w y z)) (h2 : ∀ x, f w one x = x) (h3 : ∀ x, f w x one = x) :
    OpLaw M o (· = .bv w) where
  A := BitVec w
  mul := f w
  one := one
  c := .bv w
  inj h := by simpa using h
  assoc := h1
  one_mul := h2
  mul_one := h3
  dom := by rintro t _ rfl h; exact ⟨_, M.val_bits h⟩
  arg := by
    rintro ts _ rfl h
    obtain ⟨w', e, hl, ht⟩ := sort_bvNary ho h
    cases e
    exact ⟨by rintro rfl; simp at hl, fun t h => ⟨_, rfl, ht t h⟩⟩
  eval := by
    intro t ts z zs e1 e2
    rw [M.val_op, List.map_cons, e1, e2, evalOp, hf, bvNary, asBvs_map]
    rfl

/-- Bit-vectors of any width. -/
abbrev AnyBv := (w : ℕ) × BitVec w

theorem anyBv_cast {w w' : ℕ} (h : w = w') (x : BitVec w) : (⟨w', x.cast h⟩ : AnyBv) = ⟨w, x⟩ := by
  subst h; rfl

theorem concatSteps {U : Type} (zs : List AnyBv) (z : AnyBv) :
    (zs.map (fun z => (.bv z.1 z.2 : Val U))).foldl concatStep (some (.bv z.1 z.2)) =
      some (.bv (zs.foldl (fun x y => (⟨x.1 + y.1, x.2 ++ y.2⟩ : AnyBv)) z).1
        (zs.foldl (fun x y => (⟨x.1 + y.1, x.2 ++ y.2⟩ : AnyBv)) z).2) := by
  induction zs generalizing z with
  | nil => rfl
  | cons y zs ih => exact ih ⟨z.1 + y.1, z.2 ++ y.2⟩

theorem totalWidth_sorts : ∀ {ss : List Srt} {w : ℕ}, totalWidth ss = some w → ∀ s ∈ ss, ∃ w, s = .bv w
  | [], _, _, _, h => by simp at h
  | .bv w :: ss, _, h, s, hs => by
    simp only [totalWidth, Option.map_eq_some_iff] at h
    obtain ⟨_, h, _⟩ := h
    rcases List.mem_cons.1 hs with rfl | hs
    · exact ⟨w, rfl⟩
    · exact totalWidth_sorts h s hs

/-- Concatenation. -/
def concatLaw (M : Model) : OpLaw M .bvConcat (fun s => ∃ w, s = .bv w) where
  A := AnyBv
  mul x y := ⟨x.1 + y.1, x.2 ++ y.2⟩
  one := ⟨0, 0⟩
  c z := .bv z.1 z.2
  inj {x y} h := by
    obtain ⟨w, x⟩ := x
    obtain ⟨w', y⟩ := y
    simp only [Val.bv.injEq] at h
    obtain ⟨rfl, h⟩ := h
    simpa using h
  assoc x y z := by
    have := BitVec.append_assoc (x₁ := x.2) (x₂ := y.2) (x₃ := z.2)
    rw [this]
    exact anyBv_cast _ _
  one_mul x := by
    obtain ⟨w, x⟩ := x
    change (⟨0 + w, (0 : BitVec 0) ++ x⟩ : AnyBv) = ⟨w, x⟩
    rw [← anyBv_cast (Nat.zero_add w).symm x]
    congr 1
    refine BitVec.eq_of_toNat_eq ?_
    simp
  mul_one x := by
    obtain ⟨w, x⟩ := x
    change (⟨w + 0, x ++ (0 : BitVec 0)⟩ : AnyBv) = ⟨w, x⟩
    congr 1
    refine BitVec.eq_of_toNat_eq ?_
    simp
  dom := by rintro t _ ⟨w, rfl⟩ h; exact ⟨⟨w, M.bits w t⟩, M.val_bits h⟩
  arg := by
    rintro ts _ ⟨w, rfl⟩ h
    obtain ⟨ss, h1, h2⟩ := sortOf_op (by decide) h
    simp only [opSort, Option.ite_none_right_eq_some, Option.map_eq_some_iff] at h2
    obtain ⟨hl, w', hw, -⟩ := h2
    obtain ⟨h3, h4⟩ := sortOfL_all h1
    refine ⟨by rintro rfl; simp at h3; omega, fun t ht => ?_⟩
    obtain ⟨s, hs, e⟩ := h4 t ht
    exact ⟨s, totalWidth_sorts hw s hs, e⟩
  eval := by
    intro t ts z zs e1 e2
    rw [M.val_op, List.map_cons, e1, e2, evalOp]
    simp only [stdOp, bvConcat]
    rw [concatSteps]
    rfl

/-- Every operator of the rule is a monoid, commutative except for concatenation, and `identity_of_op` is its neutral
element. -/
theorem opLaw_exists (M : Model) {o : Op} (ho : aciAssoc o = true) {as : List Term} {s : Srt}
    (hs : sortOf (.op o as) = some s) : ∃ (S : Srt → Prop) (L : OpLaw M o S), S s ∧
      (o ≠ .bvConcat → (∀ x y, L.mul x y = L.mul y x) ∧ S = (· = s)) ∧
      (∀ e, aciIdentity o as = .ok (some e) → M.val e = L.c L.one) := by
  have hbv : ∀ (f : (w : ℕ) → BitVec w → BitVec w → BitVec w) (one : (w : ℕ) → BitVec w),
      (∀ vs, stdOp M.I o vs = bvNary f vs) → (o = .bvAdd ∨ o = .bvMul ∨ o = .bvAnd ∨ o = .bvOr ∨ o = .bvXor) →
      (∀ w x y z, f w (f w x y) z = f w x (f w y z)) → (∀ w x, f w (one w) x = x) → (∀ w x, f w x (one w) = x) →
      (∀ (w : ℕ) (x y : BitVec w), f w x y = f w y x) →
      (∀ w a as', as = a :: as' → sortOf a = some (.bv w) → ∀ e, aciIdentity o as = .ok (some e) →
        M.val e = .bv w (one w)) →
      ∃ (S : Srt → Prop) (L : OpLaw M o S), S s ∧
      (o ≠ .bvConcat → (∀ x y, L.mul x y = L.mul y x) ∧ S = (· = s)) ∧
      (∀ e, aciIdentity o as = .ok (some e) → M.val e = L.c L.one) := by
    intro f one h1 h2 h3 h4 h5 hc he
    obtain ⟨w, rfl, hl, ht⟩ := sort_bvNary h2 hs
    refine ⟨_, bvLaw M o f w (one w) h1 h2 (h3 w) (h4 w) (h5 w), rfl, fun _ => ⟨hc w, rfl⟩, fun e h => ?_⟩
    match as, hl with
    | a :: as, _ => exact he w a as rfl (ht a (by simp)) e h
  cases o <;> simp only [aciAssoc, Bool.false_eq_true] at ho
  case and =>
    obtain ⟨-, -, -, h⟩ := Model.idem_sorts rfl hs
    obtain rfl : s = .bool := by simpa using h
    refine ⟨_, andLaw M, rfl, fun _ => ⟨Bool.and_comm, rfl⟩, fun e h => ?_⟩
    simp only [aciIdentity, pure_ok, Option.some.injEq] at h
    subst h
    exact M.val_tru
  case or =>
    obtain ⟨-, -, -, h⟩ := Model.idem_sorts rfl hs
    obtain rfl : s = .bool := by simpa using h
    refine ⟨_, orLaw M, rfl, fun _ => ⟨Bool.or_comm, rfl⟩, fun e h => ?_⟩
    simp only [aciIdentity, pure_ok, Option.some.injEq] at h
    subst h
    exact M.val_fls
  case add =>
    obtain ⟨h1, h2, h3⟩ := folds_sorts rfl hs
    match as, h1 with
    | a :: as, _ =>
    have ha := h2 a (by simp)
    obtain rfl | rfl : s = .int ∨ s = .real := by
      simp only [opSort] at h3
      split at h3
      · simp_all
      · split at h3 <;> simp_all
    · refine ⟨_, addIntLaw M, rfl, fun _ => ⟨Int.add_comm, rfl⟩, fun e h => ?_⟩
      simp only [aciIdentity, headSort, ha, bind_ok, orPanic_ok, Option.some.injEq, exists_eq_left', pure_ok] at h
      subst h
      rfl
    · refine ⟨_, addRealLaw M, rfl, fun _ => ⟨add_comm (G := ℝ), rfl⟩, fun e h => ?_⟩
      simp only [aciIdentity, headSort, ha, bind_ok, orPanic_ok, Option.some.injEq, exists_eq_left', pure_ok] at h
      subst h
      simp [Model.val, eval, evalConst, addRealLaw]
  case mult =>
    obtain ⟨h1, h2, h3⟩ := folds_sorts rfl hs
    match as, h1 with
    | a :: as, _ =>
    have ha := h2 a (by simp)
    obtain rfl | rfl : s = .int ∨ s = .real := by
      simp only [opSort] at h3
      split at h3
      · simp_all
      · split at h3 <;> simp_all
    · refine ⟨_, multIntLaw M, rfl, fun _ => ⟨Int.mul_comm, rfl⟩, fun e h => ?_⟩
      simp only [aciIdentity, headSort, ha, bind_ok, orPanic_ok, Option.some.injEq, exists_eq_left', pure_ok] at h
      subst h
      rfl
    · refine ⟨_, multRealLaw M, rfl, fun _ => ⟨mul_comm (G := ℝ), rfl⟩, fun e h => ?_⟩
      simp only [aciIdentity, headSort, ha, bind_ok, orPanic_ok, Option.some.injEq, exists_eq_left', pure_ok] at h
      subst h
      simp [Model.val, eval, evalConst, multRealLaw]
  case bvAdd =>
    refine hbv (fun _ a b => a + b) (fun _ => 0) (fun _ => rfl) (by simp) (fun _ => BitVec.add_assoc)
      (fun _ => BitVec.zero_add) (fun _ => BitVec.add_zero) (fun _ => BitVec.add_comm) ?_
    rintro w a as' rfl ha e h
    simp only [aciIdentity, headSort, ha, bind_ok, orPanic_ok, Option.some.injEq, exists_eq_left', pure_ok] at h
    subst h
    simp [Model.val, eval, evalConst]
  case bvMul =>
    refine hbv (fun _ a b => a * b) (fun w => 1#w) (fun _ => rfl) (by simp) (fun _ => BitVec.mul_assoc)
      (fun _ => BitVec.one_mul) (fun _ => BitVec.mul_one) (fun _ => BitVec.mul_comm) ?_
    rintro w a as' rfl ha e h
    simp only [aciIdentity, headSort, ha, bind_ok, orPanic_ok, Option.some.injEq, exists_eq_left', pure_ok] at h
    subst h
    simp [Model.val, eval, evalConst]
  case bvXor =>
    refine hbv (fun _ a b => a ^^^ b) (fun _ => 0) (fun _ => rfl) (by simp) (fun _ => BitVec.xor_assoc)
      (fun _ _ => BitVec.zero_xor) (fun _ _ => BitVec.xor_zero) (fun _ => BitVec.xor_comm) ?_
    rintro w a as' rfl ha e h
    simp only [aciIdentity, headSort, ha, bind_ok, orPanic_ok, Option.some.injEq, exists_eq_left', pure_ok] at h
    subst h
    simp [Model.val, eval, evalConst]
  case bvOr =>
    refine hbv (fun _ a b => a ||| b) (fun _ => 0) (fun _ => rfl) (by simp) (fun _ => BitVec.or_assoc)
      (fun _ _ => BitVec.zero_or) (fun _ _ => BitVec.or_zero) (fun _ => BitVec.or_comm) ?_
    rintro w a as' rfl ha e h
    simp only [aciIdentity, headSort, ha, bind_ok, orPanic_ok, Option.some.injEq, exists_eq_left', pure_ok] at h
    subst h
    simp [Model.val, eval, evalConst]
  case bvAnd =>
    refine hbv (fun _ a b => a &&& b) (fun w => BitVec.allOnes w) (fun _ => rfl) (by simp) (fun _ => BitVec.and_assoc)
      (fun _ _ => BitVec.allOnes_and) (fun _ _ => BitVec.and_allOnes) (fun _ => BitVec.and_comm) ?_
    rintro w a as' rfl ha e h
    simp only [aciIdentity, headSort, ha, bind_ok, orPanic_ok, Option.some.injEq, exists_eq_left', pure_ok] at h
    subst h
    simp [Model.val, eval, evalConst, ofInt_allOnes]
  case bvConcat =>
    have : ∃ w, s = .bv w := by
      obtain ⟨ss, h1, h2⟩ := sortOf_op (by decide) hs
      simp only [opSort, Option.ite_none_right_eq_some, Option.map_eq_some_iff] at h2
      obtain ⟨-, w, -, e⟩ := h2
      exact ⟨w, e.symm⟩
    exact ⟨_, concatLaw M, this, fun h => absurd rfl h, fun e h => by simp [aciIdentity] at h⟩

/-- A commutative operator does not depend on the order of its arguments. -/
theorem aci_perm_val (M : Model) {o : Op} (ho : aciAssoc o = true) (hc : o ≠ .bvConcat) {as bs : List Term} {s : Srt}
    (hs : sortOf (.op o as) = some s) (h : as.Perm bs) : M.val (.op o as) = M.val (.op o bs) := by
  obtain ⟨S, L, h1, h2, -⟩ := opLaw_exists M ho hs
  obtain ⟨hne, hd⟩ := L.arg h1 hs
  obtain ⟨zs, hz⟩ := L.doms hd
  obtain ⟨ys, hy⟩ := L.doms (ts := bs) fun t ht => hd t (h.mem_iff.2 ht)
  rw [L.val_prod hne hz, L.val_prod (by rintro rfl; exact hne (List.perm_nil.1 h)) hy]
  congr 1
  refine L.prod_perm (h2 hc).1 ?_
  have := h.map M.val
  rw [hz, hy] at this
  exact (List.map_perm_map_iff fun _ _ => L.inj).1 this

end Carcara
