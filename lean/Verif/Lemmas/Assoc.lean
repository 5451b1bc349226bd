import Verif.Lemmas.Subterms

/-! # Associative and chainable operators as folds and chains -/

namespace Carcara
open Classical Val Sem

variable {I : Interp}

theorem range_int {vs : List (Val I.U)} (h : ∀ v ∈ vs, I.dom .int v) : ∃ zs : List ℤ, vs = zs.map .int := by
  induction vs with
  | nil => exact ⟨[], rfl⟩
  | cons v vs ih =>
    obtain ⟨zs, rfl⟩ := ih (fun v hv => h v (by simp [hv]))
    obtain ⟨z, rfl⟩ := (I.dom_int v).1 (h v (by simp))
    exact ⟨z :: zs, rfl⟩

theorem range_real {vs : List (Val I.U)} (h : ∀ v ∈ vs, I.dom .real v) : ∃ zs : List ℝ, vs = zs.map .real := by
  induction vs with
  | nil => exact ⟨[], rfl⟩
  | cons v vs ih =>
    obtain ⟨zs, rfl⟩ := ih (fun v hv => h v (by simp [hv]))
    obtain ⟨z, rfl⟩ := (I.dom_real v).1 (h v (by simp))
    exact ⟨z :: zs, rfl⟩

theorem range_bool {vs : List (Val I.U)} (h : ∀ v ∈ vs, I.dom .bool v) : ∃ zs : List Bool, vs = zs.map .bool := by
  induction vs with
  | nil => exact ⟨[], rfl⟩
  | cons v vs ih =>
    obtain ⟨zs, rfl⟩ := ih (fun v hv => h v (by simp [hv]))
    obtain ⟨z, rfl⟩ := (I.dom_bool v).1 (h v (by simp))
    exact ⟨z :: zs, rfl⟩

theorem range_bv {w : ℕ} {vs : List (Val I.U)} (h : ∀ v ∈ vs, I.dom (.bv w) v) :
    ∃ zs : List (BitVec w), vs = zs.map (.bv w) := by
  induction vs with
  | nil => exact ⟨[], rfl⟩
  | cons v vs ih =>
    obtain ⟨zs, rfl⟩ := ih (fun v hv => h v (by simp [hv]))
    obtain ⟨z, rfl⟩ := (I.dom_bv w v).1 (h v (by simp))
    exact ⟨z :: zs, rfl⟩

variable {U : Type}

@[simp] theorem asInts_map (zs : List ℤ) : asInts (zs.map (Val.int (U := U))) = some zs := by
  induction zs with
  | nil => rfl
  | cons z zs ih => simp [asInts, ih]

@[simp] theorem asNums_map (zs : List ℝ) : asNums (zs.map (Val.real (U := U))) = some zs := by
  induction zs with
  | nil => rfl
  | cons z zs ih => simp [asNums, ih, num]

@[simp] theorem asNums_map_int (zs : List ℤ) : asNums (zs.map (Val.int (U := U))) = some (zs.map (fun z => (z : ℝ))) := by
  induction zs with
  | nil => rfl
  | cons z zs ih => simp [asNums, ih, num]

@[simp] theorem asBvs_map {w : ℕ} (zs : List (BitVec w)) : asBvs w (zs.map (Val.bv (U := U) w)) = some zs := by
  induction zs with
  | nil => rfl
  | cons z zs ih => simp [asBvs, ih]

/-- Value of an n-ary application, where a single argument stands for itself. -/
noncomputable def foldV (I : Interp) (o : Op) : List (Val I.U) → Val I.U
  | [v] => v
  | vs => evalOp I o vs

theorem foldV_two {o : Op} {vs : List (Val I.U)} (h : vs.length ≠ 1) : foldV I o vs = evalOp I o vs := by
  unfold foldV; split
  · simp at h
  · rfl

/-- An operator that folds a binary function over the elements of a carrier satisfies the left-associativity law. -/
theorem leftFold_law {A : Type} {o : Op} (c : A → Val I.U) (f : A → A → A)
    (h : ∀ z zs, zs ≠ [] → evalOp I o ((z :: zs).map c) = c (zs.foldl f z)) {zs : List A} (hz : zs ≠ []) (y : A) :
    evalOp I o (zs.map c ++ [c y]) = evalOp I o [foldV I o (zs.map c), c y] := by
  match zs, hz with
  | z :: zs, _ =>
    have e : foldV I o ((z :: zs).map c) = c (zs.foldl f z) := by
      cases zs with
      | nil => rfl
      | cons z' zs => rw [foldV_two (by simp), h _ _ (by simp)]
    rw [e]
    have h1 := h z (zs ++ [y]) (by simp)
    have h2 := h (zs.foldl f z) [y] (by simp)
    simp only [List.map_cons, List.map_append, List.map_nil, List.cons_append, List.foldl_append, List.foldl_cons,
      List.foldl_nil] at h1 h2 ⊢
    rw [h1, h2]

theorem foldl_add_eq {A : Type} [AddCommMonoid A] (zs : List A) (z : A) : zs.foldl (· + ·) z = z + zs.sum := by
  induction zs generalizing z with
  | nil => simp
  | cons y zs ih => simp [ih, add_assoc]

theorem foldl_mul_eq {A : Type} [CommMonoid A] (zs : List A) (z : A) : zs.foldl (· * ·) z = z * zs.prod := by
  induction zs generalizing z with
  | nil => simp
  | cons y zs ih => simp [ih, mul_assoc]

theorem foldl_and_eq (zs : List Bool) (z : Bool) : zs.foldl (· && ·) z = true ↔ z = true ∧ ∀ y ∈ zs, y = true := by
  induction zs generalizing z with
  | nil => simp
  | cons y zs ih => simp [ih, and_assoc]

theorem foldl_or_eq (zs : List Bool) (z : Bool) : zs.foldl (· || ·) z = true ↔ z = true ∨ ∃ y ∈ zs, y = true := by
  induction zs generalizing z with
  | nil => simp
  | cons y zs ih => simp only [List.foldl_cons, ih, Bool.or_eq_true, List.mem_cons, exists_eq_or_imp, or_assoc]

theorem foldl_xor_eq (zs : List Bool) (z : Bool) :
    zs.foldl (fun a b => a ^^ b) z = true ↔ ¬ (z = true ↔ xorL (zs.map (Val.bool (U := U)))) := by
  induction zs generalizing z with
  | nil => cases z <;> simp [xorL]
  | cons y zs ih =>
    simp only [List.foldl_cons, ih, List.map_cons, xorL, T_bool]
    cases y <;> cases z <;> simp

theorem prop_eq_bool {p : Prop} {b : Bool} (h : p ↔ b = true) : (prop p : Val U) = .bool b := by
  unfold prop; congr 1; cases b <;> simp_all

theorem asInts_map_real_none {zs : List ℝ} (h : zs ≠ []) : asInts (zs.map (Val.real (U := U))) = none := by
  cases zs with
  | nil => exact absurd rfl h
  | cons z zs => rfl

theorem allSort_pair {s t : Srt} (h : allSort t [s, s] = true) : s = t := by
  exact allSort_iff.1 h s (by simp)

/-- The left-associativity law of the interpreted operators. -/
theorem assoc_left {o : Op} {s : Srt} (ho : o.naryCase = some .leftAssoc) (hf : o.folds = true)
    (hs : opSort o [s, s] = some s) {vs : List (Val I.U)} (hne : vs ≠ []) (hv : ∀ u ∈ vs, I.dom s u) {v : Val I.U}
    (hd : I.dom s v) : evalOp I o (vs ++ [v]) = evalOp I o [foldV I o vs, v] := by
  have hbool : s = .bool → ∀ (f : Bool → Bool → Bool),
      (∀ z zs, zs ≠ [] → evalOp I o ((z :: zs).map .bool) = .bool (zs.foldl f z)) →
      evalOp I o (vs ++ [v]) = evalOp I o [foldV I o vs, v] := by
    rintro rfl f h
    obtain ⟨zs, rfl⟩ := range_bool hv
    obtain ⟨y, rfl⟩ := (I.dom_bool v).1 hd
    exact leftFold_law _ f h (by simpa using hne) y
  have hint : s = .int → ∀ (f : ℤ → ℤ → ℤ),
      (∀ z zs, zs ≠ [] → evalOp I o ((z :: zs).map .int) = .int (zs.foldl f z)) →
      evalOp I o (vs ++ [v]) = evalOp I o [foldV I o vs, v] := by
    rintro rfl f h
    obtain ⟨zs, rfl⟩ := range_int hv
    obtain ⟨y, rfl⟩ := (I.dom_int v).1 hd
    exact leftFold_law _ f h (by simpa using hne) y
  have hreal : s = .real → ∀ (f : ℝ → ℝ → ℝ),
      (∀ z zs, zs ≠ [] → evalOp I o ((z :: zs).map .real) = .real (zs.foldl f z)) →
      evalOp I o (vs ++ [v]) = evalOp I o [foldV I o vs, v] := by
    rintro rfl f h
    obtain ⟨zs, rfl⟩ := range_real hv
    obtain ⟨y, rfl⟩ := (I.dom_real v).1 hd
    exact leftFold_law _ f h (by simpa using hne) y
  have hbv : ∀ w, s = .bv w → ∀ (f : BitVec w → BitVec w → BitVec w),
      (∀ z zs, zs ≠ [] → evalOp I o ((z :: zs).map (.bv w)) = .bv w (zs.foldl f z)) →
      evalOp I o (vs ++ [v]) = evalOp I o [foldV I o vs, v] := by
    rintro w rfl f h
    obtain ⟨zs, rfl⟩ := range_bv hv
    obtain ⟨y, rfl⟩ := (I.dom_bv w v).1 hd
    exact leftFold_law _ f h (by simpa using hne) y
  have hbvs : ∀ w, sameBv [s, s] = some w → s = .bv w := by
    intro w h
    obtain ⟨_, e, _⟩ := sameBv_some h
    simp only [List.cons.injEq] at e
    exact e.1
  cases o <;> simp only [Op.folds, Bool.false_eq_true] at hf <;>
    simp only [Op.naryCase, reduceCtorEq, Option.some.injEq] at ho <;>
    simp only [opSort, List.length_cons, List.length_nil, Nat.zero_add, Nat.reduceAdd, le_refl, true_and,
      Option.map_eq_some_iff, if_true] at hs
  case and =>
    split at hs <;> cases hs
    refine hbool rfl (· && ·) fun z zs _ => ?_
    simp only [evalOp, stdOp, Option.getD]
    exact prop_eq_bool (by rw [foldl_and_eq]; simp only [List.map_cons, List.forall_mem_cons, List.forall_mem_map, T_bool])
  case or =>
    split at hs <;> cases hs
    refine hbool rfl (· || ·) fun z zs _ => ?_
    simp only [evalOp, stdOp, Option.getD]
    exact prop_eq_bool (by rw [foldl_or_eq]; simp only [List.map_cons, List.mem_cons, exists_eq_or_imp, List.mem_map, exists_exists_and_eq_and, T_bool])
  case xor =>
    split at hs <;> cases hs
    refine hbool rfl (fun a b => a ^^ b) fun z zs _ => ?_
    simp only [evalOp, stdOp, Option.getD]
    exact prop_eq_bool (by rw [foldl_xor_eq (U := I.U)]; simp [xorL])
  case add =>
    split at hs
    · cases hs
      refine hint rfl (· + ·) fun z zs _ => ?_
      simp only [evalOp, stdOp, stdAdd, asInts_map, Option.getD, foldl_add_eq, List.sum_cons]
    · split at hs <;> cases hs
      refine hreal rfl (· + ·) fun z zs _ => ?_
      simp only [evalOp, stdOp, stdAdd, asInts_map_real_none (List.cons_ne_nil z zs), asNums_map, Option.getD,
        foldl_add_eq, List.sum_cons]
  case mult =>
    split at hs
    · cases hs
      refine hint rfl (· * ·) fun z zs _ => ?_
      simp only [evalOp, stdOp, stdMult, asInts_map, Option.getD, foldl_mul_eq, List.prod_cons]
    · split at hs <;> cases hs
      refine hreal rfl (· * ·) fun z zs _ => ?_
      simp only [evalOp, stdOp, stdMult, asInts_map_real_none (List.cons_ne_nil z zs), asNums_map, Option.getD,
        foldl_mul_eq, List.prod_cons]
  case sub =>
    split at hs
    · cases hs
      refine hint rfl (· - ·) fun z zs hz => ?_
      match zs, hz with
      | y :: zs, _ =>
        simp only [evalOp, stdOp, stdSub, asInts_map, Option.getD, subL, List.map_cons, reduceCtorEq, if_false]
        rw [← List.map_cons, ← List.map_cons, asInts_map]
    · split at hs <;> cases hs
      refine hreal rfl (· - ·) fun z zs hz => ?_
      match zs, hz with
      | y :: zs, _ =>
        simp only [evalOp, stdOp, stdSub, Option.getD, subL, List.map_cons, reduceCtorEq, if_false]
        rw [← List.map_cons, ← List.map_cons, asInts_map_real_none (List.cons_ne_nil _ _), asNums_map]
  case intDiv =>
    split at hs <;> cases hs
    refine hint rfl I.idiv fun z zs _ => ?_
    simp only [evalOp, stdOp, asInts_map, Option.getD]
  case realDiv =>
    split at hs <;> cases hs
    refine hreal rfl I.rdiv fun z zs _ => ?_
    simp only [evalOp, stdOp, asNums_map, Option.getD]
  all_goals
    obtain ⟨w, hw, rfl⟩ := hs
    first
      | refine hbv w rfl (· &&& ·) fun z zs _ => ?_
        simp only [evalOp, stdOp, bvNary, List.map_cons, asBvs_map, Option.map_some, Option.getD]; done
      | refine hbv w rfl (· ||| ·) fun z zs _ => ?_
        simp only [evalOp, stdOp, bvNary, List.map_cons, asBvs_map, Option.map_some, Option.getD]; done
      | refine hbv w rfl (· + ·) fun z zs _ => ?_
        simp only [evalOp, stdOp, bvNary, List.map_cons, asBvs_map, Option.map_some, Option.getD]; done
      | refine hbv w rfl (· * ·) fun z zs _ => ?_
        simp only [evalOp, stdOp, bvNary, List.map_cons, asBvs_map, Option.map_some, Option.getD]; done

/-- Implication is right-associative. -/
theorem assoc_right {vs : List (Val I.U)} (hne : vs ≠ []) (v : Val I.U) :
    evalOp I .implies (v :: vs) = evalOp I .implies [v, foldV I .implies vs] := by
  simp only [evalOp, stdOp, Option.getD]
  congr 1
  match vs, hne with
  | [u], _ => rfl
  | u :: u' :: vs, _ =>
    simp only [impl, foldV, evalOp, stdOp, Option.getD, T_prop]

/-- Sorts of the arguments of the interpreted associative operators. -/
theorem folds_sorts {o : Op} {as : List Term} {s : Srt} (hf : o.folds = true) (h : sortOf (.op o as) = some s) :
    as ≠ [] ∧ (∀ a ∈ as, sortOf a = some s) ∧ opSort o [s, s] = some s := by
  have ho : o ≠ .bvConst := by rintro rfl; simp [Op.folds] at hf
  rw [sortOf_op_eq ho] at h
  cases hss : sortOfL as with
  | none => simp [hss] at h
  | some ss =>
    have hF := sortOfL_some hss
    have hlen := forall2_length hF
    simp only [hss, Option.bind_some] at h
    have key : as ≠ [] → (∀ t ∈ ss, t = s) → ∀ a ∈ as, sortOf a = some s := by
      intro _ hall a ha
      obtain ⟨t, ht, e⟩ := sortOfL_mem hss ha
      rw [e, hall t ht]
    have hne : 1 ≤ ss.length → as ≠ [] := by rintro h rfl; rw [hlen] at h; simp at h
    have bvcase : ∀ w, sameBv ss = some w → s = .bv w →
        as ≠ [] ∧ (∀ a ∈ as, sortOf a = some s) ∧ sameBv [s, s] = some w := by
      rintro w hw rfl
      obtain ⟨rest, rfl, hr⟩ := sameBv_some hw
      have h1 := hne (by simp)
      refine ⟨h1, key h1 ?_, by simp [sameBv, allSort]⟩
      intro t ht
      rcases List.mem_cons.1 ht with rfl | ht
      · rfl
      · exact hr t ht
    cases o <;> simp only [Op.folds, Bool.false_eq_true] at hf <;>
      simp only [opSort, List.length_cons, List.length_nil, Nat.zero_add, Nat.reduceAdd, le_refl, true_and] at h ⊢
    case add | mult | sub =>
      split at h
      · next hc =>
        cases h
        have h1 := hne (by omega)
        exact ⟨h1, key h1 (allSort_iff.1 hc.2), by simp [allSort]⟩
      · split at h <;> cases h
        next hc =>
        have h1 := hne (by omega)
        exact ⟨h1, key h1 (allSort_iff.1 hc.2), by simp [allSort]⟩
    case bvAnd | bvOr | bvAdd | bvMul =>
      split at h
      · simp only [Option.map_eq_some_iff] at h
        obtain ⟨w, hw, e⟩ := h
        obtain ⟨h1, h2, h3⟩ := bvcase w hw e.symm
        exact ⟨h1, h2, by simp [h3, e]⟩
      · cases h
    all_goals
      split at h <;> cases h
      next hc =>
      have h1 := hne (by omega)
      exact ⟨h1, key h1 (allSort_iff.1 hc.2), by simp [allSort]⟩

/-- A left-associative interpreted operator other than minus, applied to one argument, is the identity. -/
theorem folds_single {o : Op} {a : Term} {s : Srt} (ho : o.naryCase = some .leftAssoc) (hf : o.folds = true)
    (hsub : o ≠ .sub) (h : sortOf (.op o [a]) = some s) : Same (.op o [a]) a := by
  intro I ρ hρ
  obtain ⟨_, hs, hss⟩ := folds_sorts hf h
  have hd := eval_dom a (hs a (by simp)) hρ
  have hb : s = .bool → ∃ b, eval I a ρ = .bool b := by rintro rfl; exact (I.dom_bool _).1 hd
  rw [sortOf_op_eq (by rintro rfl; simp [Op.folds] at hf)] at h
  simp only [sortOfL, hs a (by simp), Option.bind_some] at h
  simp only [eval, evalL_eq_map, List.map_cons, List.map_nil]
  cases o <;> simp only [Op.folds, Bool.false_eq_true] at hf <;>
    simp only [Op.naryCase, reduceCtorEq, Option.some.injEq] at ho <;>
    simp [opSort] at h
  case sub => exact absurd rfl hsub
  all_goals
    obtain ⟨b, hb⟩ := hb h.2.symm
    rw [hb]
    simp only [evalOp, stdOp, Option.getD]
    exact prop_eq_bool (by simp [xorL])

/-! ## Chainable operators -/

/-- The relation a chainable operator holds between neighbours. -/
def opRel (o : Op) (u v : Val U) : Prop :=
  match o with
  | .equals => u = v
  | .lt => ∃ x y, u.num = some x ∧ v.num = some y ∧ x < y
  | .gt => ∃ x y, u.num = some x ∧ v.num = some y ∧ x > y
  | .le => ∃ x y, u.num = some x ∧ v.num = some y ∧ x ≤ y
  | .ge => ∃ x y, u.num = some x ∧ v.num = some y ∧ x ≥ y
  | _ => False

theorem asNums_cons {v : Val U} {vs : List (Val U)} {rs : List ℝ} (h : asNums (v :: vs) = some rs) :
    ∃ x xs, v.num = some x ∧ asNums vs = some xs ∧ rs = x :: xs := by
  simp only [asNums] at h
  split at h
  · next h1 h2 => cases h; exact ⟨_, _, h1, h2, rfl⟩
  · cases h

theorem chain_nums (r : ℝ → ℝ → Prop) : ∀ {vs : List (Val U)} {rs : List ℝ}, asNums vs = some rs →
    (chain r rs ↔ chain (fun u v => ∃ x y, u.num = some x ∧ v.num = some y ∧ r x y) vs)
  | [], rs, h => by simp [asNums] at h; subst h; simp [chain]
  | [v], rs, h => by
    obtain ⟨x, xs, _, h2, rfl⟩ := asNums_cons h
    simp [asNums] at h2; subst h2; simp [chain]
  | v :: v' :: vs, rs, h => by
    obtain ⟨x, xs, h1, h2, rfl⟩ := asNums_cons h
    obtain ⟨y, ys, h3, h4, rfl⟩ := asNums_cons h2
    have ih := chain_nums r h2
    simp only [chain, ih, h1, h3, Option.some.injEq]
    constructor
    · rintro ⟨h, h'⟩; exact ⟨⟨x, y, rfl, rfl, h⟩, h'⟩
    · rintro ⟨⟨x, y, rfl, rfl, h⟩, h'⟩; exact ⟨h, h'⟩

/-- The value of a chainable operator on well-sorted arguments. -/
theorem chainable_val {o : Op} (ho : o.naryCase = some .chainable) {as : List Term} {s : Srt}
    (h : sortOf (.op o as) = some s) {ρ : Env I.U} (hρ : I.EnvOK ρ) :
    eval I (.op o as) ρ = prop (chain (opRel o) (as.map (eval I · ρ))) := by
  rw [sortOf_op_eq (by rintro rfl; simp [Op.naryCase] at ho)] at h
  cases hss : sortOfL as with
  | none => simp [hss] at h
  | some ss =>
    simp only [hss, Option.bind_some] at h
    have hF : List.Forall₂ I.dom ss (as.map (eval I · ρ)) := by
      have := sortOfL_some hss
      clear hss h
      induction this with
      | nil => exact .nil
      | cons h _ ih => exact .cons (eval_dom _ h hρ) ih
    simp only [eval, evalL_eq_map]
    cases o <;> simp only [Op.naryCase, reduceCtorEq, Option.some.injEq] at ho
    case equals => simp only [evalOp, stdOp, Option.getD]; rfl
    all_goals
      simp only [opSort] at h
      split at h <;> cases h
      next hc =>
      obtain ⟨rs, hr, _⟩ := asNums_of_dom hF (by simpa using hc.2)
      simp only [evalOp, stdOp, stdCmp, hr, Option.map_some, Option.getD]
      congr 1
      exact propext (chain_nums _ hr)

end Carcara
