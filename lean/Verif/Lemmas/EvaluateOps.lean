import Verif.Lemmas.Evaluate

/-! # Evaluation of each operator agrees with the semantics -/

namespace Carcara
open Classical Val Sem Value

/-- What is to be shown about the result `v` of an operator. -/
def Agrees (o : Op) (vs : List Value) (r : Srt) (v : Value) : Prop :=
  v.sort = r ∧ v.Norm ∧ ∀ I : Interp, SafeOp o (vs.map (Value.den (U := I.U))) →
    stdOp I o (vs.map Value.den) = some v.den

theorem exists_all {vs : List Value} {s : Srt} (h : allSort s (vs.map Value.sort) = true) : ∀ v ∈ vs, v.sort = s :=
  fun _ hv => allSort_iff.1 h _ (List.mem_map_of_mem hv)

theorem exists_bools {vs : List Value} (h : allSort .bool (vs.map Value.sort) = true) :
    ∃ bs : List Bool, vs = bs.map .bool := exists_list _ fun v hv => exists_bool (exists_all h v hv)
theorem exists_ints {vs : List Value} (h : allSort .int (vs.map Value.sort) = true) :
    ∃ bs : List ℤ, vs = bs.map .int := exists_list _ fun v hv => exists_int (exists_all h v hv)
theorem exists_reals {vs : List Value} (h : allSort .real (vs.map Value.sort) = true) :
    ∃ bs : List ℚ, vs = bs.map .real := exists_list _ fun v hv => exists_real (exists_all h v hv)

theorem exists_int1 {vs : List Value} (h : vs.map Value.sort = [.int]) : ∃ z, vs = [.int z] := by
  match vs, (by simpa using congrArg List.length h : vs.length = 1) with
  | [v], _ => obtain ⟨z, rfl⟩ := exists_int (List.cons.inj h).1; exact ⟨z, rfl⟩
theorem exists_real1 {vs : List Value} (h : vs.map Value.sort = [.real]) : ∃ z, vs = [.real z] := by
  match vs, (by simpa using congrArg List.length h : vs.length = 1) with
  | [v], _ => obtain ⟨z, rfl⟩ := exists_real (List.cons.inj h).1; exact ⟨z, rfl⟩
theorem exists_bool1 {vs : List Value} (h : vs.map Value.sort = [.bool]) : ∃ z, vs = [.bool z] := by
  match vs, (by simpa using congrArg List.length h : vs.length = 1) with
  | [v], _ => obtain ⟨z, rfl⟩ := exists_bool (List.cons.inj h).1; exact ⟨z, rfl⟩
theorem exists_int2 {vs : List Value} (h : vs.map Value.sort = [.int, .int]) : ∃ y z, vs = [.int y, .int z] := by
  match vs, (by simpa using congrArg List.length h : vs.length = 2) with
  | [u, v], _ =>
    obtain ⟨y, rfl⟩ := exists_int (List.cons.inj h).1
    obtain ⟨z, rfl⟩ := exists_int (List.cons.inj (List.cons.inj h).2).1
    exact ⟨y, z, rfl⟩
theorem exists_bv1 {vs : List Value} {w : ℕ} (h : vs.map Value.sort = [.bv w]) (hn : ∀ v ∈ vs, v.Norm) :
    ∃ a : BitVec w, vs = [.bv a.toNat w] := by
  match vs, (by simpa using congrArg List.length h : vs.length = 1) with
  | [v], _ =>
    obtain ⟨z, rfl⟩ := exists_bv (List.cons.inj h).1 (hn v (by simp))
    exact ⟨z, rfl⟩

theorem den_bools {U : Type} (bs : List Bool) : (bs.map Value.bool).map (Value.den (U := U)) = bs.map .bool := by
  simp [Value.den, Function.comp_def]
theorem den_ints {U : Type} (bs : List ℤ) : (bs.map Value.int).map (Value.den (U := U)) = bs.map .int := by
  simp [Value.den, Function.comp_def]
theorem den_reals {U : Type} (bs : List ℚ) :
    (bs.map Value.real).map (Value.den (U := U)) = (bs.map fun q : ℚ => (q : ℝ)).map .real := by
  simp [Value.den, Function.comp_def]

theorem cast_foldl_add (qs : List ℚ) (q : ℚ) : ((qs.foldl (· + ·) q : ℚ) : ℝ) = (qs.map fun q : ℚ => (q : ℝ)).foldl (· + ·) (q : ℝ) := by
  induction qs generalizing q with
  | nil => rfl
  | cons y qs ih => simp only [List.foldl_cons, List.map_cons, ih, Rat.cast_add]
theorem cast_foldl_mul (qs : List ℚ) (q : ℚ) : ((qs.foldl (· * ·) q : ℚ) : ℝ) = (qs.map fun q : ℚ => (q : ℝ)).foldl (· * ·) (q : ℝ) := by
  induction qs generalizing q with
  | nil => rfl
  | cons y qs ih => simp only [List.foldl_cons, List.map_cons, ih, Rat.cast_mul]
theorem cast_foldl_sub (qs : List ℚ) (q : ℚ) : ((qs.foldl (· - ·) q : ℚ) : ℝ) = (qs.map fun q : ℚ => (q : ℝ)).foldl (· - ·) (q : ℝ) := by
  induction qs generalizing q with
  | nil => rfl
  | cons y qs ih => simp only [List.foldl_cons, List.map_cons, ih, Rat.cast_sub]

section
variable {vs : List Value} {r : Srt} {v : Value}

theorem agrees_compare {o : Op} {p : ℚ → ℚ → Bool} {R : ℝ → ℝ → Prop} (hp : ∀ a b : ℚ, R a b ↔ p a b = true)
    (ho : ∀ (I : Interp) vs, stdOp I o vs = stdCmp R vs)
    (hs : (if 2 ≤ (vs.map Value.sort).length ∧ (vs.map Value.sort).all (fun s => s = .int || s = .real) then some Srt.bool
      else none) = some r)
    (h : (do let r ← Ev.opt (compareChain p true vs); pure (Value.bool r) : Ev Value).run = .ok (some v)) :
    Agrees o vs r v := by
  split at hs <;> cases hs
  next hc =>
  have hv : ∀ v ∈ vs, v.sort = .int ∨ v.sort = .real := fun v hv => by
    have := List.all_eq_true.1 hc.2 _ (List.mem_map_of_mem hv)
    simpa using this
  rw [ret_bind] at h
  obtain ⟨b, h1, h2⟩ := h
  rw [ret_opt, compareChain_spec p vs true hv] at h1
  rw [ret_pure] at h2
  cases h1
  subst h2
  refine ⟨rfl, trivial, fun I _ => ?_⟩
  rw [ho, stdCmp, asNums_den vs hv, Option.map_some, Value.den]
  congr 1
  refine prop_eq_bool ?_
  rw [Bool.true_and, ← chain_rat hp, List.map_map]
  rfl

theorem agrees_arith {o : Op} {fi : ℤ → ℤ → ℤ} {fr : ℚ → ℚ → ℚ}
    (hi : ∀ (I : Interp) z y zs, stdOp I o ((z :: y :: zs).map .int) = some (.int ((y :: zs).foldl fi z)))
    (hr : ∀ (I : Interp) (z y : ℚ) (zs : List ℚ), stdOp I o (((z :: y :: zs).map fun q : ℚ => (q : ℝ)).map .real) =
      some (.real (((y :: zs).foldl fr z : ℚ) : ℝ)))
    (h2 : 2 ≤ (vs.map Value.sort).length)
    (hs : (if allSort .int (vs.map Value.sort) = true then some Srt.int
      else if allSort .real (vs.map Value.sort) = true then some .real else none) = some r)
    (h : (arithOp false (fun a b => .ok (fi a b)) (fun a b => .ok (fr a b)) vs).run = .ok (some v)) :
    Agrees o vs r v := by
  rw [List.length_map] at h2
  split at hs
  · next hc =>
    cases hs
    obtain ⟨zs, rfl⟩ := exists_ints hc
    rw [List.length_map] at h2
    match zs, h2 with
    | z :: y :: zs, _ =>
    rw [List.map_cons, arithOp] at h
    obtain ⟨s, rfl, h3⟩ := arithFold_int rfl (y :: zs) z v h
    rw [foldlM_ok] at h3
    cases h3
    exact ⟨rfl, trivial, fun I _ => by rw [den_ints, hi]; rfl⟩
  · split at hs
    · next hc =>
      cases hs
      obtain ⟨zs, rfl⟩ := exists_reals hc
      rw [List.length_map] at h2
      match zs, h2 with
      | z :: y :: zs, _ =>
      rw [List.map_cons, arithOp] at h
      obtain ⟨s, rfl, h3⟩ := arithFold_real (y :: zs) z v h
      rw [foldlM_ok] at h3
      cases h3
      exact ⟨rfl, trivial, fun I _ => by rw [den_reals, hr]; rfl⟩
    · cases hs

theorem sort_arith {ss : List Srt} {n : ℕ} (h : (if n ≤ ss.length ∧ allSort .int ss then some Srt.int
      else if n ≤ ss.length ∧ allSort .real ss then some .real else none) = some r) :
    n ≤ ss.length ∧ (if allSort .int ss = true then some Srt.int else if allSort .real ss = true then some .real else none) = some r := by
  split at h
  · next hc => exact ⟨hc.1, by rw [if_pos hc.2]; exact h⟩
  · next hc =>
    split at h
    · next hc' =>
      refine ⟨hc'.1, ?_⟩
      rw [if_neg fun e => hc ⟨hc'.1, e⟩, if_pos hc'.2]
      exact h
    · cases h

theorem agrees_two {o : Op} (hn : ∀ v ∈ vs, v.Norm) (f : (w : ℕ) → BitVec w → BitVec w → Value)
    {g : ℕ → Srt} {F : (U : Type) → (w : ℕ) → BitVec w → BitVec w → Val U}
    (ho : ∀ (I : Interp) vs, stdOp I o vs = bvBin (F I.U) vs)
    (hs : (if (vs.map Value.sort).length = 2 then (sameBv (vs.map Value.sort)).map g else none) = some r)
    (hf : ∀ (w : ℕ) (a b : BitVec w), vs = [.bv a.toNat w, .bv b.toNat w] → v = f w a b)
    (hsort : ∀ w a b, (f w a b).sort = g w) (hnorm : ∀ w a b, (f w a b).Norm)
    (hF : ∀ (U : Type) (w : ℕ) (a b : BitVec w), SafeOp (U := U) o [.bv w a, .bv w b] → v = f w a b →
      F U w a b = (f w a b).den) :
    Agrees o vs r v := by
  split at hs
  · next hl =>
    rw [Option.map_eq_some_iff] at hs
    obtain ⟨w, hw, rfl⟩ := hs
    obtain ⟨a, b, rfl⟩ := exists_bv2 hl hw hn
    have := hf w a b rfl
    subst this
    refine ⟨hsort _ _ _, hnorm _ _ _, fun I hI => ?_⟩
    rw [den_bv2] at hI ⊢
    rw [ho, bvBin_two, hF I.U w a b hI rfl]
  · cases hs

theorem agrees_nary {o : Op} (hn : ∀ v ∈ vs, v.Norm) {f : ℤ → ℤ → ℕ → ℤ} {g : (w : ℕ) → BitVec w → BitVec w → BitVec w}
    (ho : ∀ (I : Interp) vs, stdOp I o vs = bvNary g vs)
    (hf : ∀ w (a b : ℤ), BitVec.ofInt w (f a b w) = g w (BitVec.ofInt w a) (BitVec.ofInt w b))
    (hs : (if 2 ≤ (vs.map Value.sort).length then (sameBv (vs.map Value.sort)).map .bv else none) = some r)
    (h : (bvOp f vs).run = .ok (some v)) : Agrees o vs r v := by
  split at hs
  · rw [Option.map_eq_some_iff] at hs
    obtain ⟨w, hw, rfl⟩ := hs
    obtain ⟨a, bs, rfl⟩ := exists_bvs hw hn
    obtain ⟨h1, h2, h3⟩ := bvOp_spec hf h
    exact ⟨h1, h2, fun I _ => by rw [ho]; exact h3 I.U⟩
  · cases hs

theorem agrees_one {o : Op} (hn : ∀ v ∈ vs, v.Norm) (f : (w : ℕ) → BitVec w → Value)
    {g : ℕ → Srt} {F : (U : Type) → (w : ℕ) → BitVec w → Val U}
    (ho : ∀ (I : Interp) vs, stdOp I o vs = bvUn (F I.U) vs)
    (hs : ∃ w, vs.map Value.sort = [.bv w] ∧ r = g w)
    (hf : ∀ (w : ℕ) (a : BitVec w), vs = [.bv a.toNat w] → v = f w a)
    (hsort : ∀ w a, (f w a).sort = g w) (hnorm : ∀ w a, (f w a).Norm)
    (hF : ∀ (U : Type) (w : ℕ) (a : BitVec w), SafeOp (U := U) o [.bv w a] → F U w a = (f w a).den) :
    Agrees o vs r v := by
  obtain ⟨w, h1, rfl⟩ := hs
  obtain ⟨a, rfl⟩ := exists_bv1 h1 hn
  have := hf w a rfl
  subst this
  refine ⟨hsort _ _, hnorm _ _, fun I hI => ?_⟩
  have e : [Value.bv a.toNat w].map (Value.den (U := I.U)) = [.bv w a] := by simp [den_bits]
  rw [e] at hI ⊢
  rw [ho, bvUn, hF I.U w a hI]

theorem sort_bv_one {ss : List Srt} {g : ℕ → Srt} (h : (match ss with | [.bv w] => some (g w) | _ => none) = some r) :
    ∃ w, ss = [.bv w] ∧ r = g w := by
  split at h <;> cases h
  exact ⟨_, rfl, rfl⟩

end

theorem twoBvs_run {a b : ℤ} {w w' : ℕ} : (twoBvs [.bv a w, .bv b w']).run = .ok (some (a, b, w)) := rfl

theorem val_bv_ext {U : Type} {w w' : ℕ} (h : w = w') {a : BitVec w} {b : BitVec w'} (e : a.toNat = b.toNat) :
    (Val.bv w a : Val U) = .bv w' b := by
  subst h
  rw [BitVec.eq_of_toNat_eq e]

/-- The signed comparisons. -/
theorem agrees_signed {vs : List Value} {r : Srt} {v : Value} {o : Op} (hn : ∀ v ∈ vs, v.Norm) {q : ℤ → ℤ → Bool} {R : ℤ → ℤ → Prop}
    (hq : ∀ a b, R a b ↔ q a b = true)
    (ho : ∀ (I : Interp) vs, stdOp I o vs = bvBin (fun _ a b => prop (R a.toInt b.toInt)) vs)
    (hsafe : ∀ (U : Type) w (a b : BitVec w), SafeOp (U := U) o [.bv w a, .bv w b] → a.msb = false ∧ b.msb = false)
    (hs : (if (vs.map Value.sort).length = 2 then (sameBv (vs.map Value.sort)).map fun _ => Srt.bool else none) = some r)
    (h : (bvCompareSigned q vs).run = .ok (some v)) : Agrees o vs r v := by
  refine agrees_two hn (fun w a b => .bool (q (magnitude a) (magnitude b)))
    (F := fun U _ a b => prop (R a.toInt b.toInt)) ho hs ?_ (fun _ _ _ => rfl) (fun _ _ _ => trivial) ?_
  · rintro w a b rfl
    exact bvCompareSigned_spec h
  · intro U w a b hS _
    obtain ⟨ha, hb⟩ := hsafe U w a b hS
    rw [magnitude_of_false ha, magnitude_of_false hb, BitVec.toInt_eq_toNat_of_msb ha, BitVec.toInt_eq_toNat_of_msb hb]
    exact prop_eq_bool (hq _ _)

/-- The unsigned comparisons. -/
theorem agrees_unsigned {vs : List Value} {r : Srt} {v : Value} {o : Op} (hn : ∀ v ∈ vs, v.Norm) {q : ℤ → ℤ → Bool} {R : ℕ → ℕ → Prop}
    (hq : ∀ a b : ℕ, R a b ↔ q a b = true)
    (ho : ∀ (I : Interp) vs, stdOp I o vs = bvBin (fun _ a b => prop (R a.toNat b.toNat)) vs)
    (hs : (if (vs.map Value.sort).length = 2 then (sameBv (vs.map Value.sort)).map fun _ => Srt.bool else none) = some r)
    (h : (bvCompare q vs).run = .ok (some v)) : Agrees o vs r v := by
  refine agrees_two hn (fun w a b => .bool (q a.toNat b.toNat))
    (F := fun U _ a b => prop (R a.toNat b.toNat)) ho hs ?_ (fun _ _ _ => rfl) (fun _ _ _ => trivial) ?_
  · rintro w a b rfl
    exact (ret_inj h rfl).symm
  · intro U w a b hS _
    exact prop_eq_bool (hq _ _)

/-- Evaluation of an operator on values. -/
theorem evalOpValues_agrees {o : Op} {vs : List Value} {r : Srt} {v : Value} (hn : ∀ v ∈ vs, v.Norm)
    (hs : opSort o (vs.map Value.sort) = some r) (h : (evalOpValues o vs).run = .ok (some v)) : Agrees o vs r v := by
  cases o <;> simp only [opSort] at hs <;> simp only [evalOpValues] at h
  case tru | fls =>
    split at hs <;> cases hs
    next hc =>
    rw [List.map_eq_nil_iff] at hc
    subst hc
    rw [ret_pure] at h; subst h
    exact ⟨rfl, trivial, fun I _ => rfl⟩
  case not =>
    split at hs <;> cases hs
    next hc =>
    obtain ⟨b, rfl⟩ := exists_bool1 hc
    obtain rfl := ret_inj h rfl
    refine ⟨rfl, trivial, fun I _ => ?_⟩
    simp only [stdOp, List.map_cons, List.map_nil, Value.den]
    congr 1
    exact prop_eq_bool (by cases b <;> simp [Val.T])
  case implies =>
    split at hs <;> cases hs
    next hc =>
    obtain ⟨bs, rfl⟩ := exists_bools hc.2
    rw [List.length_map, List.length_map] at hc
    obtain ⟨bs, b, rfl⟩ : ∃ cs c, bs = cs ++ [c] :=
      ⟨bs.dropLast, bs.getLast (by rintro rfl; simp at hc), (List.dropLast_append_getLast _).symm⟩
    have e : evalImplies ((bs ++ [b]).map Value.bool) = (do
      let left ← Ev.opt ((bs.map Value.bool).foldlM (fun acc a => if acc then some true else a.asBool.map (!·)) false)
      let last ← Ev.unwrap (some (Value.bool b))
      let right ← Ev.opt last.asBool
      pure (.bool (left || right))) := by
      cases bs with
      | nil => rfl
      | cons c cs =>
        simp only [List.cons_append, List.map_cons, evalImplies]
        have e1 : (Value.bool c :: (cs ++ [b]).map Value.bool).dropLast = Value.bool c :: cs.map Value.bool := by
          rw [List.map_append, ← List.cons_append, List.map_cons, List.map_nil, List.dropLast_concat]
        have e2 : (Value.bool c :: (cs ++ [b]).map Value.bool).getLast? = some (Value.bool b) := by
          rw [List.map_append, ← List.cons_append, List.map_cons, List.map_nil, List.getLast?_concat]
        rw [e1, e2]
    rw [e, foldlM_implies] at h
    obtain rfl := ret_inj h rfl
    refine ⟨rfl, trivial, fun I _ => ?_⟩
    simp only [stdOp]
    congr 1
    refine prop_eq_bool ?_
    rw [den_bools, impl_bools, Bool.false_or]
  case and =>
    split at hs <;> cases hs
    next hc =>
    obtain ⟨bs, rfl⟩ := exists_bools hc.2
    rw [foldlM_and] at h
    obtain rfl := ret_inj h rfl
    refine ⟨rfl, trivial, fun I _ => ?_⟩
    simp only [stdOp]
    congr 1
    refine prop_eq_bool ?_
    rw [den_bools, List.forall_mem_map, Bool.true_and, List.all_eq_true]
    simp
  case or =>
    split at hs <;> cases hs
    next hc =>
    obtain ⟨bs, rfl⟩ := exists_bools hc.2
    rw [foldlM_or] at h
    obtain rfl := ret_inj h rfl
    refine ⟨rfl, trivial, fun I _ => ?_⟩
    simp only [stdOp]
    congr 1
    refine prop_eq_bool ?_
    rw [den_bools, Bool.false_or, List.any_eq_true]
    constructor
    · rintro ⟨_, hv, ht⟩
      obtain ⟨b, hb, rfl⟩ := List.mem_map.1 hv
      exact ⟨b, hb, by simpa using ht⟩
    · rintro ⟨b, hb, ht⟩
      exact ⟨_, List.mem_map_of_mem hb, by simpa using ht⟩
  case xor =>
    split at hs <;> cases hs
    next hc =>
    obtain ⟨bs, rfl⟩ := exists_bools hc.2
    rw [foldlM_xor] at h
    obtain rfl := ret_inj h rfl
    refine ⟨rfl, trivial, fun I _ => ?_⟩
    simp only [stdOp]
    congr 1
    refine prop_eq_bool ?_
    rw [den_bools, xorL_bools (U := I.U)]
    simp
  case equals =>
    have hr : r = .bool := by
      split at hs
      · split at hs <;> cases hs
        rfl
      · cases hs
    subst hr
    rw [ret_pure] at h; subst h
    refine ⟨rfl, trivial, fun I _ => ?_⟩
    simp only [stdOp]
    congr 1
    exact prop_eq_bool (allEqual_spec vs hn)
  case distinct =>
    have hr : r = .bool := by
      split at hs
      · split at hs <;> cases hs
        rfl
      · cases hs
    subst hr
    rw [ret_pure] at h; subst h
    refine ⟨rfl, trivial, fun I _ => ?_⟩
    simp only [stdOp]
    congr 1
    exact prop_eq_bool (by rw [nodup_spec vs hn, decide_eq_true_iff])
  case ite =>
    split at hs
    · next c s s' hss =>
      split at hs <;> cases hs
      next hc =>
      obtain ⟨rfl, rfl⟩ := hc
      match vs, (by simpa using congrArg List.length hss : vs.length = 3) with
      | [x, y, z], _ =>
      simp only [List.map_cons, List.map_nil, List.cons.injEq, and_true] at hss
      obtain ⟨b, rfl⟩ := exists_bool hss.1
      cases b
      · obtain rfl := ret_inj h rfl
        refine ⟨hss.2.2, hn _ (by simp), fun I _ => ?_⟩
        simp [stdOp, Value.den, Val.T]
      · obtain rfl := ret_inj h rfl
        refine ⟨hss.2.1, hn _ (by simp), fun I _ => ?_⟩
        simp [stdOp, Value.den, Val.T]
    · cases hs
  case add =>
    obtain ⟨h1, h2⟩ := sort_arith hs
    refine agrees_arith ?_ ?_ h1 h2 h
    · intro I z y zs
      simp only [stdOp, stdAdd, asInts_map, Model.foldl_add_eq, List.sum_cons]
    · intro I z y zs
      rw [stdOp, stdAdd, asInts_map_real_none (by simp), asNums_map, cast_foldl_add, Model.foldl_add_eq, List.map_cons]
      simp only [List.sum_cons]
  case mult =>
    obtain ⟨h1, h2⟩ := sort_arith hs
    refine agrees_arith ?_ ?_ h1 h2 h
    · intro I z y zs
      simp only [stdOp, stdMult, asInts_map, Model.foldl_mul_eq, List.prod_cons]
    · intro I z y zs
      rw [stdOp, stdMult, asInts_map_real_none (by simp), asNums_map, cast_foldl_mul, Model.foldl_mul_eq, List.map_cons]
      simp only [List.prod_cons]
  case sub =>
    obtain ⟨h1, h2⟩ := sort_arith hs
    match vs, h1 with
    | [x], _ =>
      cases x with
      | int z =>
        obtain rfl := ret_inj h rfl
        cases h2
        exact ⟨rfl, trivial, fun I _ => by simp [stdOp, stdSub, Value.den, asInts, subL]⟩
      | real z =>
        obtain rfl := ret_inj h rfl
        cases h2
        exact ⟨rfl, trivial, fun I _ => by simp [stdOp, stdSub, Value.den, asInts, asNums, Val.num, subL]⟩
      | bool z => cases h2
      | str z => cases h2
      | bv z w => cases h2
    | x :: y :: vs, _ =>
      refine agrees_arith (fi := (· - ·)) (fr := (· - ·)) ?_ ?_ (by simp) h2 (v := v) ?_
      · intro I z y zs
        rw [stdOp, stdSub, if_neg (by simp), asInts_map]
        rfl
      · intro I z y zs
        rw [stdOp, stdSub, if_neg (by simp), asInts_map_real_none (by simp), asNums_map, cast_foldl_sub]
        rfl
      · cases x <;> exact h
  case intDiv =>
    split at hs <;> cases hs
    next hc =>
    obtain ⟨zs, rfl⟩ := exists_ints hc.2
    match zs, hc.1 with
    | z :: zs, _ =>
    rw [List.map_cons, arithOp] at h
    obtain ⟨s, rfl, h3⟩ := arithFold_int rfl zs z v h
    refine ⟨rfl, trivial, fun I hI => ?_⟩
    rw [den_ints] at hI ⊢
    simp only [stdOp, asInts_map]
    rw [foldlM_div zs z s h3 (hI z zs (asInts_map _))]
    rfl
  case realDiv =>
    split at hs <;> cases hs
    next hc =>
    obtain ⟨zs, rfl⟩ := exists_reals hc.2
    match zs, hc.1 with
    | z :: zs, _ =>
    rw [List.map_cons, arithOp] at h
    obtain ⟨s, rfl, h3⟩ := arithFold_real zs z v h
    refine ⟨rfl, trivial, fun I hI => ?_⟩
    rw [den_reals]
    simp only [stdOp, asNums_map]
    rw [List.map_cons]
    simp only
    rw [foldlM_divRat zs z s h3]
    rfl
  case mod =>
    split at hs <;> cases hs
    next hc =>
    obtain ⟨a, b, rfl⟩ := exists_int2 hc
    have h' : (OptionT.lift (modInt a b) >>= fun r => pure (.int r) : Ev Value).run = .ok (some v) := h
    rw [ret_bind] at h'
    obtain ⟨m, h1, h2⟩ := h'
    rw [ret_lift, modInt] at h1
    rw [ret_pure] at h2
    subst h2
    split at h1 <;> cases h1
    next hb =>
    refine ⟨rfl, trivial, fun I hI => ?_⟩
    simp only [stdOp, List.map_cons, List.map_nil, Value.den]
    rw [Interp.imod, if_neg hb]
    rcases hI a b rfl with h0 | h0
    · rw [Int.tmod_eq_emod_of_nonneg h0]
    · rw [Int.tmod_eq_zero_of_dvd h0, Int.emod_eq_zero_of_dvd h0]
  case abs =>
    split at hs <;> cases hs
    next hc =>
    obtain ⟨a, rfl⟩ := exists_int1 hc
    obtain rfl := ret_inj h rfl
    exact ⟨rfl, trivial, fun I hI => by simp [stdOp, Value.den]⟩
  case lt => exact agrees_compare (R := (· < ·)) (by intro a b; simp) (fun _ _ => rfl) hs h
  case gt => exact agrees_compare (R := (· > ·)) (by intro a b; simp) (fun _ _ => rfl) hs h
  case le => exact agrees_compare (R := (· ≤ ·)) (by intro a b; simp) (fun _ _ => rfl) hs h
  case ge => exact agrees_compare (R := (· ≥ ·)) (by intro a b; simp) (fun _ _ => rfl) hs h
  case toReal =>
    split at hs <;> cases hs
    next hc =>
    obtain ⟨a, rfl⟩ := exists_int1 hc
    obtain rfl := ret_inj h rfl
    exact ⟨rfl, trivial, fun I hI => by simp [stdOp, Value.den]⟩
  case toInt =>
    split at hs <;> cases hs
    next hc =>
    obtain ⟨a, rfl⟩ := exists_real1 hc
    obtain rfl := ret_inj h rfl
    refine ⟨rfl, trivial, fun I hI => ?_⟩
    simp only [stdOp, List.map_cons, List.map_nil, Value.den, Rat.floor_cast]
    rfl
  case isInt =>
    split at hs <;> cases hs
    next hc =>
    obtain ⟨a, rfl⟩ := exists_real1 hc
    obtain rfl := ret_inj h rfl
    refine ⟨rfl, trivial, fun I hI => ?_⟩
    simp only [stdOp, List.map_cons, List.map_nil, Value.den]
    congr 1
    refine prop_eq_bool ?_
    rw [decide_eq_true_iff]
    constructor
    · rintro ⟨z, hz⟩
      have : ((z : ℚ) : ℝ) = a := by push_cast; exact hz
      rw [Rat.cast_inj] at this
      rw [← this]; rfl
    · intro hd
      refine ⟨a.num, ?_⟩
      have := Rat.coe_int_num_of_den_eq_one hd
      exact_mod_cast congrArg (fun q : ℚ => (q : ℝ)) this
  case bvNot =>
    refine agrees_one hn (fun w a => newBv (-a.toNat - 1) w) (F := fun U w a => .bv w (~~~a)) (fun _ _ => rfl) (sort_bv_one hs) ?_
      (fun _ _ => rfl) (fun _ _ => norm_newBv _ _) ?_
    · rintro w a rfl; exact (ret_inj h rfl).symm
    · intro U w a _; rw [den_newBv, ofInt_not, ofInt_toNat]
  case bvNeg =>
    refine agrees_one hn (fun w a => newBv (-a.toNat) w) (F := fun U w a => .bv w (-a)) (fun _ _ => rfl) (sort_bv_one hs) ?_
      (fun _ _ => rfl) (fun _ _ => norm_newBv _ _) ?_
    · rintro w a rfl; exact (ret_inj h rfl).symm
    · intro U w a _; rw [den_newBv, BitVec.ofInt_neg, ofInt_toNat]
  case bvAnd => exact agrees_nary hn (g := fun _ a b => a &&& b) (fun _ _ => rfl) (fun _ _ _ => ofInt_bitAnd _ _) hs h
  case bvOr => exact agrees_nary hn (g := fun _ a b => a ||| b) (fun _ _ => rfl) (fun _ _ _ => ofInt_bitOr _ _) hs h
  case bvXor => exact agrees_nary hn (g := fun _ a b => a ^^^ b) (fun _ _ => rfl) (fun _ _ _ => ofInt_bitXor _ _) hs h
  case bvAdd =>
    exact agrees_nary hn (g := fun _ a b => a + b) (fun _ _ => rfl)
      (fun _ _ _ => by rw [ofInt_keepBits, BitVec.ofInt_add]) hs h
  case bvMul =>
    exact agrees_nary hn (g := fun _ a b => a * b) (fun _ _ => rfl)
      (fun _ _ _ => by rw [ofInt_keepBits, BitVec.ofInt_mul]) hs h
  case bvUDiv =>
    refine agrees_two hn (fun w a b => newBv (if (b.toNat : ℤ) = 0 then 2 ^ w - 1 else (a.toNat : ℤ).tdiv b.toNat) w)
      (F := fun U w a b => .bv w (a.smtUDiv b)) (fun _ _ => rfl) hs ?_ (fun _ _ _ => rfl) (fun _ _ _ => norm_newBv _ _) ?_
    · rintro w a b rfl; exact (ret_inj h rfl).symm
    · intro U w a b _ _; rw [den_newBv, ofInt_udiv]
  case bvURem =>
    refine agrees_two hn (fun w a b => newBv (if (b.toNat : ℤ) = 0 then (a.toNat : ℤ) else (a.toNat : ℤ).tmod b.toNat) w)
      (F := fun U w a b => .bv w (a.umod b)) (fun _ _ => rfl) hs ?_ (fun _ _ _ => rfl) (fun _ _ _ => norm_newBv _ _) ?_
    · rintro w a b rfl; exact (ret_inj h rfl).symm
    · intro U w a b _ _; rw [den_newBv, ofInt_urem]
  case bvShl =>
    refine agrees_two hn (fun w a b => newBv ((a.toNat : ℤ) * 2 ^ b.toNat) w)
      (F := fun U w a b => .bv w (a <<< b)) (fun _ _ => rfl) hs ?_ (fun _ _ _ => rfl) (fun _ _ _ => norm_newBv _ _) ?_
    · rintro w a b rfl
      rw [ret_bind] at h
      obtain ⟨p, h0, h'⟩ := h
      obtain rfl := ret_inj h0 twoBvs_run
      rw [ret_bind] at h'
      obtain ⟨n, h1, h2⟩ := h'
      rw [ret_opt] at h1
      have := toUsize_some h1
      rw [ret_pure] at h2
      rw [← h2, Nat.cast_inj.1 this]
    · intro U w a b _ _; rw [den_newBv, ofInt_shl]
  case bvLShr =>
    refine agrees_two hn (fun w a b => newBv ((a.toNat : ℤ) / 2 ^ b.toNat) w)
      (F := fun U w a b => .bv w (a >>> b)) (fun _ _ => rfl) hs ?_ (fun _ _ _ => rfl) (fun _ _ _ => norm_newBv _ _) ?_
    · rintro w a b rfl
      rw [ret_bind] at h
      obtain ⟨p, h0, h'⟩ := h
      obtain rfl := ret_inj h0 twoBvs_run
      rw [ret_bind] at h'
      obtain ⟨n, h1, h2⟩ := h'
      rw [ret_opt] at h1
      have := toUsize_some h1
      rw [ret_pure] at h2
      rw [← h2, Nat.cast_inj.1 this]
    · intro U w a b _ _; rw [den_newBv, ofInt_lshr]; rfl
  case bvULt => exact agrees_unsigned hn (R := (· < ·)) (by intro a b; simp) (fun _ _ => rfl) hs h
  case bvULe => exact agrees_unsigned hn (R := (· ≤ ·)) (by intro a b; simp) (fun _ _ => rfl) hs h
  case bvUGt => exact agrees_unsigned hn (R := (· > ·)) (by intro a b; simp) (fun _ _ => rfl) hs h
  case bvUGe => exact agrees_unsigned hn (R := (· ≥ ·)) (by intro a b; simp) (fun _ _ => rfl) hs h
  case bvConcat =>
    split at hs
    · next hl =>
      rw [Option.map_eq_some_iff] at hs
      obtain ⟨w, hw, rfl⟩ := hs
      obtain ⟨ws, hws, rfl⟩ := totalWidth_some hw
      obtain ⟨n, s, h1, h2, _⟩ := concatFold_spec (U := Unit) ws vs 0 0#0 hws hn
      rw [ret_bind] at h
      obtain ⟨p, h3, h4⟩ := h
      rw [ret_opt] at h3
      have e : (((0#0 : BitVec 0).toNat : ℤ), 0) = ((0, 0) : ℤ × ℕ) := rfl
      rw [e, h3] at h1
      cases h1
      rw [ret_pure] at h4
      subst h4
      refine ⟨?_, norm_newBv _ _, fun I _ => ?_⟩
      · exact congrArg Srt.bv (by omega)
      · obtain ⟨n', s', h1', _, h3'⟩ := concatFold_spec (U := I.U) ws vs 0 0#0 hws hn
        rw [e, h3] at h1'
        have hpair := Option.some.inj h1'
        rw [Prod.mk.injEq] at hpair
        obtain ⟨hp1, rfl⟩ := hpair
        have hss : s = s' := BitVec.eq_of_toNat_eq (by exact_mod_cast hp1)
        subst hss
        rw [den_newBv, ofInt_toNat, ← h3']
        match ws, vs, hws with
        | [], _, hws => simp at hl hws; simp [hws] at hl
        | w :: ws, x :: vs, hws =>
          rw [List.map_cons, List.map_cons, List.cons.injEq] at hws
          obtain ⟨b, rfl⟩ := exists_bv hws.1 (hn x (by simp))
          simp only [stdOp, bvConcat, List.map_cons, List.foldl_cons, den_bits, concatStep]
          congr 2
          exact val_bv_ext (Nat.zero_add w).symm (by simp [toNat_append_eq])
    · cases hs
  case bvNAnd =>
    refine agrees_two hn (fun w a b => newBv (-bitAnd a.toNat b.toNat w - 1) w)
      (F := fun U w a b => .bv w (~~~(a &&& b))) (fun _ _ => rfl) hs ?_ (fun _ _ _ => rfl) (fun _ _ _ => norm_newBv _ _) ?_
    · rintro w a b rfl; exact (ret_inj h rfl).symm
    · intro U w a b _ _; rw [den_newBv, ofInt_not, ofInt_bitAnd, ofInt_toNat, ofInt_toNat]
  case bvNOr =>
    refine agrees_two hn (fun w a b => newBv (-bitOr a.toNat b.toNat w - 1) w)
      (F := fun U w a b => .bv w (~~~(a ||| b))) (fun _ _ => rfl) hs ?_ (fun _ _ _ => rfl) (fun _ _ _ => norm_newBv _ _) ?_
    · rintro w a b rfl; exact (ret_inj h rfl).symm
    · intro U w a b _ _; rw [den_newBv, ofInt_not, ofInt_bitOr, ofInt_toNat, ofInt_toNat]
  case bvXNor =>
    refine agrees_two hn (fun w a b => newBv (-bitXor a.toNat b.toNat w - 1) w)
      (F := fun U w a b => .bv w (~~~(a ^^^ b))) (fun _ _ => rfl) hs ?_ (fun _ _ _ => rfl) (fun _ _ _ => norm_newBv _ _) ?_
    · rintro w a b rfl; exact (ret_inj h rfl).symm
    · intro U w a b _ _; rw [den_newBv, ofInt_not, ofInt_bitXor, ofInt_toNat, ofInt_toNat]
  case bvComp =>
    refine agrees_two hn (fun w a b => newBv (if (a.toNat : ℤ) = b.toNat then 1 else 0) 1)
      (F := fun U w a b => .bv 1 (if a = b then 1#1 else 0#1)) (fun _ _ => rfl) hs ?_ (fun _ _ _ => rfl) (fun _ _ _ => norm_newBv _ _) ?_
    · rintro w a b rfl; exact (ret_inj h rfl).symm
    · intro U w a b _ _
      rw [den_newBv]
      by_cases hab : a = b
      · rw [if_pos hab, if_pos (by rw [hab])]; rfl
      · rw [if_neg hab, if_neg fun e => hab (BitVec.eq_of_toNat_eq (by exact_mod_cast e))]; rfl
  case bvSub =>
    refine agrees_two hn (fun w a b => newBv (magnitude a - magnitude b) w)
      (F := fun U w a b => .bv w (a - b)) (fun _ _ => rfl) hs ?_ (fun _ _ _ => rfl) (fun _ _ _ => norm_newBv _ _) ?_
    · rintro w a b rfl
      rw [ret_bind] at h
      obtain ⟨p, h1, h2⟩ := h
      obtain ⟨rfl, _⟩ := twoSignedBvs_spec h1
      exact (ret_pure.1 h2).symm
    · intro U w a b hS _
      obtain ⟨ha, hb⟩ := hS w a b rfl
      rw [den_newBv, magnitude_of_false ha, magnitude_of_false hb, ofInt_sub, ofInt_toNat, ofInt_toNat]
  case bvSDiv =>
    split at hs
    · next hl =>
      rw [Option.map_eq_some_iff] at hs
      obtain ⟨w, hw, rfl⟩ := hs
      obtain ⟨a, b, rfl⟩ := exists_bv2 hl hw hn
      rw [ret_bind] at h
      obtain ⟨p, h1, h2⟩ := h
      obtain ⟨rfl, _⟩ := twoSignedBvs_spec h1
      simp only at h2
      split at h2
      · exact (ret_none h2).elim
      next hb =>
      rw [ret_pure] at h2
      subst h2
      refine ⟨rfl, norm_newBv _ _, fun I hI => ?_⟩
      rw [den_bv2] at hI ⊢
      rw [stdOp, bvBin_two, den_newBv, ofInt_sdiv (hI w a b rfl) hb]
    · cases hs
  case bvSRem =>
    split at hs
    · next hl =>
      rw [Option.map_eq_some_iff] at hs
      obtain ⟨w, hw, rfl⟩ := hs
      obtain ⟨a, b, rfl⟩ := exists_bv2 hl hw hn
      rw [ret_bind] at h
      obtain ⟨p, h1, h2⟩ := h
      obtain ⟨rfl, _⟩ := twoSignedBvs_spec h1
      simp only at h2
      split at h2
      · exact (ret_none h2).elim
      next hb =>
      rw [ret_pure] at h2
      subst h2
      refine ⟨rfl, norm_newBv _ _, fun I hI => ?_⟩
      rw [den_bv2] at hI ⊢
      rw [stdOp, bvBin_two, den_newBv, ofInt_srem (hI w a b rfl)]
    · cases hs
  case bvSMod =>
    split at hs
    · next hl =>
      rw [Option.map_eq_some_iff] at hs
      obtain ⟨w, hw, rfl⟩ := hs
      obtain ⟨a, b, rfl⟩ := exists_bv2 hl hw hn
      rw [ret_bind] at h
      obtain ⟨p, h1, h2⟩ := h
      obtain ⟨rfl, _⟩ := twoSignedBvs_spec h1
      simp only at h2
      split at h2
      · exact (ret_none h2).elim
      next hb =>
      rw [ret_pure] at h2
      subst h2
      refine ⟨rfl, norm_newBv _ _, fun I hI => ?_⟩
      rw [den_bv2] at hI ⊢
      rw [stdOp, bvBin_two, den_newBv, ofInt_smod (hI w a b rfl).1 (hI w a b rfl).2 hb]
    · cases hs
  case bvAShr =>
    split at hs
    · next hl =>
      rw [Option.map_eq_some_iff] at hs
      obtain ⟨w, hw, rfl⟩ := hs
      obtain ⟨a, b, rfl⟩ := exists_bv2 hl hw hn
      rw [ret_bind] at h
      obtain ⟨p, h0, h'⟩ := h
      obtain rfl := ret_inj h0 twoBvs_run
      rw [ret_bind] at h'
      obtain ⟨n, h1, h2⟩ := h'
      rw [ret_unwrap] at h1
      obtain rfl := Nat.cast_inj.1 (toUsize_some h1)
      split at h2
      · exact (ret_panics h2).elim
      next hw0 =>
      rw [getBit_msb a hw0] at h2
      split at h2
      · next hm =>
        split at h2
        · exact (ret_panics h2).elim
        rw [ret_pure] at h2
        subst h2
        refine ⟨rfl, norm_newBv _ _, fun I hI => ?_⟩
        rw [den_bv2, stdOp, bvBin_two, den_newBv, ofInt_ashr a _ (by omega) hm]
        rfl
      · next hm =>
        rw [ret_pure] at h2
        subst h2
        refine ⟨rfl, norm_newBv _ _, fun I hI => ?_⟩
        rw [den_bv2, stdOp, bvBin_two, den_newBv, ofInt_lshr, BitVec.sshiftRight_eq',
          BitVec.sshiftRight_eq_of_msb_false (by simpa using hm)]
    · cases hs
  case bvSLt =>
    exact agrees_signed hn (R := (· < ·)) (by intro a b; simp) (fun _ _ => rfl) (fun _ w a b h => h w a b rfl) hs h
  case bvSLe =>
    exact agrees_signed hn (R := (· ≤ ·)) (by intro a b; simp) (fun _ _ => rfl) (fun _ w a b h => h w a b rfl) hs h
  case bvSGt =>
    exact agrees_signed hn (R := (· > ·)) (by intro a b; simp) (fun _ _ => rfl) (fun _ w a b h => h w a b rfl) hs h
  case bvSGe =>
    exact agrees_signed hn (R := (· ≥ ·)) (by intro a b; simp) (fun _ _ => rfl) (fun _ w a b h => h w a b rfl) hs h
  case ubvToInt =>
    refine agrees_one hn (fun w a => .int a.toNat) (F := fun U w a => .int a.toNat) (fun _ _ => rfl)
      (sort_bv_one (g := fun _ => .int) hs) ?_ (fun _ _ => rfl) (fun _ _ => trivial) (fun _ _ _ _ => rfl)
    rintro w a rfl; exact (ret_inj h rfl).symm
  case sbvToInt =>
    refine agrees_one hn (fun w a => .int (magnitude a)) (F := fun U w a => .int a.toInt) (fun _ _ => rfl)
      (sort_bv_one (g := fun _ => .int) hs) ?_ (fun _ _ => rfl) (fun _ _ => trivial) ?_
    · rintro w a rfl
      rw [oneSignedBv, ret_bind] at h
      obtain ⟨p, h1, h2⟩ := h
      rw [ret_bind] at h1
      obtain ⟨x, h3, h1⟩ := h1
      rw [ret_unwrap] at h3; cases h3
      obtain ⟨rfl, _⟩ := asSignedBv_spec h1
      exact (ret_pure.1 h2).symm
    · intro U w a hS
      have := hS w a rfl
      rw [magnitude_of_false this, BitVec.toInt_eq_toNat_of_msb this]; rfl
  case bvSize =>
    refine agrees_one hn (fun w a => .int w) (F := fun U w a => .int w) (fun _ _ => rfl)
      (sort_bv_one (g := fun _ => .int) hs) ?_ (fun _ _ => rfl) (fun _ _ => trivial) (fun _ _ _ _ => rfl)
    rintro w a rfl; exact (ret_inj h rfl).symm
  case bvBbTerm =>
    split at hs <;> cases hs
    next hc =>
    obtain ⟨bs, rfl⟩ := exists_bools hc.2
    rw [bitsValue_spec (bs.map Value.bool) bs (by simp [Value.asBool, Function.comp_def])] at h
    obtain rfl := ret_inj h rfl
    refine ⟨by simp [Value.sort], ?_, fun I _ => ?_⟩
    · refine ⟨by positivity, ?_⟩
      have := bits_lt bs
      rw [List.length_map, ← pow_cast]
      exact_mod_cast this
    · simp only [stdOp]
      congr 1
      rw [Value.den]
      refine val_bv_ext (by simp) ?_
      have e : ((bs.map Value.bool).map (Value.den (U := I.U))).map (fun v => decide v.T) = bs := by
        rw [den_bools, List.map_map]
        simp [Function.comp_def]
      have hlt := bits_lt bs
      rw [BitVec.toNat_cast, BitVec.ofInt_natCast, BitVec.toNat_ofNat, e, List.length_map, Nat.mod_eq_of_lt hlt]
  case bvPBbTerm =>
    split at hs <;> cases hs
    next hc =>
    obtain ⟨zs, rfl⟩ := exists_ints hc.2
    rw [bitsValue_spec (zs.map Value.int) (zs.map fun z => decide (z = 1)) (by
      simp only [List.map_map, Function.comp_def, Value.asInt, Option.map_some]; rfl)] at h
    obtain rfl := ret_inj h rfl
    refine ⟨by simp [Value.sort], ?_, fun I _ => ?_⟩
    · refine ⟨by positivity, ?_⟩
      have := bits_lt (zs.map fun z => decide (z = 1))
      have e : (zs.map fun z => decide (z = 1)).length = (zs.map Value.int).length := by simp
      rw [← e, ← pow_cast]
      exact_mod_cast this
    · rw [den_ints]
      simp only [stdOp, asInts_map, Option.map_some]
      congr 1
      rw [Value.den]
      refine val_bv_ext (by simp) ?_
      have hlt := bits_lt (zs.map fun z => decide (z = 1))
      have e : (zs.map fun z => decide (z = 1)).length = (zs.map Value.int).length := by simp
      rw [BitVec.ofInt_natCast, BitVec.toNat_ofNat, ← e, Nat.mod_eq_of_lt hlt]
  case pow2 =>
    split at hs <;> cases hs
    next hc =>
    obtain ⟨a, rfl⟩ := exists_int1 hc
    rw [ret_bind] at h
    obtain ⟨z, h1, h⟩ := h
    obtain rfl := ret_inj h1 (show (intArg [.int a] 0).run = .ok (some a) from rfl)
    split at h
    · next h0 =>
      rw [ret_pure] at h
      subst h
      refine ⟨rfl, trivial, fun I _ => ?_⟩
      simp only [stdOp, List.map_cons, List.map_nil, Value.den]
      rw [if_neg (by omega)]
    · next h0 =>
      rw [ret_bind] at h
      obtain ⟨n, h1, h⟩ := h
      rw [ret_opt] at h1
      have hz := toUsize_some h1
      rw [ret_pure] at h
      subst h
      refine ⟨rfl, trivial, fun I _ => ?_⟩
      simp only [stdOp, List.map_cons, List.map_nil, Value.den]
      rw [if_pos (by omega), hz]
      rfl
  case log2 =>
    split at hs <;> cases hs
    next hc =>
    obtain ⟨a, rfl⟩ := exists_int1 hc
    rw [ret_bind] at h
    obtain ⟨z, h1, h⟩ := h
    obtain rfl := ret_inj h1 (show (intArg [.int a] 0).run = .ok (some a) from rfl)
    split at h
    · next h0 =>
      rw [ret_pure] at h
      subst h
      refine ⟨rfl, trivial, fun I _ => ?_⟩
      simp only [stdOp, List.map_cons, List.map_nil, Value.den]
      rw [if_neg (by omega)]
    · next h0 =>
      rw [ret_pure] at h
      subst h
      refine ⟨rfl, trivial, fun I _ => ?_⟩
      simp only [stdOp, List.map_cons, List.map_nil, Value.den]
      rw [if_pos (by omega)]
  case isPow2 =>
    split at hs <;> cases hs
    next hc =>
    obtain ⟨a, rfl⟩ := exists_int1 hc
    obtain rfl := ret_inj h rfl
    refine ⟨rfl, trivial, fun I _ => ?_⟩
    simp only [stdOp, List.map_cons, List.map_nil, Value.den]
    congr 1
    refine prop_eq_bool ?_
    rw [decide_eq_true_iff]
    constructor
    · rintro ⟨k, rfl⟩
      refine ⟨by positivity, ?_⟩
      have : ((2 : ℤ) ^ k).toNat = 2 ^ k := by rw [← pow_cast, Int.toNat_natCast]
      rw [this, Nat.log2_two_pow]
    · rintro ⟨_, h2⟩
      exact ⟨_, h2⟩
  all_goals first | exact (ret_none h).elim | cases hs

/-- What is to be shown about the result `v` of an indexed operator. -/
def PopAgrees (o : ParamOp) (ps vs : List Value) (r : Srt) (v : Value) : Prop :=
  v.sort = r ∧ v.Norm ∧ ∀ I : Interp, SafePop o (ps.map (Value.den (U := I.U))) (vs.map Value.den) →
    stdPop I o (ps.map Value.den) (vs.map Value.den) = some v.den

theorem intArg_ret {vs : List Value} {i : ℕ} {z : ℤ} (h : (intArg vs i).run = .ok (some z)) : vs[i]? = some (.int z) := by
  rw [intArg, ret_bind] at h
  obtain ⟨a, h1, h2⟩ := h
  rw [ret_unwrap] at h1
  rw [ret_opt] at h2
  rw [h1]
  cases a <;> simp_all [Value.asInt]

/-- An index that is an integer, as the code reads it. -/
theorem index_ret {ps : List Value} {k : ℕ} {z : ℤ} {β : Type} {f : ℕ → Ev β} {b : β} (hz : ps[k]? = some (.int z))
    (h : (intArg ps k >>= fun i => Ev.unwrap (toUsize i) >>= f).run = .ok (some b)) :
    ∃ n : ℕ, z = n ∧ (f n).run = .ok (some b) := by
  rw [ret_bind] at h
  obtain ⟨z', h1, h⟩ := h
  have := intArg_ret h1
  rw [hz] at this
  cases this
  rw [ret_bind] at h
  obtain ⟨n, h1, h⟩ := h
  rw [ret_unwrap] at h1
  exact ⟨n, toUsize_some h1, h⟩

theorem oneBv_ret {v : ℤ} {w : ℕ} {β : Type} {f : ℤ × ℕ → Ev β} {b : β} (h : (oneBv [.bv v w] >>= f).run = .ok (some b)) :
    (f (v, w)).run = .ok (some b) := by
  rw [ret_bind] at h
  obtain ⟨p, h1, h⟩ := h
  obtain rfl := ret_inj h1 (show (oneBv [.bv v w]).run = .ok (some (v, w)) from rfl)
  exact h

theorem den_bv1 {U : Type} {w : ℕ} (a : BitVec w) : [Value.bv a.toNat w].map (Value.den (U := U)) = [.bv w a] := by
  simp [den_bits]

theorem evalPopValues_agrees {o : ParamOp} {ps vs : List Value} {r : Srt} {v : Value} (hn : ∀ v ∈ vs, v.Norm)
    (hs : popSort o (ps.map Value.toTerm) (vs.map Value.sort) = some r)
    (h : (evalPopValues o ps vs).run = .ok (some v)) : PopAgrees o ps vs r v := by
  have hint : ∀ {x : Value} {z : ℤ}, x.toTerm = .const (.int z) → x = .int z := by
    intro x z e
    cases x with
    | int z => cases e; rfl
    | bool b => cases b <;> cases e
    | _ => cases e
  have hps1 : ∀ {z : ℤ}, ps.map Value.toTerm = [.const (.int z)] → ps = [.int z] := by
    intro z e
    match ps, (by simpa using congrArg List.length e : ps.length = 1) with
    | [x], _ => rw [hint (List.cons.inj e).1]
  have hps2 : ∀ {y z : ℤ}, ps.map Value.toTerm = [.const (.int y), .const (.int z)] → ps = [.int y, .int z] := by
    intro y z e
    match ps, (by simpa using congrArg List.length e : ps.length = 2) with
    | [x, x'], _ => rw [hint (List.cons.inj e).1, hint (List.cons.inj (List.cons.inj e).2).1]
  unfold popSort at hs
  split at hs
  -- extract
  · next hp hv =>
    split at hs <;> cases hs
    next hc =>
    obtain rfl := hps2 hp
    obtain ⟨a, rfl⟩ := exists_bv1 hv hn
    simp only [evalPopValues] at h
    obtain ⟨i, hi, h1⟩ := index_ret rfl h
    obtain ⟨j, hj, h2⟩ := index_ret rfl h1
    clear h h1
    subst hi hj
    have h := oneBv_ret h2
    simp only at h
    split at h
    · exact (ret_panics h).elim
    rw [ret_pure] at h
    subst h
    refine ⟨rfl, norm_newBv _ _, fun I hI => ?_⟩
    rw [den_bv1] at hI ⊢
    have hb := hI _ _ _ a rfl rfl
    simp only [stdPop, List.map_cons, List.map_nil, Value.den.eq_2]
    rw [if_pos ⟨hc.1, hc.2.1⟩, den_newBv, Int.toNat_natCast, Int.toNat_natCast, ofInt_extract a (by omega) (by simpa using hb)]
  -- bit_of
  · next hp hv =>
    split at hs <;> cases hs
    next hc =>
    obtain rfl := hps1 hp
    obtain ⟨a, rfl⟩ := exists_bv1 hv hn
    simp only [evalPopValues] at h
    obtain ⟨i, hi, h'⟩ := index_ret rfl h
    clear h
    subst hi
    have h := h'
    clear h'
    have h := oneBv_ret h
    simp only at h
    rw [ret_pure] at h
    subst h
    refine ⟨rfl, trivial, fun I hI => ?_⟩
    rw [den_bv1]
    simp only [stdPop, List.map_cons, List.map_nil, Value.den.eq_2]
    rw [if_pos hc, getBit_toNat, Int.toNat_natCast]
    exact congrArg some (prop_eq_bool Iff.rfl)
  -- int_of
  · next hp hv =>
    split at hs <;> cases hs
    next hc =>
    obtain rfl := hps1 hp
    obtain ⟨a, rfl⟩ := exists_bv1 hv hn
    simp only [evalPopValues] at h
    obtain ⟨i, hi, h'⟩ := index_ret rfl h
    clear h
    subst hi
    have h := h'
    clear h'
    have h := oneBv_ret h
    simp only at h
    rw [ret_pure] at h
    subst h
    refine ⟨rfl, trivial, fun I hI => ?_⟩
    rw [den_bv1]
    simp only [stdPop, List.map_cons, List.map_nil, Value.den.eq_2]
    rw [if_pos hc, getBit_toNat, Int.toNat_natCast]
  -- zero_extend
  · next hp hv =>
    split at hs <;> cases hs
    next hc =>
    obtain rfl := hps1 hp
    obtain ⟨a, rfl⟩ := exists_bv1 hv hn
    simp only [evalPopValues] at h
    obtain ⟨i, hi, h'⟩ := index_ret rfl h
    clear h
    subst hi
    have h := h'
    clear h'
    have h := oneBv_ret h
    simp only at h
    rw [ret_pure] at h
    subst h
    refine ⟨by rw [sort_newBv, Int.toNat_natCast, Nat.add_comm], norm_newBv _ _, fun I hI => ?_⟩
    rw [den_bv1]
    simp only [stdPop, List.map_cons, List.map_nil, Value.den.eq_2]
    rw [if_pos hc, den_newBv, ofInt_setWidth, Int.toNat_natCast]
    exact congrArg some (val_bv_ext (Nat.add_comm _ _) (by simp [Nat.add_comm]))
  -- sign_extend
  · next hp hv =>
    split at hs <;> cases hs
    next hc =>
    obtain rfl := hps1 hp
    obtain ⟨a, rfl⟩ := exists_bv1 hv hn
    simp only [evalPopValues] at h
    obtain ⟨i, hi, h'⟩ := index_ret rfl h
    clear h
    subst hi
    have h := h'
    clear h'
    rw [oneSignedBv, ret_bind] at h
    obtain ⟨p, h1, h⟩ := h
    rw [ret_bind] at h1
    obtain ⟨x, h3, h1⟩ := h1
    rw [ret_unwrap] at h3; cases h3
    obtain ⟨rfl, _⟩ := asSignedBv_spec h1
    simp only at h
    rw [ret_pure] at h
    subst h
    refine ⟨by rw [sort_newBv, Int.toNat_natCast, Nat.add_comm], norm_newBv _ _, fun I hI => ?_⟩
    rw [den_bv1] at hI ⊢
    have hm := hI _ a rfl
    simp only [stdPop, List.map_cons, List.map_nil, Value.den.eq_2]
    rw [if_pos hc, den_newBv, magnitude_of_false hm, ofInt_setWidth, BitVec.signExtend_eq_setWidth_of_msb_false hm,
      Int.toNat_natCast]
    exact congrArg some (val_bv_ext (Nat.add_comm _ _) (by simp [Nat.add_comm]))
  -- rotate_left
  · next hp hv =>
    split at hs <;> cases hs
    next hc =>
    obtain rfl := hps1 hp
    obtain ⟨a, rfl⟩ := exists_bv1 hv hn
    simp only [evalPopValues] at h
    obtain ⟨i, hi, h'⟩ := index_ret rfl h
    clear h
    subst hi
    have h := h'
    clear h'
    have h := oneBv_ret h
    simp only at h
    split at h
    · exact (ret_panics h).elim
    next hi =>
    rw [ret_bind] at h
    obtain ⟨z, h1, h⟩ := h
    rw [rotateRight] at h1
    split at h1
    · exact (ret_panics h1).elim
    next hw =>
    rw [ret_pure] at h h1
    subst h h1
    refine ⟨rfl, norm_newBv _ _, fun I hI => ?_⟩
    rw [den_bv1]
    simp only [stdPop, List.map_cons, List.map_nil, Value.den.eq_2]
    rw [if_pos hc, den_newBv, ofInt_rotateRight a _ hw, rotateLeft_eq a (by omega), Int.toNat_natCast]
  -- rotate_right
  · next hp hv =>
    split at hs <;> cases hs
    next hc =>
    obtain rfl := hps1 hp
    obtain ⟨a, rfl⟩ := exists_bv1 hv hn
    simp only [evalPopValues] at h
    obtain ⟨i, hi, h'⟩ := index_ret rfl h
    clear h
    subst hi
    have h := h'
    clear h'
    have h := oneBv_ret h
    simp only at h
    rw [ret_bind] at h
    obtain ⟨z, h1, h⟩ := h
    rw [rotateRight] at h1
    split at h1
    · exact (ret_panics h1).elim
    next hw =>
    rw [ret_pure] at h h1
    subst h h1
    refine ⟨rfl, norm_newBv _ _, fun I hI => ?_⟩
    rw [den_bv1]
    simp only [stdPop, List.map_cons, List.map_nil, Value.den.eq_2]
    rw [if_pos hc, den_newBv, ofInt_rotateRight a _ hw, Int.toNat_natCast]
  -- repeat
  · next hp hv =>
    split at hs <;> cases hs
    next hc =>
    obtain rfl := hps1 hp
    obtain ⟨a, rfl⟩ := exists_bv1 hv hn
    simp only [evalPopValues] at h
    obtain ⟨i, hi, h'⟩ := index_ret rfl h
    clear h
    subst hi
    have h := h'
    clear h'
    have h := oneBv_ret h
    simp only at h
    rw [ret_pure] at h
    subst h
    refine ⟨rfl, norm_newBv _ _, fun I hI => ?_⟩
    rw [den_bv1]
    simp only [stdPop, List.map_cons, List.map_nil, Value.den.eq_2]
    have := repeatBits_eq a i 0
    rw [Nat.cast_zero] at this
    rw [if_pos hc, den_newBv, this, Nat.zero_mul, Nat.zero_add, Int.toNat_natCast, ofInt_toNat]
  -- int2bv
  · next hp hv =>
    split at hs <;> cases hs
    next hc =>
    obtain rfl := hps1 hp
    obtain ⟨z, rfl⟩ := exists_int1 hv
    simp only [evalPopValues] at h
    obtain ⟨i, hi, h'⟩ := index_ret rfl h
    clear h
    subst hi
    have h := h'
    clear h'
    rw [ret_bind] at h
    obtain ⟨z', h1, h⟩ := h
    obtain rfl := ret_inj h1 (show (intArg [.int z] 0).run = .ok (some z) from rfl)
    rw [ret_pure] at h
    subst h
    refine ⟨rfl, norm_newBv _ _, fun I hI => ?_⟩
    simp only [stdPop, List.map_cons, List.map_nil, Value.den.eq_2]
    rw [if_pos hc, den_newBv, Int.toNat_natCast]
  · simp only [evalPopValues] at h; exact (ret_none h).elim
  · simp only [evalPopValues] at h; exact (ret_none h).elim
  · cases hs

/-! ## Terms -/

theorem eval_toTerm (I : Interp) (v : Value) (ρ : Env I.U) : eval I v.toTerm ρ = v.den := by
  cases v with
  | bool b => cases b <;> rfl
  | _ => rfl

theorem sortOf_toTerm (v : Value) : sortOf v.toTerm = some v.sort := by
  cases v with
  | bool b => cases b <;> rfl
  | _ => rfl

theorem toTerm_ofTerm {t : Term} {v : Value} {s : Srt} (h : Value.ofTerm t = some v) (hs : sortOf t = some s) : v.toTerm = t := by
  unfold Value.ofTerm at h
  split at h <;> cases h
  · next c => cases c <;> rfl
  · next as =>
    obtain ⟨ss, h1, h2⟩ := sortOf_op (by decide) hs
    simp only [opSort] at h2
    split at h2 <;> cases h2
    next e =>
    subst e
    cases as with
    | nil => rfl
    | cons a as => simp only [sortOfL] at h1; split at h1 <;> cases h1
  · next as =>
    obtain ⟨ss, h1, h2⟩ := sortOf_op (by decide) hs
    simp only [opSort] at h2
    split at h2 <;> cases h2
    next e =>
    subst e
    cases as with
    | nil => rfl
    | cons a as => simp only [sortOfL] at h1; split at h1 <;> cases h1

theorem valuesOf_some : ∀ {ts : List Term} {vs : List Value} {ss : List Srt}, valuesOf ts = some vs → sortOfL ts = some ss →
    ts = vs.map Value.toTerm ∧ ss = vs.map Value.sort
  | [], vs, ss, h, hs => by cases h; cases hs; exact ⟨rfl, rfl⟩
  | t :: ts, vs, ss, h, hs => by
    simp only [valuesOf, Option.bind_eq_bind, Option.bind_eq_some_iff, Option.some.injEq] at h
    obtain ⟨v, h1, vs', h2, rfl⟩ := h
    simp only [sortOfL] at hs
    split at hs <;> cases hs
    next s ss' hs1 hs2 =>
    obtain ⟨rfl, rfl⟩ := valuesOf_some h2 hs2
    have e := toTerm_ofTerm h1 hs1
    subst e
    rw [sortOf_toTerm] at hs1
    cases hs1
    exact ⟨rfl, rfl⟩

end Carcara
