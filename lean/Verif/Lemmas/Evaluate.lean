import Verif.Lemmas.EvaluateBv
import Verif.Spec.Evaluate

/-! # Evaluation of operators on values agrees with the semantics -/

namespace Carcara
open Classical Val Sem

namespace Value

/-- The sort of a value. -/
def sort : Value → Srt
  | .bool _ => .bool
  | .int _ => .int
  | .real _ => .real
  | .str _ => .string
  | .bv _ w => .bv w

/-- The semantic value. -/
noncomputable def den {U : Type} : Value → Val U
  | .bool b => .bool b
  | .int z => .int z
  | .real q => .real q
  | .str s => .str s
  | .bv v w => .bv w (BitVec.ofInt w v)

/-- The number of a bit-vector value fits its width. -/
def Norm : Value → Prop
  | .bv v w => 0 ≤ v ∧ v < 2 ^ w
  | _ => True

theorem sort_newBv (v : ℤ) (w : ℕ) : (newBv v w).sort = .bv w := rfl
theorem norm_newBv (v : ℤ) (w : ℕ) : (newBv v w).Norm := ⟨keepBits_nonneg _ _, keepBits_lt _ _⟩
theorem den_newBv {U : Type} (v : ℤ) (w : ℕ) : ((newBv v w).den : Val U) = .bv w (BitVec.ofInt w v) := by
  rw [newBv, den, ofInt_keepBits]
theorem den_bits {U : Type} {w : ℕ} (a : BitVec w) : ((Value.bv a.toNat w).den : Val U) = .bv w a := by
  rw [den, ofInt_toNat]

theorem exists_bool {v : Value} (h : v.sort = .bool) : ∃ b, v = .bool b := by cases v <;> simp_all [sort]
theorem exists_int {v : Value} (h : v.sort = .int) : ∃ b, v = .int b := by cases v <;> simp_all [sort]
theorem exists_real {v : Value} (h : v.sort = .real) : ∃ b, v = .real b := by cases v <;> simp_all [sort]
theorem exists_bv {v : Value} {w : ℕ} (h : v.sort = .bv w) (hn : v.Norm) : ∃ a : BitVec w, v = .bv a.toNat w := by
  cases v with
  | bv v w' =>
    cases h
    refine ⟨BitVec.ofInt w v, ?_⟩
    rw [← emod_eq_toNat, Int.emod_eq_of_lt hn.1 hn.2]
  | _ => simp [sort] at h

theorem exists_list {α : Type} {vs : List Value} (f : α → Value) (h : ∀ v ∈ vs, ∃ a, v = f a) : ∃ as : List α, vs = as.map f := by
  induction vs with
  | nil => exact ⟨[], rfl⟩
  | cons v vs ih =>
    obtain ⟨a, rfl⟩ := h v (by simp)
    obtain ⟨as, rfl⟩ := ih fun v hv => h v (by simp [hv])
    exact ⟨a :: as, rfl⟩

theorem den_inj {U : Type} {x y : Value} (hx : x.Norm) (hy : y.Norm) : (x.den : Val U) = y.den ↔ x = y := by
  refine ⟨fun h => ?_, fun h => by rw [h]⟩
  cases x <;> cases y <;> simp only [den, Val.bool.injEq, Val.int.injEq, Val.real.injEq, Val.str.injEq, Val.bv.injEq,
    reduceCtorEq, Rat.cast_inj, Value.bool.injEq, Value.int.injEq, Value.real.injEq, Value.str.injEq] at h ⊢ <;>
    try exact h
  obtain ⟨rfl, h⟩ := h
  have h := ofInt_eq_iff.1 (eq_of_heq h)
  rw [Int.emod_eq_of_lt hx.1 hx.2, Int.emod_eq_of_lt hy.1 hy.2] at h
  rw [h]

end Value

open Value

theorem ret_inj {α : Type} {x : Ev α} {u v : α} (h : x.run = .ok (some v)) (e : x.run = .ok (some u)) : u = v := by
  rw [e] at h; cases h; rfl

theorem ret_bind {α β : Type} {x : Ev α} {f : α → Ev β} {b : β} :
    (x >>= f).run = .ok (some b) ↔ ∃ a, x.run = .ok (some a) ∧ (f a).run = .ok (some b) := by
  rw [OptionT.run_bind]
  cases hx : x.run with
  | error e => exact ⟨fun h => (by cases h), fun ⟨a, h, _⟩ => (by cases h)⟩
  | ok o =>
    cases o with
    | none => exact ⟨fun h => (by cases h), fun ⟨a, h, _⟩ => (by cases h)⟩
    | some a => exact ⟨fun h => ⟨a, rfl, h⟩, fun ⟨a', h, h'⟩ => by cases h; exact h'⟩

theorem ret_opt {α : Type} {x : Option α} {a : α} : (Ev.opt x).run = .ok (some a) ↔ x = some a := by
  show Except.ok x = .ok (some a) ↔ _
  exact ⟨fun h => by cases h; rfl, fun h => by rw [h]⟩

theorem ret_pure {α : Type} {a b : α} : (pure a : Ev α).run = .ok (some b) ↔ a = b :=
  ⟨fun h => by cases h; rfl, fun h => by rw [h]; rfl⟩

theorem ret_unwrap {α : Type} {x : Option α} {a : α} : (Ev.unwrap x).run = .ok (some a) ↔ x = some a := by
  cases x with
  | none => exact ⟨fun h => (by cases h), fun h => (by cases h)⟩
  | some b => exact ⟨fun h => by cases h; rfl, fun h => by cases h; rfl⟩

theorem ret_lift {α : Type} {x : Res α} {a : α} : (OptionT.lift x : Ev α).run = .ok (some a) ↔ x = .ok a := by
  cases x with
  | error e => exact ⟨fun h => (by cases h), fun h => (by cases h)⟩
  | ok b => exact ⟨fun h => by cases h; rfl, fun h => by cases h; rfl⟩

theorem ret_panics {α : Type} {a : α} : ¬ (Ev.panics : Ev α).run = .ok (some a) := fun h => by cases h
theorem ret_none {α : Type} {a : α} : ¬ (Ev.none : Ev α).run = .ok (some a) := fun h => by cases h

/-! ## Booleans -/

theorem asBool_bool (b : Bool) : (Value.bool b).asBool = some b := rfl

theorem foldlM_and (bs : List Bool) (acc : Bool) :
    (bs.map Value.bool).foldlM (fun acc a => if acc then a.asBool else some false) acc = some (acc && bs.all id) := by
  induction bs generalizing acc with
  | nil => simp
  | cons b bs ih => cases acc <;> simp [ih, asBool_bool]

theorem foldlM_or (bs : List Bool) (acc : Bool) :
    (bs.map Value.bool).foldlM (fun acc a => if acc then some true else a.asBool) acc = some (acc || bs.any id) := by
  induction bs generalizing acc with
  | nil => simp
  | cons b bs ih => cases acc <;> simp [ih, asBool_bool]

theorem foldlM_implies (bs : List Bool) (acc : Bool) :
    (bs.map Value.bool).foldlM (fun acc a => if acc then some true else a.asBool.map (!·)) acc =
      some (acc || bs.any (!·)) := by
  induction bs generalizing acc with
  | nil => simp
  | cons b bs ih => cases acc <;> simp [ih, asBool_bool]

theorem foldlM_xor (bs : List Bool) (acc : Bool) :
    (bs.map Value.bool).foldlM (fun acc a => a.asBool.map fun b => acc != b) acc = some (bs.foldl (· != ·) acc) := by
  induction bs generalizing acc with
  | nil => simp
  | cons b bs ih => simp [ih, asBool_bool]

theorem xorL_bools {U : Type} (bs : List Bool) (acc : Bool) :
    (bs.foldl (· != ·) acc = true) ↔ ¬ (acc = true ↔ xorL (bs.map (Val.bool (U := U)))) := by
  induction bs generalizing acc with
  | nil => simp [xorL]
  | cons b bs ih =>
    rw [List.foldl_cons, ih, List.map_cons, xorL]
    cases acc <;> cases b <;> simp

theorem impl_bools {U : Type} (bs : List Bool) (b : Bool) :
    impl ((bs ++ [b]).map (Val.bool (U := U))) ↔ (bs.any (!·) || b) = true := by
  induction bs with
  | nil => simp [impl]
  | cons a bs ih =>
    have : impl (((a :: bs) ++ [b]).map (Val.bool (U := U))) ↔ (a = true → impl ((bs ++ [b]).map (Val.bool (U := U)))) := by
      cases bs <;> simp [impl]
    rw [this, ih]
    cases a <;> simp

/-! ## Arithmetic -/

theorem arithFold_int {real : Bool} {fi : ℤ → ℤ → Res ℤ} {fr : ℚ → ℚ → Res ℚ} (hr : real = false) :
    ∀ (zs : List ℤ) (z : ℤ) (v : Value), (arithFold real fi fr (.int z) (zs.map .int)).run = .ok (some v) →
      ∃ r, v = .int r ∧ zs.foldlM fi z = .ok r
  | [], z, v, h => by
    rw [List.map_nil, arithFold, ret_pure] at h
    exact ⟨z, h.symm, rfl⟩
  | y :: zs, z, v, h => by
    rw [List.map_cons, arithFold, ret_bind] at h
    obtain ⟨a, h1, h2⟩ := h
    simp only [mixedArith, hr, Bool.false_eq_true, if_false, ret_lift] at h1
    obtain ⟨c, h3, h4⟩ := bind_ok.1 h1
    cases h4
    obtain ⟨r, rfl, h5⟩ := arithFold_int hr zs c v h2
    exact ⟨r, rfl, by rw [List.foldlM_cons, h3]; exact h5⟩

theorem arithFold_real {real : Bool} {fi : ℤ → ℤ → Res ℤ} {fr : ℚ → ℚ → Res ℚ} :
    ∀ (zs : List ℚ) (z : ℚ) (v : Value), (arithFold real fi fr (.real z) (zs.map .real)).run = .ok (some v) →
      ∃ r, v = .real r ∧ zs.foldlM fr z = .ok r
  | [], z, v, h => by
    rw [List.map_nil, arithFold, ret_pure] at h
    exact ⟨z, h.symm, rfl⟩
  | y :: zs, z, v, h => by
    rw [List.map_cons, arithFold, ret_bind] at h
    obtain ⟨a, h1, h2⟩ := h
    simp only [mixedArith, ret_lift] at h1
    obtain ⟨c, h3, h4⟩ := bind_ok.1 h1
    cases h4
    obtain ⟨r, rfl, h5⟩ := arithFold_real zs c v h2
    exact ⟨r, rfl, by rw [List.foldlM_cons, h3]; exact h5⟩

theorem foldlM_ok {α : Type} (f : α → α → α) (zs : List α) (z : α) :
    zs.foldlM (fun a b => (.ok (f a b) : Res α)) z = .ok (zs.foldl f z) := by
  induction zs generalizing z with
  | nil => rfl
  | cons y zs ih => rw [List.foldlM_cons]; exact ih _

theorem foldlM_div {I : Interp} : ∀ (zs : List ℤ) (z r : ℤ), zs.foldlM divInt z = .ok r → DivSafe z zs → zs.foldl I.idiv z = r
  | [], z, r, h, _ => by cases h; rfl
  | y :: zs, z, r, h, hs => by
    rw [List.foldlM_cons] at h
    obtain ⟨c, h1, h2⟩ := bind_ok.1 h
    rw [divInt] at h1
    split at h1
    · cases h1
    next hy =>
    cases h1
    have e : z.tdiv y = z / y := by
      rcases hs.1 with h0 | h0
      · exact Int.tdiv_eq_ediv_of_nonneg h0
      · exact Int.tdiv_eq_ediv_of_dvd h0
    rw [e] at h2
    rw [List.foldl_cons, Interp.idiv, if_neg hy]
    exact foldlM_div zs _ r h2 hs.2

theorem foldlM_divRat {I : Interp} : ∀ (zs : List ℚ) (z r : ℚ), zs.foldlM divRat z = .ok r →
    (zs.map (fun q : ℚ => (q : ℝ))).foldl I.rdiv z = r
  | [], z, r, h => by cases h; rfl
  | y :: zs, z, r, h => by
    rw [List.foldlM_cons] at h
    obtain ⟨c, h1, h2⟩ := bind_ok.1 h
    rw [divRat] at h1
    split at h1
    · cases h1
    next hy =>
    cases h1
    have := foldlM_divRat (I := I) zs _ r h2
    rw [List.map_cons, List.foldl_cons, Interp.rdiv, if_neg (by exact_mod_cast hy)]
    push_cast at this
    exact this

/-- The number of a numeric value. -/
def Value.rat : Value → ℚ
  | .int z => z
  | .real q => q
  | _ => 0

/-- All neighbours are related. -/
def chainB (p : ℚ → ℚ → Bool) : List ℚ → Bool
  | a :: b :: l => p a b && chainB p (b :: l)
  | _ => true

theorem compareChain_spec (p : ℚ → ℚ → Bool) : ∀ (vs : List Value) (acc : Bool), (∀ v ∈ vs, v.sort = .int ∨ v.sort = .real) →
    compareChain p acc vs = some (acc && chainB p (vs.map Value.rat))
  | [], acc, _ => by simp [compareChain, chainB]
  | [_], acc, _ => by simp [compareChain, chainB]
  | a :: b :: vs, acc, h => by
    have h1 : compareValues p a b = some (p a.rat b.rat) := by
      have ha := h a (by simp)
      have hb := h b (by simp)
      cases a <;> cases b <;> simp [Value.sort] at ha hb <;> rfl
    have ih := fun acc => compareChain_spec p (b :: vs) acc fun v hv => h v (List.mem_cons_of_mem _ hv)
    rw [compareChain, h1]
    cases acc
    · rw [if_neg (by simp)]
      simpa using ih false
    · rw [if_pos rfl]
      simpa [chainB] using ih (p a.rat b.rat)

theorem asNums_den {U : Type} : ∀ (vs : List Value), (∀ v ∈ vs, v.sort = .int ∨ v.sort = .real) →
    asNums (vs.map (Value.den (U := U))) = some (vs.map fun v => (v.rat : ℝ))
  | [], _ => rfl
  | a :: vs, h => by
    have ha := h a (by simp)
    have ih := asNums_den (U := U) vs fun v hv => h v (by simp [hv])
    cases a <;> simp [Value.sort] at ha <;> simp [asNums, Value.den, Val.num, ih, Value.rat]

theorem chain_rat {p : ℚ → ℚ → Bool} {r : ℝ → ℝ → Prop} (h : ∀ a b : ℚ, r a b ↔ p a b = true) : ∀ (qs : List ℚ),
    chain r (qs.map fun q : ℚ => (q : ℝ)) ↔ chainB p qs = true
  | [] => by simp [chain, chainB]
  | [_] => by simp [chain, chainB]
  | a :: b :: qs => by
    have ih := chain_rat h (b :: qs)
    rw [List.map_cons] at ih
    rw [List.map_cons, List.map_cons, chain, chainB, ih, h, Bool.and_eq_true]

theorem allEqual_spec {U : Type} : ∀ (vs : List Value), (∀ v ∈ vs, v.Norm) →
    (chain (· = ·) (vs.map (Value.den (U := U))) ↔ allEqual vs = true)
  | [], _ => by simp [chain, allEqual]
  | [_], _ => by simp [chain, allEqual]
  | a :: b :: vs, h => by
    have ih := allEqual_spec (U := U) (b :: vs) fun v hv => h v (List.mem_cons_of_mem _ hv)
    rw [List.map_cons] at ih
    rw [List.map_cons, List.map_cons, chain, allEqual, ih, den_inj (h a (by simp)) (h b (by simp))]
    simp

theorem nodup_spec {U : Type} (vs : List Value) (h : ∀ v ∈ vs, v.Norm) :
    (vs.map (Value.den (U := U))).Pairwise (· ≠ ·) ↔ vs.Nodup := by
  rw [List.pairwise_map, List.Nodup]
  refine ⟨fun hp => hp.imp_of_mem fun ha hb hne e => hne (by rw [e]), fun hp => hp.imp_of_mem fun ha hb hne e => hne ?_⟩
  exact (den_inj (h _ ha) (h _ hb)).1 e

/-! ## Bit-vectors -/

theorem bvFold_spec {f : ℤ → ℤ → ℕ → ℤ} {g : (w : ℕ) → BitVec w → BitVec w → BitVec w}
    (hf : ∀ w (a b : ℤ), BitVec.ofInt w (f a b w) = g w (BitVec.ofInt w a) (BitVec.ofInt w b)) {w : ℕ} :
    ∀ (bs : List (BitVec w)) (a : ℤ), ∃ r, (bvFold f w a (bs.map fun b => .bv b.toNat w)).run = .ok (some r) ∧
      BitVec.ofInt w r = bs.foldl (g w) (BitVec.ofInt w a)
  | [], a => ⟨a, rfl, rfl⟩
  | b :: bs, a => by
    obtain ⟨r, h1, h2⟩ := bvFold_spec hf bs (f a b.toNat w)
    refine ⟨r, h1, ?_⟩
    rw [h2, hf, ofInt_toNat, List.foldl_cons]

theorem bvOp_spec {f : ℤ → ℤ → ℕ → ℤ} {g : (w : ℕ) → BitVec w → BitVec w → BitVec w}
    (hf : ∀ w (a b : ℤ), BitVec.ofInt w (f a b w) = g w (BitVec.ofInt w a) (BitVec.ofInt w b)) {w : ℕ}
    {a : BitVec w} {bs : List (BitVec w)} {v : Value}
    (h : (bvOp f ((a :: bs).map fun b => .bv b.toNat w)).run = .ok (some v)) :
    v.sort = .bv w ∧ v.Norm ∧ ∀ U, bvNary (U := U) g (((a :: bs).map fun b => Value.bv b.toNat w).map Value.den) = some v.den := by
  obtain ⟨r, h1, h2⟩ := bvFold_spec hf bs (a.toNat : ℤ)
  rw [List.map_cons, bvOp, ret_bind] at h
  obtain ⟨r', h3, h4⟩ := h
  obtain rfl := ret_inj h3 h1
  rw [ret_pure] at h4
  subst h4
  refine ⟨rfl, norm_newBv _ _, fun U => ?_⟩
  have e : ((a :: bs).map fun b => Value.bv b.toNat w).map (Value.den (U := U)) = Val.bv w a :: bs.map (Val.bv w) := by
    simp [den_bits]
  rw [e, bvNary, asBvs_map, den_newBv, h2, ofInt_toNat]
  rfl

theorem concatFold_spec {U : Type} : ∀ (ws : List ℕ) (vs : List Value) (i : ℕ) (a : BitVec i),
    vs.map Value.sort = ws.map .bv → (∀ v ∈ vs, v.Norm) →
    ∃ (n : ℕ) (r : BitVec n), concatFold (a.toNat, i) vs = some ((r.toNat : ℤ), n) ∧ n = i + ws.sum ∧
      (vs.map (Value.den (U := U))).foldl concatStep (some (.bv i a)) = some (.bv n r)
  | [], vs, i, a, h, _ => by
    rw [List.map_nil, List.map_eq_nil_iff] at h
    subst h
    exact ⟨i, a, rfl, rfl, rfl⟩
  | w :: ws, vs, i, a, h, hn => by
    match vs, h with
    | v :: vs, h =>
    rw [List.map_cons, List.map_cons, List.cons.injEq] at h
    obtain ⟨b, rfl⟩ := exists_bv h.1 (hn v (by simp))
    obtain ⟨n, r, h1, h2, h3⟩ := concatFold_spec (U := U) ws vs (i + w) (a ++ b) h.2 fun v hv => hn v (by simp [hv])
    refine ⟨n, r, ?_, ?_, ?_⟩
    · rw [toNat_append_eq] at h1
      push_cast at h1
      exact h1
    · rw [h2, List.sum_cons]; omega
    · rw [List.map_cons, List.foldl_cons, den_bits]
      exact h3

theorem totalWidth_some : ∀ {ss : List Srt} {w : ℕ}, totalWidth ss = some w → ∃ ws : List ℕ, ss = ws.map .bv ∧ w = ws.sum
  | [], w, h => ⟨[], rfl, by cases h; rfl⟩
  | s :: ss, w, h => by
    cases s <;> simp only [totalWidth, reduceCtorEq, Option.map_eq_some_iff] at h
    obtain ⟨w', h1, rfl⟩ := h
    obtain ⟨ws, rfl, rfl⟩ := totalWidth_some h1
    exact ⟨_ :: ws, rfl, by simp⟩

theorem bitsValue_spec {f : Value → Option Bool} : ∀ (vs : List Value) (bs : List Bool), vs.map f = bs.map some →
    bitsValue f vs = some ((BitVec.ofBoolListLE bs).toNat : ℤ)
  | [], bs, h => by
    cases bs
    · rfl
    · simp at h
  | v :: vs, bs, h => by
    cases bs with
    | nil => simp at h
    | cons b bs =>
      rw [List.map_cons, List.map_cons, List.cons.injEq] at h
      rw [bitsValue, h.1, bitsValue_spec vs bs h.2, toNat_ofBoolListLE_cons]
      simp only [Option.bind_eq_bind, Option.bind_some, Option.some.injEq]
      cases b <;> simp

theorem asSignedBv_spec {w : ℕ} {a : BitVec w} {p : ℤ × ℕ} (h : ((Value.bv a.toNat w).asSignedBv).run = .ok (some p)) :
    p = (magnitude a, w) ∧ w ≠ 0 := by
  rw [asSignedBv, ret_bind] at h
  obtain ⟨q, h1, h2⟩ := h
  rw [ret_opt] at h1
  cases h1
  by_cases hw : w = 0
  · simp only [hw, if_true] at h2
    exact (ret_panics h2).elim
  · simp only [hw, if_false] at h2
    rw [getBit_msb a hw] at h2
    refine ⟨?_, hw⟩
    split at h2 <;> rw [ret_pure] at h2 <;> subst h2 <;> simp [magnitude, *]

theorem twoSignedBvs_spec {w : ℕ} {a b : BitVec w} {p : ℤ × ℤ × ℕ}
    (h : (twoSignedBvs [.bv a.toNat w, .bv b.toNat w]).run = .ok (some p)) : p = (magnitude a, magnitude b, w) ∧ w ≠ 0 := by
  rw [twoSignedBvs, ret_bind] at h
  obtain ⟨_, h1, h⟩ := h
  rw [ret_unwrap] at h1; cases h1
  rw [ret_bind] at h
  obtain ⟨_, h1, h⟩ := h
  obtain ⟨rfl, hw⟩ := asSignedBv_spec h1
  simp only at h
  rw [ret_bind] at h
  obtain ⟨_, h1, h⟩ := h
  rw [ret_unwrap] at h1; cases h1
  rw [ret_bind] at h
  obtain ⟨_, h1, h⟩ := h
  obtain ⟨rfl, hw⟩ := asSignedBv_spec h1
  rw [ret_pure] at h
  exact ⟨h.symm, hw⟩

theorem bvCompareSigned_spec {q : ℤ → ℤ → Bool} {w : ℕ} {a b : BitVec w} {v : Value}
    (h : (bvCompareSigned q [.bv a.toNat w, .bv b.toNat w]).run = .ok (some v)) :
    v = .bool (q (magnitude a) (magnitude b)) := by
  rw [bvCompareSigned, ret_bind] at h
  obtain ⟨_, h1, h⟩ := h
  rw [ret_unwrap] at h1; cases h1
  rw [ret_bind] at h
  obtain ⟨_, h1, h⟩ := h
  obtain ⟨rfl, hw⟩ := asSignedBv_spec h1
  simp only at h
  rw [ret_bind] at h
  obtain ⟨_, h1, h⟩ := h
  rw [ret_unwrap] at h1; cases h1
  rw [ret_bind] at h
  obtain ⟨_, h1, h⟩ := h
  obtain ⟨rfl, hw⟩ := asSignedBv_spec h1
  rw [ret_pure] at h
  exact h.symm

/-- Arguments of the same bit-vector sort. -/
theorem exists_bvs {vs : List Value} {w : ℕ} (h : sameBv (vs.map Value.sort) = some w) (hn : ∀ v ∈ vs, v.Norm) :
    ∃ (a : BitVec w) (bs : List (BitVec w)), vs = (a :: bs).map fun b => .bv b.toNat w := by
  obtain ⟨rest, h1, h2⟩ := sameBv_some h
  obtain ⟨as, rfl⟩ := exists_list (fun b : BitVec w => Value.bv b.toNat w) (vs := vs) fun v hv => by
    refine exists_bv ?_ (hn v hv)
    have : v.sort ∈ vs.map Value.sort := List.mem_map_of_mem hv
    rw [h1] at this
    rcases List.mem_cons.1 this with e | e
    · exact e
    · exact h2 _ e
  cases as with
  | nil => simp at h1
  | cons a bs => exact ⟨a, bs, rfl⟩

theorem exists_bv2 {vs : List Value} {w : ℕ} (hl : (vs.map Value.sort).length = 2) (h : sameBv (vs.map Value.sort) = some w)
    (hn : ∀ v ∈ vs, v.Norm) : ∃ a b : BitVec w, vs = [.bv a.toNat w, .bv b.toNat w] := by
  obtain ⟨a, bs, rfl⟩ := exists_bvs h hn
  match bs, hl with
  | [b], _ => exact ⟨a, b, rfl⟩

theorem toUsize_some {z : ℤ} {n : ℕ} (h : toUsize z = some n) : z = n := by
  unfold toUsize at h
  split at h
  · cases h; omega
  · cases h

theorem den_bv2 {U : Type} {w : ℕ} (a b : BitVec w) :
    [Value.bv a.toNat w, Value.bv b.toNat w].map (Value.den (U := U)) = [.bv w a, .bv w b] := by
  simp [den_bits]

theorem bvBin_two {U : Type} {w : ℕ} (f : (w : ℕ) → BitVec w → BitVec w → Val U) (a b : BitVec w) :
    bvBin f [.bv w a, .bv w b] = some (f w a b) := by simp [bvBin]

end Carcara
