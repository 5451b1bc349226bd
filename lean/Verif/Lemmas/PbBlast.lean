import Verif.Model.PbBlast
import Verif.Spec.PbBlast
import Verif.Lemmas.Bitblast
import Verif.Lemmas.Num
import Verif.Lemmas.FreeVars

/-!
# Lemmas about pseudo-Boolean blasting
-/

namespace Carcara
open Classical Val Sem Spec

/-- A bit as an integer. -/
def bitVal {w : ℕ} (b : BitVec w) (i : ℕ) : ℤ := if b.getLsbD i then 1 else 0

theorem bitVal_cases {w : ℕ} (b : BitVec w) (i : ℕ) : bitVal b i = 0 ∨ bitVal b i = 1 := by
  unfold bitVal; split <;> simp

theorem bitVal_one {w : ℕ} {b : BitVec w} {i : ℕ} : bitVal b i = 1 ↔ b.getLsbD i = true := by
  unfold bitVal; split <;> simp_all

/-- The value of `n` bits from bit `i` on, with their weights. -/
def bitSum {w : ℕ} (b : BitVec w) : ℕ → ℕ → ℤ
  | _, 0 => 0
  | i, n + 1 => 2 ^ i * bitVal b i + bitSum b (i + 1) n

theorem bitSum_eq {w : ℕ} (b : BitVec w) : ∀ n i, bitSum b i n = 2 ^ i * ((b.toNat / 2 ^ i % 2 ^ n : ℕ) : ℤ)
  | 0, i => by simp [bitSum, Nat.mod_one]
  | n + 1, i => by
    rw [bitSum, bitSum_eq b n (i + 1)]
    have h1 : b.toNat / 2 ^ i % 2 ^ (n + 1) = b.toNat / 2 ^ i % 2 + 2 * (b.toNat / 2 ^ (i + 1) % 2 ^ n) := by
      rw [Nat.pow_succ', Nat.mod_mul, Nat.div_div_eq_div_mul, ← Nat.pow_succ]
    have h2 : bitVal b i = ((b.toNat / 2 ^ i % 2 : ℕ) : ℤ) := by
      unfold bitVal
      rw [← BitVec.testBit_toNat, Nat.testBit_eq_decide_div_mod_eq]
      rcases Nat.mod_two_eq_zero_or_one (b.toNat / 2 ^ i) with h | h <;> simp [h]
    rw [h1, h2, pow_succ]
    push_cast
    ring

theorem bitSum_zero {w : ℕ} (b : BitVec w) (n : ℕ) : bitSum b 0 n = ((b.toNat % 2 ^ n : ℕ) : ℤ) := by
  rw [bitSum_eq]; simp

theorem bitSum_full {w : ℕ} (b : BitVec w) : bitSum b 0 w = (b.toNat : ℤ) := by
  rw [bitSum_zero, Nat.mod_eq_of_lt b.isLt]

theorem bitSum_succ {w : ℕ} (b : BitVec w) : ∀ n i, bitSum b i (n + 1) = bitSum b i n + 2 ^ (i + n) * bitVal b (i + n)
  | 0, i => by simp [bitSum]
  | n + 1, i => by
    rw [bitSum, bitSum_succ b n (i + 1), bitSum, show i + 1 + n = i + (n + 1) by omega]
    ring

/-- The signed value from the lower bits and the top bit. -/
theorem toInt_bitSum {n : ℕ} (b : BitVec (n + 1)) : b.toInt = bitSum b 0 n - 2 ^ n * bitVal b n := by
  have h := bitSum_full b
  rw [bitSum_succ, Nat.zero_add] at h
  rw [BitVec.toInt_eq_msb_cond, BitVec.msb_eq_getLsbD_last, Nat.add_sub_cancel, ← h]
  unfold bitVal
  split <;> simp [pow_succ]; ring

namespace Model
variable {M : Model}

theorem val_intOf {t : Term} {w : ℕ} (h : sortOf t = some (.bv w)) (i : ℕ) :
    M.val (intOf t i) = .int (bitVal (M.bits w t) i) := by
  have hv := M.val_bits h
  have e : M.val (intOf t i) = evalPop M.I .bvIntOf [.int i] [M.val t] := by
    simp [val, intOf, eval, evalL, evalConst]
  rw [e, hv]
  simp [evalPop, stdPop, bitVal]

/-- Equality of vectors bit by bit, with the widths equal only propositionally. -/
theorem bv_ext {U : Type} {n m : ℕ} (e : n = m) (p : BitVec n) (q : BitVec m) (h : ∀ i < m, p.getLsbD i = q.getLsbD i) :
    (Val.bv n p : Val U) = .bv m q := by
  subst e
  rw [BitVec.eq_of_getLsbD_eq h]

/-- A `pbbterm` has the bits whose terms have the value 1. -/
theorem val_pbb {w : ℕ} {xs : List Term} {b : BitVec w} (hl : xs.length = w)
    (h : ∀ i (hi : i < xs.length), ∃ z : ℤ, M.val xs[i] = .int z ∧ (z = 1 ↔ b.getLsbD i = true)) :
    M.val (.op .bvPBbTerm xs) = .bv w b := by
  obtain ⟨f, hf⟩ : ∃ f : Term → ℤ, ∀ x ∈ xs, M.val x = .int (f x) := by
    have : ∀ x, ∃ z : ℤ, x ∈ xs → M.val x = .int z := by
      intro x
      by_cases hx : x ∈ xs
      · obtain ⟨i, hi, rfl⟩ := List.getElem_of_mem hx
        obtain ⟨z, hz, -⟩ := h i hi
        exact ⟨z, fun _ => hz⟩
      · exact ⟨0, fun h => absurd h hx⟩
    exact ⟨fun x => (this x).choose, fun x hx => (this x).choose_spec hx⟩
  have e : xs.map M.val = (xs.map f).map .int := by
    rw [List.map_map]; exact List.map_congr_left hf
  rw [M.val_op, e, evalOp]
  simp only [stdOp, asInts_map, Option.map_some, Option.getD_some]
  refine bv_ext (by simpa using hl) _ _ fun i hi => ?_
  have hi' : i < xs.length := by omega
  obtain ⟨z, hz, hb⟩ := h i hi'
  have : z = f xs[i] := by
    have := hf _ (List.getElem_mem hi')
    rw [hz] at this
    exact Val.int.inj this
  rw [BitVec.getLsbD_ofBoolListLE, Bool.eq_iff_iff, ← hb, this]
  simp [List.getD, hi']

end Model

theorem sort_pbb {xs : List Term} {s : Srt} (h : sortOf (.op .bvPBbTerm xs) = some s) :
    s = .bv xs.length ∧ 1 ≤ xs.length ∧ ∀ x ∈ xs, sortOf x = some .int := by
  obtain ⟨ss, h1, h2⟩ := sortOf_op (by decide) h
  simp only [opSort, Option.ite_none_right_eq_some, Option.some.injEq, allSort_iff] at h2
  obtain ⟨hl, hts⟩ := sortOfL_all h1
  obtain ⟨⟨h3, h4⟩, rfl⟩ := h2
  refine ⟨by rw [hl], by omega, fun x hx => ?_⟩
  obtain ⟨s, hs, e⟩ := hts x hx
  rw [e, h4 s hs]

/-- The integer bits of a vector. -/
def IntBits (M : Model) {w : ℕ} (ts : List Term) (b : BitVec w) : Prop :=
  ∀ i (h : i < ts.length), M.val ts[i] = .int (bitVal b i)

theorem intBits_pbb {M : Model} {xs : List Term} {w : ℕ} (hs : sortOf (.op .bvPBbTerm xs) = some (.bv w))
    (h : ZeroOneBits M (.op .bvPBbTerm xs)) : xs.length = w ∧ IntBits M xs (M.bits w (.op .bvPBbTerm xs)) := by
  obtain ⟨e, -, hx⟩ := sort_pbb hs
  cases e
  refine ⟨rfl, ?_⟩
  let b : BitVec xs.length := (BitVec.ofBoolListLE (xs.map fun x => decide (M.val x = .int 1))).cast (by simp)
  have hb : ∀ i (hi : i < xs.length), b.getLsbD i = decide (M.val xs[i] = .int 1) := by
    intro i hi
    simp only [b, BitVec.getLsbD_cast, BitVec.getLsbD_ofBoolListLE]
    simp [List.getD, hi]
  have hv : M.val (.op .bvPBbTerm xs) = .bv xs.length b := by
    refine M.val_pbb rfl fun i hi => ?_
    rw [hb i hi]
    rcases h xs rfl _ (List.getElem_mem hi) with e | e <;> exact ⟨_, e, by simp [e]⟩
  rw [M.bits_of_val hv]
  intro i hi
  rw [bitVal, hb i hi]
  rcases h xs rfl _ (List.getElem_mem hi) with e | e <;> simp [e]

theorem matchPbb_some {t : Term} {as : List Term} : matchPbb t = some as ↔ t = .op .bvPBbTerm as := by
  unfold matchPbb
  split
  · simp [eq_comm]
  · next h => simp only [reduceCtorEq, false_iff]; rintro rfl; exact h _ rfl

theorem matchIntOf_some {t idx bv : Term} : matchIntOf t = some (idx, bv) ↔ t = .paramOp .bvIntOf [idx] [bv] := by
  unfold matchIntOf
  split
  · simp [eq_comm]
  · next h => simp only [reduceCtorEq, false_iff]; rintro rfl; exact h _ _ rfl

theorem pbMatchProd_some {t a b : Term} : matchProd t = some (a, b) ↔ t = .op .mult [a, b] := by
  unfold matchProd
  split
  · simp [eq_comm]
  · next h => simp only [reduceCtorEq, false_iff]; rintro rfl; exact h _ _ rfl

theorem pbAsInteger_some {t : Term} {z : ℤ} : t.asInteger = some z ↔ t = .const (.int z) := by
  unfold Term.asInteger
  split
  · simp [eq_comm]
  · next h => simp only [reduceCtorEq, false_iff]; rintro rfl; exact h _ rfl

theorem pbAsIntegerErr_ok {t : Term} {z : ℤ} : t.asIntegerErr = .ok z ↔ t = .const (.int z) := by
  rw [Term.asIntegerErr, orErr_ok, pbAsInteger_some]

theorem getBitWidth_ok {t : Term} {w : ℕ} : getBitWidth t = .ok w ↔ sortOf t = some (.bv w) := by
  unfold getBitWidth
  split
  · next e => simp [e]
  · next e hh => simp only [err_ok, false_iff]; intro h; rw [hh] at h; exact e w (Option.some.inj h)
  · next e => simp [e]

theorem getBitvectorTerms_ok {M : Model} {t : Term} {w : ℕ} {ts : List Term} (hs : sortOf t = some (.bv w)) (hz : ZeroOneBits M t)
    (h : getBitvectorTerms t = .ok ts) : ts.length = w ∧ IntBits M ts (M.bits w t) := by
  unfold getBitvectorTerms at h
  split at h
  · next xs e =>
    rw [matchPbb_some] at e
    rw [ok_inj] at h
    subst h e
    exact intBits_pbb hs hz
  · rw [hs] at h
    simp only [ok_inj] at h
    subst h
    refine ⟨by simp, fun i hi => ?_⟩
    simp only [List.getElem_map, List.getElem_range]
    exact M.val_intOf hs i

namespace Model
variable {M : Model}

theorem val_mul_const (c : ℤ) {t : Term} {z : ℤ} (h : M.val t = .int z) : M.val (.op .mult [.const (.int c), t]) = .int (c * z) := by
  have : M.val (.const (.int c)) = .int c := by simp [val, eval, evalConst]
  simp [val_op, evalOp, stdOp, stdMult, asInts, this, h]

end Model

/-- The values of the addends of an accepted sum. -/
def Weighted (M : Model) {w : ℕ} (b : BitVec w) (i : ℕ) (es : List Term) : Prop :=
  ∀ k (h : k < es.length), M.val es[k] = .int (2 ^ (i + k) * bitVal b (i + k))

theorem Weighted.cons {M : Model} {w : ℕ} {b : BitVec w} {i : ℕ} {e : Term} {es : List Term} (h : M.val e = .int (2 ^ i * bitVal b i))
    (hs : Weighted M b (i + 1) es) : Weighted M b i (e :: es) := by
  intro k hk
  cases k with
  | zero => simpa using h
  | succ k =>
    have := hs k (by simpa using hk)
    simp only [List.getElem_cons_succ]
    rw [this, show i + 1 + k = i + (k + 1) by omega]

theorem Weighted.sum {M : Model} {w : ℕ} {b : BitVec w} : ∀ {es : List Term} {i : ℕ}, Weighted M b i es →
    ∃ zs : List ℤ, es.map M.val = zs.map .int ∧ zs.sum = bitSum b i es.length
  | [], i, _ => ⟨[], rfl, rfl⟩
  | e :: es, i, h => by
    have h0 := h 0 (by simp)
    have hs : Weighted M b (i + 1) es := by
      intro k hk
      have := h (k + 1) (by simpa using hk)
      simp only [List.getElem_cons_succ] at this
      rw [this, show i + (k + 1) = i + 1 + k by omega]
    obtain ⟨zs, e1, e2⟩ := hs.sum
    refine ⟨(2 ^ i * bitVal b i) :: zs, ?_, ?_⟩
    · simp only [List.map_cons, e1]
      simpa using h0
    · simp [bitSum, e2]

theorem addends_eq (t : Term) : addends t = (splitSummation t).length := by
  unfold addends splitSummation; split <;> simp_all

/-- The value of a sum whose addends are weighted bits. -/
theorem Weighted.val {M : Model} {w : ℕ} {b : BitVec w} {t : Term} (h : Weighted M b 0 (splitSummation t)) :
    M.val t = .int ((b.toNat % 2 ^ addends t : ℕ) : ℤ) := by
  obtain ⟨zs, e1, e2⟩ := h.sum
  rw [← bitSum_zero, addends_eq, ← e2]
  unfold splitSummation at e1
  split at e1
  · rw [M.val_op, e1, evalOp]
    simp [stdOp, stdAdd]
  · match zs, e1 with
    | [z], e1 => simpa using e1
    | [], e1 => simp at e1
    | _ :: _ :: _, e1 => simp at e1

theorem pbSummand_ok {M : Model} {x e : Term} {w i : ℕ} {c : ℤ} {idx bv : Term} (h : pbSummand i e = .ok (c, idx, bv)) (hc : c = 2 ^ i)
    (hi : idx = .const (.int i)) (hb : bv = x) (hx : sortOf x = some (.bv w)) : M.val e = .int (2 ^ i * bitVal (M.bits w x) i) := by
  subst hc hi hb
  unfold pbSummand at h
  split at h
  · next c' idx' bv' e' =>
    simp only [Option.bind_eq_some_iff, Option.map_eq_some_iff, Prod.exists, Prod.mk.injEq, pbMatchProd_some, matchIntOf_some] at e'
    obtain ⟨a, p, rfl, q1, q2, rfl, rfl, rfl, rfl⟩ := e'
    simp only [bind_ok, pbAsIntegerErr_ok, ok_inj, Prod.mk.injEq] at h
    obtain ⟨_, rfl, rfl, rfl, rfl⟩ := h
    exact M.val_mul_const _ (M.val_intOf hx i)
  · split at h
    · next hi =>
      subst hi
      split at h
      · next e' =>
        rw [matchIntOf_some] at e'
        simp only [ok_inj, Prod.mk.injEq] at h
        obtain ⟨-, rfl, rfl⟩ := h
        subst e'
        simpa [intOf] using M.val_intOf hx 0
      · simp at h
    · simp at h

theorem pbSumLoop_ok {M : Model} {x : Term} {w : ℕ} (hx : sortOf x = some (.bv w)) : ∀ {es : List Term} {i : ℕ},
    pbSumLoop x i es = .ok () → Weighted M (M.bits w x) i es
  | [], _, _ => fun k hk => absurd hk (by simp)
  | e :: es, i, h => by
    simp only [pbSumLoop, bind_ok, require_ok, Prod.exists, pbAsIntegerErr_ok] at h
    obtain ⟨c, idx, bv, h1, z, rfl, _, hc, _, rfl, _, hb, h2⟩ := h
    exact .cons (pbSummand_ok h1 hc rfl hb hx) (pbSumLoop_ok hx h2)

theorem pbShortLoop_ok {M : Model} {w : ℕ} {b : BitVec w} : ∀ {es bs : List Term} {i : ℕ}, pbShortLoop i bs es = .ok () →
    (∀ k (h : k < bs.length), M.val bs[k] = .int (bitVal b (i + k))) → Weighted M b i es
  | [], _, _, _, _ => fun k hk => absurd hk (by simp)
  | e :: es, [], i, h, _ => by simp [pbShortLoop] at h
  | e :: es, t :: bs, i, h, hb => by
    simp only [pbShortLoop, bind_ok, require_ok, Prod.exists, assertEq_ok] at h
    obtain ⟨c, bv, h1, _, rfl, _, rfl, h2⟩ := h
    refine .cons ?_ (pbShortLoop_ok h2 fun k hk => ?_)
    · have h0 := hb 0 (by simp)
      simp only [List.getElem_cons_zero, Nat.add_zero] at h0
      unfold pbShortSummand at h1
      split at h1
      · next e' =>
        rw [pbMatchProd_some] at e'
        simp only [bind_ok, pbAsIntegerErr_ok, ok_inj, Prod.mk.injEq] at h1
        obtain ⟨_, rfl, rfl, rfl⟩ := h1
        subst e'
        exact M.val_mul_const _ h0
      · split at h1
        · next hi =>
          subst hi
          simp only [ok_inj, Prod.mk.injEq] at h1
          obtain ⟨-, rfl⟩ := h1
          simpa using h0
        · simp at h1
    · have := hb (k + 1) (by simpa using hk)
      simp only [List.getElem_cons_succ] at this
      rw [this, show i + (k + 1) = i + 1 + k by omega]

theorem checkPbShort_ok {M : Model} {xs es : List Term} {w : ℕ} (h : checkPbShort xs es = .ok ())
    (hs : sortOf (.op .bvPBbTerm xs) = some (.bv w)) (hz : ZeroOneBits M (.op .bvPBbTerm xs)) :
    Weighted M (M.bits w (.op .bvPBbTerm xs)) 0 es ∧ es.length ≤ w := by
  simp only [checkPbShort, bind_ok, require_ok] at h
  obtain ⟨_, hl, h⟩ := h
  obtain ⟨e, hb⟩ := intBits_pbb hs hz
  exact ⟨pbShortLoop_ok h fun k hk => by simpa using hb k hk, e ▸ hl⟩

theorem checkPbSum_ok {M : Model} {x : Term} {es : List Term} {w : ℕ} (h : checkPbSum x es = .ok ()) (hs : sortOf x = some (.bv w)) :
    Weighted M (M.bits w x) 0 es ∧ es.length ≤ w := by
  simp only [checkPbSum, bind_ok, require_ok, getBitWidth_ok] at h
  obtain ⟨w', e, _, hl, h⟩ := h
  rw [hs] at e
  cases e
  exact ⟨pbSumLoop_ok hs h, hl⟩

/-- Accepted sums are the lower bits of the vectors. -/
theorem checkPbConstraint_ok {M : Model} {x y a b : Term} {w : ℕ} (h : checkPbConstraint x y (splitSummation a) (splitSummation b) = .ok ())
    (hx : sortOf x = some (.bv w)) (hy : sortOf y = some (.bv w)) (zx : ZeroOneBits M x) (zy : ZeroOneBits M y) :
    M.val a = .int (((M.bits w x).toNat % 2 ^ addends a : ℕ) : ℤ) ∧ M.val b = .int (((M.bits w y).toNat % 2 ^ addends b : ℕ) : ℤ) := by
  unfold checkPbConstraint at h
  split at h
  · next l e =>
    rw [matchPbb_some] at e
    subst e
    simp only [bind_ok, orErr_ok, matchPbb_some] at h
    obtain ⟨r, rfl, _, h1, h2⟩ := h
    exact ⟨(checkPbShort_ok h1 hx zx).1.val, (checkPbShort_ok h2 hy zy).1.val⟩
  · simp only [bind_ok] at h
    obtain ⟨_, h1, h2⟩ := h
    exact ⟨(checkPbSum_ok h1 hx).1.val, (checkPbSum_ok h2 hy).1.val⟩

/-! ## The comparison rules -/

/-- The signed and unsigned comparisons of vectors. -/
def Op.IsBvCmp (o : Op) : Prop :=
  o = .bvULt ∨ o = .bvULe ∨ o = .bvUGt ∨ o = .bvUGe ∨ o = .bvSLt ∨ o = .bvSLe ∨ o = .bvSGt ∨ o = .bvSGe

theorem sort_bvCmp {o : Op} (ho : o.IsBvCmp) {x y : Term} {s : Srt} (h : sortOf (.op o [x, y]) = some s) :
    ∃ w, sortOf x = some (.bv w) ∧ sortOf y = some (.bv w) := by
  obtain ⟨sa, sb, ha, hb, h⟩ := pair_sorts (by rcases ho with rfl | rfl | rfl | rfl | rfl | rfl | rfl | rfl <;> decide) h
  rw [ha, hb]
  have : ∃ w, sameBv [sa, sb] = some w := by
    rcases ho with rfl | rfl | rfl | rfl | rfl | rfl | rfl | rfl <;>
    · simp only [opSort, List.length_cons, List.length_nil, Nat.zero_add, Nat.reduceAdd, if_true, Option.map_eq_some_iff] at h
      exact ⟨_, h.choose_spec.1⟩
  obtain ⟨w, hw⟩ := this
  cases sa <;> simp [sameBv, allSort] at hw
  rename_i n
  obtain ⟨rfl, rfl⟩ := hw
  exact ⟨_, rfl, rfl⟩

theorem checkPbConstraint_width {x y : Term} {as bs : List Term} {s : Srt} (h : checkPbConstraint x y as bs = .ok ())
    (hx : sortOf x = some s) : ∃ w, s = .bv w := by
  unfold checkPbConstraint at h
  split at h
  · next l e =>
    rw [matchPbb_some] at e
    subst e
    exact ⟨_, (sort_pbb hx).1⟩
  · simp only [bind_ok, checkPbSum, getBitWidth_ok] at h
    obtain ⟨_, ⟨w, e, -⟩, -⟩ := h
    rw [hx] at e
    exact ⟨w, Option.some.inj e⟩

theorem matchPbUnsigned_ok {p q : Op} {k : Rat} {c : Term} {rest : List Term} {x y a b : Term} :
    matchPbUnsigned p q k (c :: rest) = .ok (x, y, a, b) ↔ ∃ n, n.asNumber = some k ∧ c = unsignedStep p q x y a b n := by
  simp only [matchPbUnsigned, bind_ok, orPanic_ok, List.head?_cons, Option.some.injEq, Prod.exists, match2_ok, matchNum, require_ok,
    ok_inj, Prod.mk.injEq, unsignedStep]
  constructor
  · rintro ⟨_, rfl, _, _, rfl, _, _, rfl, _, n, rfl, _, _, rfl, _, hn, rfl, rfl, rfl, rfl⟩
    exact ⟨n, hn, rfl⟩
  · rintro ⟨n, hn, rfl⟩
    exact ⟨_, rfl, _, _, rfl, _, _, rfl, _, n, rfl, _, _, rfl, (), hn, rfl, rfl, rfl, rfl⟩

theorem matchPbSigned_ok {p : Op} {k : Rat} {t : Term} {rest : List Term} {x y a b c d : Term} :
    matchPbSigned p k (t :: rest) = .ok (x, y, a, b, c, d) ↔ ∃ n, n.asNumber = some k ∧ t = signedStep p x y a b c d n := by
  simp only [matchPbSigned, bind_ok, orPanic_ok, List.head?_cons, Option.some.injEq, Prod.exists, match2_ok, matchNum, require_ok,
    ok_inj, Prod.mk.injEq, signedStep]
  constructor
  · rintro ⟨_, rfl, _, _, rfl, _, _, rfl, _, n, rfl, _, _, rfl, _, _, rfl, _, _, rfl, _, hn, rfl, rfl, rfl, rfl, rfl, rfl⟩
    exact ⟨n, hn, rfl⟩
  · rintro ⟨n, hn, rfl⟩
    exact ⟨_, rfl, _, _, rfl, _, _, rfl, _, n, rfl, _, _, rfl, _, _, rfl, _, _, rfl, (), hn, rfl, rfl, rfl, rfl, rfl, rfl⟩

namespace Model
variable {M : Model}

theorem val_sub_int {a b : Term} {y z : ℤ} (ha : M.val a = .int y) (hb : M.val b = .int z) :
    M.val (.op .sub [a, b]) = .int (y - z) := by
  simp [val_op, evalOp, stdOp, stdSub, asInts, ha, hb, subL]

theorem val_add_int {a b : Term} {y z : ℤ} (ha : M.val a = .int y) (hb : M.val b = .int z) :
    M.val (.op .add [a, b]) = .int (y + z) := by
  simp [val_op, evalOp, stdOp, stdAdd, asInts, ha, hb]

theorem holds_ge_num {d n : Term} {z : ℤ} {k : ℚ} (hd : M.val d = .int z) (hn : n.asNumber = some k) :
    M.Holds (.op .ge [d, n]) ↔ k ≤ z := by
  have h2 := n.asNumber_val hn M
  have h1 : (M.val d).num = some (z : ℝ) := by rw [hd]; rfl
  have : M.Holds (.op .ge [d, n]) ↔ (z : ℝ) ≥ (k : ℝ) := by
    simp [Model.Holds, M.val_op, evalOp, stdOp, stdCmp, asNums, h1, h2, chain]
  rw [this]
  exact_mod_cast Iff.rfl

theorem holds_eq_num {d n : Term} {z : ℤ} {k : ℚ} (hs : sortOf (.op .equals [d, n]) = some .bool) (hd : M.val d = .int z)
    (hn : n.asNumber = some k) : M.Holds (.op .equals [d, n]) ↔ (z : ℚ) = k := by
  obtain ⟨-, r, h1, h2⟩ := sort_equals.1 hs
  rw [M.holds_eq, M.val_eq_iff h1 h2 (asNumber_num hn h2), M.numv_int hd, M.numv_of_num (n.asNumber_val hn M)]
  exact_mod_cast Iff.rfl

theorem holds_bvCmp {x y : Term} {w : ℕ} (hx : sortOf x = some (.bv w)) (hy : sortOf y = some (.bv w)) :
    (M.Holds (.op .bvULt [x, y]) ↔ (M.bits w x).toNat < (M.bits w y).toNat) ∧
    (M.Holds (.op .bvULe [x, y]) ↔ (M.bits w x).toNat ≤ (M.bits w y).toNat) ∧
    (M.Holds (.op .bvUGt [x, y]) ↔ (M.bits w x).toNat > (M.bits w y).toNat) ∧
    (M.Holds (.op .bvUGe [x, y]) ↔ (M.bits w x).toNat ≥ (M.bits w y).toNat) ∧
    (M.Holds (.op .bvSLt [x, y]) ↔ (M.bits w x).toInt < (M.bits w y).toInt) ∧
    (M.Holds (.op .bvSLe [x, y]) ↔ (M.bits w x).toInt ≤ (M.bits w y).toInt) ∧
    (M.Holds (.op .bvSGt [x, y]) ↔ (M.bits w x).toInt > (M.bits w y).toInt) ∧
    (M.Holds (.op .bvSGe [x, y]) ↔ (M.bits w x).toInt ≥ (M.bits w y).toInt) := by
  simp [Model.Holds, M.val_op, evalOp, stdOp, bvBin, M.val_bits hx, M.val_bits hy]

theorem holds_bvEq {x y : Term} {w : ℕ} (hx : sortOf x = some (.bv w)) (hy : sortOf y = some (.bv w)) :
    M.Holds (.op .equals [x, y]) ↔ (M.bits w x).toNat = (M.bits w y).toNat := by
  rw [M.holds_eq, M.val_bits hx, M.val_bits hy, BitVec.toNat_inj]
  simp

end Model

/-- An equality of Boolean terms holds if they are equivalent. -/
theorem holds_equiv {M : Model} {l r : Term} (hs : sortOf (.op .equals [l, r]) = some .bool) (hl : sortOf l = some .bool) :
    M.Holds (.op .equals [l, r]) ↔ (M.Holds l ↔ M.Holds r) :=
  M.holds_eq_bool hs (Or.inl hl)

theorem sort_bvCmp_bool {o : Op} (ho : o.IsBvCmp) {x y : Term} {w : ℕ} (hx : sortOf x = some (.bv w)) (hy : sortOf y = some (.bv w)) :
    sortOf (.op o [x, y]) = some .bool := by
  rcases ho with rfl | rfl | rfl | rfl | rfl | rfl | rfl | rfl <;> simp [sortOf, sortOfL, hx, hy, opSort, sameBv, allSort]

theorem predPanic_ok {n m : ℕ} : predPanic n = .ok m ↔ n = m + 1 := by
  cases n <;> simp [predPanic]

/-- The term of the sign bit. -/
theorem checkPbSign_ok {M : Model} {n : ℕ} {sign x : Term} (h : checkPbSign n sign x = .ok ()) (hx : sortOf x = some (.bv n))
    (zx : ZeroOneBits M x) : ∃ m, n = m + 1 ∧ M.val sign = .int (2 ^ m * bitVal (M.bits n x) m) := by
  unfold checkPbSign at h
  split at h
  · next pbb e =>
    rw [matchPbb_some] at e
    subst e
    obtain ⟨hl, hb⟩ := intBits_pbb hx zx
    simp only [bind_ok, orErr_ok, Prod.exists, match2_ok, pbAsIntegerErr_ok, assertEq_ok, require_ok, predPanic_ok] at h
    obtain ⟨last, e, c, bit, rfl, _, rfl, m, rfl, _, rfl, rfl⟩ := h
    refine ⟨m, rfl, M.val_mul_const _ ?_⟩
    have := hb m (by omega)
    rw [List.getLast?_eq_getElem?, hl, Nat.add_sub_cancel, List.getElem?_eq_some_iff] at e
    obtain ⟨_, e⟩ := e
    rwa [e] at this
  · simp only [bind_ok, orErr_ok, Prod.exists, match2_ok, pbAsIntegerErr_ok, matchIntOf_some, require_ok, predPanic_ok] at h
    obtain ⟨c, t, rfl, idx, bv, rfl, _, rfl, _, rfl, m, rfl, _, rfl, _, rfl, rfl⟩ := h
    exact ⟨m, rfl, M.val_mul_const _ (M.val_intOf hx m)⟩

end Carcara
