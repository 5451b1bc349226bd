import Verif.Lemmas.Bitblast

/-!
# C18: bit-blasting is correct for every width

Every step `(= t res)` a bit-blasting rule accepts is valid: in every model the right-hand side has the bits of the
left-hand side, for every width and every number of arguments.
-/

namespace Carcara
open Classical Val Sem

/-- **C18.** -/
theorem c18_value : SoundRule bbValueRule := by
  intro c ps as h hc _ M _
  simp only [bbValueRule, bind_ok, get1_ok, match2_ok, matchOp_ok, Prod.exists] at h
  obtain ⟨_, rfl, v, r, rfl, args, rfl, h⟩ := h
  split at h
  case h_2 => simp at h
  next m size =>
  simp only [bind_ok, require_ok] at h
  obtain ⟨_, rfl, n, hn, rfl⟩ := h
  have key : ∀ (ts : List Term) (i n r : ℕ), bbValue ts i n = .ok r → n < 2 ^ i →
      ∀ k, (r.testBit k = if k < i then n.testBit k else decide (M.Holds (bitAt ts (k - i)) ∧ k - i < ts.length)) := by
    intro ts
    induction ts with
    | nil =>
      intro i n r h hlt k
      simp only [bbValue, ok_inj] at h
      subst h
      split
      · rfl
      · next hk =>
        simp only [List.length_nil, not_lt_zero, and_false, decide_false]
        exact Nat.testBit_lt_two_pow (lt_of_lt_of_le hlt (Nat.pow_le_pow_right (by norm_num) (by omega)))
    | cons t ts ih =>
      intro i n r h hlt k
      have hb : ∀ (b : Bool), (M.Holds t ↔ b = true) →
          bbValue ts (i + 1) (n + b.toNat * 2 ^ i) = .ok r →
          (r.testBit k = if k < i then n.testBit k else
            decide (M.Holds (bitAt (t :: ts) (k - i)) ∧ k - i < (t :: ts).length)) := by
        intro b hb h
        have hlt' : n + b.toNat * 2 ^ i < 2 ^ (i + 1) := by
          rw [Nat.pow_succ]; cases b <;> simp <;> omega
        rw [ih (i + 1) _ r h hlt' k]
        rcases lt_trichotomy k i with hk | rfl | hk
        · rw [if_pos (by omega), if_pos hk, Nat.add_comm n, Nat.mul_comm]
          rw [Nat.testBit_two_pow_mul_add _ hlt, if_pos hk]
        · rw [if_pos (by omega), if_neg (by omega), Nat.sub_self, Nat.add_comm n, Nat.mul_comm]
          rw [Nat.testBit_two_pow_mul_add _ hlt]
          simp [bitAt, hb]
          cases b <;> simp
        · rw [if_neg (by omega), if_neg (by omega)]
          obtain ⟨d, rfl⟩ : ∃ d, k = i + 1 + d := ⟨k - (i + 1), by omega⟩
          rw [Nat.add_sub_cancel_left, show i + 1 + d - i = d + 1 by omega]
          simp only [bitAt, List.getElem?_cons_succ, List.length_cons, Nat.add_lt_add_iff_right]
          exact decide_eq_decide.2 Iff.rfl
      unfold bbValue at h
      split at h
      · next e => exact hb true (by subst e; simp [Term.tru]) (by simpa using h)
      · split at h
        · next e => exact hb false (by subst e; simp [Term.fls]) (by simpa using h)
        · simp at h
  rw [Model.sat_singleton, M.holds_eq]
  have hv : M.val (mkBb args) = .bv args.length (BitVec.ofInt args.length n) := by
    refine Model.val_bb rfl fun i hi => ?_
    rw [show BitVec.ofInt args.length (n : ℤ) = BitVec.ofNat args.length n by simp, BitVec.getLsbD_ofNat,
      key args 0 0 n hn (by norm_num) i]
    simp [hi]
  rw [show (Term.op .bvBbTerm args) = mkBb args from rfl, hv]
  simp [Model.val, eval, evalConst]

/-- **C18.** -/
theorem c18_var : SoundRule bbVar := by
  intro c ps as h hc _ M _
  simp only [bbVar, bind_ok, get1_ok, match2_ok, Prod.exists] at h
  obtain ⟨_, rfl, x, r, rfl, h⟩ := h
  split at h
  · next w hw =>
    rw [assertEq_ok] at h
    subst h
    rw [Model.sat_singleton, M.holds_eq, M.val_bits hw]
    exact (Model.val_bb (buildTermVec_ok hw).1 ((buildTermVec_ok hw).2.2 M)).symm
  · simp at h
  · simp at h

/-- **C18.** -/
theorem c18_and : SoundRule bbAnd :=
  bbNary_sound (g := fun _ a b => a &&& b) (bitwise_computes fun M w i s t a b _ hs ht => by simp [mkAnd, hs, ht])
    (by simp) fun _ _ => rfl
/-- **C18.** -/
theorem c18_or : SoundRule bbOr :=
  bbNary_sound (g := fun _ a b => a ||| b) (bitwise_computes fun M w i s t a b _ hs ht => by simp [mkOr, hs, ht])
    (by simp) fun _ _ => rfl
/-- **C18.** -/
theorem c18_xor : SoundRule bbXor :=
  bbNary_sound (g := fun _ a b => a ^^^ b) (bitwise_computes fun M w i s t a b _ hs ht => by
    simp only [mkXor, Model.holds_xor, hs, ht, BitVec.getLsbD_xor]
    cases a.getLsbD i <;> cases b.getLsbD i <;> simp) (by simp) fun _ _ => rfl
/-- **C18.** -/
theorem c18_add : SoundRule bbAdd := bbNary_sound adder_computes (by simp) fun _ _ => rfl
/-- **C18.** -/
theorem c18_mult : SoundRule bbMult := bbNary_sound multiplier_computes (by simp) fun _ _ => rfl

/-- **C18.** -/
theorem c18_xnor : SoundRule bbXnor := by
  intro c ps as h hc _ M _
  simp only [bbXnor, bind_ok, assertEq_ok, Prod.exists] at h
  obtain ⟨w, x, y, r, h, rfl⟩ := h
  obtain ⟨a, b, rfl, ha, hb, sx, sy, hM⟩ := bbBinary_sound (by simp) h hc
  rw [Model.sat_singleton, M.holds_eq, Model.val_bb_tabulate (b := ~~~(M.bits w a ^^^ M.bits w b))]
  · simp [M.val_op, M.val_bits ha, M.val_bits hb, evalOp, stdOp, bvBin]
  · intro i hi
    rw [holds_mkEq (sx i hi) (sy i hi), (hM M).1 i hi, (hM M).2 i hi]
    simp [hi]

/-- **C18.** -/
theorem c18_not : SoundRule bbNot := by
  intro c ps as h hc _ M _
  simp only [bbNot, bind_ok, assertEq_ok, Prod.exists] at h
  obtain ⟨w, x, r, h, rfl⟩ := h
  obtain ⟨a, rfl, ha, hM⟩ := bbUnary_sound h
  rw [Model.sat_singleton, M.holds_eq, Model.val_bb_tabulate (b := ~~~(M.bits w a))]
  · simp [M.val_op, M.val_bits ha, evalOp, stdOp, bvUn]
  · intro i hi
    simp [mkNot, hM M i hi, hi]

/-- **C18.** -/
theorem c18_neg : SoundRule bbNeg := by
  intro c ps as h hc _ M _
  simp only [bbNeg, bind_ok, assertEq_ok, Prod.exists] at h
  obtain ⟨w, x, r, h, rfl⟩ := h
  obtain ⟨a, rfl, ha, hM⟩ := bbUnary_sound h
  rw [Model.sat_singleton, M.holds_eq, Model.val_bb_tabulate (neg_sound (hM M))]
  simp [M.val_op, M.val_bits ha, evalOp, stdOp, bvUn]

/-- **C18.** -/
theorem c18_ult : SoundRule bbUlt := by
  intro c ps as h hc _ M _
  simp only [bbUlt, bind_ok, Prod.exists] at h
  obtain ⟨w, x, y, r, h, h'⟩ := h
  split at h'
  · simp at h'
  next hw =>
  rw [assertEq_ok] at h'
  subst h'
  obtain ⟨a, b, rfl, ha, hb, sx, sy, hM⟩ := bbBinary_sound (by simp) h hc
  obtain ⟨-, s, hl, hr⟩ := sort_equals.1 (hc _ (List.mem_singleton_self _))
  have hs : s = .bool := by
    simp [sortOf, sortOfL, ha, hb, opSort, sameBv, allSort] at hl
    exact hl.symm
  subst hs
  rw [Model.sat_singleton, M.holds_eq]
  refine Model.val_eq_of_holds hl hr ?_
  rw [ultAt_sound (hM M).1 (hM M).2 sx sy (w - 1) (by omega), Nat.sub_add_cancel (by omega)]
  have := BitVec.ult_eq_not_carry (M.bits w a) (M.bits w b)
  rw [← Bool.not_eq_true', ← this, BitVec.ult_eq_decide, decide_eq_true_iff]
  simp [Model.Holds, M.val_op, M.val_bits ha, M.val_bits hb, evalOp, stdOp, bvBin]

/-- **C18.** -/
theorem c18_slt : SoundRule bbSlt := by
  intro c ps as h hc _ M _
  simp only [bbSlt, bind_ok, Prod.exists] at h
  obtain ⟨w, x, y, r, h, h'⟩ := h
  obtain ⟨a, b, rfl, ha, hb, sx, sy, hM⟩ := bbBinary_sound (by simp) h hc
  obtain ⟨-, s, hl, hr⟩ := sort_equals.1 (hc _ (List.mem_singleton_self _))
  have hs : s = .bool := by
    simp [sortOf, sortOfL, ha, hb, opSort, sameBv, allSort] at hl
    exact hl.symm
  subst hs
  rw [Model.sat_singleton, M.holds_eq]
  refine Model.val_eq_of_holds hl hr ?_
  have hl' : M.Holds (.op .bvSLt [a, b]) ↔ (M.bits w a).slt (M.bits w b) = true := by
    rw [BitVec.slt_eq_decide, decide_eq_true_iff]
    simp [Model.Holds, M.val_op, M.val_bits ha, M.val_bits hb, evalOp, stdOp, bvBin]
  rw [hl']
  split at h'
  · simp at h'
  next hw =>
  have hm : ∀ z : BitVec w, z.msb = z.getLsbD (w - 1) := fun z => BitVec.msb_eq_getLsbD_last z
  rw [BitVec.slt_eq_ult, BitVec.ult_eq_not_carry, hm, hm]
  have hlast : w - 1 < w := by omega
  have hcs : BitVec.carry w (M.bits w a) (~~~M.bits w b) true = Bool.atLeastTwo ((M.bits w a).getLsbD (w - 1))
      ((~~~M.bits w b).getLsbD (w - 1)) (BitVec.carry (w - 1) (M.bits w a) (~~~M.bits w b) true) := by
    conv_lhs => rw [show w = (w - 1) + 1 by omega]
    rw [← BitVec.carry_succ, show w - 1 + 1 = w by omega]
  have hx := (hM M).1 (w - 1) hlast
  have hy := (hM M).2 (w - 1) hlast
  rw [hcs]
  split at h'
  · next h1 =>
    rw [assertEq_ok] at h'
    subst h'
    subst h1
    simp only [mkAnd, mkNot, Model.holds_and, Model.holds_not, List.mem_cons, List.not_mem_nil, or_false,
      forall_eq_or_imp, forall_eq, hx, hy, Nat.sub_self, BitVec.carry_zero, BitVec.getLsbD_not]
    cases (M.bits 1 a).getLsbD 0 <;> cases (M.bits 1 b).getLsbD 0 <;> simp [Bool.atLeastTwo]
  · next h1 =>
    rw [assertEq_ok] at h'
    subst h'
    have hu := ultAt_sound (hM M).1 (hM M).2 sx sy (w - 2) (by omega)
    rw [show w - 2 + 1 = w - 1 by omega] at hu
    have he := holds_mkEq (M := M) (sx _ hlast) (sy _ hlast)
    simp only [mkAnd, mkNot, mkOr, Model.holds_or, Model.holds_and, Model.holds_not, List.mem_cons,
      List.not_mem_nil, or_false, exists_eq_or_imp, exists_eq_left, forall_eq_or_imp, forall_eq, he, hu,
      hx, hy, BitVec.getLsbD_not, hlast]
    cases (M.bits w a).getLsbD (w - 1) <;> cases (M.bits w b).getLsbD (w - 1) <;>
      cases BitVec.carry (w - 1) (M.bits w a) (~~~M.bits w b) true <;> simp [Bool.atLeastTwo]

/-- **C18.** -/
theorem c18_equal : SoundRule bbEqual := by
  intro c ps as h hc _ M _
  simp only [bbEqual, bind_ok, assertEq_ok, Prod.exists] at h
  obtain ⟨w, x, y, r, h, t, ht, rfl⟩ := h
  obtain ⟨a, b, rfl, ha, hb, sx, sy, hM⟩ := bbBinary_sound (by simp) h hc
  obtain ⟨-, s, hl, hr⟩ := sort_equals.1 (hc _ (List.mem_singleton_self _))
  obtain ⟨rfl, -⟩ := sort_equals.1 hl
  rw [Model.sat_singleton, M.holds_eq]
  refine Model.val_eq_of_holds hl hr ?_
  rw [bbEqTerm_sound ht sx sy (hM M).1 (hM M).2, M.holds_eq, M.val_bits ha, M.val_bits hb]
  simp

/-- **C18.** -/
theorem c18_comp : SoundRule bbComp := by
  intro c ps as h hc _ M _
  simp only [bbComp, bind_ok, assertEq_ok, Prod.exists] at h
  obtain ⟨w, x, y, r, h, t, ht, rfl⟩ := h
  obtain ⟨a, b, rfl, ha, hb, sx, sy, hM⟩ := bbBinary_sound (by simp) h hc
  rw [Model.sat_singleton, M.holds_eq,
    Model.val_bb (w := 1) (b := if M.bits w a = M.bits w b then 1#1 else 0#1) rfl]
  · simp [M.val_op, M.val_bits ha, M.val_bits hb, evalOp, stdOp, bvBin]
  · intro i hi
    obtain rfl : i = 0 := by omega
    rw [bitAt_eq (by simp), List.getElem_cons_zero, bbEqTerm_sound ht sx sy (hM M).1 (hM M).2]
    split <;> simp_all

/-- **C18.** -/
theorem c18_extract : SoundRule bbExtract := by
  intro c ps as h hc _ M _
  simp only [bbExtract, bind_ok, get1_ok, match2_ok, Prod.exists] at h
  obtain ⟨_, rfl, l, r, rfl, h⟩ := h
  obtain ⟨-, s, hl, hr⟩ := sort_equals.1 (hc _ (List.mem_singleton_self _))
  split at h
  case h_2 => simp at h
  next i j x =>
  simp only [bind_ok, matchOp_ok] at h
  obtain ⟨right, rfl, h⟩ := h
  split at h
  case h_2 => simp at h
  next j' =>
  obtain ⟨rfl, -, -⟩ := sort_bb hr
  -- the sort of the left-hand side
  obtain ⟨m, k, hx, rfl, hk, hlen⟩ : ∃ (m k : ℕ), sortOf x = some (.bv m) ∧ i = .const (.int k) ∧ j' ≤ k ∧
      k - j' + 1 = right.length := by
    simp only [sortOf, sortOfL] at hl
    cases hx : sortOf x with
    | none => simp [hx] at hl
    | some sx =>
      simp only [hx, popSort] at hl
      split at hl <;> simp_all
      next i' _ _ e _ =>
      obtain ⟨⟨h1, h2, -⟩, h3⟩ := hl
      exact ⟨i'.toNat, by omega, by omega, by omega⟩
  have hval : M.val (.paramOp .bvExtract [.const (.int k), .const (.int (.ofNat j'))] [x]) =
      .bv right.length ((M.bits m x).extractLsb' j' right.length) := by
    have e : M.val (.paramOp .bvExtract [.const (.int k), .const (.int (.ofNat j'))] [x]) =
        evalPop M.I .bvExtract [.int k, .int j'] [M.val x] := by
      simp [Model.val, eval, evalL, evalConst]
    rw [e, M.val_bits hx, ← hlen]
    simp [evalPop, stdPop, hk]
  rw [Model.sat_singleton, M.holds_eq, hval]
  refine (Model.val_bb rfl fun n hn => ?_).symm
  rw [BitVec.getLsbD_extractLsb']
  simp only [hn, decide_true, Bool.true_and]
  split at h
  · next args =>
    obtain ⟨e, -, -⟩ := sort_bb hx
    cases e
    have hget := extractArgs_ok h n hn
    obtain ⟨hlt, hget⟩ := List.getElem?_eq_some_iff.1 hget
    rw [bitAt_eq hn, ← hget, ← bitAt_eq hlt]
    exact Model.bits_bb (j' + n) hlt
  · rw [bitAt_eq hn, extractBits_ok h n hn]
    exact Model.holds_bitOf hx _

/-- **C18.** -/
theorem c18_concat : SoundRule bbConcat := by
  intro c ps as h hc _ M _
  simp only [bbConcat, bind_ok, get1_ok, match2_ok, matchOp_ok, Prod.exists] at h
  obtain ⟨_, rfl, _, _, rfl, args, rfl, right, rfl, h⟩ := h
  rw [Model.sat_singleton, M.holds_eq]
  match hrev : args.reverse with
  | [] => simp [hrev] at h
  | t :: ts =>
    simp only [hrev, bind_ok, bvSizeOf_ok, require_ok, assertEq_ok, Prod.exists] at h
    obtain ⟨w, ht, bits, n, hb, _, -, e⟩ := h
    obtain ⟨h1, h2⟩ := concatVec_ok hb
    have hne : args ≠ [] := by rintro rfl; simp at hrev
    have hall : ∀ u ∈ args, ∃ w, sortOf u = some (.bv w) := by
      intro u hu
      have : u ∈ t :: ts := by rw [← hrev]; simpa using hu
      rcases List.mem_cons.1 this with rfl | h
      · exact ⟨w, ht⟩
      · exact h2 u h
    rw [val_concat hne hall, hrev, List.map_cons, List.flatten_cons, vecOf_eq ht]
    simp only at h1
    rw [← h1, e]
    rfl

/-- **C18.** -/
theorem c18_sign_extend : SoundRule bbSignExtend := by
  intro c ps as h hc _ M _
  simp only [bbSignExtend, bind_ok, get1_ok, match2_ok, Prod.exists] at h
  obtain ⟨_, rfl, l, r, rfl, h⟩ := h
  obtain ⟨-, s, hl, -⟩ := sort_equals.1 (hc _ (List.mem_singleton_self _))
  rw [Model.sat_singleton, M.holds_eq]
  split at h
  case h_2 => simp at h
  next i x =>
  split at h
  case h_2 => simp at h
  next k =>
  obtain ⟨w, hx⟩ : ∃ w, sortOf x = some (.bv w) := by
    simp only [sortOf, sortOfL] at hl
    cases hx : sortOf x with
    | none => simp [hx] at hl
    | some sx => simp only [hx, popSort] at hl; split at hl <;> simp_all
  have hval : M.val (.paramOp .signExtend [.const (.int (.ofNat k))] [x]) =
      .bv (k + w) ((M.bits w x).signExtend (k + w)) := by
    have e : M.val (.paramOp .signExtend [.const (.int (.ofNat k))] [x]) =
        evalPop M.I .signExtend [.int k] [M.val x] := by
      simp [Model.val, eval, evalL, evalConst]
    rw [e, M.val_bits hx]
    simp [evalPop, stdPop]
  rw [hval]
  split at h
  · next h0 =>
    rw [assertEq_ok] at h
    subst h
    subst h0
    rw [M.val_bits hx]
    have : ∀ (n : ℕ) (e : n = w), (Val.bv n ((M.bits w x).signExtend n) : Val M.I.U) = .bv w (M.bits w x) := by
      rintro n rfl
      rw [BitVec.signExtend_eq]
    exact this _ (Nat.zero_add w)
  · simp only [bind_ok, bvSizeOf_ok] at h
    obtain ⟨w', hw', h⟩ := h
    rw [hx] at hw'
    cases hw'
    obtain ⟨hlen, -, hbits⟩ := buildTermVec_ok hx
    split at h
    · simp at h
    next hw =>
    simp only [bind_ok, orPanic_ok, assertEq_ok] at h
    obtain ⟨b, hb, rfl⟩ := h
    refine (Model.val_bb (by simp [hlen, Nat.add_comm]) fun i hi => ?_).symm
    rw [BitVec.getLsbD_signExtend, BitVec.msb_eq_getLsbD_last]
    simp only [hi, decide_true, Bool.true_and]
    have e : bitAt (buildTermVec x w ++ List.replicate k b) i =
        if i < w then bitAt (buildTermVec x w) i else bitAt (buildTermVec x w) (w - 1) := by
      unfold bitAt
      rw [List.getElem?_append, hlen]
      split
      · rfl
      · rw [hb, List.getElem?_replicate, if_pos (by omega)]
    rw [e]
    split
    · exact hbits M i ‹_›
    · exact hbits M (w - 1) (by omega)

/-! ## Steps that meet the hypotheses -/

namespace C18
/-- A bit-vector variable of width two. -/
abbrev a : Term := .var "a" (.bv 2)
/-- A bit-vector variable of width two. -/
abbrev b : Term := .var "b" (.bv 2)
/-- The bits of `a`. -/
abbrev a' (i : ℕ) : Term := bitOf a i
/-- The bits of `b`. -/
abbrev b' (i : ℕ) : Term := bitOf b i
/-- An equality. -/
abbrev eqn (s t : Term) : List Term := [.op .equals [s, t]]
/-- The clause is well-sorted and the rule accepts it. -/
abbrev Accepts (r : Rule) (c : List Term) : Prop := (∀ t ∈ c, sortOf t = some .bool) ∧ r c [] [] = .ok ()
end C18
open C18

example : Accepts bbValueRule (eqn (.const (.bv 2 2)) (mkBb [.fls, .tru])) := by decide +kernel
example : Accepts bbVar (eqn a (mkBb [a' 0, a' 1])) := by decide +kernel
example : Accepts bbAnd (eqn (.op .bvAnd [a, b, a])
    (mkBb [mkAnd (mkAnd (a' 0) (b' 0)) (a' 0), mkAnd (mkAnd (a' 1) (b' 1)) (a' 1)])) := by decide +kernel
example : Accepts bbOr (eqn (.op .bvOr [a, b]) (mkBb [mkOr (a' 0) (b' 0), mkOr (a' 1) (b' 1)])) := by decide +kernel
example : Accepts bbXor (eqn (.op .bvXor [a, mkBb [.tru, .fls]]) (mkBb [mkXor (a' 0) .tru, mkXor (a' 1) .fls])) := by
  decide +kernel
example : Accepts bbAdd (eqn (.op .bvAdd [a, b]) (mkBb [mkXor (mkXor (a' 0) (b' 0)) .fls,
    mkXor (mkXor (a' 1) (b' 1)) (mkOr (mkAnd (a' 0) (b' 0)) (mkAnd (mkXor (a' 0) (b' 0)) .fls))])) := by decide +kernel
example : Accepts bbMult (eqn (.op .bvMul [a, b]) (mkBb [mkAnd (b' 0) (a' 0),
    mkXor (mkXor (mkAnd (b' 0) (a' 1)) (mkAnd (b' 1) (a' 0))) .fls])) := by decide +kernel
example : Accepts bbXnor (eqn (.op .bvXNor [a, b]) (mkBb [mkEq (a' 0) (b' 0), mkEq (a' 1) (b' 1)])) := by decide +kernel
example : Accepts bbNot (eqn (.op .bvNot [a]) (mkBb [mkNot (a' 0), mkNot (a' 1)])) := by decide +kernel
example : Accepts bbNeg (eqn (.op .bvNeg [a]) (mkBb [mkXor (mkXor (mkNot (a' 0)) .fls) .tru,
    mkXor (mkXor (mkNot (a' 1)) .fls) (mkOr (mkAnd (mkNot (a' 0)) .fls)
      (mkAnd (mkXor (mkNot (a' 0)) .fls) .tru))])) := by decide +kernel
example : Accepts bbUlt (eqn (.op .bvULt [a, b]) (mkOr (mkAnd (mkEq (a' 1) (b' 1)) (mkAnd (mkNot (a' 0)) (b' 0)))
    (mkAnd (mkNot (a' 1)) (b' 1)))) := by decide +kernel
example : Accepts bbSlt (eqn (.op .bvSLt [a, b]) (mkOr (mkAnd (mkEq (a' 1) (b' 1)) (mkAnd (mkNot (a' 0)) (b' 0)))
    (mkAnd (a' 1) (mkNot (b' 1))))) := by decide +kernel
example : Accepts bbEqual (eqn (.op .equals [a, b]) (.op .and [mkEq (a' 0) (b' 0), mkEq (a' 1) (b' 1)])) := by
  decide +kernel
example : Accepts bbComp (eqn (.op .bvComp [a, b]) (mkBb [.op .and [mkEq (a' 0) (b' 0), mkEq (a' 1) (b' 1)]])) := by
  decide +kernel
example : Accepts bbExtract (eqn (.paramOp .bvExtract [.const (.int 1), .const (.int 1)] [a]) (mkBb [a' 1])) := by
  decide +kernel
example : Accepts bbExtract (eqn (.paramOp .bvExtract [.const (.int 1), .const (.int 1)] [mkBb [.tru, a' 0]])
    (mkBb [a' 0])) := by decide +kernel
example : Accepts bbConcat (eqn (.op .bvConcat [a, mkBb [.tru], b]) (mkBb [b' 0, b' 1, .tru, a' 0, a' 1])) := by
  decide +kernel
example : Accepts bbSignExtend (eqn (.paramOp .signExtend [.const (.int 2)] [a]) (mkBb [a' 0, a' 1, a' 1, a' 1])) := by
  decide +kernel

end Carcara
