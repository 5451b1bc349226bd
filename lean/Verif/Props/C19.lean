import Verif.Lemmas.PbRules

/-!
# C19: pseudo-Boolean blasting

An accepted step of a `pbblast_*` rule states an equality that holds for all assignments if the sums have an addend for every bit (for every bit but the
sign bit in the signed rules), the arguments of `pbbterm`s are 0 or 1, and the variable `z` does not occur in the operands. The other cases are in
`C19Fails.lean`.
-/

namespace Carcara
open Val Sem Spec PbEx

/-- What an accepted unsigned step says: both sums are the lower bits of the vectors, as many as there are addends. -/
theorem c19_sums {p q : Op} {k : Rat} {x y a b n : Term} {rest : List Term} {ps : List (List Term)} {as : List Term} {w : ℕ}
    (h : pbUnsigned p q k (unsignedStep p q x y a b n :: rest) ps as = .ok ()) (hx : sortOf x = some (.bv w)) (hy : sortOf y = some (.bv w))
    (M : Model) (zx : ZeroOneBits M x) (zy : ZeroOneBits M y) :
    M.val a = .int (((M.bits w x).toNat % 2 ^ addends a : ℕ) : ℤ) ∧ M.val b = .int (((M.bits w y).toNat % 2 ^ addends b : ℕ) : ℤ) := by
  simp only [pbUnsigned, bind_ok, Prod.exists, matchPbUnsigned_ok] at h
  obtain ⟨x', y', a', b', ⟨n', hn, e⟩, h⟩ := h
  simp only [unsignedStep, Term.op.injEq, List.cons.injEq, true_and, and_true] at e
  obtain ⟨⟨rfl, rfl⟩, ⟨rfl, rfl⟩, rfl⟩ := e
  exact checkPbConstraint_ok h hx hy zx zy

example : pbUnsigned .bvUGt .ge 1 [unsignedStep .bvUGt .ge x y (full x) (low y) (num 1)] [] [] = .ok () ∧ sortOf x = some (.bv 2) ∧
    sortOf y = some (.bv 2) ∧ ∀ M, ZeroOneBits M x ∧ ZeroOneBits M y :=
  ⟨by decide +kernel, by decide, by decide, fun _ => ⟨zeroOneBits_var, zeroOneBits_var⟩⟩

/-- **C19**, `pbblast_bveq`. -/
theorem c19_bveq_partial : SoundWhen pbBveq FullSums := by
  intro c rest ps as h hc M hC
  obtain ⟨x, y, a, b, n, w, rfl, f⟩ := pbUnsigned_facts (.inl rfl) h (hc c (by simp))
  obtain ⟨zx, zy, hl⟩ := hC _ _ _ _ _ _ _ rfl
  obtain ⟨ha, hb⟩ := hl w f.sortX
  rw [unsignedStep, holds_equiv (hc _ (List.mem_cons_self ..)) f.sortL, f.eq zx zy, ha, hb, M.holds_bvEq f.sortX f.sortY,
    Nat.mod_eq_of_lt (M.bits w x).isLt, Nat.mod_eq_of_lt (M.bits w y).isLt]
  rw [ratCast_eq_zero]
  omega

example : pbBveq [unsignedStep .equals .equals x y (full x) (full y) (num 0)] [] [] = .ok () ∧ ClauseOK [unsignedStep .equals .equals x y (full x) (full y) (num 0)] ∧
    ∀ M, FullSums M (unsignedStep .equals .equals x y (full x) (full y) (num 0)) :=
  ⟨by decide +kernel, by unfold ClauseOK; decide, fun _ => FullSums.intro zeroOneBits_var zeroOneBits_var (w := 2) (by decide) (by decide) (by decide)⟩

/-- **C19**, `pbblast_bvult`. -/
theorem c19_bvult_partial : SoundWhen pbBvult FullSums := by
  intro c rest ps as h hc M hC
  obtain ⟨x, y, a, b, n, w, rfl, f⟩ := pbUnsignedRev_facts (by simp [Op.IsBvCmp]) h (hc c (by simp))
  obtain ⟨zx, zy, hl⟩ := hC _ _ _ _ _ _ _ rfl
  obtain ⟨ha, hb⟩ := hl w f.sortX
  rw [unsignedStep, holds_equiv (hc _ (List.mem_cons_self ..)) f.sortL, f.ge zx zy, ha, hb, (M.holds_bvCmp f.sortX f.sortY).1,
    Nat.mod_eq_of_lt (M.bits w x).isLt, Nat.mod_eq_of_lt (M.bits w y).isLt]
  rw [ratCast_ge_one]
  omega

example : pbBvult [unsignedStep .bvULt .ge x y (full y) (full x) (num 1)] [] [] = .ok () ∧ ClauseOK [unsignedStep .bvULt .ge x y (full y) (full x) (num 1)] ∧
    ∀ M, FullSums M (unsignedStep .bvULt .ge x y (full y) (full x) (num 1)) :=
  ⟨by decide +kernel, by unfold ClauseOK; decide, fun _ => FullSums.intro zeroOneBits_var zeroOneBits_var (w := 2) (by decide) (by decide) (by decide)⟩

/-- **C19**, `pbblast_bvugt`. -/
theorem c19_bvugt_partial : SoundWhen pbBvugt FullSums := by
  intro c rest ps as h hc M hC
  obtain ⟨x, y, a, b, n, w, rfl, f⟩ := pbUnsigned_facts (by simp [Op.IsBvCmp]) h (hc c (by simp))
  obtain ⟨zx, zy, hl⟩ := hC _ _ _ _ _ _ _ rfl
  obtain ⟨ha, hb⟩ := hl w f.sortX
  rw [unsignedStep, holds_equiv (hc _ (List.mem_cons_self ..)) f.sortL, f.ge zx zy, ha, hb, (M.holds_bvCmp f.sortX f.sortY).2.2.1,
    Nat.mod_eq_of_lt (M.bits w x).isLt, Nat.mod_eq_of_lt (M.bits w y).isLt]
  rw [ratCast_ge_one]
  omega

example : pbBvugt [unsignedStep .bvUGt .ge x y (full x) (full y) (num 1)] [] [] = .ok () ∧ ClauseOK [unsignedStep .bvUGt .ge x y (full x) (full y) (num 1)] ∧
    ∀ M, FullSums M (unsignedStep .bvUGt .ge x y (full x) (full y) (num 1)) :=
  ⟨by decide +kernel, by unfold ClauseOK; decide, fun _ => FullSums.intro zeroOneBits_var zeroOneBits_var (w := 2) (by decide) (by decide) (by decide)⟩

/-- **C19**, `pbblast_bvuge`. -/
theorem c19_bvuge_partial : SoundWhen pbBvuge FullSums := by
  intro c rest ps as h hc M hC
  obtain ⟨x, y, a, b, n, w, rfl, f⟩ := pbUnsigned_facts (by simp [Op.IsBvCmp]) h (hc c (by simp))
  obtain ⟨zx, zy, hl⟩ := hC _ _ _ _ _ _ _ rfl
  obtain ⟨ha, hb⟩ := hl w f.sortX
  rw [unsignedStep, holds_equiv (hc _ (List.mem_cons_self ..)) f.sortL, f.ge zx zy, ha, hb, (M.holds_bvCmp f.sortX f.sortY).2.2.2.1,
    Nat.mod_eq_of_lt (M.bits w x).isLt, Nat.mod_eq_of_lt (M.bits w y).isLt]
  rw [ratCast_ge_zero]
  omega

example : pbBvuge [unsignedStep .bvUGe .ge x y (full x) (full y) (num 0)] [] [] = .ok () ∧ ClauseOK [unsignedStep .bvUGe .ge x y (full x) (full y) (num 0)] ∧
    ∀ M, FullSums M (unsignedStep .bvUGe .ge x y (full x) (full y) (num 0)) :=
  ⟨by decide +kernel, by unfold ClauseOK; decide, fun _ => FullSums.intro zeroOneBits_var zeroOneBits_var (w := 2) (by decide) (by decide) (by decide)⟩

/-- **C19**, `pbblast_bvule`. -/
theorem c19_bvule_partial : SoundWhen pbBvule FullSums := by
  intro c rest ps as h hc M hC
  obtain ⟨x, y, a, b, n, w, rfl, f⟩ := pbUnsignedRev_facts (by simp [Op.IsBvCmp]) h (hc c (by simp))
  obtain ⟨zx, zy, hl⟩ := hC _ _ _ _ _ _ _ rfl
  obtain ⟨ha, hb⟩ := hl w f.sortX
  rw [unsignedStep, holds_equiv (hc _ (List.mem_cons_self ..)) f.sortL, f.ge zx zy, ha, hb, (M.holds_bvCmp f.sortX f.sortY).2.1,
    Nat.mod_eq_of_lt (M.bits w x).isLt, Nat.mod_eq_of_lt (M.bits w y).isLt]
  rw [ratCast_ge_zero]
  omega

example : pbBvule [unsignedStep .bvULe .ge x y (full y) (full x) (num 0)] [] [] = .ok () ∧ ClauseOK [unsignedStep .bvULe .ge x y (full y) (full x) (num 0)] ∧
    ∀ M, FullSums M (unsignedStep .bvULe .ge x y (full y) (full x) (num 0)) :=
  ⟨by decide +kernel, by unfold ClauseOK; decide, fun _ => FullSums.intro zeroOneBits_var zeroOneBits_var (w := 2) (by decide) (by decide) (by decide)⟩

/-- **C19**, `pbblast_bvslt`. -/
theorem c19_bvslt_partial : SoundWhen pbBvslt FullSigned := by
  intro t rest ps as h hc M hC
  obtain ⟨x, y, a, b, c, d, n, m, rfl, f⟩ := pbSignedRev_facts (by simp [Op.IsBvCmp]) h (hc t (by simp))
  obtain ⟨zx, zy, hl⟩ := hC _ _ _ _ _ _ _ _ rfl
  obtain ⟨ha, hd⟩ := hl _ f.sortX
  rw [signedStep, holds_equiv (hc _ (List.mem_cons_self ..)) f.sortL, f.ge zx zy (by omega) (by omega), (M.holds_bvCmp f.sortX f.sortY).2.2.2.2.1]
  rw [ratCast_ge_one]
  omega

example : pbBvslt [signedStep .bvSLt x y (low y) (sign y) (sign x) (low x) (num 1)] [] [] = .ok () ∧
    ClauseOK [signedStep .bvSLt x y (low y) (sign y) (sign x) (low x) (num 1)] ∧
    ∀ M, FullSigned M (signedStep .bvSLt x y (low y) (sign y) (sign x) (low x) (num 1)) :=
  ⟨by decide +kernel, by unfold ClauseOK; decide, fun _ => FullSigned.intro zeroOneBits_var zeroOneBits_var (w := 2) (by decide) (by decide) (by decide)⟩

/-- **C19**, `pbblast_bvsgt`. -/
theorem c19_bvsgt_partial : SoundWhen pbBvsgt FullSigned := by
  intro t rest ps as h hc M hC
  obtain ⟨x, y, a, b, c, d, n, m, rfl, f⟩ := pbSigned_facts (by simp [Op.IsBvCmp]) h (hc t (by simp))
  obtain ⟨zx, zy, hl⟩ := hC _ _ _ _ _ _ _ _ rfl
  obtain ⟨ha, hd⟩ := hl _ f.sortX
  rw [signedStep, holds_equiv (hc _ (List.mem_cons_self ..)) f.sortL, f.ge zx zy (by omega) (by omega), (M.holds_bvCmp f.sortX f.sortY).2.2.2.2.2.2.1]
  rw [ratCast_ge_one]
  omega

example : pbBvsgt [signedStep .bvSGt x y (low x) (sign x) (sign y) (low y) (num 1)] [] [] = .ok () ∧
    ClauseOK [signedStep .bvSGt x y (low x) (sign x) (sign y) (low y) (num 1)] ∧
    ∀ M, FullSigned M (signedStep .bvSGt x y (low x) (sign x) (sign y) (low y) (num 1)) :=
  ⟨by decide +kernel, by unfold ClauseOK; decide, fun _ => FullSigned.intro zeroOneBits_var zeroOneBits_var (w := 2) (by decide) (by decide) (by decide)⟩

/-- **C19**, `pbblast_bvsge`. -/
theorem c19_bvsge_partial : SoundWhen pbBvsge FullSigned := by
  intro t rest ps as h hc M hC
  obtain ⟨x, y, a, b, c, d, n, m, rfl, f⟩ := pbSigned_facts (by simp [Op.IsBvCmp]) h (hc t (by simp))
  obtain ⟨zx, zy, hl⟩ := hC _ _ _ _ _ _ _ _ rfl
  obtain ⟨ha, hd⟩ := hl _ f.sortX
  rw [signedStep, holds_equiv (hc _ (List.mem_cons_self ..)) f.sortL, f.ge zx zy (by omega) (by omega), (M.holds_bvCmp f.sortX f.sortY).2.2.2.2.2.2.2]
  rw [ratCast_ge_zero]
  omega

example : pbBvsge [signedStep .bvSGe x y (low x) (sign x) (sign y) (low y) (num 0)] [] [] = .ok () ∧
    ClauseOK [signedStep .bvSGe x y (low x) (sign x) (sign y) (low y) (num 0)] ∧
    ∀ M, FullSigned M (signedStep .bvSGe x y (low x) (sign x) (sign y) (low y) (num 0)) :=
  ⟨by decide +kernel, by unfold ClauseOK; decide, fun _ => FullSigned.intro zeroOneBits_var zeroOneBits_var (w := 2) (by decide) (by decide) (by decide)⟩

/-- **C19**, `pbblast_bvsle`. -/
theorem c19_bvsle_partial : SoundWhen pbBvsle FullSigned := by
  intro t rest ps as h hc M hC
  obtain ⟨x, y, a, b, c, d, n, m, rfl, f⟩ := pbSignedRev_facts (by simp [Op.IsBvCmp]) h (hc t (by simp))
  obtain ⟨zx, zy, hl⟩ := hC _ _ _ _ _ _ _ _ rfl
  obtain ⟨ha, hd⟩ := hl _ f.sortX
  rw [signedStep, holds_equiv (hc _ (List.mem_cons_self ..)) f.sortL, f.ge zx zy (by omega) (by omega), (M.holds_bvCmp f.sortX f.sortY).2.2.2.2.2.1]
  rw [ratCast_ge_zero]
  omega

example : pbBvsle [signedStep .bvSLe x y (low y) (sign y) (sign x) (low x) (num 0)] [] [] = .ok () ∧
    ClauseOK [signedStep .bvSLe x y (low y) (sign y) (sign x) (low x) (num 0)] ∧
    ∀ M, FullSigned M (signedStep .bvSLe x y (low y) (sign y) (sign x) (low x) (num 0)) :=
  ⟨by decide +kernel, by unfold ClauseOK; decide, fun _ => FullSigned.intro zeroOneBits_var zeroOneBits_var (w := 2) (by decide) (by decide) (by decide)⟩

/-- **C19**, `pbblast_pbbvar`, without conditions. -/
theorem c19_pbbvar : SoundRule pbVar := by
  intro conclusion ps as h hc _ M _
  simp only [pbVar, bind_ok, orPanic_ok, Prod.exists, match2_ok, orErr_ok, matchPbb_some] at h
  obtain ⟨c, hh, x, _, rfl, pbs, rfl, h⟩ := h
  have hm : .op .equals [x, .op .bvPBbTerm pbs] ∈ conclusion := List.mem_of_head? hh
  refine ⟨_, hm, ?_⟩
  obtain ⟨-, s, hx, hp⟩ := sort_equals.1 (hc _ hm)
  obtain ⟨rfl, -, -⟩ := sort_pbb hp
  have := pbVarLoop_ok (M := M) hx h
  rw [M.holds_eq, M.val_bits hx]
  refine (M.val_pbb rfl fun i hi => ⟨_, this i hi, ?_⟩).symm
  rw [bitVal_one, Nat.zero_add]

example : pbVar [.op .equals [x, pbb [bit x 0, bit x 1]]] [] [] = .ok () ∧ ClauseOK [.op .equals [x, pbb [bit x 0, bit x 1]]] :=
  ⟨by decide +kernel, by unfold ClauseOK; decide⟩

/-- **C19**, `pbblast_pbbconst`. -/
theorem c19_pbbconst_partial : SoundWhen pbConst SmallEntries := by
  intro c rest ps as h hc M hC
  simp only [pbConst, bind_ok, orPanic_ok, List.head?_cons, Option.some.injEq, Prod.exists, match2_ok, orErr_ok, matchPbb_some] at h
  obtain ⟨_, rfl, t, _, rfl, pbs, rfl, h⟩ := h
  split at h
  case h_2 => simp at h
  next m w =>
  simp only [bind_ok, require_ok] at h
  obtain ⟨_, rfl, v, h, rfl⟩ := h
  obtain ⟨n, hn, rfl, he⟩ := pbConstLoop_ok (hC _ _ rfl) h
  rw [M.holds_eq]
  have hv : M.val (.const (.bv (0 + 2 ^ 0 * (n : ℤ)) pbs.length)) = .bv pbs.length (BitVec.ofNat pbs.length n) := by
    simp [Model.val, eval, evalConst]
  rw [hv]
  refine (M.val_pbb rfl fun i hi => ⟨_, by rw [he i hi]; rfl, ?_⟩).symm
  rw [BitVec.getLsbD_ofNat]
  split <;> simp_all

example : pbConst [.op .equals [.const (.bv 2 2), pbb [num 0, num 1]]] [] [] = .ok () ∧
    ClauseOK [.op .equals [.const (.bv 2 2), pbb [num 0, num 1]]] ∧
    ∀ M, SmallEntries M (.op .equals [.const (.bv 2 2), pbb [num 0, num 1]]) := by
  refine ⟨by decide +kernel, by unfold ClauseOK; decide, fun M t as e z hz => ?_⟩
  simp only [pbb, PbEx.num, Term.op.injEq, List.cons.injEq, true_and, and_true] at e
  rw [← e.2] at hz
  simp at hz
  omega

/-- **C19**, `pbblast_bvxor`. -/
theorem c19_bvxor_partial : SoundWhen pbBvxor GoodOperands := by
  intro c rest ps as h hc M hC
  simp only [pbBvxor, pbBitwise, bind_ok, orPanic_ok, List.head?_cons, Option.some.injEq, Prod.exists, match2_ok, orErr_ok,
    matchPbb_some] at h
  obtain ⟨_, rfl, _, _, rfl, x, y, rfl, bcs, rfl, xs, h1, ys, h2, h⟩ := h
  obtain ⟨zx, zy, nx, ny⟩ := hC _ _ _ _ rfl
  obtain ⟨-, s, hl, hr⟩ := sort_equals.1 (hc _ (List.mem_cons_self ..))
  obtain ⟨w, rfl, -, hxy⟩ := sort_bvNary (by simp) hl
  have hx := hxy x (by simp)
  have hy := hxy y (by simp)
  obtain ⟨e, -, -⟩ := sort_pbb hr
  cases e
  obtain ⟨lx, bx⟩ := getBitvectorTerms_ok hx zx h1
  obtain ⟨ly, by'⟩ := getBitvectorTerms_ok hy zy h2
  have hv := M.bits_nary (o := .bvXor) (t := x) (ts := [y]) (w := bcs.length) (fun _ a b => a ^^^ b) (fun _ => rfl) hxy
  rw [M.holds_eq, hv]
  refine (M.val_pbb rfl fun i hi => ?_).symm
  have hxi : i < xs.length := by omega
  have hyi : i < ys.length := by omega
  obtain ⟨sx, zx'⟩ := getBitvectorTerms_sort hx nx h1 _ (List.getElem_mem hxi)
  obtain ⟨sy, zy'⟩ := getBitvectorTerms_sort hy ny h2 _ (List.getElem_mem hyi)
  refine ⟨_, checkXorBit_ok (checkPbBits_ok h i hi hxi hyi) sx sy zx' zy' (bx i hxi) (by' i hyi) (bitVal_cases _ _) (bitVal_cases _ _), ?_⟩
  simp only [List.map_cons, List.map_nil, List.foldl_cons, List.foldl_nil, BitVec.getLsbD_xor, bitVal]
  by_cases hp : (M.bits bcs.length x).getLsbD i = true <;> by_cases hq : (M.bits bcs.length y).getLsbD i = true <;> simp [hp, hq]

example : pbBvxor [.op .equals [.op .bvXor [x, y], pbb [xorBit (bit x 0) (bit y 0), xorBit (bit x 1) (bit y 1)]]] [] [] = .ok () ∧
    ClauseOK [.op .equals [.op .bvXor [x, y], pbb [xorBit (bit x 0) (bit y 0), xorBit (bit x 1) (bit y 1)]]] ∧
    ∀ M, GoodOperands M (.op .equals [.op .bvXor [x, y], pbb [xorBit (bit x 0) (bit y 0), xorBit (bit x 1) (bit y 1)]]) :=
  ⟨by decide +kernel, by unfold ClauseOK; decide, fun _ => GoodOperands.intro zeroOneBits_var zeroOneBits_var (by unfold NoZ; decide) (by unfold NoZ; decide)⟩

/-- **C19**, `pbblast_bvand`. -/
theorem c19_bvand_partial : SoundWhen pbBvand GoodOperands := by
  intro c rest ps as h hc M hC
  simp only [pbBvand, pbBitwise, bind_ok, orPanic_ok, List.head?_cons, Option.some.injEq, Prod.exists, match2_ok, orErr_ok,
    matchPbb_some] at h
  obtain ⟨_, rfl, _, _, rfl, x, y, rfl, bcs, rfl, xs, h1, ys, h2, h⟩ := h
  obtain ⟨zx, zy, nx, ny⟩ := hC _ _ _ _ rfl
  obtain ⟨-, s, hl, hr⟩ := sort_equals.1 (hc _ (List.mem_cons_self ..))
  obtain ⟨w, rfl, -, hxy⟩ := sort_bvNary (by simp) hl
  have hx := hxy x (by simp)
  have hy := hxy y (by simp)
  obtain ⟨e, -, -⟩ := sort_pbb hr
  cases e
  obtain ⟨lx, bx⟩ := getBitvectorTerms_ok hx zx h1
  obtain ⟨ly, by'⟩ := getBitvectorTerms_ok hy zy h2
  have hv := M.bits_nary (o := .bvAnd) (t := x) (ts := [y]) (w := bcs.length) (fun _ a b => a &&& b) (fun _ => rfl) hxy
  rw [M.holds_eq, hv]
  refine (M.val_pbb rfl fun i hi => ?_).symm
  have hxi : i < xs.length := by omega
  have hyi : i < ys.length := by omega
  obtain ⟨sx, zx'⟩ := getBitvectorTerms_sort hx nx h1 _ (List.getElem_mem hxi)
  obtain ⟨sy, zy'⟩ := getBitvectorTerms_sort hy ny h2 _ (List.getElem_mem hyi)
  obtain ⟨k, e, hk⟩ := checkAndBit_ok (checkPbBits_ok h i hi hxi hyi) sx sy zx' zy' (bx i hxi) (by' i hyi) (bitVal_cases _ _) (bitVal_cases _ _)
  refine ⟨k, e, ?_⟩
  rw [hk, bitVal_one, bitVal_one]
  simp

example : pbBvand [.op .equals [.op .bvAnd [x, y], pbb [andBit (bit x 0) (bit y 0), andBit (bit x 1) (bit y 1)]]] [] [] = .ok () ∧
    ClauseOK [.op .equals [.op .bvAnd [x, y], pbb [andBit (bit x 0) (bit y 0), andBit (bit x 1) (bit y 1)]]] ∧
    ∀ M, GoodOperands M (.op .equals [.op .bvAnd [x, y], pbb [andBit (bit x 0) (bit y 0), andBit (bit x 1) (bit y 1)]]) :=
  ⟨by decide +kernel, by unfold ClauseOK; decide, fun _ => GoodOperands.intro zeroOneBits_var zeroOneBits_var (by unfold NoZ; decide) (by unfold NoZ; decide)⟩

/-- **C19**, `pbblast_bvxor_ith_bit`: the arguments are integer terms without `z` whose values are 0 or 1. -/
theorem c19_bvxor_ith_bit_partial {x y c : Term} {rest : List Term} {ps : List (List Term)}
    (h : pbBvxorIthBit (c :: rest) ps [x, y] = .ok ()) (sx : sortOf x = some .int) (sy : sortOf y = some .int) (nx : NoZ x) (ny : NoZ y)
    (M : Model) (hx : M.val x = .int 0 ∨ M.val x = .int 1) (hy : M.val y = .int 0 ∨ M.val y = .int 1) : M.Holds c := by
  simp only [pbBvxorIthBit, bind_ok, get2_ok, orPanic_ok, List.head?_cons, Option.some.injEq, Prod.exists, match4_ok] at h
  obtain ⟨_, _, e, _, rfl, c1, c2, c3, c4, rfl, h⟩ := h
  simp only [List.cons.injEq, and_true] at e
  obtain ⟨rfl, rfl⟩ := e
  obtain ⟨a, hx, ha⟩ : ∃ a : ℤ, M.val x = .int a ∧ (a = 0 ∨ a = 1) := by rcases hx with h | h <;> exact ⟨_, h, by simp⟩
  obtain ⟨b, hy, hb⟩ : ∃ a : ℤ, M.val y = .int a ∧ (a = 0 ∨ a = 1) := by rcases hy with h | h <;> exact ⟨_, h, by simp⟩
  have hself : checkXorConstraints x y pbZ (.op .ge [.op .add [x, y], pbZ]) (.op .ge [.op .add [pbZ, x], y])
      (.op .ge [.op .add [pbZ, y], x]) (.op .ge [.const (.int 2), .op .add [pbZ, x, y]]) = .ok () := by
    simp [checkXorConstraints, match2, match3, assertEq, matchNum, require, Term.asNumber, bind, Except.bind]
  have key := fun k => checkXorConstraints_ok (M := M.setZ k) hself ((M.val_setZ sx nx k).trans hx) ((M.val_setZ sy ny k).trans hy)
    (M.val_pbZ k)
  obtain ⟨k, e, hk⟩ := M.val_choiceZ (bs := []) ((XorSpec.exists ha hb).imp fun k hk => (key k).2 hk)
  exact (checkXorConstraints_ok h hx hy e).2 ((key k).1 hk)

example : pbBvxorIthBit [.op .and [.op .ge [.op .add [num 0, num 1], xorBit (num 0) (num 1)], .op .ge [.op .add [xorBit (num 0) (num 1), num 0], num 1],
      .op .ge [.op .add [xorBit (num 0) (num 1), num 1], num 0], .op .ge [num 2, .op .add [xorBit (num 0) (num 1), num 0, num 1]]]] []
    [num 0, num 1] = .ok () ∧ NoZ (num 0) ∧ NoZ (num 1) :=
  ⟨by decide +kernel, by unfold NoZ; decide, by unfold NoZ; decide⟩

/-- **C19**, `pbblast_bvand_ith_bit`. -/
theorem c19_bvand_ith_bit_partial {x y c : Term} {rest : List Term} {ps : List (List Term)}
    (h : pbBvandIthBit (c :: rest) ps [x, y] = .ok ()) (sx : sortOf x = some .int) (sy : sortOf y = some .int) (nx : NoZ x) (ny : NoZ y)
    (M : Model) (hx : M.val x = .int 0 ∨ M.val x = .int 1) (hy : M.val y = .int 0 ∨ M.val y = .int 1) : M.Holds c := by
  simp only [pbBvandIthBit, bind_ok, get2_ok, orPanic_ok, List.head?_cons, Option.some.injEq, Prod.exists, match3_ok] at h
  obtain ⟨_, _, e, _, rfl, c1, c2, c3, rfl, h⟩ := h
  simp only [List.cons.injEq, and_true] at e
  obtain ⟨rfl, rfl⟩ := e
  obtain ⟨a, hx, ha⟩ : ∃ a : ℤ, M.val x = .int a ∧ (a = 0 ∨ a = 1) := by rcases hx with h | h <;> exact ⟨_, h, by simp⟩
  obtain ⟨b, hy, hb⟩ : ∃ a : ℤ, M.val y = .int a ∧ (a = 0 ∨ a = 1) := by rcases hy with h | h <;> exact ⟨_, h, by simp⟩
  have hself : checkAndConstraints x y pbZ (.op .ge [x, pbZ]) (.op .ge [y, pbZ])
      (.op .ge [.op .add [pbZ, .const (.int 1)], .op .add [x, y]]) = .ok () := by
    simp [checkAndConstraints, match2, assertEq, matchNum, require, Term.asNumber, bind, Except.bind]
  have key := fun k => checkAndConstraints_ok (M := M.setZ k) hself ((M.val_setZ sx nx k).trans hx) ((M.val_setZ sy ny k).trans hy)
    (M.val_pbZ k)
  obtain ⟨k, e, hk⟩ := M.val_choiceZ (bs := []) ((AndSpec.exists ha hb).imp fun k hk => (key k).2 hk)
  exact (checkAndConstraints_ok h hx hy e).2 ((key k).1 hk)

example : pbBvandIthBit [.op .and [.op .ge [num 0, andBit (num 0) (num 1)], .op .ge [num 1, andBit (num 0) (num 1)],
      .op .ge [.op .add [andBit (num 0) (num 1), num 1], .op .add [num 0, num 1]]]] [] [num 0, num 1] = .ok () ∧ NoZ (num 0) ∧ NoZ (num 1) :=
  ⟨by decide +kernel, by unfold NoZ; decide, by unfold NoZ; decide⟩

end Carcara
