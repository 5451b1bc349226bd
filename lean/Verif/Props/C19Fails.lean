import Verif.Lemmas.PbRules
import Verif.Spec.Witness

/-!
# C19: accepted steps of pseudo-Boolean blasting that do not hold
-/

namespace Carcara
open Val Sem Spec PbEx

/-- **C19** in full: every accepted step is valid. -/
def C19Full : Prop :=
  ∀ r ∈ [pbBveq, pbBvult, pbBvugt, pbBvuge, pbBvule, pbBvslt, pbBvsgt, pbBvsge, pbBvsle, pbVar, pbConst, pbBvxor, pbBvand, pbBvxorIthBit,
    pbBvandIthBit], SoundRule r

/-- Constants of width 2 and 1. -/
def bv2 (z : ℤ) : Term := .const (.bv z 2)
def bv1 (z : ℤ) : Term := .const (.bv z 1)

theorem bits_const {M : Model} {z : ℤ} {w : ℕ} : M.bits w (.const (.bv z w)) = BitVec.ofInt w z :=
  M.bits_of_val (by simp [Model.val, eval, evalConst])

/-- A single addend is accepted for vectors of width 2: `#b00` and `#b10` have the same lowest bit. -/
theorem c19_short_sum_fails : pbBveq [unsignedStep .equals .equals (bv2 0) (bv2 2) (low (bv2 0)) (low (bv2 2)) (.const (.int 0))] [] [] = .ok () ∧
    ClauseOK [unsignedStep .equals .equals (bv2 0) (bv2 2) (low (bv2 0)) (low (bv2 2)) (.const (.int 0))] ∧
    ∀ M : Model, ¬ M.Holds (unsignedStep .equals .equals (bv2 0) (bv2 2) (low (bv2 0)) (low (bv2 2)) (.const (.int 0))) := by
  have h : pbBveq [unsignedStep .equals .equals (bv2 0) (bv2 2) (low (bv2 0)) (low (bv2 2)) (.const (.int 0))] [] [] = .ok () := by
    decide +kernel
  have hc : sortOf (unsignedStep .equals .equals (bv2 0) (bv2 2) (low (bv2 0)) (low (bv2 2)) (.const (.int 0))) = some .bool := by decide
  refine ⟨h, by simpa [ClauseOK] using hc, fun M => ?_⟩
  obtain ⟨x, y, a, b, n, w, e, f⟩ := pbUnsigned_facts (.inl rfl) h hc
  simp only [unsignedStep, Term.op.injEq, List.cons.injEq, true_and, and_true] at e
  obtain ⟨⟨rfl, rfl⟩, ⟨rfl, rfl⟩, rfl⟩ := e
  have hw : w = 2 := by
    have := f.sortX
    simp [bv2, sortOf, Const.sort] at this
    exact this.symm
  subst hw
  rw [unsignedStep, holds_equiv hc f.sortL, f.eq zeroOneBits_const zeroOneBits_const, M.holds_bvEq f.sortX f.sortY, ratCast_eq_zero, bv2, bv2,
    bits_const, bits_const]
  decide

/-- The claim in full is false. -/
theorem c19_fails : ¬ C19Full := by
  intro h
  obtain ⟨h1, h2, h3⟩ := c19_short_sum_fails
  obtain ⟨t, ht, hM⟩ := h pbBveq (by simp) _ _ _ h1 h2 (by simp) Witness.allTrue (by simp)
  simp only [List.mem_cons, List.not_mem_nil, or_false] at ht
  subst ht
  exact h3 _ hM

/-- The signed rules accept sums that contain the sign bit too: then the sign bits cancel out, and `#b1`, which is -1, is not less than `#b0`. -/
theorem c19_sign_bit_twice_fails :
    let c := signedStep .bvSLt (bv1 1) (bv1 0) (low (bv1 0)) (low (bv1 0)) (low (bv1 1)) (low (bv1 1)) (.const (.int 1))
    pbBvslt [c] [] [] = .ok () ∧ ClauseOK [c] ∧ ∀ M : Model, ¬ M.Holds c := by
  intro c
  have h : pbBvslt [c] [] [] = .ok () := by decide +kernel
  have hc : sortOf c = some .bool := by decide
  refine ⟨h, by simpa [ClauseOK] using hc, fun M => ?_⟩
  obtain ⟨x, y, p, q, r, s, n, m, e, f⟩ := pbSignedRev_facts (by simp [Op.IsBvCmp]) h hc
  simp only [c, signedStep, Term.op.injEq, List.cons.injEq, true_and, and_true] at e
  obtain ⟨⟨rfl, rfl⟩, ⟨⟨rfl, rfl⟩, rfl, rfl⟩, rfl⟩ := e
  have hm : m = 0 := by
    have := f.sortX
    simp [bv1, sortOf, Const.sort] at this
    omega
  subst hm
  obtain ⟨e1, e2, e3, e4⟩ := f.vals M zeroOneBits_const zeroOneBits_const
  have hr := M.holds_ge_num (M.val_add_int (M.val_sub_int e1 e2) (M.val_sub_int e3 e4)) f.number
  have hq : M.Holds c ↔ _ := holds_equiv hc f.sortL
  rw [hq, (M.holds_bvCmp f.sortX f.sortY).2.2.2.2.1, hr, ratCast_ge_one, bv1, bv1, bits_const, bits_const]
  decide

/-- The entries of a `pbbterm` are reduced modulo `2 ^ 32` by `pbblast_pbbconst` but not by `pbblast_bveq`: three accepted steps contradict each
other, whatever a `pbbterm` of such entries means. -/
theorem c19_wrapping_fails :
    let big : Term := .const (.int 4294967297)
    let one : Term := .const (.int 1)
    let c1 : Term := .op .equals [bv1 1, pbb [big]]
    let c2 : Term := .op .equals [bv1 1, pbb [one]]
    let c3 := unsignedStep .equals .equals (pbb [big]) (pbb [one]) (.op .mult [one, big]) (.op .mult [one, one]) (.const (.int 0))
    pbConst [c1] [] [] = .ok () ∧ pbConst [c2] [] [] = .ok () ∧ pbBveq [c3] [] [] = .ok () ∧ ClauseOK [c1, c2, c3] ∧
      ∀ M : Model, ¬ (M.Holds c1 ∧ M.Holds c2 ∧ M.Holds c3) := by
  intro big one c1 c2 c3
  refine ⟨by decide +kernel, by decide +kernel, by decide +kernel, by unfold ClauseOK; decide, fun M => ?_⟩
  rintro ⟨h1, h2, h3⟩
  have hc : sortOf c3 = some .bool := by decide
  rw [M.holds_eq] at h1 h2
  have hv : ∀ z : ℤ, M.val (.const (.int z)) = .int z := fun z => by simp [Model.val, eval, evalConst]
  have hl : M.Holds (.op .equals [pbb [big], pbb [one]]) := by rw [M.holds_eq, ← h1, ← h2]
  have hr := ((holds_equiv hc (by decide)).1 h3).1 hl
  rw [M.holds_eq, M.val_sub_int (M.val_mul_const 1 (hv 4294967297)) (M.val_mul_const 1 (hv 1)), hv] at hr
  have := Val.int.inj hr
  omega

theorem val_pbb_single {M : Model} {t : Term} {k : ℤ} (h : M.val t = .int k) (hk : k = 0 ∨ k = 1) : M.val (pbb [t]) = .bv 1 (BitVec.ofInt 1 k) := by
  refine M.val_pbb rfl fun i hi => ?_
  obtain rfl : i = 0 := by simpa using hi
  refine ⟨k, h, ?_⟩
  rcases hk with rfl | rfl <;> simp

/-- The models with `z` equal to 0 and to 1. -/
noncomputable def zModel (k : ℤ) : Model := Witness.model fun _ _ => .int k

theorem zModel_z (k : ℤ) : (zModel k).val pbZ = .int k :=
  (Witness.val_var ..).trans (show Witness.coerce .int (.int k) = .int k from if_pos rfl)

theorem zModel_closed {t : Term} (h : t.fv = []) (hs : (sortOf t).isSome = true) : (zModel 0).val t = (zModel 1).val t :=
  eval_congr_fv t (t.choiceOK_of_sort hs) (.inr (zModel 0).env_dom) fun v hv => by rw [h] at hv; simp at hv

/-- A free `z` in an operand is captured by the choice term of `pbblast_bvxor`. -/
theorem c19_xor_capture_fails :
    let c : Term := .op .equals [.op .bvXor [pbb [pbZ], pbb [num 0]], pbb [xorChoice pbZ (num 0)]]
    pbBvxor [c] [] [] = .ok () ∧ ClauseOK [c] ∧ ∃ M : Model, ZeroOneBits M (pbb [pbZ]) ∧ ZeroOneBits M (pbb [num 0]) ∧ ¬ M.Holds c := by
  intro c
  refine ⟨by decide +kernel, by unfold ClauseOK; decide, ?_⟩
  have hb : ∀ k : ℤ, k = 0 ∨ k = 1 → ZeroOneBits (zModel k) (pbb [pbZ]) ∧ ZeroOneBits (zModel k) (pbb [num 0]) := by
    intro k hk
    constructor
    · rintro as e a ha
      simp only [pbb, Term.op.injEq, true_and] at e
      subst e
      simp only [List.mem_cons, List.not_mem_nil, or_false] at ha
      subst ha
      rw [zModel_z]
      rcases hk with rfl | rfl <;> simp
    · rintro as e a ha
      simp only [pbb, Term.op.injEq, true_and] at e
      subst e
      simp only [List.mem_cons, List.not_mem_nil, or_false] at ha
      subst ha
      left
      simp [PbEx.num, Model.val, eval, evalConst]
  have hv : ∀ k : ℤ, k = 0 ∨ k = 1 → (zModel k).val (.op .bvXor [pbb [pbZ], pbb [num 0]]) = .bv 1 (BitVec.ofInt 1 k) := by
    intro k hk
    rw [Model.val_op, List.map_cons, List.map_cons, List.map_nil, val_pbb_single (zModel_z k) hk,
      val_pbb_single (k := 0) (by simp [PbEx.num, Model.val, eval, evalConst]) (.inl rfl)]
    simp [evalOp, stdOp, bvNary, asBvs]
  by_contra hn
  have h0 : (zModel 0).Holds c := by by_contra h; exact hn ⟨_, (hb 0 (.inl rfl)).1, (hb 0 (.inl rfl)).2, h⟩
  have h1 : (zModel 1).Holds c := by by_contra h; exact hn ⟨_, (hb 1 (.inr rfl)).1, (hb 1 (.inr rfl)).2, h⟩
  rw [Model.holds_eq, hv _ (.inl rfl)] at h0
  rw [Model.holds_eq, hv _ (.inr rfl)] at h1
  rw [zModel_closed (by decide) (by decide)] at h0
  have := eq_of_heq (Val.bv.inj (h0.trans h1.symm)).2
  revert this
  decide

/-- A free `z` in an operand is captured by the choice term of `pbblast_bvand`. -/
theorem c19_and_capture_fails :
    let c : Term := .op .equals [.op .bvAnd [pbb [pbZ], pbb [num 1]], pbb [andChoice pbZ (num 1)]]
    pbBvand [c] [] [] = .ok () ∧ ClauseOK [c] ∧ ∃ M : Model, ZeroOneBits M (pbb [pbZ]) ∧ ZeroOneBits M (pbb [num 1]) ∧ ¬ M.Holds c := by
  intro c
  refine ⟨by decide +kernel, by unfold ClauseOK; decide, ?_⟩
  have hb : ∀ k : ℤ, k = 0 ∨ k = 1 → ZeroOneBits (zModel k) (pbb [pbZ]) ∧ ZeroOneBits (zModel k) (pbb [num 1]) := by
    intro k hk
    constructor
    · rintro as e a ha
      simp only [pbb, Term.op.injEq, true_and] at e
      subst e
      simp only [List.mem_cons, List.not_mem_nil, or_false] at ha
      subst ha
      rw [zModel_z]
      rcases hk with rfl | rfl <;> simp
    · rintro as e a ha
      simp only [pbb, Term.op.injEq, true_and] at e
      subst e
      simp only [List.mem_cons, List.not_mem_nil, or_false] at ha
      subst ha
      right
      simp [PbEx.num, Model.val, eval, evalConst]
  have hv : ∀ k : ℤ, k = 0 ∨ k = 1 → (zModel k).val (.op .bvAnd [pbb [pbZ], pbb [num 1]]) = .bv 1 (BitVec.ofInt 1 k) := by
    intro k hk
    rw [Model.val_op, List.map_cons, List.map_cons, List.map_nil, val_pbb_single (zModel_z k) hk,
      val_pbb_single (k := 1) (by simp [PbEx.num, Model.val, eval, evalConst]) (.inr rfl)]
    rcases hk with rfl | rfl <;> simp [evalOp, stdOp, bvNary, asBvs]
  by_contra hn
  have h0 : (zModel 0).Holds c := by by_contra h; exact hn ⟨_, (hb 0 (.inl rfl)).1, (hb 0 (.inl rfl)).2, h⟩
  have h1 : (zModel 1).Holds c := by by_contra h; exact hn ⟨_, (hb 1 (.inr rfl)).1, (hb 1 (.inr rfl)).2, h⟩
  rw [Model.holds_eq, hv _ (.inl rfl)] at h0
  rw [Model.holds_eq, hv _ (.inr rfl)] at h1
  rw [zModel_closed (by decide) (by decide)] at h0
  have := eq_of_heq (Val.bv.inj (h0.trans h1.symm)).2
  revert this
  decide

/-- A model that chooses -1 where it can. -/
noncomputable def negModel : Model where
  I := { (Witness.model fun _ _ => .int 0).I with
    eps := fun s P => by
      classical
      exact if s = .int ∧ P (.int (-1)) then .int (-1) else (Witness.model fun _ _ => .int 0).I.eps s P
    eps_dom := by
      intro s P
      simp only
      split
      · next h => rw [h.1]; exact ((Witness.model fun _ _ => .int 0).I.dom_int _).2 ⟨_, rfl⟩
      · exact (Witness.model fun _ _ => .int 0).I.eps_dom s P
    eps_spec := by
      intro s P v hv hp
      simp only
      split
      · next h => exact h.2
      · exact (Witness.model fun _ _ => .int 0).I.eps_spec s P v hv hp }
  env := (Witness.model fun _ _ => .int 0).env
  env_dom := (Witness.model fun _ _ => .int 0).env_dom

/-- The choice term `pbblast_bvand` requires for a bit may be -1. -/
theorem negModel_choice : negModel.val (andChoice (num 0) (num 0)) = .int (-1) := by
  have e : negModel.val (andChoice (num 0) (num 0)) = negModel.I.eps .int (fun v => negModel.I.dom .int v ∧
      (eval negModel.I (.op .and [.op .ge [num 0, pbZ], .op .ge [num 0, pbZ],
        .op .ge [.op .add [pbZ, .const (.int 1)], .op .add [num 0, num 0]]]) (negModel.env.set "z" .int v)).T) := by
    simp [Model.val, andChoice, eval, evalBinder]
  rw [e]
  refine if_pos ⟨rfl, (negModel.I.dom_int _).2 ⟨_, rfl⟩, ?_⟩
  exact (checkAndConstraints_ok (M := negModel.setZ (-1)) (x := num 0) (y := num 0) (z := pbZ) (a := 0) (b := 0) (c := -1) (by decide +kernel)
    (by simp [PbEx.num, Model.val, eval, evalConst]) (by simp [PbEx.num, Model.val, eval, evalConst]) (Model.val_pbZ _)).2 (by simp [AndSpec])

/-- The bits an accepted `pbblast_bvand` step introduces need not be 0 or 1, and then an accepted `pbblast_bveq` step about them, with an addend for
every bit, does not hold. -/
theorem c19_and_bit_fails :
    let bit := andChoice (num 0) (num 0)
    let c1 : Term := .op .equals [.op .bvAnd [pbb [num 0], pbb [num 0]], pbb [bit]]
    let c2 := unsignedStep .equals .equals (pbb [bit]) (pbb [num 0]) (.op .mult [num 1, bit]) (.op .mult [num 1, num 0]) (num 0)
    pbBvand [c1] [] [] = .ok () ∧ pbBveq [c2] [] [] = .ok () ∧ ClauseOK [c1, c2] ∧ ∃ M : Model, M.Holds c1 ∧ ¬ M.Holds c2 := by
  intro bit c1 c2
  refine ⟨by decide +kernel, by decide +kernel, by unfold ClauseOK; decide, negModel, ?_, ?_⟩
  all_goals
    have hz : negModel.val (num 0) = .int 0 := by simp [PbEx.num, Model.val, eval, evalConst]
    have hb : negModel.val (pbb [bit]) = .bv 1 0 := negModel.val_pbb rfl fun i hi => by
      obtain rfl : i = 0 := by simpa using hi
      exact ⟨_, negModel_choice, by simp⟩
    have h0 := val_pbb_single hz (.inl rfl)
  · rw [Model.holds_eq, hb, Model.val_op, List.map_cons, List.map_cons, List.map_nil, h0]
    simp [evalOp, stdOp, bvNary, asBvs]
  · intro h
    have hl : negModel.Holds (.op .equals [pbb [bit], pbb [num 0]]) := by rw [Model.holds_eq, hb, h0]; simp
    have hr := ((holds_equiv (by decide) (by decide)).1 h).1 hl
    rw [Model.holds_eq] at hr
    have := Val.int.inj ((negModel.val_sub_int (negModel.val_mul_const 1 negModel_choice) (negModel.val_mul_const 1 hz)).symm.trans
      (hr.trans hz))
    omega

/-- The rule for a bit of an exclusive or does not check that its arguments are bits. -/
theorem c19_bvxor_ith_bit_fails :
    let z := xorChoice (num 2) (num 0)
    let c : Term := .op .and [.op .ge [.op .add [num 2, num 0], z], .op .ge [.op .add [z, num 2], num 0], .op .ge [.op .add [z, num 0], num 2],
      .op .ge [num 2, .op .add [z, num 2, num 0]]]
    pbBvxorIthBit [c] [] [num 2, num 0] = .ok () ∧ ClauseOK [c] ∧ ∀ M : Model, ¬ M.Holds c := by
  intro z c
  refine ⟨by decide +kernel, by unfold ClauseOK; decide, fun M h => ?_⟩
  obtain ⟨k, hk⟩ := M.val_int (t := z) (by decide)
  have := (checkXorConstraints_ok (M := M) (x := num 2) (y := num 0) (z := z) (a := 2) (b := 0) (c := k) (by decide +kernel)
    (by simp [PbEx.num, Model.val, eval, evalConst]) (by simp [PbEx.num, Model.val, eval, evalConst]) hk).1 h
  obtain ⟨h1, h2, h3, h4⟩ := this
  omega

/-- The rule for a bit of a conjunction does not check that its arguments are bits. -/
theorem c19_bvand_ith_bit_fails :
    let z := andChoice (num 2) (num 2)
    let c : Term := .op .and [.op .ge [num 2, z], .op .ge [num 2, z], .op .ge [.op .add [z, num 1], .op .add [num 2, num 2]]]
    pbBvandIthBit [c] [] [num 2, num 2] = .ok () ∧ ClauseOK [c] ∧ ∀ M : Model, ¬ M.Holds c := by
  intro z c
  refine ⟨by decide +kernel, by unfold ClauseOK; decide, fun M h => ?_⟩
  obtain ⟨k, hk⟩ := M.val_int (t := z) (by decide)
  have := (checkAndConstraints_ok (M := M) (x := num 2) (y := num 2) (z := z) (a := 2) (b := 2) (c := k) (by decide +kernel)
    (by simp [PbEx.num, Model.val, eval, evalConst]) (by simp [PbEx.num, Model.val, eval, evalConst]) hk).1 h
  obtain ⟨h1, h2, h3⟩ := this
  omega

/-- The rules index the conclusion without checking that it has a literal, and the signed rules subtract 1 from the width. -/
theorem c19_panics (ps : List (List Term)) (as : List Term) :
    (∀ r ∈ [pbBveq, pbBvult, pbBvugt, pbBvuge, pbBvule, pbBvslt, pbBvsgt, pbBvsge, pbBvsle, pbVar, pbConst, pbBvxor, pbBvand],
      r [] ps as = panic) ∧
    let v : Term := .const (.bv 0 0)
    let s : Term := .op .mult [num 1, bit v 0]
    pbBvslt [signedStep .bvSLt v v s s s s (num 1)] ps as = panic := by
  refine ⟨fun r hr => ?_, by with_unfolding_all rfl⟩
  simp only [List.mem_cons, List.not_mem_nil, or_false] at hr
  rcases hr with rfl | rfl | rfl | rfl | rfl | rfl | rfl | rfl | rfl | rfl | rfl | rfl | rfl <;> rfl

end Carcara
