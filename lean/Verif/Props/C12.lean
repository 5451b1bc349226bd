import Verif.Lemmas.Cnf

/-! # C12: the CNF rules are sound -/

namespace Carcara
open Classical Val Sem

/-- **C12.** `not_not`. -/
theorem c12_not_not : SoundRule notNot := by
  intro c ps as h hc hps M hM
  simp only [notNot] at h
  invert h
  prop hM

/-- **C12.** `xor_pos1`. -/
theorem c12_xor_pos1 : SoundRule xorPos1 := by
  intro c ps as h hc hps M hM
  simp only [xorPos1] at h
  invert h
  prop hM

/-- **C12.** `xor_pos2`. -/
theorem c12_xor_pos2 : SoundRule xorPos2 := by
  intro c ps as h hc hps M hM
  simp only [xorPos2] at h
  invert h
  prop hM

/-- **C12.** `xor_neg1`. -/
theorem c12_xor_neg1 : SoundRule xorNeg1 := by
  intro c ps as h hc hps M hM
  simp only [xorNeg1] at h
  invert h
  prop hM

/-- **C12.** `xor_neg2`. -/
theorem c12_xor_neg2 : SoundRule xorNeg2 := by
  intro c ps as h hc hps M hM
  simp only [xorNeg2] at h
  invert h
  prop hM

/-- **C12.** `implies_pos`. -/
theorem c12_implies_pos : SoundRule impliesPos := by
  intro c ps as h hc hps M hM
  simp only [impliesPos] at h
  invert h
  prop hM

/-- **C12.** `implies_neg1`. -/
theorem c12_implies_neg1 : SoundRule impliesNeg1 := by
  intro c ps as h hc hps M hM
  simp only [impliesNeg1] at h
  invert h
  prop hM

/-- **C12.** `implies_neg2`. -/
theorem c12_implies_neg2 : SoundRule impliesNeg2 := by
  intro c ps as h hc hps M hM
  simp only [impliesNeg2] at h
  invert h
  prop hM

/-- **C12.** `ite_pos1`. -/
theorem c12_ite_pos1 : SoundRule itePos1 := by
  intro c ps as h hc hps M hM
  simp only [itePos1] at h
  invert h
  prop hM

/-- **C12.** `ite_pos2`. -/
theorem c12_ite_pos2 : SoundRule itePos2 := by
  intro c ps as h hc hps M hM
  simp only [itePos2] at h
  invert h
  prop hM

/-- **C12.** `ite_neg1`. -/
theorem c12_ite_neg1 : SoundRule iteNeg1 := by
  intro c ps as h hc hps M hM
  simp only [iteNeg1] at h
  invert h
  prop hM

/-- **C12.** `ite_neg2`. -/
theorem c12_ite_neg2 : SoundRule iteNeg2 := by
  intro c ps as h hc hps M hM
  simp only [iteNeg2] at h
  invert h
  prop hM

/-- **C12.** `ite1`. -/
theorem c12_ite1 : SoundRule ite1 := by
  intro c ps as h hc hps M hM
  simp only [ite1] at h
  invert h
  prop hM

/-- **C12.** `ite2`. -/
theorem c12_ite2 : SoundRule ite2 := by
  intro c ps as h hc hps M hM
  simp only [ite2] at h
  invert h
  prop hM

/-- **C12.** `not_ite1`. -/
theorem c12_not_ite1 : SoundRule notIte1 := by
  intro c ps as h hc hps M hM
  simp only [notIte1] at h
  invert h
  prop hM

/-- **C12.** `not_ite2`. -/
theorem c12_not_ite2 : SoundRule notIte2 := by
  intro c ps as h hc hps M hM
  simp only [notIte2] at h
  invert h
  prop hM

/-- **C12.** `xor1`. -/
theorem c12_xor1 : SoundRule xor1 := by
  intro c ps as h hc hps M hM
  simp only [xor1] at h
  invert h
  prop hM

/-- **C12.** `xor2`. -/
theorem c12_xor2 : SoundRule xor2 := by
  intro c ps as h hc hps M hM
  simp only [xor2] at h
  invert h
  prop hM

/-- **C12.** `not_xor1`. -/
theorem c12_not_xor1 : SoundRule notXor1 := by
  intro c ps as h hc hps M hM
  simp only [notXor1] at h
  invert h
  prop hM

/-- **C12.** `not_xor2`. -/
theorem c12_not_xor2 : SoundRule notXor2 := by
  intro c ps as h hc hps M hM
  simp only [notXor2] at h
  invert h
  prop hM

/-- **C12.** `implies`. -/
theorem c12_implies : SoundRule impliesRule := by
  intro c ps as h hc hps M hM
  simp only [impliesRule] at h
  invert h
  prop hM

/-- **C12.** `not_implies1`. -/
theorem c12_not_implies1 : SoundRule notImplies1 := by
  intro c ps as h hc hps M hM
  simp only [notImplies1] at h
  invert h
  prop hM

/-- **C12.** `not_implies2`. -/
theorem c12_not_implies2 : SoundRule notImplies2 := by
  intro c ps as h hc hps M hM
  simp only [notImplies2] at h
  invert h
  prop hM

/-- **C12.** `true`. -/
theorem c12_true : SoundRule trueRule := by
  intro c ps as h hc hps M hM
  simp only [trueRule] at h
  invert h
  prop hM

/-- **C12.** `false`. -/
theorem c12_false : SoundRule falseRule := by
  intro c ps as h hc hps M hM
  simp only [falseRule] at h
  invert h
  prop hM


/-- **C12.** `and_pos`. -/
theorem c12_and_pos : SoundRule andPos := by
  intro c ps as h hc hps M hM
  simp only [andPos] at h
  invert h
  rename_i i _ h
  simp only [Model.Sat, List.mem_cons, List.not_mem_nil, or_false, exists_eq_or_imp, exists_eq_left,
    Model.holds_not, Model.holds_and]
  have := List.mem_of_getElem? h
  by_cases hh : M.Holds ‹_›
  · exact Or.inr hh
  · exact Or.inl fun hall => hh (hall _ this)

/-- **C12.** `or_neg`. -/
theorem c12_or_neg : SoundRule orNeg := by
  intro c ps as h hc hps M hM
  simp only [orNeg] at h
  invert h
  rename_i i _ h
  simp only [Model.Sat, List.mem_cons, List.not_mem_nil, or_false, exists_eq_or_imp, exists_eq_left,
    Model.holds_not, Model.holds_or]
  have := List.mem_of_getElem? h
  by_cases hh : M.Holds ‹_›
  · exact Or.inl ⟨_, this, hh⟩
  · exact Or.inr hh

/-- **C12.** `and_neg`. -/
theorem c12_and_neg : SoundRule andNeg := by
  intro c ps as h hc hps M hM
  simp only [andNeg, bind_ok, require_ok] at h
  obtain ⟨-, hl, h⟩ := h
  match c, h with
  | c0 :: rest, h =>
    simp only [bind_ok, require_ok, matchOp_ok] at h
    obtain ⟨ts, rfl, -, hl, h⟩ := h
    rw [assertNegs_ok hl h]
    by_cases hh : M.Holds (.op .and ts)
    · exact ⟨_, by simp, hh⟩
    · simp only [Model.holds_and, not_forall] at hh
      obtain ⟨t, ht, hn⟩ := hh
      exact ⟨.op .not [t], by simp [ht], by simpa using hn⟩

/-- **C12.** `or_pos`. -/
theorem c12_or_pos : SoundRule orPos := by
  intro c ps as h hc hps M hM
  simp only [orPos, bind_ok, require_ok] at h
  obtain ⟨-, hl, h⟩ := h
  match c, h with
  | c0 :: rest, h =>
    simp only [bind_ok, require_ok, matchOp_ok, match1_ok] at h
    obtain ⟨_, rfl, ts, rfl, -, hl, h⟩ := h
    rw [← assertEqs_ok hl h]
    by_cases hh : M.Holds (.op .or ts)
    · simp only [Model.holds_or] at hh
      obtain ⟨t, ht, hn⟩ := hh
      exact ⟨t, by simp [ht], hn⟩
    · exact ⟨_, List.mem_cons_self, by simpa using hh⟩

/-- **C12.** `and`. -/
theorem c12_and : SoundRule andRule := by
  intro c ps as h hc hps M hM
  simp only [andRule] at h
  invert h
  rename_i i _ h
  simp only [Model.Sat, List.mem_cons, List.not_mem_nil, or_false, forall_eq, exists_eq_left, Model.holds_and] at hM ⊢
  exact hM _ (List.mem_of_getElem? h)

/-- **C12.** `not_or`. -/
theorem c12_not_or : SoundRule notOr := by
  intro c ps as h hc hps M hM
  simp only [notOr] at h
  invert h
  rename_i i _ h
  simp only [Model.Sat, List.mem_cons, List.not_mem_nil, or_false, forall_eq, exists_eq_left, Model.holds_not,
    Model.holds_or, not_exists, not_and] at hM ⊢
  exact hM _ (List.mem_of_getElem? h)

/-- **C12.** `or`. -/
theorem c12_or : SoundRule orRule := by
  intro c ps as h hc hps M hM
  simp only [orRule, bind_ok, require_ok, get1_ok, matchOp_ok] at h
  obtain ⟨_, rfl, _, rfl, ts, rfl, -, hl, h⟩ := h
  rw [← assertEqs_ok hl.symm h]
  simpa [Model.Sat] using hM

/-- **C12.** `not_and`. -/
theorem c12_not_and : SoundRule notAnd := by
  intro c ps as h hc hps M hM
  simp only [notAnd, bind_ok, require_ok, get1_ok, matchOp_ok, match1_ok] at h
  obtain ⟨_, rfl, _, rfl, _, rfl, ts, rfl, -, hl, h⟩ := h
  rw [assertNegs_ok hl.symm h]
  simp only [Model.Sat, List.mem_cons, List.not_mem_nil, or_false, forall_eq, exists_eq_left, Model.holds_not,
    Model.holds_and, not_forall] at hM
  obtain ⟨t, ht, hn⟩ := hM
  exact ⟨.op .not [t], by simp [ht], by simpa using hn⟩

/-- **C12.** `equiv_pos1`. -/
theorem c12_equiv_pos1 : SoundRule equivPos1 := by
  intro c ps as h hc hps M hM
  simp only [equivPos1] at h
  invert h
  simp only [Model.Sat, List.mem_cons, List.not_mem_nil, or_false, exists_eq_or_imp, exists_eq_left, Model.holds_not]
  rw [or_iff_not_imp_left, not_not]
  intro hh
  have := holds_eq_imp hh
  tauto

/-- **C12.** `equiv_pos2`. -/
theorem c12_equiv_pos2 : SoundRule equivPos2 := by
  intro c ps as h hc hps M hM
  simp only [equivPos2] at h
  invert h
  simp only [Model.Sat, List.mem_cons, List.not_mem_nil, or_false, exists_eq_or_imp, exists_eq_left, Model.holds_not]
  rw [or_iff_not_imp_left, not_not]
  intro hh
  have := holds_eq_imp hh
  tauto

/-- **C12.** `equiv_neg1`. -/
theorem c12_equiv_neg1 : SoundRule equivNeg1 := by
  intro c ps as h hc hps M hM
  simp only [equivNeg1] at h
  invert h
  simp only [ClauseOK, List.mem_cons, List.not_mem_nil, or_false, forall_eq_or_imp, forall_eq] at hc
  have := M.holds_eq_bool hc.1 (Or.inl (not_child hc.2.1))
  simp only [Model.Sat, List.mem_cons, List.not_mem_nil, or_false, exists_eq_or_imp, exists_eq_left, Model.holds_not,
    this]
  tauto

/-- **C12.** `equiv_neg2`. -/
theorem c12_equiv_neg2 : SoundRule equivNeg2 := by
  intro c ps as h hc hps M hM
  simp only [equivNeg2] at h
  invert h
  simp only [ClauseOK, List.mem_cons, List.not_mem_nil, or_false, forall_eq_or_imp, forall_eq] at hc
  have := M.holds_eq_bool hc.1 (Or.inl hc.2.1)
  simp only [Model.Sat, List.mem_cons, List.not_mem_nil, or_false, exists_eq_or_imp, exists_eq_left, Model.holds_not,
    this]
  tauto

/-- **C12.** `equiv1`. -/
theorem c12_equiv1 : SoundRule equiv1 := by
  intro c ps as h hc hps M hM
  simp only [equiv1] at h
  invert h
  simp only [Model.Sat, List.mem_cons, List.not_mem_nil, or_false, exists_eq_or_imp, exists_eq_left, Model.holds_not,
    forall_eq] at hM ⊢
  have := holds_eq_imp hM
  tauto

/-- **C12.** `equiv2`. -/
theorem c12_equiv2 : SoundRule equiv2 := by
  intro c ps as h hc hps M hM
  simp only [equiv2] at h
  invert h
  simp only [Model.Sat, List.mem_cons, List.not_mem_nil, or_false, exists_eq_or_imp, exists_eq_left, Model.holds_not,
    forall_eq] at hM ⊢
  have := holds_eq_imp hM
  tauto

/-- **C12.** `not_equiv1`. -/
theorem c12_not_equiv1 : SoundRule notEquiv1 := by
  intro c ps as h hc hps M hM
  simp only [notEquiv1] at h
  invert h
  simp only [ClauseOK, List.mem_cons, List.not_mem_nil, or_false, forall_eq_or_imp, forall_eq] at hc hps
  have := M.holds_eq_bool (not_child hps) (Or.inl hc.1)
  simp only [Model.Sat, List.mem_cons, List.not_mem_nil, or_false, exists_eq_or_imp, exists_eq_left, Model.holds_not,
    forall_eq, this] at hM ⊢
  tauto

/-- **C12.** `not_equiv2`. -/
theorem c12_not_equiv2 : SoundRule notEquiv2 := by
  intro c ps as h hc hps M hM
  simp only [notEquiv2] at h
  invert h
  simp only [ClauseOK, List.mem_cons, List.not_mem_nil, or_false, forall_eq_or_imp, forall_eq] at hc hps
  have := M.holds_eq_bool (not_child hps) (Or.inl (not_child hc.1))
  simp only [Model.Sat, List.mem_cons, List.not_mem_nil, or_false, exists_eq_or_imp, exists_eq_left, Model.holds_not,
    forall_eq, this] at hM ⊢
  tauto

/-- **C12.** `connective_def`. -/
theorem c12_connective_def : SoundRule connectiveDef := by
  intro c ps as h hc hps M hM
  simp only [connectiveDef, bind_ok, get1_ok, match2_ok, Prod.exists] at h
  obtain ⟨_, rfl, first, second, rfl, h⟩ := h
  have hs := hc _ List.mem_cons_self
  obtain ⟨s, hs1, hs2⟩ := eq_children hs
  refine ⟨_, List.mem_cons_self, ?_⟩
  rw [M.holds_eq]
  split at h
  · invert h
    rw [M.val_xor, M.val_or, Model.prop_inj]
    simp
    tauto
  · invert h
    rename_i b a
    have h2 : sortOf a = some .bool ∧ sortOf b = some .bool := by
      have h3 := bool_children (by simp) hs2 (.op .implies [a, b]) (by simp)
      have h4 := bool_children (by simp) h3
      exact ⟨h4 a (by simp), h4 b (by simp)⟩
    rw [M.val_eq, M.val_and, Model.prop_inj, (M.isBool_of_sort h2.1).val_eq (M.isBool_of_sort h2.2)]
    simp
    tauto
  · invert h
    rename_i b d a
    have h3 := bool_children (by simp) hs2
    have h4 := bool_children (by simp) (h3 (.op .implies [a, b]) (by simp))
    have h5 := bool_children (by simp) (h3 (.op .implies [.op .not [a], d]) (by simp))
    rw [M.val_ite, M.val_and, (M.isBool_of_sort (h4 b (by simp))).val_prop,
      (M.isBool_of_sort (h5 d (by simp))).val_prop]
    split <;> rw [Model.prop_inj] <;> simp <;> tauto
  · invert h
    rw [M.val_all, M.val_not, Model.prop_inj, M.holds_ex]
    simp [eval_not]
  · invert h
    rw [M.val_ex, M.val_not, Model.prop_inj, M.holds_all]
    simp [eval_not]
  · simp at h

/-- **C12.** `distinct_elim`. -/
theorem c12_distinct_elim : SoundRule distinctElim := by
  intro c ps as h hc hps M hM
  simp only [distinctElim, bind_ok, get1_ok, match2_ok, matchOp_ok, Prod.exists] at h
  obtain ⟨_, rfl, _, second, rfl, args, rfl, h⟩ := h
  have hs := hc _ List.mem_cons_self
  obtain ⟨s, hs1, hs2⟩ := eq_children hs
  refine ⟨_, List.mem_cons_self, ?_⟩
  rw [M.holds_eq, M.val_distinct]
  split at h
  · simp at h
  · simp at h
  · rw [distinctPair_val h]
    simp
  · next a as hne1 hne2 =>
    split at h
    · next hb =>
      invert h
      rw [M.val_fls, ← Val.prop_false, Model.prop_inj, iff_false]
      match as, hne1, hne2 with
      | [b], _, hne2 => exact (hne2 _ rfl).elim
      | b :: d :: as, _, _ =>
        obtain ⟨ss, h1, h2⟩ := sortOf_op (by decide) hs1
        obtain ⟨s1, ss', rfl, ha, h1⟩ := sortOfL_cons.1 h1
        obtain ⟨s2, ss', rfl, hb', h1⟩ := sortOfL_cons.1 h1
        obtain ⟨s3, ss', rfl, hd, h1⟩ := sortOfL_cons.1 h1
        simp only [opSort] at h2
        split at h2
        · next h3 =>
          have h4 := allSort_iff.1 h3.2
          have e2 := h4 s2 (by simp)
          have e3 := h4 s3 (by simp)
          have e1 : s1 = .bool := by rw [ha] at hb; simpa using hb
          subst e2; subst e3; subst e1
          obtain ⟨x, hx⟩ := M.isBool_of_sort ha
          obtain ⟨y, hy⟩ := M.isBool_of_sort hb'
          obtain ⟨z, hz⟩ := M.isBool_of_sort hd
          simp only [List.map_cons, hx, hy, hz, List.pairwise_cons, List.mem_cons, forall_eq_or_imp, ne_eq,
            Val.bool.injEq]
          cases x <;> cases y <;> cases z <;> simp
        · simp at h2
    · simp only [bind_ok, matchOp_ok, require_ok] at h
      obtain ⟨ts, rfl, -, hl, h⟩ := h
      rw [M.val_and, Model.prop_inj]
      have hl' : (pairs (a :: as)).length = ts.length := by
        rw [hl, pairs_length]; simp
      rw [pairs_pairwise M.val (a :: as), distinctLoop_val M hl' h]

/-- **C12.** `nary_elim`. -/
theorem c12_nary_elim : SoundRule naryElim := by
  intro c ps as h hc hps M hM
  simp only [naryElim, bind_ok, get1_ok, match2_ok, Prod.exists] at h
  obtain ⟨_, rfl, original, result, rfl, h⟩ := h
  have hs := hc _ List.mem_cons_self
  obtain ⟨s, hs1, hs2⟩ := eq_children hs
  refine ⟨_, List.mem_cons_self, ?_⟩
  rw [M.holds_eq]
  split at h
  · next o args =>
    simp only [bind_ok, require_ok] at h
    obtain ⟨-, hl, e, he, rfl⟩ := h
    unfold naryExpected at he
    split at he
    · simp only [ok_inj] at he
      subst he
      rw [M.val_equals, M.val_and, Model.prop_inj, windows_val]
    · exact expandLeft_add M hs1 he
    · exact expandLeft_sub M hs1 he hl
    · exact expandLeft_mult M hs1 he
    · exact (expandRight_val M hl hs1 he).symm
    · simp at he
  · simp at h

/-! ## Each rule accepts an instance that satisfies the hypotheses -/

section
private abbrev p : Term := .var "p" .bool
private abbrev q : Term := .var "q" .bool
private abbrev r : Term := .var "r" .bool
private abbrev x : Term := .var "x" .int
private abbrev y : Term := .var "y" .int
private abbrev z : Term := .var "z" .int

/-- Accepted, and well sorted. -/
private abbrev Instance (rule : Rule) (c : List Term) (ps : List (List Term)) (as : List Term) : Prop :=
  rule c ps as = .ok () ∧ (∀ l ∈ c, sortOf l = some .bool) ∧ ∀ p ∈ ps, ∀ l ∈ p, sortOf l = some .bool

example : Instance trueRule [.tru] [] [] := by decide
example : Instance falseRule [.neg .fls] [] [] := by decide
example : Instance notNot [.neg (.neg (.neg p)), p] [] [] := by decide
example : Instance andPos [.neg (.op .and [p, q, r]), r] [] [.const (.int 2)] := by decide
example : Instance andNeg [.op .and [p, q, r], .neg p, .neg q, .neg r] [] [] := by decide
example : Instance orPos [.neg (.op .or [p, q, r]), p, q, r] [] [] := by decide
example : Instance orNeg [.op .or [p, q, r], .neg r] [] [.const (.int 2)] := by decide
example : Instance xorPos1 [.neg (.op .xor [p, q]), p, q] [] [] := by decide
example : Instance xorPos2 [.neg (.op .xor [p, q]), .neg p, .neg q] [] [] := by decide
example : Instance xorNeg1 [.op .xor [p, q], p, .neg q] [] [] := by decide
example : Instance xorNeg2 [.op .xor [p, q], .neg p, q] [] [] := by decide
example : Instance impliesPos [.neg (.op .implies [p, q]), .neg p, q] [] [] := by decide
example : Instance impliesNeg1 [.op .implies [p, q], p] [] [] := by decide
example : Instance impliesNeg2 [.op .implies [p, q], .neg q] [] [] := by decide
example : Instance equivPos1 [.neg (.eq p q), p, .neg q] [] [] := by decide
example : Instance equivPos2 [.neg (.eq p q), .neg p, q] [] [] := by decide
example : Instance equivNeg1 [.eq p q, .neg p, .neg q] [] [] := by decide
example : Instance equivNeg2 [.eq p q, p, q] [] [] := by decide
example : Instance itePos1 [.neg (.op .ite [p, q, r]), p, r] [] [] := by decide
example : Instance itePos2 [.neg (.op .ite [p, q, r]), .neg p, q] [] [] := by decide
example : Instance iteNeg1 [.op .ite [p, q, r], p, .neg r] [] [] := by decide
example : Instance iteNeg2 [.op .ite [p, q, r], .neg p, .neg q] [] [] := by decide
example : Instance equiv1 [.neg p, q] [[.eq p q]] [] := by decide
example : Instance equiv2 [p, .neg q] [[.eq p q]] [] := by decide
example : Instance notEquiv1 [p, q] [[.neg (.eq p q)]] [] := by decide
example : Instance notEquiv2 [.neg p, .neg q] [[.neg (.eq p q)]] [] := by decide
example : Instance ite1 [p, r] [[.op .ite [p, q, r]]] [] := by decide
example : Instance ite2 [.neg p, q] [[.op .ite [p, q, r]]] [] := by decide
example : Instance notIte1 [p, .neg r] [[.neg (.op .ite [p, q, r])]] [] := by decide
example : Instance notIte2 [.neg p, .neg q] [[.neg (.op .ite [p, q, r])]] [] := by decide
example : Instance connectiveDef [.eq (.op .xor [p, q]) (.op .or [.op .and [.neg p, q], .op .and [p, .neg q]])] [] [] := by decide
example : Instance connectiveDef [.eq (.eq p q) (.op .and [.op .implies [p, q], .op .implies [q, p]])] [] [] := by decide
example : Instance connectiveDef [.eq (.op .ite [p, q, r]) (.op .and [.op .implies [p, q], .op .implies [.neg p, r]])] [] [] := by decide
example : Instance connectiveDef [.eq (.binder .all [("x", .int)] (.eq x y)) (.neg (.binder .ex [("x", .int)] (.neg (.eq x y))))] [] [] := by decide
example : Instance connectiveDef [.eq (.binder .ex [("x", .int)] (.eq x y)) (.neg (.binder .all [("x", .int)] (.neg (.eq x y))))] [] [] := by decide
example : Instance distinctElim [.eq (.op .distinct [x, y]) (.neg (.eq y x))] [] [] := by decide
example : Instance distinctElim [.eq (.op .distinct [p, q, r]) .fls] [] [] := by decide
example : Instance distinctElim [.eq (.op .distinct [x, y, z]) (.op .and [.neg (.eq x y), .neg (.eq z x), .neg (.eq y z)])] [] [] := by decide
example : Instance andRule [r] [[.op .and [p, q, r]]] [.const (.int 2)] := by decide
example : Instance notOr [.neg r] [[.neg (.op .or [p, q, r])]] [.const (.int 2)] := by decide
example : Instance orRule [p, q, r] [[.op .or [p, q, r]]] [] := by decide
example : Instance notAnd [.neg p, .neg q, .neg r] [[.neg (.op .and [p, q, r])]] [] := by decide
example : Instance xor1 [p, q] [[.op .xor [p, q]]] [] := by decide
example : Instance xor2 [.neg p, .neg q] [[.op .xor [p, q]]] [] := by decide
example : Instance notXor1 [p, .neg q] [[.neg (.op .xor [p, q])]] [] := by decide
example : Instance notXor2 [.neg p, q] [[.neg (.op .xor [p, q])]] [] := by decide
example : Instance impliesRule [.neg p, q] [[.op .implies [p, q]]] [] := by decide
example : Instance notImplies1 [p] [[.neg (.op .implies [p, q])]] [] := by decide
example : Instance notImplies2 [.neg q] [[.neg (.op .implies [p, q])]] [] := by decide
example : Instance naryElim [.eq (.op .equals [x, y, z]) (.op .and [.eq x y, .eq y z])] [] [] := by decide
example : Instance naryElim [.eq (.op .sub [x, y, z]) (.op .sub [.op .sub [x, y], z])] [] [] := by decide
example : Instance naryElim [.eq (.op .add [x, y, z]) (.op .add [.op .add [x, y], z])] [] [] := by decide
example : Instance naryElim [.eq (.op .mult [x, y, z]) (.op .mult [.op .mult [x, y], z])] [] [] := by decide
example : Instance naryElim [.eq (.op .implies [p, q, r]) (.op .implies [p, .op .implies [q, r]])] [] [] := by decide

/-- Some near misses. -/
example : andPos [.neg (.op .and [p, q, r]), q] [] [.const (.int 2)] = err := by decide
example : andPos [.neg (.op .and [p, q, r]), q] [] [.const (.int 3)] = err := by decide
example : andNeg [.op .and [p, q, r], .neg p, .neg q] [] [] = err := by decide
example : orPos [.neg (.op .or [p, q, r]), p, q] [] [] = err := by decide
example : naryElim [.eq (.op .sub [x, y, z]) (.op .sub [x, .op .sub [y, z]])] [] [] = err := by decide
example : distinctElim [.eq (.op .distinct [x, y, z]) (.op .and [.neg (.eq x y), .neg (.eq z x)])] [] [] = err := by
  decide
end

end Carcara
