import Verif.Lemmas.NoPanicSorted
import Verif.Lemmas.CuttingPlanes
import Verif.Lemmas.PbChoice

/-! # Panics of the cutting planes rules and of pseudo-Boolean blasting -/

namespace Carcara

/-! ## Cutting planes -/

@[nopanic] theorem asIntegerErr_panic {t : Term} : t.asIntegerErr = panic ↔ False := by
  simp [Term.asIntegerErr, nopanic]

@[nopanic] theorem pbEntry_panic {pr : Term → String} {t : Term} : pbEntry pr t = panic ↔ False := by
  unfold pbEntry pbKey
  split
  · simp [nopanic]
  · split <;> simp [nopanic]

@[nopanic] theorem pbLoop_panic {pr : Term → String} : ∀ {ts : List Term} {hm : PbHash}, pbLoop pr hm ts = panic ↔ False
  | [], hm => by simp [pbLoop, nopanic]
  | t :: ts, hm => by simp [pbLoop, nopanic, pbLoop_panic (ts := ts)]

@[nopanic] theorem getPbHashmap_panic {pr : Term → String} {t : Term} : getPbHashmap pr t = panic ↔ False := by
  unfold getPbHashmap
  split
  · split <;> simp [nopanic]
  · simp [nopanic]

@[nopanic] theorem unwrapPb_panic {pr : Term → String} {t : Term} : unwrapPb pr t = panic ↔ False := by
  simp [unwrapPb, nopanic]

@[nopanic] theorem sameKeys_panic {a b : PbHash} : sameKeys a b = panic ↔ False := by
  simp [sameKeys, subsetKeys, nopanic]

theorem cpAddition_panic {pr : Term → String} : NeverPanics (cpAddition pr) := by
  intro c ps as
  simp [cpAddition, nopanic]

theorem cpMultiplication_panic {pr : Term → String} : NeverPanics (cpMultiplication pr) := by
  intro c ps as
  simp [cpMultiplication, checkCoeffs, nopanic]

theorem cpDivision_panic {pr : Term → String} {c : List Term} {ps : List (List Term)} {as : List Term} :
    cpDivision pr c ps as = panic ↔ ps = [[]] := by
  simp [cpDivision, checkCoeffs, nopanic, get1_ok]

theorem cpSaturation_panic {pr : Term → String} {c : List Term} {ps : List (List Term)} {as : List Term} :
    cpSaturation pr c ps as = panic ↔ ps = [[]] ∧ as = [] := by
  simp [cpSaturation, checkCoeffs, nopanic, get1_ok, require_ok]

theorem cpLiteral_panic {c : List Term} {ps : List (List Term)} {as : List Term} :
    cpLiteral c ps as = panic ↔ c = [] ∧ as.length = 1 := by
  cases c with
  | nil => simp [cpLiteral, nopanic, get1_ok, List.length_eq_one_iff]
  | cons t c =>
    simp only [cpLiteral, nopanic, List.head?_cons, false_or, reduceCtorEq, false_and, iff_false, not_exists, not_and]
    intro a _ t' _
    split
    · simp [nopanic]
    · split
      · simp [nopanic]
      · split
        · simp [nopanic]
        · split <;> simp [nopanic]

mutual
theorem flattenAddition_panic (t : Term) {s : Srt} (hs : sortOf t = some s) : flattenAddition t ≠ panic := by
  rw [flattenAddition.eq_def]
  split
  · rename_i as
    exact accumulateSum_panic as fun t ht => ⟨_, arith_child (by simp) hs ht⟩
  · exact absurd rfl (arith_children (by simp) hs).1
  · rename_i a as
    have ha := flattenAddition_panic a (arith_child (by simp) hs List.mem_cons_self)
    have hb := accumulateSum_panic as fun t ht => ⟨_, arith_child (by simp) hs (List.mem_cons_of_mem _ ht)⟩
    simp [nopanic, ha, hb]
  · simp [nopanic]
  · split <;> simp [nopanic]
termination_by sizeOf t
theorem accumulateSum_panic : ∀ (ts : List Term), (∀ t ∈ ts, ∃ s, sortOf t = some s) → accumulateSum ts ≠ panic
  | [], _ => by simp [accumulateSum, nopanic]
  | a :: as, h => by
    obtain ⟨s, hs⟩ := h a List.mem_cons_self
    have ha := flattenAddition_panic a hs
    have hb := accumulateSum_panic as fun t ht => h t (List.mem_cons_of_mem _ ht)
    simp [accumulateSum, nopanic, ha, hb]
termination_by ts => sizeOf ts
end

@[nopanic] theorem matchRelation_panic {t : Term} : matchRelation t = panic ↔ False := by
  unfold matchRelation
  split
  · split
    · split <;> simp [nopanic]
    · simp [nopanic]
  · simp [nopanic]

@[nopanic] theorem collectAddition_panic {t : Term} : collectAddition t = panic ↔ False := by
  rw [iff_false]
  refine mapRes_panic fun a _ => ?_
  split <;> simp [nopanic]

@[nopanic] theorem checkPbInequalities_panic {a b : List CoeffTimesVar} {k l : Int} :
    checkPbInequalities a k b l = panic ↔ False := by
  simp [checkPbInequalities, nopanic]

theorem matchRelation_some {t a b : Term} {o : Op} (h : matchRelation t = .ok (o, a, b)) :
    t = .op o [a, b] ∧ o ∈ [Op.equals, .gt, .lt, .ge, .le] := by
  unfold matchRelation at h
  split at h
  · split at h
    · next ho =>
      split at h
      · cases h
        exact ⟨rfl, ho⟩
      · cases h
    · cases h
  · cases h

/-- The arguments of a well-sorted application have sorts. -/
theorem op_child_sorted {o : Op} {ts : List Term} {s : Srt} (ho : o ≠ .bvConst) (h : sortOf (.op o ts) = some s) {t : Term}
    (ht : t ∈ ts) : ∃ r, sortOf t = some r := by
  obtain ⟨ss, h, -⟩ := sortOf_op ho h
  have h := sortOfL_some h
  clear * - h ht
  induction h with
  | nil => cases ht
  | cons h _ ih =>
    rcases List.mem_cons.1 ht with rfl | ht
    · exact ⟨_, h⟩
    · exact ih ht

theorem cpNormalize_panic {c : List Term} {ps : List (List Term)} {as : List Term} (hc : ClauseOK c) :
    cpNormalize c ps as ≠ panic := by
  simp only [cpNormalize, ne_eq, nopanic, false_or, get1_ok, match2_ok, not_exists, not_and]
  rintro _ rfl ⟨g, n⟩ rfl ⟨o, a, b⟩ h
  obtain ⟨rfl, ho⟩ := matchRelation_some h
  obtain ⟨-, s, hg, -⟩ := sort_equals.1 (hc _ (List.mem_singleton.2 rfl))
  have hn : o ≠ .bvConst := by rintro rfl; revert ho; decide
  obtain ⟨_, ha⟩ := op_child_sorted hn hg (t := a) (by simp)
  obtain ⟨_, hb⟩ := op_child_sorted hn hg (t := b) (by simp)
  simp [flattenAddition_panic a ha, flattenAddition_panic b hb, nopanic]

/-! ## Pseudo-Boolean blasting -/

@[nopanic] theorem match4_panic {o : Op} {t : Term} : match4 o t = panic ↔ False := by
  unfold match4
  split
  · split <;> simp [nopanic]
  · simp [nopanic]
@[nopanic] theorem matchNum_panic {q : Rat} {t : Term} : matchNum q t = panic ↔ False := by simp [matchNum, nopanic]

theorem getBitWidth_panic {x : Term} : getBitWidth x = panic ↔ sortOf x = none := by
  unfold getBitWidth
  split <;> simp_all [nopanic]

@[nopanic] theorem pbSummand_panic {i : ℕ} {t : Term} : pbSummand i t = panic ↔ False := by
  unfold pbSummand
  split
  · simp [nopanic]
  · split
    · split <;> simp [nopanic]
    · simp [nopanic]

@[nopanic] theorem pbSumLoop_panic {x : Term} : ∀ {es : List Term} {i : ℕ}, pbSumLoop x i es = panic ↔ False
  | [], i => by simp [pbSumLoop, nopanic]
  | e :: es, i => by simp [pbSumLoop, nopanic, pbSumLoop_panic (es := es)]

@[nopanic] theorem pbShortSummand_panic {i : ℕ} {t : Term} : pbShortSummand i t = panic ↔ False := by
  unfold pbShortSummand
  split
  · simp [nopanic]
  · split <;> simp [nopanic]

theorem pbShortLoop_panic : ∀ {es bs : List Term} {i : ℕ}, es.length ≤ bs.length → pbShortLoop i bs es ≠ panic
  | [], bs, i, _ => by cases bs <;> simp [pbShortLoop, nopanic]
  | e :: es, [], i, h => by simp at h
  | e :: es, b :: bs, i, h => by simp [pbShortLoop, nopanic, pbShortLoop_panic (es := es) (bs := bs) (by simpa using h)]

@[nopanic] theorem checkPbShort_panic {bs es : List Term} : checkPbShort bs es = panic ↔ False := by
  simp only [checkPbShort, nopanic, false_or, iff_false, not_exists, not_and, require_ok]
  exact fun _ h => pbShortLoop_panic h

theorem checkPbSum_panic {x : Term} {es : List Term} : checkPbSum x es = panic ↔ sortOf x = none := by
  simp [checkPbSum, nopanic, getBitWidth_panic]

theorem checkPbConstraint_panic {x y : Term} {as bs : List Term} (hx : sortOf x ≠ none) (hy : sortOf y ≠ none) :
    checkPbConstraint x y as bs ≠ panic := by
  unfold checkPbConstraint
  split
  · simp [nopanic]
  · simp [nopanic, checkPbSum_panic, hx, hy]

theorem matchPbUnsigned_panic {p q : Op} {k : Rat} {c : Term} {rest : List Term} : matchPbUnsigned p q k (c :: rest) ≠ panic := by
  simp [matchPbUnsigned, nopanic]

theorem matchPbSigned_panic {p : Op} {k : Rat} {c : Term} {rest : List Term} : matchPbSigned p k (c :: rest) ≠ panic := by
  simp [matchPbSigned, nopanic]

/-- The two operands in the pattern of the comparisons have sorts. -/
theorem pbPair_sorted {p : Op} (hp : p ≠ .bvConst) {r x y : Term} {s : Srt} (h : sortOf (.op .equals [.op p [x, y], r]) = some s) :
    sortOf x ≠ none ∧ sortOf y ≠ none := by
  obtain ⟨-, _, hl, -⟩ := sort_equals.1 h
  obtain ⟨_, hx⟩ := op_child_sorted hp hl (t := x) (by simp)
  obtain ⟨_, hy⟩ := op_child_sorted hp hl (t := y) (by simp)
  simp [hx, hy]

theorem pbUnsigned_panic {p q : Op} {k : Rat} (hp : p ≠ .bvConst) {c : List Term} {ps : List (List Term)} {as : List Term}
    (hc : ClauseOK c) (hn : c ≠ []) : pbUnsigned p q k c ps as ≠ panic := by
  cases c with
  | nil => exact absurd rfl hn
  | cons c rest =>
    simp only [pbUnsigned, ne_eq, nopanic, matchPbUnsigned_panic, false_or, not_exists, not_and]
    rintro ⟨x, y, a, b⟩ h
    obtain ⟨n, -, rfl⟩ := matchPbUnsigned_ok.1 h
    obtain ⟨hx, hy⟩ := pbPair_sorted hp (hc _ List.mem_cons_self)
    exact checkPbConstraint_panic hx hy

theorem pbUnsignedRev_panic {p q : Op} {k : Rat} (hp : p ≠ .bvConst) {c : List Term} {ps : List (List Term)} {as : List Term}
    (hc : ClauseOK c) (hn : c ≠ []) : pbUnsignedRev p q k c ps as ≠ panic := by
  cases c with
  | nil => exact absurd rfl hn
  | cons c rest =>
    simp only [pbUnsignedRev, ne_eq, nopanic, matchPbUnsigned_panic, false_or, not_exists, not_and]
    rintro ⟨x, y, a, b⟩ h
    obtain ⟨n, -, rfl⟩ := matchPbUnsigned_ok.1 h
    obtain ⟨hx, hy⟩ := pbPair_sorted hp (hc _ List.mem_cons_self)
    exact checkPbConstraint_panic hy hx

theorem checkPbSign_panic {n : ℕ} {sign x : Term} (hn : n ≠ 0) : checkPbSign n sign x ≠ panic := by
  obtain ⟨m, rfl⟩ := Nat.exists_eq_succ_of_ne_zero hn
  unfold checkPbSign
  split <;> simp [predPanic, nopanic]

/-- The width of the first operand is positive. -/
theorem pbWidth_pos {p : Op} {r x y : Term} {rest : List Term} {n : ℕ} (hw : NoEmptyBv (.op .equals [.op p [x, y], r] :: rest))
    (h : getBitWidth x = .ok n) : n ≠ 0 := by
  rintro rfl
  exact hw _ List.mem_cons_self x
    (subterms_op (List.mem_cons_self ..) _ (subterms_op (List.mem_cons_self ..) _ x.self_mem_subterms)) (getBitWidth_ok.1 h)

theorem pbSigned_panic {p : Op} {k : Rat} (hp : p ≠ .bvConst) {c : List Term} {ps : List (List Term)} {as : List Term}
    (hc : ClauseOK c) (hw : NoEmptyBv c) (hn : c ≠ []) : pbSigned p k c ps as ≠ panic := by
  cases c with
  | nil => exact absurd rfl hn
  | cons c rest =>
    simp only [pbSigned, ne_eq, nopanic, matchPbSigned_panic, false_or, not_exists, not_and]
    rintro ⟨x, y, a, b, c, d⟩ h
    obtain ⟨n, -, rfl⟩ := matchPbSigned_ok.1 h
    obtain ⟨hx, hy⟩ := pbPair_sorted hp (hc _ List.mem_cons_self)
    simp only [getBitWidth_panic, hx, false_or, not_exists, not_and, not_or]
    intro m hm
    have hm := pbWidth_pos hw hm
    simp [checkPbSign_panic hm, checkPbConstraint_panic hx hy]

theorem pbSignedRev_panic {p : Op} {k : Rat} (hp : p ≠ .bvConst) {c : List Term} {ps : List (List Term)} {as : List Term}
    (hc : ClauseOK c) (hw : NoEmptyBv c) (hn : c ≠ []) : pbSignedRev p k c ps as ≠ panic := by
  cases c with
  | nil => exact absurd rfl hn
  | cons c rest =>
    simp only [pbSignedRev, ne_eq, nopanic, matchPbSigned_panic, false_or, not_exists, not_and]
    rintro ⟨x, y, a, b, c, d⟩ h
    obtain ⟨n, -, rfl⟩ := matchPbSigned_ok.1 h
    obtain ⟨hx, hy⟩ := pbPair_sorted hp (hc _ List.mem_cons_self)
    simp only [getBitWidth_panic, hx, false_or, not_exists, not_and, not_or]
    intro m hm
    have hm := pbWidth_pos hw hm
    simp [checkPbSign_panic hm, checkPbConstraint_panic hy hx]

@[nopanic] theorem pbVarLoop_panic {x : Term} : ∀ {es : List Term} {i : ℕ}, pbVarLoop x i es = panic ↔ False
  | [], i => by simp [pbVarLoop, nopanic]
  | e :: es, i => by simp [pbVarLoop, nopanic, pbVarLoop_panic (es := es)]

theorem pbVar_panic {c : List Term} {ps : List (List Term)} {as : List Term} : pbVar c ps as = panic ↔ c = [] := by
  simp [pbVar, nopanic]

@[nopanic] theorem pbConstLoop_panic : ∀ {es : List Term} {acc : Int} {i : ℕ}, pbConstLoop acc i es = panic ↔ False
  | [], acc, i => by simp [pbConstLoop, nopanic]
  | e :: es, acc, i => by simp [pbConstLoop, nopanic, pbConstLoop_panic (es := es)]

theorem pbConst_panic {c : List Term} {ps : List (List Term)} {as : List Term} : pbConst c ps as = panic ↔ c = [] := by
  simp only [pbConst, nopanic, List.head?_eq_none_iff, false_or, or_iff_left_iff_imp]
  rintro ⟨_, -, ⟨bv, r⟩, -, pbs, -, h⟩
  split at h <;> simp [nopanic] at h

theorem getBitvectorTerms_panic {t : Term} {w : ℕ} (h : sortOf t = some (.bv w)) : getBitvectorTerms t ≠ panic := by
  unfold getBitvectorTerms
  split
  · simp [nopanic]
  · simp [h, nopanic]

@[nopanic] theorem checkXorConstraints_panic {x y z a b c d : Term} : checkXorConstraints x y z a b c d = panic ↔ False := by
  simp [checkXorConstraints, nopanic]
@[nopanic] theorem checkAndConstraints_panic {x y z a b c : Term} : checkAndConstraints x y z a b c = panic ↔ False := by
  simp [checkAndConstraints, nopanic]

theorem checkPbBinding_panic {bs : List (String × Srt)} : checkPbBinding bs = panic ↔ bs = [] := by
  simp [checkPbBinding, nopanic]

theorem choice_binding {bs : List (String × Srt)} {t : Term} {s : Srt} (h : sortOf (.binder .choice bs t) = some s) : bs ≠ [] := by
  rintro rfl
  simp [sortOf] at h

theorem checkXorBit_panic {t x y : Term} (h : sortOf t ≠ none) : checkXorBit t x y ≠ panic := by
  obtain ⟨s, hs⟩ := Option.ne_none_iff_exists'.1 h
  simp only [checkXorBit, ne_eq, nopanic, false_or, not_exists, not_and, matchBinder_ok, checkPbBinding_panic]
  rintro ⟨bs, b⟩ rfl ⟨_, _, _, _⟩ -
  simp [nopanic, choice_binding hs]

theorem checkAndBit_panic {t x y : Term} (h : sortOf t ≠ none) : checkAndBit t x y ≠ panic := by
  obtain ⟨s, hs⟩ := Option.ne_none_iff_exists'.1 h
  simp only [checkAndBit, ne_eq, nopanic, false_or, not_exists, not_and, matchBinder_ok, checkPbBinding_panic]
  rintro ⟨bs, b⟩ rfl ⟨_, _, _⟩ -
  simp [nopanic, choice_binding hs]

theorem checkPbBits_panic {f : Term → Term → Term → Res Unit} : ∀ {bcs xs ys : List Term}, (∀ t ∈ bcs, ∀ x y, f t x y ≠ panic) →
    checkPbBits f bcs xs ys ≠ panic
  | [], _, _, _ => by simp [checkPbBits, nopanic]
  | _ :: _, [], _, _ => by simp [checkPbBits, nopanic]
  | _ :: _, _ :: _, [], _ => by simp [checkPbBits, nopanic]
  | b :: bcs, x :: xs, y :: ys, h => by
    have h1 := h b List.mem_cons_self x y
    have h2 := checkPbBits_panic (xs := xs) (ys := ys) fun t ht => h t (List.mem_cons_of_mem _ ht)
    simp [checkPbBits, nopanic, h1, h2]

theorem sort_bvPair {o : Op} (ho : o = .bvXor ∨ o = .bvAnd) {x y : Term} {s : Srt} (h : sortOf (.op o [x, y]) = some s) :
    ∃ w, sortOf x = some (.bv w) ∧ sortOf y = some (.bv w) := by
  obtain ⟨sa, sb, ha, hb, h⟩ := pair_sorts (by rcases ho with rfl | rfl <;> decide) h
  rw [ha, hb]
  have : ∃ w, sameBv [sa, sb] = some w := by
    rcases ho with rfl | rfl <;>
    · simp only [opSort, List.length_cons, List.length_nil, Nat.zero_add, Nat.reduceAdd, le_refl, if_true, Option.map_eq_some_iff] at h
      exact ⟨_, h.choose_spec.1⟩
  obtain ⟨w, hw⟩ := this
  cases sa <;> simp [sameBv, allSort] at hw
  obtain ⟨rfl, rfl⟩ := hw
  exact ⟨_, rfl, rfl⟩

theorem pbBitwise_panic {o : Op} (ho : o = .bvXor ∨ o = .bvAnd) {f : Term → Term → Term → Res Unit}
    (hf : ∀ t x y, sortOf t ≠ none → f t x y ≠ panic) {c : List Term} {ps : List (List Term)} {as : List Term}
    (hc : ClauseOK c) (hn : c ≠ []) : pbBitwise o f c ps as ≠ panic := by
  cases c with
  | nil => exact absurd rfl hn
  | cons c rest =>
    simp only [pbBitwise, ne_eq, nopanic, List.head?_cons, reduceCtorEq, false_or, not_exists, not_and, match2_ok, orErr_ok, orPanic_ok]
    rintro _ ⟨⟩ ⟨l, r⟩ rfl ⟨x, y⟩ rfl bcs hb
    rw [matchPbb_some] at hb
    simp only at hb
    subst hb
    obtain ⟨-, s, hl, hr⟩ := sort_equals.1 (hc _ List.mem_cons_self)
    obtain ⟨w, hx, hy⟩ := sort_bvPair ho hl
    have hbits : ∀ t ∈ bcs, ∀ x y, f t x y ≠ panic := fun t ht x y => by
      obtain ⟨_, h⟩ := op_child_sorted (by decide) hr ht
      exact hf t x y (by simp [h])
    simp [getBitvectorTerms_panic hx, getBitvectorTerms_panic hy, checkPbBits_panic hbits]

theorem pbBvxorIthBit_panic {c : List Term} {ps : List (List Term)} {as : List Term} :
    pbBvxorIthBit c ps as = panic ↔ c = [] ∧ as.length = 2 := by
  simp only [pbBvxorIthBit, nopanic, List.head?_eq_none_iff, false_or]
  constructor
  · rintro ⟨⟨x, y⟩, h, rfl | ⟨_, -, ⟨_, _, _, _⟩, -, h⟩⟩
    · rw [get2_ok] at h
      simp [h]
    · exact absurd h (by simp [nopanic])
  · rintro ⟨rfl, h⟩
    obtain ⟨x, y, rfl⟩ := List.length_eq_two.1 h
    exact ⟨(x, y), rfl, Or.inl rfl⟩

theorem pbBvandIthBit_panic {c : List Term} {ps : List (List Term)} {as : List Term} :
    pbBvandIthBit c ps as = panic ↔ c = [] ∧ as.length = 2 := by
  simp only [pbBvandIthBit, nopanic, List.head?_eq_none_iff, false_or]
  constructor
  · rintro ⟨⟨x, y⟩, h, rfl | ⟨_, -, ⟨_, _, _⟩, -, h⟩⟩
    · rw [get2_ok] at h
      simp [h]
    · exact absurd h (by simp [nopanic])
  · rintro ⟨rfl, h⟩
    obtain ⟨x, y, rfl⟩ := List.length_eq_two.1 h
    exact ⟨(x, y), rfl, Or.inl rfl⟩

end Carcara
