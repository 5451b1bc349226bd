import Verif.Lemmas.NoPanic
import Verif.Lemmas.Polynomial
import Verif.Lemmas.Subterms

/-! # Panics of the arithmetic rules -/

namespace Carcara

/-- A division with a literal zero as its divisor. -/
def Term.zeroDivision : Term → Bool
  | .op .intDiv [_, b] | .op .realDiv [_, b] => decide (b.asSignedNumber = some 0)
  | _ => false

/-- No subterm is a division with a literal zero as its divisor. -/
def Term.NoZeroDivision (t : Term) : Prop := ∀ u ∈ t.subterms, u.zeroDivision = false

instance (t : Term) : Decidable t.NoZeroDivision := by unfold Term.NoZeroDivision; infer_instance

theorem Term.NoZeroDivision.op {o : Op} {as : List Term} (h : (Term.op o as).NoZeroDivision) {a : Term} (ha : a ∈ as) :
    a.NoZeroDivision := fun u hu => h u (subterms_op ha u hu)

theorem asUnsignedFraction_panic {t : Term} (h : t.NoZeroDivision) : t.asUnsignedFraction ≠ panic := by
  have h0 := h t t.self_mem_subterms
  unfold Term.asUnsignedFraction
  split
  · simp only [Term.zeroDivision, decide_eq_false_iff_not] at h0
    split
    · simp_all [nopanic]
    · simp [nopanic]
  · simp only [Term.zeroDivision, decide_eq_false_iff_not] at h0
    split
    · simp_all [nopanic]
    · simp [nopanic]
  · simp [nopanic]

theorem asFraction_panic {t : Term} (h : t.NoZeroDivision) : t.asFraction ≠ panic := by
  unfold Term.asFraction
  split
  · simp [nopanic, asUnsignedFraction_panic (h.op (List.mem_singleton.2 rfl))]
  · exact asUnsignedFraction_panic h

/-! ## `div_simplify`, `sum_simplify`, `prod_simplify` -/

theorem asNumber_den {t : Term} {q : Rat} (hs : sortOf t = some .int) (h : t.asNumber = some q) : q.den = 1 := by
  unfold Term.asNumber at h
  split at h
  · simp [sortOf, Const.sort] at hs
  · simp at h; rw [← h]; simp
  · simp at h

theorem asSignedNumber_den {t : Term} {q : Rat} (hs : sortOf t = some .int) (h : t.asSignedNumber = some q) : q.den = 1 := by
  unfold Term.asSignedNumber at h
  split at h
  · simp only [Option.map_eq_some_iff] at h
    obtain ⟨p, hp, rfl⟩ := h
    simpa using asNumber_den (sort_neg hs).1 hp
  · exact asNumber_den hs h

theorem divSimplify_panic {c : List Term} {ps : List (List Term)} {as : List Term} (hc : ClauseOK c)
    (hz : ∀ t ∈ c, t.NoZeroDivision) : divSimplify c ps as ≠ panic := by
  simp only [divSimplify, ne_eq, nopanic, and_false, exists_false, or_false, false_or, get1_ok, match2_ok]
  rintro ⟨_, rfl, ⟨l, r⟩, rfl, h⟩
  have hs := hc _ (List.mem_singleton.2 rfl)
  have hz := hz _ (List.mem_singleton.2 rfl)
  have hr := asFraction_panic (hz.op (show r ∈ [l, r] by simp))
  obtain ⟨-, s, hl, -⟩ := sort_equals.1 hs
  split at h
  · split at h <;> simp [nopanic] at h
  · simp only [nopanic, and_false, exists_false, or_false, false_or, hr] at h
    rcases h with h | ⟨⟨n, d, int⟩, hm, h⟩
    · unfold matchDivision at h; split at h <;> simp [nopanic] at h
    · obtain ⟨-, -, dv, hd, -, nv, hn, h⟩ := h
      unfold divisionValue at h
      rw [orErr_ok] at hd hn
      unfold matchDivision at hm
      split at hm
      · simp only [ok_inj, Prod.mk.injEq] at hm
        obtain ⟨rfl, rfl, rfl⟩ := hm
        obtain ⟨-, rfl, h1, h2⟩ | ⟨e, -⟩ := sort_division (Or.inl rfl) hl
        · simp [nopanic, asSignedNumber_den h1 hn, asSignedNumber_den h2 hd] at h
        · cases e
      · simp only [ok_inj, Prod.mk.injEq] at hm
        obtain ⟨rfl, rfl, rfl⟩ := hm
        simp [nopanic] at h
      · simp at hm

theorem anyFraction_panic : ∀ {ts : List Term}, (∀ t ∈ ts, t.NoZeroDivision) → anyFraction ts ≠ panic
  | [], _ => by simp [anyFraction, nopanic]
  | t :: ts, h => by
    have ih := anyFraction_panic (ts := ts) fun u hu => h u (by simp [hu])
    simp [anyFraction, nopanic, asFraction_panic (h t (by simp)), ih]

theorem leadingAtom_panic {k : Op} {u : Term} (h : u.NoZeroDivision) : leadingAtom k u ≠ panic := by
  simp only [leadingAtom, ne_eq, nopanic, asFraction_panic h, false_or]
  rintro ⟨a, -, h⟩
  split at h <;> simp [nopanic] at h

theorem leadingConst_panic {k : Op} {u : Term} (hk : k = .add ∨ k = .mult) (hs : (sortOf u).isSome = true)
    (h : u.NoZeroDivision) : leadingConst k u ≠ panic := by
  unfold leadingConst
  split
  · next o args =>
    split
    · next ho =>
      subst ho
      cases args with
      | nil => rcases hk with rfl | rfl <;> simp [sortOf, sortOfL, opSort] at hs
      | cons a rest =>
        have h1 := anyFraction_panic (ts := rest) fun u hu => h.op (by simp [hu])
        have h2 := asFraction_panic (h.op (a := a) (by simp))
        simp only [ne_eq, nopanic, h1, h2, and_false, false_or]
        rintro ⟨_, -, -, x, -, e⟩
        split at e <;> simp [nopanic] at e
    · exact leadingAtom_panic h
  · exact leadingAtom_panic h

theorem collectConsts_panic {k : Op} : ∀ {ts : List Term} {q : Rat} {res : List Term}, (∀ t ∈ ts, t.NoZeroDivision) →
    collectConsts k ts q res ≠ panic
  | [], _, _, _ => by simp [collectConsts, nopanic]
  | t :: ts, q, res, h => by
    simp only [collectConsts, ne_eq, nopanic, asFraction_panic (h t (by simp)), false_or]
    rintro ⟨x, -, e⟩
    have ih := fun q res => collectConsts_panic (k := k) (ts := ts) (q := q) (res := res) fun u hu => h u (by simp [hu])
    split at e <;> simp [nopanic, ih] at e

theorem sumProdSimplify_panic {k : Op} (hk : k = .add ∨ k = .mult) {c : List Term} {ps : List (List Term)}
    {as : List Term} (hc : ClauseOK c) (hz : ∀ t ∈ c, t.NoZeroDivision) : sumProdSimplify k c ps as ≠ panic := by
  have key : ∀ t u : Term, (sortOf u).isSome = true → t.NoZeroDivision → u.NoZeroDivision →
      sumProdCheck k t u ≠ panic := by
    intro t u hu ht hz
    simp only [sumProdCheck, ne_eq, nopanic, leadingConst_panic hk hu hz, matchOp_ok, and_false, or_false, false_or]
    rintro ⟨_, -, args, rfl, h⟩
    simp [collectConsts_panic fun a ha => ht.op ha] at h
  simp only [sumProdSimplify, ne_eq, nopanic, and_false, exists_false, or_false, false_or, get1_ok, match2_ok]
  rintro ⟨_, rfl, ⟨l, r⟩, rfl, h⟩
  have hs := hc _ (List.mem_singleton.2 rfl)
  have hz := hz _ (List.mem_singleton.2 rfl)
  obtain ⟨-, s, hl, hr⟩ := sort_equals.1 hs
  have zl : l.NoZeroDivision := hz.op (by simp)
  have zr : r.NoZeroDivision := hz.op (by simp)
  have hl' : (sortOf l).isSome = true := by simp [hl]
  have hr' : (sortOf r).isSome = true := by simp [hr]
  rcases h with h | ⟨-, h⟩
  · exact key _ _ hl' zr zl h
  · exact key _ _ hr' zl zr h

/-! ## `comp_simplify` -/

theorem compRewrite_panic {t : Term} (h : t.NoZeroDivision) : compRewrite t ≠ panic := by
  unfold compRewrite
  split
  · next a b =>
    simp only [ne_eq, nopanic, asFraction_panic (h.op (show a ∈ [a, b] by simp)),
      asFraction_panic (h.op (show b ∈ [a, b] by simp)), false_or]
    rintro ⟨_, -, _, -, e⟩
    split at e <;> simp [nopanic] at e
  · next a b =>
    simp only [ne_eq, nopanic, asFraction_panic (h.op (show a ∈ [a, b] by simp)),
      asFraction_panic (h.op (show b ∈ [a, b] by simp)), false_or]
    rintro ⟨_, -, _, -, e⟩
    split at e <;> simp [nopanic] at e
  all_goals simp [nopanic]

theorem noZeroDivision_op {o : Op} {as : List Term} (ho : o ≠ .intDiv ∧ o ≠ .realDiv)
    (h : ∀ a ∈ as, a.NoZeroDivision) : (Term.op o as).NoZeroDivision := by
  intro u hu
  simp only [Term.subterms, List.mem_cons] at hu
  rcases hu with rfl | hu
  · unfold Term.zeroDivision
    split <;> simp_all
  · obtain ⟨a, ha, hu⟩ := Term.mem_subtermsL.1 hu
    exact h a ha u hu

theorem compRewrite_noZero {t u : Term} (h : t.NoZeroDivision) (e : compRewrite t = .ok (some u)) : u.NoZeroDivision := by
  have hb : ∀ b, (Term.ofBool b).NoZeroDivision := by intro b; cases b <;> decide
  have two : ∀ {o : Op} {a b : Term}, o ≠ .intDiv ∧ o ≠ .realDiv → a.NoZeroDivision → b.NoZeroDivision →
      (Term.op o [a, b]).NoZeroDivision := fun ho ha hb => noZeroDivision_op ho (by simp [ha, hb])
  have neg : ∀ {a : Term}, a.NoZeroDivision → (Term.op .not [a]).NoZeroDivision :=
    fun ha => noZeroDivision_op (by decide) (by simp [ha])
  unfold compRewrite at e
  split at e
  · next a b =>
    have ha := h.op (show a ∈ [a, b] by simp)
    have hb' := h.op (show b ∈ [a, b] by simp)
    simp only [bind_ok] at e
    obtain ⟨p, -, q, -, e⟩ := e
    split at e
    · simp at e; subst e; exact hb _
    · split at e <;> simp at e <;> subst e
      · exact hb false
      · exact neg (two (by decide) hb' ha)
  · next a b =>
    simp only [bind_ok] at e
    obtain ⟨p, -, q, -, e⟩ := e
    split at e
    · simp at e; subst e; exact hb _
    · split at e <;> simp at e; subst e; exact hb true
  · next a b => simp at e; subst e; exact two (by decide) (h.op (by simp)) (h.op (by simp))
  · next a b => simp at e; subst e; exact neg (two (by decide) (h.op (by simp)) (h.op (by simp)))
  · simp at e

theorem simplifyFix_comp_panic {goal : Term} : ∀ {n : Nat} {seen : List Term} {t : Term}, t.NoZeroDivision →
    simplifyFix compRewrite goal n seen t ≠ panic := by
  intro n
  induction n with
  | zero => intro seen t _; simp [simplifyFix, nopanic]
  | succ n ih =>
    intro seen t h
    simp only [simplifyFix, ne_eq, nopanic, and_false, false_or, compRewrite_panic h, not_and, not_exists]
    intro _ a ha
    split
    · simp [nopanic, ih (compRewrite_noZero h ha)]
    · simp [nopanic]

theorem compSimplify_panic {c : List Term} {ps : List (List Term)} {as : List Term}
    (hz : ∀ t ∈ c, t.NoZeroDivision) : compSimplify c ps as ≠ panic := by
  simp only [compSimplify, genericSimplify, ne_eq, nopanic, and_false, exists_false, or_false, false_or, get1_ok, match2_ok]
  rintro ⟨_, rfl, ⟨l, r⟩, rfl, h⟩
  have hz := hz _ (List.mem_singleton.2 rfl)
  rcases h with h | ⟨_, -, -, h⟩
  · exact simplifyFix_comp_panic (hz.op (by simp)) h
  · exact simplifyFix_comp_panic (hz.op (by simp)) h

/-! ## `la_generic`, `la_tautology` -/

theorem sort_sub_nonempty {s : Srt} : sortOf (.op .sub []) = some s ↔ False := by
  simp [sortOf, sortOfL, opSort]

theorem sorted_op_args {o : Op} {as : List Term} (h : (sortOf (.op o as)).isSome = true) :
    ∀ a ∈ as, (sortOf a).isSome = true := by
  intro a ha
  by_cases ho : o = .bvConst
  · subst ho
    unfold sortOf at h
    split at h
    · next h2 => obtain ⟨s, -, e⟩ := sortOfL_mem h2 ha; simp [e]
    · simp at h
  · obtain ⟨s, hs⟩ := Option.isSome_iff_exists.1 h
    obtain ⟨ss, h1, -⟩ := sortOf_op ho hs
    obtain ⟨s, -, e⟩ := sortOfL_mem h1 ha
    simp [e]

theorem linAddTerms_panic : ∀ {ts : List Term}, (∀ t ∈ ts, ∀ c lc, LinComb.addTerm t c lc ≠ panic) → ∀ c lc,
    LinComb.addTerms ts c lc ≠ panic
  | [], _, c, lc => by simp [LinComb.addTerms, nopanic]
  | t :: ts, h, c, lc => by
    have ih := linAddTerms_panic (ts := ts) fun u hu => h u (by simp [hu])
    simp [LinComb.addTerms, nopanic, h t (by simp), ih]

theorem linAddTerm_panic (t : Term) : (sortOf t).isSome = true → t.NoZeroDivision → ∀ c lc,
    LinComb.addTerm t c lc ≠ panic := by
  have atom : ∀ (t : Term) (c : Rat) (lc : LinComb), t.NoZeroDivision →
      (do match ← t.asFraction with
          | some r => .ok ⟨lc.terms, lc.const + r * c⟩
          | none => .ok (lc.insert t c) : Res LinComb) ≠ panic := by
    intro t c lc h
    simp only [ne_eq, nopanic, asFraction_panic h, false_or]
    rintro ⟨a, -, e⟩
    split at e <;> simp [nopanic] at e
  induction t using Term.ind with
  | op o as ih =>
    intro hs hz c lc
    have ih' : ∀ t ∈ as, ∀ c lc, LinComb.addTerm t c lc ≠ panic :=
      fun t ht => ih t ht (sorted_op_args hs t ht) (hz.op ht)
    unfold LinComb.addTerm
    split
    · next heq => cases heq; exact linAddTerms_panic ih' _ _
    · next heq => cases heq; simp [sortOf, sortOfL, opSort] at hs
    · next heq => cases heq; exact ih' _ (by simp) _ _
    · next heq =>
      cases heq
      simp only [ne_eq, nopanic, ih' _ (List.mem_cons_self ..), false_or, not_exists, not_and]
      intro _ _
      exact linAddTerms_panic (fun t ht => ih' t (by simp [ht])) _ _
    · next a b heq =>
      cases heq
      simp only [ne_eq, nopanic, asFraction_panic (hz.op (show a ∈ [a, b] by simp)),
        asFraction_panic (hz.op (show b ∈ [a, b] by simp)), false_or]
      rintro ⟨_, -, _, -, e⟩
      split at e
      · exact ih' _ (by simp) _ _ e
      · exact ih' _ (by simp) _ _ e
      · simp [nopanic] at e
    · exact atom _ _ _ hz
  | _ =>
    intro hs hz c lc
    simp only [LinComb.addTerm]
    exact atom _ _ _ hz

theorem negatedComparison_mem {t : Term} {o : Op} {as : List Term} (h : negatedComparison t = some (o, as)) :
    (∃ o', t = .op o' as) ∨ (∃ o', t = .op .not [.op o' as]) := by
  unfold negatedComparison at h
  split at h
  · next hr =>
    unfold Term.removeNegation at hr
    split at hr
    · simp only [Option.some.injEq] at hr
      subst hr
      simp at h
      exact Or.inr ⟨_, by rw [← h.2.2]⟩
    · simp at hr
  · split at h
    · simp at h
      obtain ⟨_, -, -, rfl⟩ := h
      exact Or.inl ⟨_, rfl⟩
    · simp at h

theorem normalizeDisequality_panic {t : Term} (hs : sortOf t = some .bool) (hz : t.NoZeroDivision) :
    normalizeDisequality t ≠ panic := by
  have key : negateDisequality t ≠ panic := by
    simp only [negateDisequality, ne_eq, nopanic, orErr_ok, false_or, not_exists, not_and]
    rintro ⟨o, as⟩ h
    have ok : ∀ a ∈ as, (sortOf a).isSome = true ∧ a.NoZeroDivision := by
      intro a ha
      rcases negatedComparison_mem h with ⟨o', rfl⟩ | ⟨o', rfl⟩
      · exact ⟨sorted_op_args (o := o') (as := as) (by simp [hs]) a ha, hz.op ha⟩
      · exact ⟨sorted_op_args (o := o') (as := as) (by simp [(sort_not.1 hs).2]) a ha, (hz.op (List.mem_singleton.2 rfl)).op ha⟩
    split
    · next a b heq =>
      simp only at heq
      subst heq
      simp [nopanic, LinComb.fromTerm, linAddTerm_panic a (ok a (by simp)).1 (ok a (by simp)).2,
        linAddTerm_panic b (ok b (by simp)).1 (ok b (by simp)).2]
    · simp [nopanic]
  simp only [normalizeDisequality, ne_eq, nopanic, key, false_or]
  simp

theorem normalizeDisequality_op {t : Term} {o : Op} {d : LinComb} (h : normalizeDisequality t = .ok (o, d)) :
    o ≠ .lt ∧ o ≠ .le := by
  simp only [normalizeDisequality, bind_ok] at h
  obtain ⟨⟨o', l, r⟩, -, h⟩ := h
  simp only at h
  split at h
  · simp at h; rw [← h.1]; decide
  · split at h
    · simp at h; rw [← h.1]; decide
    · simp at h; rw [← h.1]; constructor <;> assumption

theorem strengthen_panic {o : Op} {d : LinComb} {a : Rat} (h : o ≠ .lt ∧ o ≠ .le) : strengthen o d a ≠ panic := by
  unfold strengthen
  generalize (if a = 0 then true else if a = 1 then decide (d.const.den = 1) else decide ((d.const * a).den = 1)) = b
  split <;> first | (simp at h; done) | simp [nopanic]

theorem sumDisequalities_panic : ∀ {l : List (Term × Rat)}, (∀ e ∈ l, sortOf e.1 = some .bool ∧ e.1.NoZeroDivision) →
    ∀ o lc, sumDisequalities l o lc ≠ panic
  | [], _, o, lc => by simp [sumDisequalities, nopanic]
  | (t, a) :: l, h, o, lc => by
    have ih := sumDisequalities_panic (l := l) fun e he => h e (by simp [he])
    have ht := h (t, a) (by simp)
    have key : scaledDisequality t a ≠ panic := by
      simp only [scaledDisequality, ne_eq, nopanic, normalizeDisequality_panic ht.1 ht.2, and_false, exists_false,
        or_false, false_or, not_exists, not_and]
      rintro ⟨o, d⟩ he
      exact strengthen_panic (normalizeDisequality_op he)
    simp [sumDisequalities, nopanic, key, ih]

theorem laGeneric_panic {c : List Term} {ps : List (List Term)} {as : List Term} (hc : ClauseOK c)
    (hz : ∀ t ∈ c, t.NoZeroDivision) (ha : ∀ t ∈ as, t.NoZeroDivision) : laGeneric c ps as ≠ panic := by
  have h1 : mapRes (fun a => do orErr (← Term.asFraction a)) as ≠ panic :=
    mapRes_panic fun a h => by simp [nopanic, asFraction_panic (ha a h)]
  have h2 : ∀ (qs : List Rat) o lc, sumDisequalities (c.zip qs) o lc ≠ panic := fun qs =>
    sumDisequalities_panic fun e he => ⟨hc _ (List.of_mem_zip he).1, hz _ (List.of_mem_zip he).1⟩
  simp [laGeneric, nopanic, h1, h2]

theorem laTautology_panic {c : List Term} {ps : List (List Term)} {as : List Term} (hc : ClauseOK c)
    (hz : ∀ t ∈ c, t.NoZeroDivision) : laTautology c ps as ≠ panic := by
  simp only [laTautology, ne_eq, nopanic, get1_ok, false_or]
  rintro ⟨t, rfl, h⟩
  split at h
  · unfold tautologyCase at h
    split at h <;> simp [nopanic, assertLessEq, assertLessThan] at h
  · simp [nopanic, normalizeDisequality_panic (hc _ (List.mem_singleton.2 rfl)) (hz _ (List.mem_singleton.2 rfl))] at h

end Carcara
