import Verif.Lemmas.TermParserPool

/-!
# Well-sorted terms can be built
-/

namespace Carcara
open PRes

theorem checkOp_of_opSort {E : PEnv} (hs : E.strict = false) {o : Op} (ho : o ≠ .bvConst) {ss : List Srt} (h : (opSort o ss).isSome = true) :
    checkOp E o (ss.map .known) = .ok () := by
  cases ht : E.subtyping with
  | false => exact (checkOp_known hs ht ho).2 h
  | true =>
    have h' := (checkOp_known (E := { E with subtyping := false }) hs rfl ho).2 h
    have numeric : ∀ k : Srt, (k = .int ∨ k = .real) → allSort k ss = true → assertNumerics (ss.map .known) = .ok () := by
      intro k hk ha
      rw [assertNumerics_known]
      simp only [allSort, List.all_eq_true, decide_eq_true_eq] at ha
      simp only [List.all_eq_true, Bool.or_eq_true, decide_eq_true_eq]
      intro s hs
      rw [ha s hs]
      exact hk
    cases o <;> first | exact absurd rfl ho | exact h' | skip
    case add | mult | sub =>
      simp only [opSort, isSome_ite_ite] at h
      simp only [checkOp, ht, pbind_ok, need_ok, exists_unit, List.length_map, if_true, if_false, reduceCtorEq]
      rcases h with h | h
      · exact ⟨by simpa using h.1, numeric .int (.inl rfl) h.2⟩
      · exact ⟨by simpa using h.1, numeric .real (.inr rfl) h.2⟩
    case realDiv =>
      simp only [opSort, isSome_ite] at h
      simp only [checkOp, ht, pbind_ok, need_ok, exists_unit, List.length_map, if_true]
      exact ⟨h.1, numeric .real (.inr rfl) h.2⟩
    case abs =>
      simp only [opSort, isSome_ite] at h
      subst h
      simp [checkOp, ht, pbind_ok, need_ok, exists_unit]

theorem poolSorts_ok : ∀ {as : List Term} {ss : List Srt}, sortOfL as = some ss → (∀ a ∈ as, a.smallWidths) →
    PRes.all (poolSorts as) = .ok (ss.map .known)
  | [], ss, h, _ => by cases h; rfl
  | a :: as, ss, h, hw => by
    simp only [sortOfL] at h
    split at h
    · next h1 h2 =>
      cases h
      simp only [poolSorts, PRes.all, pbind_ok]
      exact ⟨_, poolSort_ok a h1 (hw a (by simp)), _, poolSorts_ok h2 fun b hb => hw b (by simp [hb]), rfl⟩
    · cases h

theorem divLiteral_none {E : PEnv} (hi : E.intsAsReals = false) {a b : Term} (h : sortOf a = some .real) : E.divLiteral a b = none := by
  have : E.literal a = none := by
    unfold PEnv.literal
    split
    · cases h
    · simp [hi]
    · rfl
  simp [PEnv.divLiteral, this]

theorem makeOp_ok {E : PEnv} (hs : E.strict = false) (hi : E.intsAsReals = false) {o : Op} {as : List Term} {s : Srt}
    (h : sortOf (.op o as) = some s) (hw : (Term.op o as).smallWidths) : makeOp E o as = .ok (.op o as) := by
  have hw' : ∀ a ∈ as, a.smallWidths := fun a ha => smallWidths_sub hw (subterms_op ha)
  by_cases ho : o = .bvConst
  · subst ho
    simp only [sortOf] at h
    split at h
    · next a w hl =>
      simp only [makeOp, pbind_ok]
      exact ⟨_, poolSorts_ok hl hw', (), rfl, trivial⟩
    · cases h
  · have h0 := h
    rw [sortOf_op_eq ho, Option.bind_eq_some_iff] at h
    obtain ⟨ss, hl, h⟩ := h
    simp only [makeOp, pbind_ok]
    refine ⟨_, poolSorts_ok hl hw', (), checkOp_of_opSort hs ho (by simp [h]), ?_⟩
    split
    · next a b as' =>
      simp only [opSort, Option.ite_none_right_eq_some] at h
      have ha : sortOf a = some .real := by
        have := sortOfL_some hl
        cases this with
        | @cons s _ ss _ e _ =>
          rw [e]
          have := h.1.2
          rw [allSort_cons] at this
          rw [this.1]
      rw [divLiteral_none hi ha]
      rfl
    · rfl

theorem assertParams_ok : ∀ {ss : List Srt} {as : List Term}, sortOfL as = some ss → (∀ a ∈ as, a.smallWidths) → assertParams ss as = .ok ()
  | _, [], h, _ => by cases h; rfl
  | _, a :: as, h, hw => by
    simp only [sortOfL] at h
    split at h
    · next h1 h2 =>
      cases h
      simp only [assertParams, pbind_ok, exists_unit]
      exact ⟨_, poolSort_ok a h1 (hw a (by simp)), assertSort_known.2 rfl, assertParams_ok h2 fun b hb => hw b (by simp [hb])⟩
    · cases h

theorem makeApp_ok {f : Term} {as : List Term} {s : Srt} (h : sortOf (.app f as) = some s) (hw : (Term.app f as).smallWidths) :
    makeApp f as = .ok (.app f as) := by
  simp only [sortOf] at h
  split at h
  · next ss r ss' h1 h2 =>
    simp only [Option.ite_none_right_eq_some] at h
    obtain ⟨rfl, _⟩ := h
    simp only [makeApp, pbind_ok]
    refine ⟨_, poolSort_ok f h1 (smallWidths_sub hw (subterms_app (.inl rfl))), ?_⟩
    simp only [pbind_ok, need_ok, exists_unit]
    exact ⟨(sortOfL_some h2).length_eq.symm, assertParams_ok h2 fun a ha => smallWidths_sub hw (subterms_app (.inr ha)), trivial⟩
  · cases h

theorem makeIndexedOp_ok {o : ParamOp} {ps as : List Term} {s : Srt} (h : sortOf (.paramOp o ps as) = some s)
    (hw : (Term.paramOp o ps as).smallWidths) : makeIndexedOp o ps as = .ok (.paramOp o ps as) := by
  simp only [sortOf] at h
  split at h
  · next ss hl =>
    have hp := poolSorts_ok hl fun a ha => smallWidths_sub hw (subterms_paramOp ha)
    have hn := (sortOfL_some hl).length_eq
    have hw' : ∀ w, .bv w ∈ ss → w < 2 ^ 64 := fun w hm => by
      obtain ⟨a, ha, e⟩ := mem_sorts hl hm
      exact smallWidths_sub hw (subterms_paramOp ha) a (Term.self_mem_subterms _) w e
    clear hl
    unfold popSort at h
    split at h
    all_goals try cases h
    all_goals
      simp only [Option.ite_none_right_eq_some, Option.some.injEq] at h
      obtain ⟨hc, rfl⟩ := h
      simp only [makeIndexedOp, hp, pbind_ok, Except.ok.injEq, exists_eq_left', need_ok, exists_unit, List.length_cons, List.length_nil,
        assertConstants, assertIndices, assertSort_known, Const.sort, Term.asInteger, Option.all_some, decide_eq_true_eq, getPanic_ok,
        List.map_cons, List.getElem?_cons_zero, Option.some.injEq, assertKnownBv, true_and, and_true, indexAt_zero, indexAt_one, unwrapUsize_ok]
      simp only [List.length_cons, List.length_nil] at hn
    · rename_i i j m
      have := hw' m (by simp)
      refine ⟨hn.symm, ⟨hc.1.trans hc.2.1, hc.1⟩, i.toNat, ⟨by omega, by omega⟩, j.toNat, ⟨by omega, by omega⟩, by omega⟩
    all_goals first | exact ⟨hn.symm, hc⟩ | exact ⟨hn.symm, hc.1, hc.2⟩ | exact hn.symm
  · cases h

theorem letVars_ok : ∀ {bs : List (String × Term)}, sortOfB bs = true → (∀ b ∈ bs, b.2.smallWidths) → letVars bs = .ok (letSorts bs)
  | [], _, _ => rfl
  | (x, t) :: bs, h, hw => by
    simp only [sortOfB, Bool.and_eq_true] at h
    obtain ⟨s, hs⟩ := Option.isSome_iff_exists.1 h.1
    simp only [letVars, pbind_ok]
    refine ⟨_, poolSort_ok t hs (hw (x, t) (by simp)), ?_⟩
    simp only [pbind_ok]
    exact ⟨_, letVars_ok h.2 fun b hb => hw b (by simp [hb]), by simp [letSorts, hs]⟩

end Carcara
