import Verif.Lemmas.TermParserSort

/-!
# The pool computes the sorts of well-sorted terms with small widths
-/

namespace Carcara
open PRes

theorem anyReal_ok (ss : List Srt) : ∃ b, anyReal (ss.map fun s => .ok (.known s)) = .ok b := by
  induction ss with
  | nil => exact ⟨_, rfl⟩
  | cons s ss ih =>
    simp only [List.map_cons, anyReal, pbind_ok, Except.ok.injEq, exists_eq_left']
    split
    · exact ⟨_, rfl⟩
    · exact ih

theorem concatWidth_ok : ∀ {ss : List Srt} {w : Nat}, totalWidth ss = some w → concatWidth (ss.map fun s => .ok (.known s)) = .ok (some w)
  | [], w, h => by cases h; rfl
  | s :: ss, w, h => by
    cases s <;> simp only [totalWidth, reduceCtorEq, Option.map_eq_some_iff] at h
    obtain ⟨w', h, rfl⟩ := h
    simp only [List.map_cons, concatWidth, pbind_ok, Except.ok.injEq, exists_eq_left', concatWidth_ok h, Option.map_some]

theorem argSort_ok {ss : List Srt} {i : Nat} {s : Srt} (h : ss[i]? = some s) :
    argSort (ss.map fun s => .ok (.known s)) i = .ok (.known s) := by
  simp only [argSort, pbind_ok, getPanic_ok, List.getElem?_map, h, Option.map_some, Option.some.injEq, exists_eq_left']

theorem opPoolSort_ok {o : Op} (ho : o ≠ .bvConst) {as : List Term} {ss : List Srt} {s : Srt} (h : opSort o ss = some s) :
    ∃ p, opPoolSort o as (ss.map fun s => .ok (.known s)) = .ok p := by
  have real : ∃ p, (do .ok (.known (if ← anyReal (ss.map fun s => .ok (.known s)) then .real else .int)) : PRes PSrt) = .ok p := by
    obtain ⟨b, hb⟩ := anyReal_ok ss
    simp only [pbind_ok]
    exact ⟨_, b, hb, rfl⟩
  have bvFirst : ∀ w, ss[0]? = some (.bv w) → ∃ p, (do
      match ← argSort (ss.map fun s => .ok (.known s)) 0 with
      | .known (.bv w) => .ok (.known (.bv w))
      | .param => .ok .param
      | _ => .error .panic : PRes PSrt) = .ok p := by
    intro w hw
    simp only [pbind_ok]
    exact ⟨_, _, argSort_ok hw, rfl⟩
  cases o <;> first | exact absurd rfl ho | skip
  all_goals
    simp only [opSort, opPoolSort] at h ⊢
  all_goals try exact ⟨_, rfl⟩
  all_goals try exact real
  case ite =>
    split at h
    · exact ⟨_, argSort_ok rfl⟩
    · cases h
  case store =>
    split at h
    · exact ⟨_, argSort_ok rfl⟩
    · cases h
  case select =>
    split at h
    · simp only [pbind_ok]
      exact ⟨_, _, argSort_ok rfl, rfl⟩
    · cases h
  case bvNot | bvNeg =>
    split at h
    · exact bvFirst _ rfl
    · cases h
  case bvConcat =>
    simp only [Option.ite_none_right_eq_some, Option.map_eq_some_iff] at h
    obtain ⟨_, w, hw, rfl⟩ := h
    simp only [pbind_ok]
    exact ⟨_, _, concatWidth_ok hw, rfl⟩
  all_goals
    simp only [Option.ite_none_right_eq_some, Option.map_eq_some_iff] at h
    obtain ⟨_, w, hw, rfl⟩ := h
    exact bvFirst w (sameBv_first hw)

theorem popPoolSort_ok {o : ParamOp} {ps : List Term} {ss : List Srt} {s : Srt} (h : popSort o ps ss = some s)
    (hw : ∀ w, s = .bv w → w < 2 ^ 64) (hw' : ∀ w, .bv w ∈ ss → w < 2 ^ 64) : ∃ p, popPoolSort o ps (ss.map fun s => .ok (.known s)) = .ok p := by
  unfold popSort at h
  split at h
  all_goals try cases h
  all_goals
    simp only [Option.ite_none_right_eq_some, Option.some.injEq] at h
    obtain ⟨hc, rfl⟩ := h
    simp only [popPoolSort, indexAt_zero, indexAt_one, pbind_ok, Except.ok.injEq, exists_eq_left', unwrapUsize_ok]
  · rename_i i j m
    have := hw' m (by simp)
    refine ⟨_, i.toNat, ⟨by omega, by omega⟩, j.toNat, ⟨by omega, by omega⟩, if_pos (by omega)⟩
  · exact ⟨_, rfl⟩
  · exact ⟨_, rfl⟩
  · rename_i i w
    have := hw _ rfl
    exact ⟨_, i.toNat, ⟨by omega, by omega⟩, _, argSort_ok rfl, rfl⟩
  · rename_i i w
    have := hw _ rfl
    exact ⟨_, i.toNat, ⟨by omega, by omega⟩, _, argSort_ok rfl, rfl⟩
  · exact ⟨_, argSort_ok rfl⟩
  · exact ⟨_, argSort_ok rfl⟩
  · rename_i i w
    have := hw _ rfl
    refine ⟨.known (.bv (w * i.toNat)), _, argSort_ok rfl, ?_⟩
    simp only [pbind_ok, unwrapUsize_ok]
    refine ⟨w * i.toNat, ⟨?_, this⟩, rfl⟩
    push_cast
    rw [Int.toNat_of_nonneg hc, Int.mul_comm]
  · rename_i w
    have := hw _ rfl
    exact ⟨_, w.toNat, ⟨by omega, by omega⟩, rfl⟩
  · exact ⟨_, rfl⟩
  · exact ⟨_, rfl⟩

theorem mem_sorts {as : List Term} {ss : List Srt} (h : sortOfL as = some ss) {s : Srt} (hs : s ∈ ss) : ∃ a ∈ as, sortOf a = some s := by
  have := sortOfL_some h
  clear h
  induction this with
  | nil => cases hs
  | @cons s' a ss as e _ ih =>
    rcases List.mem_cons.1 hs with rfl | hs
    · exact ⟨a, by simp, e⟩
    · obtain ⟨b, hb, e⟩ := ih hs
      exact ⟨b, by simp [hb], e⟩

theorem smallWidths_sub {t u : Term} (h : t.smallWidths) (hs : ∀ v ∈ u.subterms, v ∈ t.subterms) : u.smallWidths :=
  fun v hv => h v (hs v hv)

theorem poolSort_ok : ∀ t : Term, ∀ {s : Srt}, sortOf t = some s → t.smallWidths → poolSort t = .ok (.known s) := by
  suffices ∀ t : Term, ∀ {s : Srt}, sortOf t = some s → t.smallWidths → ∃ p, poolSort t = .ok p by
    intro t s hs hw
    obtain ⟨p, hp⟩ := this t hs hw
    rw [hp, poolSort_yields t hs p hp]
  have list : ∀ (as : List Term), (∀ a ∈ as, ∀ {s : Srt}, sortOf a = some s → a.smallWidths → ∃ p, poolSort a = .ok p) →
      (∀ a ∈ as, a.smallWidths) → ∀ {ss : List Srt}, sortOfL as = some ss → poolSorts as = ss.map fun s => .ok (.known s) := by
    intro as
    induction as with
    | nil => intro _ _ ss h; cases h; rfl
    | cons a as ih =>
      intro ha hw ss h
      simp only [sortOfL] at h
      split at h
      · next h1 h2 =>
        cases h
        obtain ⟨p, hp⟩ := ha a (by simp) h1 (hw a (by simp))
        rw [poolSorts, ih (fun b hb => ha b (by simp [hb])) (fun b hb => hw b (by simp [hb])) h2, hp, poolSort_yields a h1 p hp]
        rfl
      · cases h
  intro t
  induction t using Term.ind with
  | const c => intro s h _; exact ⟨_, rfl⟩
  | var x s' => intro s h _; exact ⟨_, rfl⟩
  | app f as hf has =>
    intro s h hw
    simp only [sortOf] at h
    split at h
    · next ss r ss' h1 h2 =>
      obtain ⟨p, hp⟩ := hf h1 (smallWidths_sub hw (subterms_app (.inl rfl)))
      cases poolSort_yields f h1 p hp
      simp only [poolSort, pbind_ok]
      exact ⟨_, _, hp, rfl⟩
    · cases h
  | op o as has =>
    intro s h hw
    by_cases ho : o = .bvConst
    · subst ho
      have h0 := h
      simp only [sortOf] at h
      split at h
      · next a w hl =>
        simp only [Option.ite_none_right_eq_some, Option.some.injEq] at h
        obtain ⟨hw', rfl⟩ := h
        have := hw _ (Term.self_mem_subterms _) _ h0
        simp only [poolSort, opPoolSort, pbind_ok, getPanic_ok]
        refine ⟨.known (.bv w.toNat), _, rfl, ?_⟩
        simp only [pbind_ok, unwrapUsize_ok]
        exact ⟨w.toNat, ⟨by omega, by omega⟩, rfl⟩
      · cases h
    · rw [sortOf_op_eq ho, Option.bind_eq_some_iff] at h
      obtain ⟨ss, hl, h⟩ := h
      rw [poolSort, list as has (fun a ha => smallWidths_sub hw (subterms_op ha)) hl]
      exact opPoolSort_ok ho h
  | binder b bs t ht =>
    intro s h hw
    simp only [sortOf] at h
    split at h
    · exact ⟨_, rfl⟩
    · exact ⟨_, rfl⟩
    · exact ⟨_, rfl⟩
    · next e =>
      obtain ⟨p, hp⟩ := ht e (smallWidths_sub hw subterms_binder)
      cases poolSort_yields t e p hp
      simp only [poolSort, pbind_ok]
      exact ⟨_, _, hp, rfl⟩
    · cases h
  | let_ bs t hbs ht =>
    intro s h hw
    simp only [sortOf, Option.ite_none_right_eq_some] at h
    exact ht h.2 (smallWidths_sub hw (subterms_let (.inl rfl)))
  | paramOp o ps as hps has =>
    intro s h hw
    have h0 := h
    simp only [sortOf] at h
    split at h
    · next ss hl =>
      rw [poolSort, list as has (fun a ha => smallWidths_sub hw (subterms_paramOp ha)) hl]
      refine popPoolSort_ok h (fun w e => hw _ (Term.self_mem_subterms _) w (by rw [h0, e])) fun w hm => ?_
      obtain ⟨a, ha, e⟩ := mem_sorts hl hm
      exact smallWidths_sub hw (subterms_paramOp ha) a (Term.self_mem_subterms _) w e
    · cases h

end Carcara
