import Verif.Lemmas.TermParser
import Verif.Spec.TermParser

/-!
# The terms that the parser builds are well sorted
-/

namespace Carcara
open PRes Reader

/-- A term that has a sort, unless it contains a width that is not a natural number. -/
def SortedIfPlain (t : Term) : Prop := t.plainWidths → (sortOf t).isSome = true

theorem plainWidths_op {o : Op} {as : List Term} (h : (Term.op o as).plainWidths) : ∀ a ∈ as, a.plainWidths :=
  fun _ ha _ hu => h _ (subterms_op ha _ hu)

theorem plainWidths_paramOp {o : ParamOp} {ps as : List Term} (h : (Term.paramOp o ps as).plainWidths) : ∀ a ∈ as, a.plainWidths :=
  fun _ ha _ hu => h _ (subterms_paramOp ha _ hu)

theorem plainWidths_app {f : Term} {as : List Term} (h : (Term.app f as).plainWidths) : f.plainWidths ∧ ∀ a ∈ as, a.plainWidths :=
  ⟨fun _ hu => h _ (subterms_app (.inl rfl) _ hu), fun _ ha _ hu => h _ (subterms_app (.inr ha) _ hu)⟩

theorem plainWidths_binder {b : Binder} {bs : List (String × Srt)} {t : Term} (h : (Term.binder b bs t).plainWidths) : t.plainWidths :=
  fun _ hu => h _ (subterms_binder _ hu)

theorem plainWidths_let {bs : List (String × Term)} {t : Term} (h : (Term.let_ bs t).plainWidths) :
    (∀ b ∈ bs, b.2.plainWidths) ∧ t.plainWidths :=
  ⟨fun b hb _ hu => h _ (subterms_let (.inr ⟨b, hb, rfl⟩) _ hu), fun _ hu => h _ (subterms_let (.inl rfl) _ hu)⟩

theorem checkOp_strict {E : PEnv} {o : Op} {ss : List PSrt} {u : Unit} (h : checkOp E o ss = .ok u) :
    checkOp { E with strict := false } o ss = .ok u := by
  cases o <;> first | exact h | skip
  all_goals
    simp only [checkOp, pbind_ok, need_ok] at h ⊢
    obtain ⟨_, h1, h2⟩ := h
    refine ⟨(), ?_, h2⟩
    split at h1 <;> simp <;> omega

theorem divLiteral_sort {E : PEnv} {a b t : Term} (h : E.divLiteral a b = some t) : sortOf t = some .real := by
  simp only [PEnv.divLiteral, bind, Option.bind_eq_some_iff, Option.ite_none_right_eq_some, Option.some.injEq] at h
  obtain ⟨_, _, _, _, _, rfl⟩ := h
  rfl

theorem makeOp_sorted {E : PEnv} (ht : E.subtyping = false) {o : Op} {args : List Term} {t : Term} (ha : ∀ a ∈ args, SortedIfPlain a)
    (h : makeOp E o args = .ok t) : SortedIfPlain t := by
  simp only [makeOp, pbind_ok] at h
  obtain ⟨ps, hps, _, hc, h⟩ := h
  have main : SortedIfPlain (.op o args) := by
    intro hw
    obtain ⟨ss, hl, rfl⟩ := all_poolSorts (fun a h => ha a h (plainWidths_op hw a h)) hps
    by_cases ho : o = .bvConst
    · subst ho
      obtain ⟨a, w, rfl⟩ : ∃ (a : Term) (w : Nat), args = [a, .const (.int w)] := hw _ (Term.self_mem_subterms _)
      simp only [checkOp, pbind_ok, need_ok, exists_unit, List.length_map, getPanic_ok, List.getElem?_map, Option.map_eq_some_iff] at hc
      obtain ⟨hn, ⟨_, ⟨_, h0, rfl⟩, h1⟩, _, ⟨_, h2, rfl⟩, h3⟩ := hc
      rw [assertSort_known] at h1 h3
      subst h1 h3
      obtain ⟨x, y, rfl⟩ := List.length_eq_two.1 hn
      cases h0
      cases h2
      simp [sortOf, hl]
    · rw [sortOf_op_eq ho, hl]
      exact (checkOp_known (E := { E with strict := false }) rfl ht ho).1 (checkOp_strict hc)
  split at h
  · simp only [Except.ok.injEq] at h
    subst h
    cases hd : E.divLiteral _ _ with
    | none => exact main
    | some u =>
      intro _
      simp [divLiteral_sort hd]
  · simp only [Except.ok.injEq] at h
    subst h
    exact main

theorem assertParams_sorted : ∀ {ss : List Srt} {as : List Term}, (∀ a ∈ as, (sortOf a).isSome = true) → as.length = ss.length →
    assertParams ss as = .ok () → sortOfL as = some ss
  | [], [], _, _, _ => rfl
  | s :: ss, a :: as, ha, hl, h => by
    simp only [assertParams, pbind_ok, exists_unit] at h
    obtain ⟨p, hp, h1, h2⟩ := h
    obtain ⟨s', hs⟩ := Option.isSome_iff_exists.1 (ha a (by simp))
    cases poolSort_yields a hs p hp
    rw [assertSort_known] at h1
    subst h1
    simp only [sortOfL, hs, assertParams_sorted (fun b hb => ha b (by simp [hb])) (by simpa using hl) h2]

theorem makeApp_sorted {f : Term} {args : List Term} {t : Term} (hf : SortedIfPlain f) (ha : ∀ a ∈ args, SortedIfPlain a)
    (h : makeApp f args = .ok t) : SortedIfPlain t := by
  simp only [makeApp, pbind_ok] at h
  obtain ⟨p, hp, h⟩ := h
  split at h
  · next ss r =>
    simp only [pbind_ok, need_ok, exists_unit, Except.ok.injEq] at h
    obtain ⟨hl, h1, rfl⟩ := h
    intro hw
    obtain ⟨hw1, hw2⟩ := plainWidths_app hw
    obtain ⟨s, hs⟩ := Option.isSome_iff_exists.1 (hf hw1)
    have e := poolSort_yields f hs _ hp
    cases e
    simp [sortOf, hs, assertParams_sorted (fun a h => ha a h (hw2 a h)) hl h1]
  · cases h

theorem assertConstants_ok : ∀ {ps : List Term}, assertConstants ps = .ok () → ∀ p ∈ ps, ∃ z, p = .const (.int z)
  | [], _, p, hp => by cases hp
  | q :: ps, h, p, hp => by
    cases q
    case const c =>
      simp only [assertConstants, pbind_ok, exists_unit, assertSort_known] at h
      rcases List.mem_cons.1 hp with rfl | hp
      · cases c <;> simp_all [Const.sort]
      · exact assertConstants_ok h.2 p hp
    all_goals cases h

theorem assertIndices_ok : ∀ {ps : List Term}, assertIndices ps = .ok () → ∀ z, .const (.int z) ∈ ps → 0 ≤ z
  | [], _, _, hp => by cases hp
  | q :: ps, h, z, hp => by
    simp only [assertIndices, pbind_ok, exists_unit, need_ok] at h
    rcases List.mem_cons.1 hp with rfl | hp
    · simpa [Term.asInteger] using h.1
    · exact assertIndices_ok h.2 z hp

theorem assertKnownBv_ok {p : PSrt} {w : Nat} : assertKnownBv p = .ok w ↔ p = .known (.bv w) := by
  rcases p with (_ | _) | _ <;> simp [assertKnownBv]

theorem makeIndexedOp_sorted {o : ParamOp} {ps args : List Term} {t : Term} (ha : ∀ a ∈ args, SortedIfPlain a)
    (h : makeIndexedOp o ps args = .ok t) : SortedIfPlain t := by
  simp only [makeIndexedOp, pbind_ok] at h
  obtain ⟨qs, hqs, h⟩ := h
  have args_sorted : (Term.paramOp o ps args).plainWidths → ∃ ss, sortOfL args = some ss ∧ qs = ss.map .known := fun hw =>
    all_poolSorts (fun a h => ha a h (plainWidths_paramOp hw a h)) hqs
  have length {ss : List Srt} (h : sortOfL args = some ss) : ss.length = args.length := (sortOfL_some h).length_eq
  cases o <;> simp only [pbind_ok, need_ok, exists_unit, getPanic_ok, Except.ok.injEq, assertKnownBv_ok] at h
  case bvConst =>
    obtain ⟨_, _, _, _, _, _, _, _, _, _, rfl⟩ := h
    intro _
    rfl
  case arrayConst => cases h
  case bvExtract =>
    obtain ⟨hp, hn, _, hm, m, rfl, hc, hi, zi, hzi, i, hi', zj, hzj, j, hj', hij, rfl⟩ := h
    intro hw
    obtain ⟨ss, hl, rfl⟩ := args_sorted hw
    obtain ⟨p, q, rfl⟩ := List.length_eq_two.1 hp
    obtain ⟨s, rfl⟩ := List.length_eq_one_iff.1 ((length hl).trans hn)
    obtain ⟨z, rfl⟩ := assertConstants_ok hc p (by simp)
    obtain ⟨z', rfl⟩ := assertConstants_ok hc q (by simp)
    cases hm
    cases hzi
    cases hzj
    rw [unwrapUsize_ok] at hi' hj'
    simp only [sortOf, hl, popSort]
    rw [if_pos (by omega)]
    rfl
  case intToBv =>
    obtain ⟨hp, hn, hc, _, hm, hs, rfl⟩ := h
    intro hw
    obtain ⟨ss, hl, rfl⟩ := args_sorted hw
    obtain ⟨w, rfl⟩ : ∃ w : Nat, ps = [.const (.int w)] := hw _ (Term.self_mem_subterms _)
    obtain ⟨s, rfl⟩ := List.length_eq_one_iff.1 ((length hl).trans hn)
    cases hm
    rw [assertSort_known] at hs
    subst hs
    simp [sortOf, hl, popSort]
  case reLoop =>
    obtain ⟨hp, hn, hc, _, hm, hs, hi, rfl⟩ := h
    intro hw
    obtain ⟨ss, hl, rfl⟩ := args_sorted hw
    obtain ⟨p, q, rfl⟩ := List.length_eq_two.1 hp
    obtain ⟨s, rfl⟩ := List.length_eq_one_iff.1 ((length hl).trans hn)
    obtain ⟨z, rfl⟩ := assertConstants_ok hc p (by simp)
    obtain ⟨z', rfl⟩ := assertConstants_ok hc q (by simp)
    cases hm
    rw [assertSort_known] at hs
    subst hs
    simp [sortOf, hl, popSort, assertIndices_ok hi z (by simp), assertIndices_ok hi z' (by simp)]
  case rePower =>
    obtain ⟨hp, hn, hc, _, hm, hs, hi, rfl⟩ := h
    intro hw
    obtain ⟨ss, hl, rfl⟩ := args_sorted hw
    obtain ⟨p, rfl⟩ := List.length_eq_one_iff.1 hp
    obtain ⟨s, rfl⟩ := List.length_eq_one_iff.1 ((length hl).trans hn)
    obtain ⟨z, rfl⟩ := assertConstants_ok hc p (by simp)
    cases hm
    rw [assertSort_known] at hs
    subst hs
    simp [sortOf, hl, popSort, assertIndices_ok hi z (by simp)]
  all_goals
    obtain ⟨hp, hn, hc, _, hm, m, rfl, hi, rfl⟩ := h
    intro hw
    obtain ⟨ss, hl, rfl⟩ := args_sorted hw
    obtain ⟨p, rfl⟩ := List.length_eq_one_iff.1 hp
    obtain ⟨s, rfl⟩ := List.length_eq_one_iff.1 ((length hl).trans hn)
    obtain ⟨z, rfl⟩ := assertConstants_ok hc p (by simp)
    cases hm
    simp [sortOf, hl, popSort, assertIndices_ok hi z (by simp)]

theorem substituted_sorted {m : List (Term × Term)} {t t' : Term} (h : substituted m t = .ok t') : (sortOf t').isSome = true := by
  unfold substituted at h
  split at h
  · cases h
  · split at h
    · cases h
    · next hs =>
      simp only [Bool.or_eq_true, not_or, Bool.not_eq_true, Option.isNone_eq_false_iff] at hs
      simp only [pbind_ok, getPanic_ok, ofRes_ok, Except.ok.injEq] at h
      obtain ⟨σ, hσ, ⟨u, σ'⟩, hu, rfl⟩ := h
      rw [Subst.apply_sort (by
        cases e : Subst.new (m.foldl (fun m p => mapInsert m p.1 p.2) []) with
        | error _ => simp [e, Except.toOption] at hσ
        | ok σ'' => simp only [e, Except.toOption, Option.some.injEq] at hσ; rw [← hσ]) hs.2 hu]
      exact hs.2

theorem FunDef.apply_sorted {f : FunDef} (hf : SortedIfPlain f.body) {args : List Term} {t : Term} (h : f.apply args = .ok t) :
    SortedIfPlain t := by
  simp only [FunDef.apply, pbind_ok, need_ok, exists_unit] at h
  obtain ⟨_, h⟩ := h
  split at h
  · cases h
    exact hf
  · simp only [pbind_ok, exists_unit] at h
    exact fun _ => substituted_sorted h.2

end Carcara
