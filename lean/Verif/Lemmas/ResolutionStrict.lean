import Verif.Lemmas.ResolutionExact

/-! # What `strict_resolution` computes, exactly -/

namespace Carcara

open ClauseColl Spec

/-- The literals of a clause. -/
def litVec (ts : List Term) : VecClause := ⟨ts.map Term.removeAllNegations⟩

theorem mem_litVec {ts : List Term} {t : Term} : t.removeAllNegations ∈ (litVec ts).lits ↔ t ∈ ts := by
  simp only [litVec, List.mem_map]
  exact ⟨fun ⟨u, hu, e⟩ => removeAll_injective e ▸ hu, fun h => ⟨t, h, rfl⟩⟩

theorem vec_remove (ts : List Term) (t : Term) :
    removeTerm (litVec ts) t.removeAllNegations = (litVec (ts.erase t), decide (t ∈ ts)) := by
  simp only [removeTerm, mem_litVec]
  split
  · next h =>
    rw [decide_eq_true h]
    simp only [litVec, List.map_erase (fun _ _ h => removeAll_injective h)]
  · next h =>
    rw [decide_eq_false h, List.erase_of_not_mem h]

theorem vec_insertRest_true (pv : Lit) : ∀ (ts cs : List Term),
    insertRest pv true (litVec cs) ts = (true, litVec (cs ++ ts))
  | [], cs => by simp [insertRest]
  | t :: ts, cs => by
    have : insertTerm (litVec cs) t.removeAllNegations = litVec (cs ++ [t]) := by simp [insertTerm, litVec]
    simp only [insertRest, Bool.not_true, Bool.false_eq_true, false_and, if_false, this]
    rw [vec_insertRest_true pv ts (cs ++ [t])]
    simp

theorem vec_insertRest_false (p : Term) : ∀ (ts cs : List Term),
    insertRest p.removeAllNegations false (litVec cs) ts = (decide (p ∈ ts), litVec (cs ++ ts.erase p))
  | [], cs => by simp [insertRest]
  | t :: ts, cs => by
    have : insertTerm (litVec cs) t.removeAllNegations = litVec (cs ++ [t]) := by simp [insertTerm, litVec]
    rw [insertRest]
    by_cases e : t = p
    · subst e
      rw [if_pos ⟨by simp, rfl⟩, vec_insertRest_true]
      simp
    · rw [if_neg (by rintro ⟨-, hh⟩; exact e (removeAll_injective hh)), this, vec_insertRest_false p ts (cs ++ [t])]
      simp [List.erase_cons_tail, e, Ne.symm e]

theorem vec_binaryResolution (ts next : List Term) (p : Term) (pol : Bool) :
    ∀ l u, (if pol then (p, Term.op .not [p]) else (.op .not [p], p)) = (l, u) →
    binaryResolution (litVec ts) next p.removeAllNegations pol =
      if l ∈ ts ∧ u ∈ next then .ok (litVec (ts.erase l ++ next.erase u)) else err := by
  intro l u hlu
  have key : (if pol then (p.removeAllNegations, ((p.removeAllNegations.1 + 1, p.removeAllNegations.2) : Lit))
      else ((p.removeAllNegations.1 + 1, p.removeAllNegations.2), p.removeAllNegations)) =
      (l.removeAllNegations, u.removeAllNegations) := by
    cases pol <;> simp at hlu <;> obtain ⟨rfl, rfl⟩ := hlu <;> simp [removeAll_not]
  simp only [binaryResolution, key, vec_remove, vec_insertRest_false]
  by_cases h1 : l ∈ ts <;> by_cases h2 : u ∈ next <;> simp [h1, h2]

theorem vec_resolveAll (args : List Term) : ∀ (ds : List (List Term)) (ts : List Term) (c : VecClause),
    args.length = ds.length * 2 →
    ((∃ pivots, parsePivots args = .ok pivots ∧ resolveAll (litVec ts) (ds.zip pivots) = .ok c) ↔
      ∃ e, orderedResolve ts ds args = some e ∧ c = litVec e) := by
  induction args using parsePivots.induct with
  | case1 p b rest hb ih =>
    intro ds ts c hlen
    obtain _ | ⟨d, ds⟩ := ds
    · simp at hlen
    simp only [Term.isBoolTrue, decide_eq_true_eq] at hb
    subst hb
    have hl : rest.length = ds.length * 2 := by simp at hlen; omega
    have hx := vec_binaryResolution ts d p true p (.op .not [p]) (by simp)
    rw [orderedResolve, if_pos rfl]
    split
    · next hm =>
      rw [if_pos hm] at hx
      rw [← ih ds _ c hl]
      constructor
      · rintro ⟨pv, hp, hr⟩
        simp only [parsePivots, Term.isBoolTrue, decide_true, if_true, bind_ok, pure_ok] at hp
        obtain ⟨ps, hps, rfl⟩ := hp
        simp only [List.zip_cons_cons, resolveAll, hx] at hr
        exact ⟨ps, hps, hr⟩
      · rintro ⟨ps, hps, hr⟩
        exact ⟨_, by simp only [parsePivots, Term.isBoolTrue, decide_true, if_true, hps]; rfl,
          by simp only [List.zip_cons_cons, resolveAll, hx]; exact hr⟩
    · next hm =>
      rw [if_neg hm] at hx
      constructor
      · rintro ⟨pv, hp, hr⟩
        simp only [parsePivots, Term.isBoolTrue, decide_true, if_true, bind_ok, pure_ok] at hp
        obtain ⟨ps, hps, rfl⟩ := hp
        simp only [List.zip_cons_cons, resolveAll, hx] at hr
        cases hr
      · simp
  | case2 p b rest hb hb' ih =>
    intro ds ts c hlen
    obtain _ | ⟨d, ds⟩ := ds
    · simp at hlen
    simp only [Term.isBoolFalse, decide_eq_true_eq] at hb'
    subst hb'
    have hl : rest.length = ds.length * 2 := by simp at hlen; omega
    have hx := vec_binaryResolution ts d p false (.op .not [p]) p (by simp)
    rw [orderedResolve, if_neg (by simp), if_pos rfl]
    have hp0 : parsePivots (p :: .fls :: rest) = (do let r ← parsePivots rest; pure ((p.removeAllNegations, false) :: r)) := by
      rw [parsePivots, if_neg (by simp [Term.isBoolTrue]), if_pos (by simp [Term.isBoolFalse])]
    split
    · next hm =>
      rw [if_pos hm] at hx
      rw [← ih ds _ c hl]
      constructor
      · rintro ⟨pv, hp, hr⟩
        simp only [hp0, bind_ok, pure_ok] at hp
        obtain ⟨ps, hps, rfl⟩ := hp
        simp only [List.zip_cons_cons, resolveAll, hx] at hr
        exact ⟨ps, hps, hr⟩
      · rintro ⟨ps, hps, hr⟩
        exact ⟨_, by simp only [hp0, hps]; rfl,
          by simp only [List.zip_cons_cons, resolveAll, hx]; exact hr⟩
    · next hm =>
      rw [if_neg hm] at hx
      constructor
      · rintro ⟨pv, hp, hr⟩
        simp only [hp0, bind_ok, pure_ok] at hp
        obtain ⟨ps, hps, rfl⟩ := hp
        simp only [List.zip_cons_cons, resolveAll, hx] at hr
        cases hr
      · simp
  | case3 p b rest hb hb' =>
    intro ds ts c hlen
    obtain _ | ⟨d, ds⟩ := ds
    · simp at hlen
    have e1 : b ≠ .tru := by simpa [Term.isBoolTrue] using hb
    have e2 : b ≠ .fls := by simpa [Term.isBoolFalse] using hb'
    rw [orderedResolve, if_neg e1, if_neg e2]
    simp [parsePivots, hb, hb']
  | case4 t => intro ds ts c hlen; simp at hlen; omega
  | case5 =>
    intro ds ts c hlen
    obtain _ | ⟨d, ds⟩ := ds
    · simp [parsePivots, resolveAll, orderedResolve, eq_comm]
    · simp at hlen

theorem orderedResolve_length : ∀ {ts : List Term} {ds : List (List Term)} {args e : List Term},
    orderedResolve ts ds args = some e → args.length = ds.length * 2 := by
  intro ts ds args
  induction ts, ds, args using orderedResolve.induct <;> intro e h <;> simp_all [orderedResolve] <;> omega

theorem strictResolution_exact (conclusion first : List Term) (rest : List (List Term)) (args : List Term) :
    strictResolution conclusion (first :: rest) args = .ok () ↔
      rest ≠ [] ∧ orderedResolve first rest args = some conclusion := by
  have hcmp : ∀ ts : List Term, (conclusion.length = (litVec ts).lits.length ∧ ∀ p ∈ (litVec ts).lits.zip conclusion,
      p.1 = p.2.removeAllNegations ∨ literalToTerm p.1 = p.2) ↔ ts = conclusion := by
    intro ts
    constructor
    · rintro ⟨hl, h⟩
      simp only [litVec, List.length_map] at hl
      refine List.ext_getElem hl.symm fun i h1 h2 => ?_
      have := h ((litVec ts).lits[i]'(by simpa [litVec] using h1), conclusion[i]) (by
        rw [List.mem_iff_getElem]
        exact ⟨i, by simp [litVec]; omega, by simp⟩)
      simp only [litVec, List.getElem_map] at this
      rcases this with h | h
      · exact removeAll_injective h
      · rwa [literalToTerm_remove] at h
    · rintro rfl
      refine ⟨by simp [litVec], fun p hp => .inl ?_⟩
      obtain ⟨i, hi, rfl⟩ := List.mem_iff_getElem.1 hp
      simp [litVec]
  simp only [strictResolution, applyGenericResolution, bind_ok, require_ok]
  constructor
  · rintro ⟨r, ⟨_, h1, _, h2, pv, hp, hr⟩, _, h3, h4⟩
    obtain ⟨e, he, rfl⟩ := (vec_resolveAll args rest first r (by simpa using h2)).1 ⟨pv, hp, hr⟩
    rw [(hcmp e).1 ⟨h3, h4⟩] at he
    exact ⟨by rintro rfl; simp at h1, he⟩
  · rintro ⟨h1, h2⟩
    have hl := orderedResolve_length h2
    obtain ⟨pv, hp, hr⟩ := (vec_resolveAll args rest first _ hl).2 ⟨conclusion, h2, rfl⟩
    obtain ⟨h3, h4⟩ := (hcmp conclusion).2 rfl
    refine ⟨_, ⟨(), ?_, (), by simpa using hl, pv, hp, hr⟩, (), h3, h4⟩
    obtain ⟨_, _, rfl⟩ := List.exists_cons_of_ne_nil h1
    simp

end Carcara
