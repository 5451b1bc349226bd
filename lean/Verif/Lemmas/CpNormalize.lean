import Verif.Lemmas.CuttingPlanes
import Verif.Lemmas.MapRes

/-! # Cutting planes: lemmas on normalization -/

namespace Carcara

open Spec Classical

noncomputable def ctvVal (M : Model) (v : CoeffTimesVar) : ℝ := v.coeff * litVal M v.negated v.var

noncomputable def ctvSum (M : Model) (vs : List CoeffTimesVar) : ℝ := (vs.map (ctvVal M)).sum

theorem ctvSum_append (M : Model) (a b : List CoeffTimesVar) : ctvSum M (a ++ b) = ctvSum M a + ctvSum M b := by
  simp [ctvSum]

theorem ctvSum_cons (M : Model) (a : CoeffTimesVar) (b : List CoeffTimesVar) : ctvSum M (a :: b) = ctvVal M a + ctvSum M b := by
  simp [ctvSum]

theorem ctvSum_negate (M : Model) (vs : List CoeffTimesVar) : ctvSum M (negateSum vs) = - ctvSum M vs := by
  induction vs with
  | nil => simp [ctvSum, negateSum]
  | cons v vs ih =>
    have : negateSum (v :: vs) = { v with coeff := -v.coeff } :: negateSum vs := rfl
    rw [this, ctvSum_cons, ctvSum_cons, ih]
    simp only [ctvVal, Int.cast_neg]
    ring

/-- The variables are well sorted. -/
def CtvOK (vs : List CoeffTimesVar) : Prop := ∀ v ∈ vs, ∃ s, sortOf v.var = some s

theorem negateSum_ok {vs : List CoeffTimesVar} (h : CtvOK vs) : CtvOK (negateSum vs) := by
  intro v hv
  obtain ⟨w, hw, rfl⟩ := List.mem_map.1 hv
  exact h w hw

theorem pushNegation_spec (M : Model) : ∀ (vs : List CoeffTimesVar) (k : ℤ), CtvOK vs → CtvOK (pushNegation vs k).1 ∧
    ctvSum M (pushNegation vs k).1 - (pushNegation vs k).2 = ctvSum M vs - k
  | [], k, _ => by simp [pushNegation, ctvSum, CtvOK]
  | v :: vs, k, h => by
    have hvs : CtvOK vs := fun w hw => h w (List.mem_cons_of_mem _ hw)
    obtain ⟨s, hv⟩ := h v List.mem_cons_self
    rw [pushNegation]
    split
    · obtain ⟨h1, h2⟩ := pushNegation_spec M vs k hvs
      refine ⟨?_, ?_⟩
      · intro w hw
        rcases List.mem_cons.1 hw with rfl | hw
        · exact ⟨s, hv⟩
        · exact h1 w hw
      · simp only [ctvSum_cons]
        linarith
    · obtain ⟨h1, h2⟩ := pushNegation_spec M vs (k - v.coeff) hvs
      refine ⟨?_, ?_⟩
      · intro w hw
        rcases List.mem_cons.1 hw with rfl | hw
        · exact ⟨s, hv⟩
        · exact h1 w hw
      · simp only [ctvSum_cons]
        have : ctvVal M ⟨-v.coeff, v.var, !v.negated⟩ = ctvVal M v - v.coeff := by
          cases hn : v.negated <;> simp [ctvVal, litVal, hn] <;> ring
        rw [this]
        push_cast at h2
        linarith

theorem ctvOf_spec (M : Model) (k : ℤ) {v : Term} {s : Srt} (hs : sortOf v = some s) :
    ctvVal M (ctvOf k v) = k * M.numv v ∧ ∃ s, sortOf (ctvOf k v).var = some s := by
  unfold ctvOf
  split
  · rename_i inner h
    obtain ⟨a, ha, rfl⟩ := matchOneMinus_some h
    rw [numv_oneMinus ha hs]
    exact ⟨rfl, s, arith_child (by simp) hs (by simp)⟩
  · exact ⟨rfl, s, hs⟩

theorem asInteger_some {t : Term} {z : ℤ} (h : t.asInteger = some z) : t = .const (.int z) := by
  rw [← asIntegerErr_ok, Term.asIntegerErr, orErr_ok, h]

theorem termToCtv_ok {t : Term} {c : CoeffTimesVar} (h : termToCtv t = .ok c) :
    c = ctvOf 1 t ∨ (∃ k l, t = .op .mult [l, .const (.int k)] ∧ c = ctvOf k l) ∨ ∃ k r, t = .op .mult [.const (.int k), r] ∧ c = ctvOf k r := by
  unfold termToCtv at h
  split at h
  · rename_i l r hp
    have ht := matchProd_some hp
    split at h
    · cases h; exact .inl rfl
    · cases h
    · rename_i k hl hr
      cases h
      exact .inr (.inl ⟨k, l, by rw [ht, asInteger_some hr], rfl⟩)
    · rename_i k hl hr
      cases h
      exact .inr (.inr ⟨k, r, by rw [ht, asInteger_some hl], rfl⟩)
  · cases h; exact .inl rfl

theorem termToCtv_error {t : Term} {k : ℤ} (h : termToCtv t = .error k) :
    ∃ a b, t = .op .mult [.const (.int a), .const (.int b)] ∧ k = a * b := by
  unfold termToCtv at h
  split at h
  · rename_i l r hp
    have ht := matchProd_some hp
    split at h
    · cases h
    · rename_i a b hl hr
      cases h
      exact ⟨a, b, by rw [ht, asInteger_some hl, asInteger_some hr], rfl⟩
    · cases h
    · cases h
  · cases h

theorem termToCtv_val (M : Model) {t : Term} {s : Srt} (hs : sortOf t = some s) {c : CoeffTimesVar} (h : termToCtv t = .ok c) :
    M.numv t = ctvVal M c ∧ ∃ s, sortOf c.var = some s := by
  rcases termToCtv_ok h with rfl | ⟨k, l, rfl, rfl⟩ | ⟨k, l, rfl, rfl⟩
  · obtain ⟨h1, h2⟩ := ctvOf_spec M 1 hs
    exact ⟨by rw [h1]; simp, h2⟩
  · obtain ⟨h1, h2⟩ := ctvOf_spec M k (arith_child (by simp) hs List.mem_cons_self)
    refine ⟨?_, h2⟩
    rw [h1, M.numv_mult hs]
    simp [numv_intConst, mul_comm]
  · obtain ⟨h1, h2⟩ := ctvOf_spec M k (v := l) (arith_child (by simp) hs (by simp))
    refine ⟨?_, h2⟩
    rw [h1, M.numv_mult hs]
    simp [numv_intConst]

theorem leaf_spec (M : Model) {t : Term} {s : Srt} (hs : sortOf t = some s) {vs : List CoeffTimesVar} {k : ℤ}
    (h : (match termToCtv t with | .ok c => (.ok ([c], 0) : Res (List CoeffTimesVar × ℤ)) | .error k => .ok ([], k)) = .ok (vs, k)) :
    M.numv t = ctvSum M vs + k ∧ CtvOK vs := by
  cases ht : termToCtv t with
  | ok c =>
    rw [ht] at h
    have he := ok_inj.1 h
    simp only [Prod.mk.injEq] at he
    obtain ⟨rfl, rfl⟩ := he
    obtain ⟨h1, h2⟩ := termToCtv_val M hs ht
    refine ⟨by rw [h1]; simp [ctvSum], fun v hv => ?_⟩
    simp only [List.mem_singleton] at hv
    subst hv
    exact h2
  | error k' =>
    rw [ht] at h
    have he := ok_inj.1 h
    simp only [Prod.mk.injEq] at he
    obtain ⟨rfl, rfl⟩ := he
    obtain ⟨a, b, rfl, rfl⟩ := termToCtv_error ht
    refine ⟨?_, fun v hv => by simp at hv⟩
    rw [M.numv_mult hs]
    simp [numv_intConst, ctvSum]

theorem append_ok {a b : List CoeffTimesVar} (ha : CtvOK a) (hb : CtvOK b) : CtvOK (a ++ b) := by
  intro v hv
  rcases List.mem_append.1 hv with h | h
  · exact ha v h
  · exact hb v h

mutual
theorem flatten_spec (M : Model) (t : Term) {s : Srt} {vs : List CoeffTimesVar} {k : ℤ} (hs : sortOf t = some s) (hu : noUnaryMinus t = true)
    (h : flattenAddition t = .ok (vs, k)) : M.numv t = ctvSum M vs + k ∧ CtvOK vs := by
  rw [flattenAddition.eq_def] at h
  split at h
  · rename_i as
    rw [noUnaryMinus] at hu
    obtain ⟨h1, h2⟩ := accumulate_spec M as (fun t ht => arith_child (by simp) hs ht) hu h
    exact ⟨by rw [M.numv_add hs, h1], h2⟩
  · cases h
  · rename_i a as
    cases as with
    | nil =>
      rw [noUnaryMinus] at hu
      cases hu
    | cons b as =>
      rw [bind_ok] at h
      obtain ⟨⟨va, ca⟩, ha, h⟩ := h
      rw [bind_ok] at h
      obtain ⟨⟨vb, cb⟩, hb, h⟩ := h
      have he := ok_inj.1 h
      simp only [Prod.mk.injEq] at he
      obtain ⟨rfl, rfl⟩ := he
      rw [noUnaryMinus, noUnaryMinusL, Bool.and_eq_true] at hu
      · obtain ⟨a1, a2⟩ := flatten_spec M a (arith_child (by simp) hs List.mem_cons_self) hu.1 ha
        obtain ⟨b1, b2⟩ := accumulate_spec M (b :: as) (s := s) (fun t ht => arith_child (by simp) hs (List.mem_cons_of_mem _ ht)) hu.2 hb
        refine ⟨?_, append_ok a2 (negateSum_ok b2)⟩
        rw [M.numv_sub hs, a1, b1, ctvSum_append, ctvSum_negate]
        push_cast
        ring
      · simp
  · have he := ok_inj.1 h
    simp only [Prod.mk.injEq] at he
    obtain ⟨rfl, rfl⟩ := he
    exact ⟨by rw [numv_intConst]; simp [ctvSum], fun v hv => by simp at hv⟩
  · exact leaf_spec M hs h
termination_by sizeOf t
theorem accumulate_spec (M : Model) : ∀ (ts : List Term) {s : Srt} {vs : List CoeffTimesVar} {k : ℤ}, (∀ t ∈ ts, sortOf t = some s) →
    noUnaryMinusL ts = true → accumulateSum ts = .ok (vs, k) → (ts.map M.numv).sum = ctvSum M vs + k ∧ CtvOK vs
  | [], s, vs, k, hs, hu, h => by
    rw [accumulateSum] at h
    have := ok_inj.1 h
    simp only [Prod.mk.injEq] at this
    obtain ⟨rfl, rfl⟩ := this
    exact ⟨by simp [ctvSum], fun v hv => by simp at hv⟩
  | a :: as, s, vs, k, hs, hu, h => by
    rw [accumulateSum, bind_ok] at h
    obtain ⟨⟨va, ca⟩, ha, h⟩ := h
    rw [bind_ok] at h
    obtain ⟨⟨vb, cb⟩, hb, h⟩ := h
    have := ok_inj.1 h
    simp only [Prod.mk.injEq] at this
    obtain ⟨rfl, rfl⟩ := this
    rw [noUnaryMinusL, Bool.and_eq_true] at hu
    obtain ⟨a1, a2⟩ := flatten_spec M a (hs a List.mem_cons_self) hu.1 ha
    obtain ⟨b1, b2⟩ := accumulate_spec M as (fun t ht => hs t (List.mem_cons_of_mem _ ht)) hu.2 hb
    refine ⟨?_, append_ok a2 b2⟩
    rw [List.map_cons, List.sum_cons, a1, b1, ctvSum_append]
    push_cast
    ring
termination_by ts => sizeOf ts
end

theorem same_spec (M : Model) {a b : CoeffTimesVar} (h : a.same b = true) (ha : ∃ s, sortOf a.var = some s) (hb : matchOneMinus b.var = none) :
    ctvVal M a = ctvVal M b := by
  obtain ⟨ca, va, na⟩ := a
  obtain ⟨cb, vb, nb⟩ := b
  simp only [CoeffTimesVar.same] at h
  split at h
  · cases h
  · rename_i hc
    simp only [ne_eq, not_not] at hc
    subst hc
    split at h
    · rename_i hv
      subst hv
      simp only [beq_iff_eq] at h
      subst h
      rfl
    · split at h
      · simp only at hb
        rw [hb] at h
        simp at h
      · rename_i hna
        split at h
        · rename_i hnb
          simp only [beq_iff_eq] at h
          obtain ⟨one, h1, rfl⟩ := matchOneMinus_some h
          obtain ⟨s, hs⟩ := ha
          simp only [ctvVal, litVal, hna, hnb, if_true, numv_oneMinus h1 hs]
          simp
        · cases h

theorem collect_spec (M : Model) {t : Term} {s : Srt} (hs : sortOf t = some s) (hd : noDoubleMinus t = true) {vs : List CoeffTimesVar}
    (h : collectAddition t = .ok vs) : M.numv t = ctvSum M vs ∧ ∀ v ∈ vs, matchOneMinus v.var = none := by
  have hdd : ∀ u ∈ splitSummation t, doubleAddend u = false := by
    unfold splitSummation
    split
    · rw [noDoubleMinus, List.all_eq_true] at hd
      intro u hu
      simpa using hd u hu
    · rename_i hne
      rw [noDoubleMinus] at hd
      · simpa using hd
      · exact hne
  obtain ⟨h1, h2⟩ := splitSummation_spec hs
  rw [h2 M]
  rw [collectAddition] at h
  clear h2 hs hd
  generalize splitSummation t = ts at *
  induction ts generalizing vs with
  | nil => cases ok_inj.1 h; exact ⟨by simp [ctvSum], by simp⟩
  | cons u ts ih =>
    rw [mapRes, bind_ok] at h
    obtain ⟨c, hc, h⟩ := h
    rw [bind_ok] at h
    obtain ⟨cs, hcs, h⟩ := h
    cases ok_inj.1 h
    obtain ⟨i1, i2⟩ := ih hcs (fun t ht => hdd t (List.mem_cons_of_mem _ ht)) (fun t ht => h1 t (List.mem_cons_of_mem _ ht))
    have hdu := hdd u List.mem_cons_self
    split at hc
    · rename_i c' hc'
      cases ok_inj.1 hc
      refine ⟨by rw [List.map_cons, List.sum_cons, i1, ctvSum_cons, (termToCtv_val M (h1 u List.mem_cons_self) hc').1], ?_⟩
      intro v hv
      rcases List.mem_cons.1 hv with rfl | hv
      · have key : ∀ (k : ℤ) (w : Term), doubleMinus w = false → matchOneMinus (ctvOf k w).var = none := by
          intro k w hw
          unfold ctvOf
          split
          · rename_i inner hi
            obtain ⟨a, ha, rfl⟩ := matchOneMinus_some hi
            cases hm : matchOneMinus inner with
            | none => simpa using hm
            | some l =>
              obtain ⟨b, hb, rfl⟩ := matchOneMinus_some hm
              simp [doubleMinus, ha, hb] at hw
          · rename_i hi
            exact hi
        unfold termToCtv at hc'
        split at hc'
        · rename_i l r hp
          rw [matchProd_some hp, doubleAddend, Bool.or_eq_false_iff] at hdu
          split at hc'
          · cases hc'
            apply key
            rw [matchProd_some hp]
            rfl
          · cases hc'
          · cases hc'
            exact key _ _ hdu.1
          · cases hc'
            exact key _ _ hdu.2
        · rename_i hp
          cases hc'
          refine key _ _ ?_
          rw [doubleAddend] at hdu
          · exact hdu
          · rintro a b rfl
            cases hp
      · exact i2 v hv
    · cases hc

theorem check_spec (M : Model) : ∀ {vl vr : List CoeffTimesVar}, vl.length = vr.length → (∀ p ∈ vl.zip vr, p.1.same p.2 = true) →
    CtvOK vl → (∀ v ∈ vr, matchOneMinus v.var = none) → ctvSum M vl = ctvSum M vr
  | [], [], _, _, _, _ => rfl
  | a :: vl, b :: vr, hl, hp, ha, hb => by
    rw [ctvSum_cons, ctvSum_cons, same_spec M (hp (a, b) List.mem_cons_self) (ha a List.mem_cons_self) (hb b List.mem_cons_self),
      check_spec M (by simpa using hl) (fun p h => hp p (List.mem_cons_of_mem _ h)) (fun v h => ha v (List.mem_cons_of_mem _ h))
        (fun v h => hb v (List.mem_cons_of_mem _ h))]

/-- The normalized inequality says the same as the list of addends. -/
theorem normalized_spec (M : Model) {vars : List CoeffTimesVar} {k : ℤ} (hv : CtvOK vars) {s n : Term} {σ : Srt}
    (hs : sortOf (.op .ge [s, n]) = some σ) (hd : noDoubleMinus s = true) {vs : List CoeffTimesVar} (hc : collectAddition s = .ok vs) {z : ℤ}
    (hn : n.asIntegerErr = .ok z) {u : Unit} (h : checkPbInequalities (pushNegation vars k).1 (pushNegation vars k).2 vs z = .ok u) :
    M.Holds (.op .ge [s, n]) ↔ (k : ℝ) ≤ ctvSum M vars := by
  obtain ⟨-, sa, sb, ha, hb, na, nb⟩ := (sort_cmp (by simp [Op.IsCmp])).1 hs
  obtain ⟨h1, h2⟩ := collect_spec M ha hd hc
  obtain ⟨h3, h4⟩ := pushNegation_spec M vars k hv
  simp only [checkPbInequalities, bind_ok, require_ok] at h
  obtain ⟨_, hl, _, hp, hk⟩ := h
  rw [(M.holds_cmp ha hb na nb).2.2.2, h1, asIntegerErr_ok.1 hn, numv_intConst, ← hk, ← check_spec M hl hp h3 h2]
  constructor <;> intro _ <;> linarith

end Carcara
