import Verif.Lemmas.EvaluateOps

/-! # Evaluation of terms keeps sorts and values -/

namespace Carcara
open Classical Val Sem Value

/-- What evaluation of a term gives. -/
def Kept (M : Model) (t u : Term) (s : Srt) : Prop :=
  sortOf u = some s ∧ M.val u = M.val t ∧ ∀ v, Value.ofTerm u = some v → v.Norm

/-- What evaluation of a list of terms gives. -/
def KeptL (M : Model) (ts us : List Term) (ss : List Srt) : Prop :=
  sortOfL us = some ss ∧ us.map M.val = ts.map M.val ∧ ∀ u ∈ us, ∀ v, Value.ofTerm u = some v → v.Norm

theorem kept_value {M : Model} {t : Term} {v : Value} {s : Srt} (hs : v.sort = s) (hn : v.Norm) (h : M.val t = v.den) :
    Kept M t v.toTerm s := by
  refine ⟨by rw [sortOf_toTerm, hs], by rw [h]; exact eval_toTerm M.I v M.env, fun v' h' => ?_⟩
  have e : Value.ofTerm v.toTerm = some v := by
    cases v with
    | bool b => cases b <;> rfl
    | _ => rfl
  rw [e] at h'
  cases h'
  exact hn

theorem values_norm : ∀ {us : List Term} {vs : List Value}, valuesOf us = some vs →
    (∀ u ∈ us, ∀ v, Value.ofTerm u = some v → v.Norm) → ∀ v ∈ vs, v.Norm
  | [], vs, h, _ => by cases h; simp
  | u :: us, vs, h, hn => by
    simp only [valuesOf, Option.bind_eq_bind, Option.bind_eq_some_iff, Option.some.injEq] at h
    obtain ⟨v, h1, vs', h2, rfl⟩ := h
    intro x hx
    rcases List.mem_cons.1 hx with rfl | hx
    · exact hn u (by simp) _ h1
    · exact values_norm h2 (fun u hu => hn u (by simp [hu])) x hx

theorem map_val_toTerm (M : Model) (vs : List Value) : (vs.map Value.toTerm).map M.val = vs.map Value.den := by
  rw [List.map_map]
  exact List.map_congr_left fun v _ => eval_toTerm M.I v M.env

/-- Operators other than `bvConst`. -/
theorem kept_op {M : Model} {o : Op} (ho : o ≠ .bvConst) {ts us : List Term} {ss : List Srt} {s : Srt} {r : Option Value}
    (hs : sortOfL ts = some ss) (h : opSort o ss = some s) (hk : KeptL M ts us ss) (hsafe : SafeOp o (ts.map M.val))
    (hr : evalOpTerms o us = .ok r) : Kept M (.op o ts) ((r.map Value.toTerm).getD (.op o us)) s := by
  obtain ⟨h1, h2, h3⟩ := hk
  cases r with
  | none =>
    refine ⟨?_, ?_, fun v hv => ?_⟩
    · show sortOf (.op o us) = some s
      rw [sortOf.eq_def]
      cases o <;> first | exact (ho rfl).elim | (simp only [h1]; exact h)
    · show M.val (.op o us) = _
      rw [M.val_op, M.val_op, h2]
    · change Value.ofTerm (.op o us) = some v at hv
      unfold Value.ofTerm at hv
      split at hv <;> cases hv <;> trivial
  | some v =>
    unfold evalOpTerms at hr
    split at hr
    · next vs hvs =>
      obtain ⟨rfl, rfl⟩ := valuesOf_some hvs h1
      obtain ⟨a1, a2, a3⟩ := evalOpValues_agrees (values_norm hvs h3) h hr
      refine kept_value a1 a2 ?_
      rw [map_val_toTerm] at h2
      rw [← h2] at hsafe
      rw [M.val_op, ← h2, evalOp, a3 M.I hsafe, Option.getD_some]
    · cases hr

theorem evaluateL_consts : ∀ {ps : List Term}, (∀ p ∈ ps, ∃ z, p = .const (.int z)) → evaluateL ps = .ok ps
  | [], _ => rfl
  | p :: ps, h => by
    obtain ⟨z, rfl⟩ := h p (by simp)
    rw [evaluateL, evaluate, evaluateL_consts fun p hp => h p (by simp [hp])]
    rfl

theorem popSort_consts {o : ParamOp} {ps : List Term} {ss : List Srt} {s : Srt} (h : popSort o ps ss = some s) :
    ∃ zs : List ℤ, ps = (zs.map Value.int).map Value.toTerm := by
  unfold popSort at h
  split at h <;> first | exact ⟨[_], rfl⟩ | exact ⟨[_, _], rfl⟩ | cases h

theorem valuesOf_toTerm : ∀ (vs : List Value), valuesOf (vs.map Value.toTerm) = some vs
  | [] => rfl
  | v :: vs => by
    have e : Value.ofTerm v.toTerm = some v := by
      cases v with
      | bool b => cases b <;> rfl
      | _ => rfl
    rw [List.map_cons, valuesOf, e, valuesOf_toTerm vs]
    rfl

mutual
/-- Evaluation keeps the sort, and the value in each model in which the term is safe. -/
theorem evaluate_kept {M : Model} : ∀ (t : Term) {u : Term} {s : Srt}, evaluate t = .ok u → sortOf t = some s → SafeTerm M t →
    Kept M t u s
  | .const c, u, s, h, hs, hsafe => by
    rw [evaluate] at h
    cases h
    refine ⟨hs, rfl, fun v hv => ?_⟩
    cases hv
    rw [SafeTerm] at hsafe
    cases c <;> first | trivial | exact hsafe
  | .var x t, u, s, h, hs, _ => by
    rw [evaluate] at h; cases h; exact ⟨hs, rfl, fun v hv => by cases hv⟩
  | .app f as, u, s, h, hs, _ => by
    rw [evaluate] at h; cases h; exact ⟨hs, rfl, fun v hv => by cases hv⟩
  | .binder b bs t, u, s, h, hs, _ => by
    rw [evaluate] at h; cases h; exact ⟨hs, rfl, fun v hv => by cases hv⟩
  | .let_ bs t, u, s, h, hs, _ => by
    rw [evaluate] at h; cases h; exact ⟨hs, rfl, fun v hv => by cases hv⟩
  | .op o ts, u, s, h, hs, hsafe => by
    rw [evaluate] at h
    obtain ⟨us, h1, h⟩ := bind_ok.1 h
    obtain ⟨r, h2, h⟩ := bind_ok.1 h
    cases h
    rw [SafeTerm] at hsafe
    by_cases ho : o = .bvConst
    · subst ho
      rw [sortOf.eq_def] at hs
      simp only at hs
      split at hs
      · next x w hsl =>
        split at hs <;> cases hs
        next hw =>
        obtain ⟨k1, k2, k3⟩ := evaluateL_kept _ h1 hsl hsafe.2
        rw [evaluateL] at h1
        obtain ⟨x', hx, h1⟩ := bind_ok.1 h1
        rw [evaluateL_consts (by simp)] at h1
        cases h1
        cases r with
        | none =>
          refine ⟨?_, ?_, fun v hv => by cases hv⟩
          · show sortOf (.op .bvConst [x', .const (.int w)]) = _
            rw [sortOf.eq_def]
            simp only [k1]
            rw [if_pos hw]
          · show M.val (.op .bvConst [x', .const (.int w)]) = _
            rw [M.val_op, M.val_op, k2]
        | some v =>
          unfold evalOpTerms at h2
          split at h2
          · next vs hvs =>
            obtain ⟨e1, e2⟩ := valuesOf_some hvs k1
            obtain ⟨y, z, rfl⟩ := exists_int2 e2.symm
            simp only [List.map_cons, List.map_nil, List.cons.injEq, and_true, Value.toTerm, Term.const.injEq, Const.int.injEq] at e1
            obtain ⟨rfl, rfl⟩ := e1
            simp only [evalOpValues] at h2
            rw [ret_bind] at h2
            obtain ⟨y', h3, h2⟩ := h2
            obtain rfl := ret_inj h3 (show (intArg [.int y, .int w] 0).run = .ok (some y) from rfl)
            obtain ⟨n, hn, h4⟩ := index_ret rfl h2
            rw [ret_pure] at h4
            subst h4
            refine kept_value ?_ (norm_newBv _ _) ?_
            · rw [sort_newBv, hn]; rfl
            · rw [M.val_op, ← k2]
              show evalOp M.I .bvConst [.int y, .int w] = _
              rw [evalOp, stdOp, if_pos hw, Option.getD_some, den_newBv, hn]
              rfl
          · cases h2
      · cases hs
    · obtain ⟨ss, hs1, hs2⟩ := sortOf_op ho hs
      exact kept_op ho hs1 hs2 (evaluateL_kept ts h1 hs1 hsafe.2) hsafe.1 h2
  | .paramOp o ps ts, u, s, h, hs, hsafe => by
    rw [sortOf] at hs
    split at hs
    · next ss hss =>
      obtain ⟨zs, rfl⟩ := popSort_consts hs
      rw [evaluate] at h
      obtain ⟨ps', h0, h⟩ := bind_ok.1 h
      rw [evaluateL_consts (by simp [Value.toTerm])] at h0
      cases h0
      obtain ⟨us, h1, h⟩ := bind_ok.1 h
      obtain ⟨r, h2, h⟩ := bind_ok.1 h
      cases h
      rw [SafeTerm] at hsafe
      obtain ⟨k1, k2, k3⟩ := evaluateL_kept ts h1 hss hsafe.2.2
      have hv : ∀ ts, M.val (.paramOp o ((zs.map Value.int).map Value.toTerm) ts) =
          evalPop M.I o (((zs.map Value.int).map Value.toTerm).map M.val) (ts.map M.val) := fun ts => by
        simp only [Model.val, eval, evalL_eq_map]
        rfl
      cases r with
      | none =>
        refine ⟨?_, ?_, fun v hv => by cases hv⟩
        · show sortOf (.paramOp o _ us) = some s
          rw [sortOf, k1]
          exact hs
        · show M.val (.paramOp o _ us) = _
          rw [hv, hv, k2]
      | some v =>
        unfold evalPopTerms at h2
        rw [valuesOf_toTerm] at h2
        cases hvs : valuesOf us with
        | none => rw [hvs] at h2; cases h2
        | some vs =>
          rw [hvs] at h2
          simp only at h2
          obtain ⟨rfl, rfl⟩ := valuesOf_some hvs k1
          obtain ⟨a1, a2, a3⟩ := evalPopValues_agrees (values_norm hvs k3) hs h2
          refine kept_value a1 a2 ?_
          have hsafe1 := hsafe.1
          rw [map_val_toTerm] at k2 hsafe1
          rw [← k2] at hsafe1
          rw [hv, ← k2, map_val_toTerm, evalPop, a3 M.I hsafe1, Option.getD_some]
    · cases hs
theorem evaluateL_kept {M : Model} : ∀ (ts : List Term) {us : List Term} {ss : List Srt}, evaluateL ts = .ok us →
    sortOfL ts = some ss → SafeTermL M ts → KeptL M ts us ss
  | [], us, ss, h, hs, _ => by
    rw [evaluateL] at h; cases h
    exact ⟨hs, rfl, by simp⟩
  | t :: ts, us, ss, h, hs, hsafe => by
    rw [evaluateL] at h
    obtain ⟨u, h1, h⟩ := bind_ok.1 h
    obtain ⟨us', h2, h⟩ := bind_ok.1 h
    cases h
    rw [sortOfL] at hs
    split at hs
    · next s ss' hs1 hs2 =>
      cases hs
      rw [SafeTermL] at hsafe
      obtain ⟨a1, a2, a3⟩ := evaluate_kept t h1 hs1 hsafe.1
      obtain ⟨b1, b2, b3⟩ := evaluateL_kept ts h2 hs2 hsafe.2
      refine ⟨by rw [sortOfL, a1, b1], by rw [List.map_cons, List.map_cons, a2, b2], fun x hx => ?_⟩
      rcases List.mem_cons.1 hx with rfl | hx
      · exact a3
      · exact b3 x hx
    · cases hs
end

mutual
theorem PlainTerm.safe (M : Model) : ∀ {t : Term}, PlainTerm t → SafeTerm M t
  | .const _, h => by rw [PlainTerm] at h; rw [SafeTerm]; exact h
  | .op o as, h => by
    rw [PlainTerm] at h
    rw [SafeTerm]
    refine ⟨?_, PlainTermL.safe M h.2⟩
    cases o <;> first | trivial | exact absurd h.1 (by decide)
  | .paramOp o ps as, h => by
    rw [PlainTerm] at h
    rw [SafeTerm]
    refine ⟨?_, PlainTermL.safe M h.2.2.1, PlainTermL.safe M h.2.2.2⟩
    cases o <;> first | trivial | exact absurd rfl h.1 | exact absurd rfl h.2.1
  | .var _ _, _ => by simp only [SafeTerm]
  | .app _ _, _ => by simp only [SafeTerm]
  | .binder _ _ _, _ => by simp only [SafeTerm]
  | .let_ _ _, _ => by simp only [SafeTerm]
theorem PlainTermL.safe (M : Model) : ∀ {ts : List Term}, PlainTermL ts → SafeTermL M ts
  | [], _ => by rw [SafeTermL]; trivial
  | t :: ts, h => by
    rw [PlainTermL] at h
    rw [SafeTermL]
    exact ⟨PlainTerm.safe M h.1, PlainTermL.safe M h.2⟩
end

end Carcara
