import Verif.Model.BfunElim
import Verif.Lemmas.SubstitutionApply

/-!
# Replacing a variable by a Boolean constant

For terms in which bound names cannot be confused, the substitution of a single closed term never renames anything.
-/

namespace Carcara

mutual
/-- The free occurrences of a variable replaced by a closed term. -/
def Term.assign (v : String × Srt) (c : Term) : Term → Term
  | .const k => .const k
  | .var x s => if (x, s) = v then c else .var x s
  | .app f as => .app ((Term.assign v c f)) (Term.assignL v c as)
  | .op o as => .op o (Term.assignL v c as)
  | .binder b bs t => .binder b bs (if v.1 ∈ bs.map (·.1) then t else (Term.assign v c t))
  | .let_ bs t => .let_ bs t
  | .paramOp o ps as => .paramOp o ps (Term.assignL v c as)
/-- The same for lists. -/
def Term.assignL (v : String × Srt) (c : Term) : List Term → List Term
  | [] => []
  | t :: ts => (Term.assign v c t) :: Term.assignL v c ts
end

theorem Term.assignL_eq {v : String × Srt} {c : Term} (ts : List Term) : Term.assignL v c ts = ts.map (Term.assign v c) := by
  induction ts with
  | nil => rfl
  | cons t ts ih => rw [Term.assignL, ih]; rfl

/-- The constants `true` and `false`. -/
def IsBoolConst (c : Term) : Prop := c = .tru ∨ c = .fls

/-- A substitution of one variable, between calls of `apply`. -/
structure Single (v : String × Srt) (c : Term) (σ : Subst) : Prop where
  map : σ.map = [(.var v.1 v.2, c)]
  ren : σ.ren = none ∨ σ.ren = some [v.1]
  cache : ∀ t u, mapGet σ.cache t = some u → u = (Term.assign v c t)

section
variable {v : String × Srt} {c : Term}

theorem applyList_assign {n : Nat} {f : Applier}
    (hf : ∀ σ t, t.size ≤ n → t.quoteSafe = true → Single v c σ → ∃ σ', f σ t = .ok ((Term.assign v c t), σ') ∧ Single v c σ') :
    ∀ {as : List Term} {σ : Subst}, (∀ a ∈ as, a.size ≤ n ∧ a.quoteSafe = true) → Single v c σ →
      ∃ σ', applyList f σ as = .ok (Term.assignL v c as, σ') ∧ Single v c σ'
  | [], σ, _, h => ⟨σ, rfl, h⟩
  | a :: as, σ, ha, h => by
    obtain ⟨σ1, e1, h1⟩ := hf σ a (ha a (by simp)).1 (ha a (by simp)).2 h
    obtain ⟨σ2, e2, h2⟩ := applyList_assign hf (as := as) (fun b hb => ha b (List.mem_cons_of_mem _ hb)) h1
    exact ⟨σ2, bind_ok.2 ⟨_, e1, bind_ok.2 ⟨_, e2, rfl⟩⟩, h2⟩

theorem Single.computeRen {σ : Subst} (hc : IsBoolConst c) (h : Single v c σ) : Single v c σ.computeRen ∧ σ.computeRen.ren = some [v.1] := by
  unfold Subst.computeRen
  rcases h.ren with e | e
  · have : setOf (namesOf σ.map) = [v.1] := by
      rw [h.map]
      rcases hc with rfl | rfl <;> rfl
    simp only [e, this]
    exact ⟨⟨h.map, .inr rfl, h.cache⟩, trivial⟩
  · simp only [e]
    exact ⟨h, trivial⟩

theorem filter_name {x : String} : ∀ {bs : List (String × Srt)}, (bs.map (·.1)).Nodup → x ∈ bs.map (·.1) →
    ∃ b, bs.filter (fun b => decide (b.1 ∈ [x])) = [b] ∧ b.1 = x
  | [], _, h => by cases h
  | b :: bs, hn, h => by
    rw [List.map_cons, List.nodup_cons] at hn
    by_cases e : b.1 = x
    · refine ⟨b, ?_, e⟩
      rw [List.filter_cons_of_pos (by simpa using e), List.filter_eq_nil_iff.2]
      intro d hd hx
      have hx : d.1 = x := by simpa using hx
      exact hn.1 (by rw [e, ← hx]; exact List.mem_map_of_mem hd)
    · rw [List.map_cons, List.mem_cons] at h
      rw [List.filter_cons_of_neg (by simpa using e)]
      exact filter_name hn.2 (h.resolve_left fun h => e h.symm)

theorem renameVars_id {x : String} : ∀ {bs : List (String × Srt)}, x ∉ bs.map (·.1) → renameVars [x] bs .empty [] = .ok (bs, .empty)
  | [], _ => rfl
  | (y, s) :: bs, h => by
    rw [List.map_cons, List.mem_cons, not_or] at h
    have e : freshName ([] ++ [x]) y = y := by
      simp only [freshName, List.nil_append, List.length_singleton, freshLoop, List.mem_singleton]
      rw [if_neg fun e => h.1 e.symm]
    simp only [renameVars, e, if_true]
    exact bind_ok.2 ⟨_, rfl, bind_ok.2 ⟨_, renameVars_id h.2, rfl⟩⟩

theorem names_nodup {bs : List (String × Srt)} (h : (bs.map fun b => nameRoot b.1).Nodup) : (bs.map (·.1)).Nodup := by
  have : (bs.map (·.1)).map nameRoot = bs.map fun b => nameRoot b.1 := by rw [List.map_map]; rfl
  rw [← this] at h
  exact List.Nodup.of_map _ h

theorem applyBinder_assign {n : Nat} {f : Applier} {σ : Subst} {b : Binder} {bs : List (String × Srt)} {t : Term} (hc : IsBoolConst c)
    (hf : ∀ σ t, t.size ≤ n → t.quoteSafe = true → Single v c σ → ∃ σ', f σ t = .ok ((Term.assign v c t), σ') ∧ Single v c σ')
    (hs : t.size ≤ n) (hq : (Term.binder b bs t).quoteSafe = true) (h : Single v c σ) :
    ∃ σ', applyBinder f σ b bs t = .ok (Term.assign v c (.binder b bs t), σ') ∧ Single v c σ' := by
  obtain ⟨h1, h2⟩ := h.computeRen hc
  rw [Term.quoteSafe_binder] at hq
  have hskip : σ.computeRen.canSkip bs = .ok (decide (v.1 ∈ bs.map (·.1))) := by
    unfold Subst.canSkip
    rw [h1.map]
    simp only [h2, Term.asVar]
    by_cases hv : v.1 ∈ bs.map (·.1)
    · obtain ⟨d, e, hd⟩ := filter_name (names_nodup hq.1) hv
      refine bind_ok.2 ⟨_, rfl, bind_ok.2 ⟨_, rfl, ?_⟩⟩
      rw [e]
      simp only [hd, decide_true, hv]
    · refine bind_ok.2 ⟨_, rfl, bind_ok.2 ⟨_, rfl, ?_⟩⟩
      rw [List.filter_eq_nil_iff.2]
      · simp only [hv, decide_false]
      · intro d hd hx
        have hx : d.1 = v.1 := by simpa using hx
        exact hv (by rw [← hx]; exact List.mem_map_of_mem hd)
  by_cases hv : v.1 ∈ bs.map (·.1)
  · refine ⟨σ.computeRen, bind_ok.2 ⟨true, by rw [hskip]; simp only [hv, decide_true], ?_⟩, h1⟩
    rw [Term.assign, if_pos hv]
    rfl
  · obtain ⟨σ', e, h'⟩ := hf σ.computeRen t hs hq.2.2 h1
    refine ⟨σ', bind_ok.2 ⟨false, by rw [hskip]; simp only [hv, decide_false], ?_⟩, h'⟩
    rw [Term.assign, if_neg hv]
    exact bind_ok.2 ⟨_, by rw [h2]; rfl, bind_ok.2 ⟨_, renameVars_id hv, bind_ok.2 ⟨_, e, rfl⟩⟩⟩

theorem applyGo_assign (hc : IsBoolConst c) : ∀ (n : Nat) (σ : Subst) (t : Term), t.size ≤ n → t.quoteSafe = true → Single v c σ →
    ∃ σ', applyGo n σ t = .ok ((Term.assign v c t), σ') ∧ Single v c σ'
  | 0, _, t, hs, _, _ => absurd t.size_pos (by omega)
  | n + 1, σ, t, hs, hq, h => by
    have hf := applyGo_assign hc n
    rw [applyGo]
    cases hcache : mapGet σ.cache t with
    | some u => exact ⟨σ, by rw [h.cache t u hcache], h⟩
    | none =>
      cases hm : mapGet σ.map t with
      | some u =>
        rw [h.map] at hm
        simp only [mapGet] at hm
        split at hm
        · next e =>
          cases hm
          subst e
          exact ⟨σ, by simp [Term.assign], h⟩
        · cases hm
      | none =>
        have key : ∃ σ', applyNode (applyGo n) σ t = .ok ((Term.assign v c t), σ') ∧ Single v c σ' := by
          cases t with
          | const k => exact ⟨σ, rfl, h⟩
          | var x s =>
            refine ⟨σ, ?_, h⟩
            rw [Term.assign, if_neg]
            · rfl
            · rintro rfl
              rw [h.map] at hm
              simp [mapGet] at hm
          | app g as =>
            simp only [Term.quoteSafe, Bool.and_eq_true, Term.quoteSafeL_iff] at hq
            rw [Term.size] at hs
            obtain ⟨σ1, e1, h1⟩ := applyList_assign hf (as := as) (fun a ha => ⟨by have := Term.size_le_sizeL ha; omega, hq.2 a ha⟩) h
            obtain ⟨σ2, e2, h2⟩ := hf σ1 g (by omega) hq.1 h1
            exact ⟨σ2, bind_ok.2 ⟨_, e1, bind_ok.2 ⟨_, e2, rfl⟩⟩, h2⟩
          | op o as =>
            simp only [Term.quoteSafe, Term.quoteSafeL_iff] at hq
            rw [Term.size] at hs
            obtain ⟨σ1, e1, h1⟩ := applyList_assign hf (as := as) (fun a ha => ⟨by have := Term.size_le_sizeL ha; omega, hq a ha⟩) h
            exact ⟨σ1, bind_ok.2 ⟨_, e1, rfl⟩, h1⟩
          | binder b bs body => exact applyBinder_assign hc hf (by rw [Term.size] at hs; omega) hq h
          | let_ bs body => exact absurd hq (by simp [Term.quoteSafe])
          | paramOp o ps as =>
            simp only [Term.quoteSafe, Bool.and_eq_true, Term.quoteSafeL_iff] at hq
            rw [Term.size] at hs
            obtain ⟨σ1, e1, h1⟩ := applyList_assign hf (as := as) (fun a ha => ⟨by have := Term.size_le_sizeL ha; omega, hq.2 a ha⟩) h
            exact ⟨σ1, bind_ok.2 ⟨_, e1, rfl⟩, h1⟩
        obtain ⟨σ', e, h'⟩ := key
        refine ⟨{ σ' with cache := mapInsert σ'.cache t (Term.assign v c t) }, bind_ok.2 ⟨_, e, rfl⟩, h'.map, h'.ren, fun k u hk => ?_⟩
        simp only [mapGet_insert] at hk
        split at hk
        · next e =>
          cases hk
          rw [e]
        · exact h'.cache k u hk

/-! ## What is kept -/

theorem fv_assign (hc : IsBoolConst c) (t : Term) : ∀ w ∈ (Term.assign v c t).fv, w ∈ t.fv := by
  have hcf : c.fv = [] := by rcases hc with rfl | rfl <;> rfl
  have hL : ∀ as : List Term, (∀ a ∈ as, ∀ w ∈ (Term.assign v c a).fv, w ∈ a.fv) → ∀ w ∈ Term.fvL (Term.assignL v c as), w ∈ Term.fvL as := by
    intro as
    induction as with
    | nil => intro _ w hw; exact hw
    | cons a as ih =>
      intro h w hw
      simp only [Term.assignL, Term.fvL, List.mem_append] at hw ⊢
      exact hw.imp (h a (by simp) w) (ih (fun b hb => h b (List.mem_cons_of_mem _ hb)) w)
  induction t using Term.ind with
  | const k => exact fun w hw => hw
  | var x s =>
    intro w hw
    rw [Term.assign] at hw
    split at hw
    · rw [hcf] at hw; cases hw
    · exact hw
  | app f as ihf ih =>
    intro w hw
    simp only [Term.assign, Term.fv, List.mem_append] at hw ⊢
    exact hw.imp (ihf w) (hL as ih w)
  | op o as ih => exact hL as ih
  | binder b bs t ih =>
    intro w hw
    rw [Term.assign] at hw
    split at hw
    · exact hw
    · simp only [Term.fv, List.mem_filter] at hw ⊢
      exact ⟨ih w hw.1, hw.2⟩
  | let_ bs t _ _ => exact fun w hw => hw
  | paramOp o ps as ihp ih =>
    intro w hw
    simp only [Term.assign, Term.fv, List.mem_append] at hw ⊢
    exact hw.imp id (hL as ih w)

theorem quoteSafe_assign (hc : IsBoolConst c) (t : Term) : t.quoteSafe = true → (Term.assign v c t).quoteSafe = true := by
  induction t using Term.ind with
  | const k => exact id
  | var x s =>
    intro _
    rw [Term.assign]
    split
    · rcases hc with rfl | rfl <;> rfl
    · rfl
  | app f as ihf ih =>
    simp only [Term.assign, Term.quoteSafe, Bool.and_eq_true, Term.quoteSafeL_iff, Term.assignL_eq, List.mem_map, forall_exists_index, and_imp,
      forall_apply_eq_imp_iff₂]
    exact fun h1 h2 => ⟨ihf h1, fun a ha => ih a ha (h2 a ha)⟩
  | op o as ih =>
    simp only [Term.assign, Term.quoteSafe, Term.quoteSafeL_iff, Term.assignL_eq, List.mem_map, forall_exists_index, and_imp,
      forall_apply_eq_imp_iff₂]
    exact fun h a ha => ih a ha (h a ha)
  | binder b bs t ih =>
    intro h
    rw [Term.assign]
    split
    · exact h
    · rw [Term.quoteSafe_binder] at h ⊢
      exact ⟨h.1, fun w hw => h.2.1 w (fv_assign hc t w hw), ih h.2.2⟩
  | let_ bs t _ _ => exact id
  | paramOp o ps as ihp ih =>
    simp only [Term.assign, Term.quoteSafe, Bool.and_eq_true, Term.quoteSafeL_iff, Term.assignL_eq, List.mem_map, forall_exists_index, and_imp,
      forall_apply_eq_imp_iff₂]
    exact fun h1 h2 => ⟨h1, fun a ha => ih a ha (h2 a ha)⟩

theorem nice_assign (hc : IsBoolConst c) {t : Term} (hv : v.2 = .bool) (h : t.Nice) :
    (Term.assign v c t).Nice ∧ sortOf (Term.assign v c t) = sortOf t ∧ SubstOK [(.var v.1 v.2, c)] t (Term.assign v c t) ∧
      ∃ σ σ', Subst.new [(.var v.1 v.2, c)] = .ok σ ∧ σ.apply t = .ok ((Term.assign v c t), σ') := by
  have hnew : Subst.new [(.var v.1 v.2, c)] = .ok ⟨[(.var v.1 v.2, c)], none, []⟩ := by
    refine bind_ok.2 ⟨(), ?_, rfl⟩
    have : sortOf (.var v.1 v.2) = sortOf c := by
      rw [hv]
      rcases hc with rfl | rfl <;> rfl
    simp only [Subst.checkMap, Term.isVar, this, if_true]
  have hcl : ∀ p ∈ [(Term.var v.1 v.2, c)], p.2.closedParts = true := by
    intro p hp
    rw [List.mem_singleton.1 hp]
    rcases hc with rfl | rfl <;> rfl
  obtain ⟨hg, -⟩ := Subst.new_good hcl hnew
  obtain ⟨t', σ', h1, _, _, h4⟩ := applyGo_ok t.size False _ t (Nat.le_refl _) h hg
  obtain ⟨σ'', h1', _⟩ := applyGo_assign (v := v) hc t.size ⟨[(.var v.1 v.2, c)], none, []⟩ t (Nat.le_refl _) h.safe ⟨rfl, .inl rfl, fun _ _ h => by cases h⟩
  have e : t' = (Term.assign v c t) := by
    rw [h1'] at h1
    cases h1
    rfl
  rw [← e]
  exact ⟨⟨by rw [h4.sort]; exact h.sorted, by rw [e]; exact quoteSafe_assign hc t h.safe⟩, h4.sort, h4.sem, _, _, hnew, h1⟩

end

end Carcara
