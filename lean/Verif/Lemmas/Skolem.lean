import Verif.Lemmas.ContextRules

/-! # Skolemization -/

namespace Carcara
open Classical
variable {I : Interp}

/-- The formula left when the variables `bs` are still quantified. -/
def skoRest (q : Binder) (bs : List (String × Srt)) (phi : Term) : Term :=
  if bs.isEmpty then phi else .binder q bs phi

theorem skoRest_tr {q : Binder} (hq : q = .all ∨ q = .ex) {bs : List (String × Srt)} {phi : Term} {ρ : Env I.U}
    (hρ : I.EnvOK ρ) : (eval I (skoRest q bs phi) ρ).T ↔
      if q = .all then ∀ ρ', Upd I bs ρ ρ' → (eval I phi ρ').T else ∃ ρ', Upd I bs ρ ρ' ∧ (eval I phi ρ').T := by
  unfold skoRest
  cases bs with
  | nil =>
    have : ∀ ρ', Upd I [] ρ ρ' → ρ' = ρ := by
      intro ρ' h
      funext x s
      exact h.2 x s (by simp)
    rcases hq with rfl | rfl
    · simp only [List.isEmpty_nil, if_true]
      exact ⟨fun h ρ' hu => by rw [this ρ' hu]; exact h, fun h => h ρ (.refl hρ)⟩
    · simp only [List.isEmpty_nil, if_true, if_neg (show Binder.ex ≠ .all by decide)]
      exact ⟨fun h => ⟨ρ, .refl hρ, h⟩, fun ⟨ρ', hu, h⟩ => by rw [this ρ' hu] at h; exact h⟩
  | cons b bs =>
    rcases hq with rfl | rfl
    · simp only [List.isEmpty_cons, Bool.false_eq_true, if_false, if_true]
      exact tr_all hρ
    · simp only [List.isEmpty_cons, Bool.false_eq_true, if_false, if_neg (show Binder.ex ≠ .all by decide)]
      exact tr_ex hρ

/-- One more variable. -/
theorem upd_cons {x : String} {s : Srt} {bs : List (String × Srt)} {ρ ρ' : Env I.U} (hρ : I.EnvOK ρ) :
    Upd I ((x, s) :: bs) ρ ρ' ↔ ∃ v, I.dom s v ∧ Upd I bs (ρ.set x s v) ρ' := by
  constructor
  · intro h
    refine ⟨ρ' x s, h.1 x s, h.1, fun y r hm => ?_⟩
    simp only [Env.set]
    split
    · next e => rw [e.1, e.2]
    · next e =>
      refine h.2 y r fun hm' => ?_
      rcases List.mem_cons.1 hm' with e' | hm'
      · cases e'; exact e ⟨rfl, rfl⟩
      · exact hm hm'
  · rintro ⟨v, hv, h⟩
    refine ⟨h.1, fun y r hm => ?_⟩
    rw [List.mem_cons, not_or] at hm
    rw [h.2 y r hm.2]
    simp only [Env.set]
    rw [if_neg fun e => hm.1 (Prod.ext e.1 e.2)]

/-- The value of the choice term decides the quantified formula. -/
theorem sko_choice {q : Binder} (hq : q = .all ∨ q = .ex) {x : String} {s : Srt} {bs : List (String × Srt)} {phi : Term}
    {ρ : Env I.U} (hρ : I.EnvOK ρ) {e : Val I.U}
    (he : e = eval I (.binder .choice [(x, s)] (if q = .all then .op .not [skoRest q bs phi] else skoRest q bs phi)) ρ) :
    (eval I (skoRest q ((x, s) :: bs) phi) ρ).T ↔ (eval I (skoRest q bs phi) (ρ.set x s e)).T := by
  simp only [eval, evalBinder] at he
  rw [skoRest_tr hq hρ]
  rcases hq with rfl | rfl
  · simp only [if_true] at he ⊢
    constructor
    · intro h
      rw [skoRest_tr (.inl rfl) (hρ.set (he ▸ I.eps_dom ..)), if_pos rfl]
      exact fun ρ' hu => h ρ' ((upd_cons hρ).2 ⟨e, he ▸ I.eps_dom .., hu⟩)
    · intro h ρ' hu
      obtain ⟨v, hv, hu⟩ := (upd_cons hρ).1 hu
      refine Classical.byContradiction fun hn => ?_
      have hP : I.dom s v ∧ (eval I (.op .not [skoRest .all bs phi]) (ρ.set x s v)).T := by
        refine ⟨hv, ?_⟩
        rw [eval_not, skoRest_tr (.inl rfl) (hρ.set hv), if_pos rfl]
        exact fun h' => hn (h' ρ' hu)
      have := (I.eps_spec s (fun v => I.dom s v ∧ (eval I (.op .not [skoRest .all bs phi]) (ρ.set x s v)).T) v hv hP).2
      rw [eval_not] at this
      refine this ?_
      rw [he] at h
      exact h
  · simp only [if_neg (show Binder.ex ≠ .all by decide)] at he ⊢
    constructor
    · rintro ⟨ρ', hu, h⟩
      obtain ⟨v, hv, hu⟩ := (upd_cons hρ).1 hu
      have hP : I.dom s v ∧ (eval I (skoRest .ex bs phi) (ρ.set x s v)).T := by
        refine ⟨hv, ?_⟩
        rw [skoRest_tr (.inr rfl) (hρ.set hv), if_neg (by decide)]
        exact ⟨ρ', hu, h⟩
      rw [he]
      exact (I.eps_spec s (fun v => I.dom s v ∧ (eval I (skoRest .ex bs phi) (ρ.set x s v)).T) v hv hP).2
    · intro h
      rw [skoRest_tr (.inr rfl) (hρ.set (he ▸ I.eps_dom ..)), if_neg (by decide)] at h
      obtain ⟨ρ', hu, h⟩ := h
      exact ⟨ρ', (upd_cons hρ).2 ⟨e, he ▸ I.eps_dom .., hu⟩, h⟩

/-- The variables `bs` have the values of the terms they are mapped to, in the environment `ρ`. -/
noncomputable def skoEnv (m : List (Term × Term)) (bs : List (String × Srt)) (ρ : Env I.U) : Env I.U := fun x s =>
  if (x, s) ∈ bs then (match mapGet m (.var x s) with | some t => eval I t ρ | none => ρ x s) else ρ x s

theorem skoEnv_ok {m : List (Term × Term)} {bs : List (String × Srt)} {ρ : Env I.U} (hρ : I.EnvOK ρ)
    (hm : ∀ b ∈ bs, ∀ t, mapGet m (.var b.1 b.2) = some t → sortOf t = some b.2) : I.EnvOK (skoEnv m bs ρ) := by
  intro x s
  unfold skoEnv
  split
  · next hb =>
    split
    · next t e => exact eval_dom t (hm _ hb t e) hρ
    · exact hρ x s
  · exact hρ x s

theorem skoLoop_get {q : Binder} {m : List (Term × Term)} : ∀ {bs : List (String × Srt)} {phi : Term},
    skoLoop q m bs phi = .ok () → ∀ b ∈ bs, ∃ t, mapGet m (.var b.1 b.2) = some t
  | [], _, _, _, h => by cases h
  | (x, s) :: bs, phi, h, b, hb => by
    simp only [skoLoop, bind_ok, orErr_ok] at h
    obtain ⟨t, ht, _, _, _, _, _, _, _, _, h⟩ := h
    rcases List.mem_cons.1 hb with rfl | hb
    · exact ⟨t, ht⟩
    · exact skoLoop_get h b hb

theorem skoLoop_sound {q : Binder} (hq : q = .all ∨ q = .ex) {m : List (Term × Term)} :
    ∀ {bs : List (String × Srt)} {phi : Term}, skoLoop q m bs phi = .ok () → skoSafe q m bs phi = true → bs.Nodup →
    (∀ b ∈ bs, ∀ t, mapGet m (.var b.1 b.2) = some t → sortOf t = some b.2 ∧ ∀ b' ∈ bs, b' ∉ t.fv) →
    ∀ ρ : Env I.U, I.EnvOK ρ → ((eval I (skoRest q bs phi) ρ).T ↔ (eval I phi (skoEnv m bs ρ)).T)
  | [], phi, _, _, _, _, ρ, _ => by
    have : skoEnv m [] ρ = ρ := by funext x s; simp [skoEnv]
    rw [this]
    simp [skoRest]
  | (x, s) :: bs, phi, h, hs, hn, hm, ρ, hρ => by
    rw [List.nodup_cons] at hn
    simp only [skoLoop, bind_ok, orErr_ok, require_ok] at h
    obtain ⟨t, ht, e, he, _, hee, σ, hσ, r, hr, h⟩ := h
    subst hee
    simp only [skoSafe, ht, Bool.and_eq_true] at hs
    obtain ⟨hphi, ⟨htn, hal⟩, hrest⟩ := hs
    rw [show (do let σ ← Subst.new [(.var x s, t)]; σ.apply phi : Res (Term × Subst)) = .ok r from
      bind_ok.2 ⟨σ, hσ, hr⟩] at hrest
    have hphi := Term.nice_iff.1 hphi
    have htn := Term.nice_iff.1 htn
    obtain ⟨hts, htf⟩ := hm (x, s) (List.mem_cons_self ..) t ht
    have hsame := alphaSafe_sound hal he
    obtain ⟨hg, hmap⟩ := Subst.new_good (fun p hp => by rw [List.mem_singleton.1 hp]; exact htn.closed) hσ
    obtain ⟨t', σ', e1, _, _, h4⟩ := applyGo_ok phi.size False σ phi (Nat.le_refl _) hphi hg
    have er : r = (t', σ') := by
      have : σ.apply phi = .ok (t', σ') := e1
      rw [this] at hr
      simpa using hr.symm
    subst er
    rw [hmap] at h4
    have hkeep : ∀ {ρ1 ρ2 : Env I.U}, (∀ v ∈ t.fv, ρ1 v.1 v.2 = ρ2 v.1 v.2) → eval I t ρ1 = eval I t ρ2 :=
      fun h => htn.congr h
    have hd := eval_dom t hts hρ
    have hsub : ∀ ρ' : Env I.U, I.EnvOK ρ' → eval I t' ρ' = eval I phi (ρ'.set x s (eval I t ρ')) := by
      intro ρ' hρ'
      rw [h4.sem I ρ' hρ']
      congr 1
      funext y r
      simp only [Interp.substEnv, substOf, List.find?_cons, List.find?_nil, Env.set]
      by_cases hk : y = x ∧ r = s
      · obtain ⟨rfl, rfl⟩ := hk
        simp
      · rw [if_neg hk]
        have : decide (Term.var x s = Term.var y r) = false := by
          simp only [decide_eq_false_iff_not, Term.var.injEq]
          exact fun e => hk ⟨e.1.symm, e.2.symm⟩
        rw [this]
        simp [eval]
    have step1 := sko_choice hq (x := x) (s := s) (bs := bs) (phi := phi) hρ (e := eval I t ρ) (hsame I ρ hρ)
    have hupd_t : ∀ ρ' : Env I.U, Upd I bs ρ ρ' → eval I t ρ' = eval I t ρ := fun ρ' hu => hkeep fun v hv =>
      hu.2 v.1 v.2 fun hb => htf v (List.mem_cons_of_mem _ hb) hv
    have step2 : (eval I (skoRest q bs phi) (ρ.set x s (eval I t ρ))).T ↔ (eval I (skoRest q bs t') ρ).T := by
      rw [skoRest_tr hq (hρ.set hd), skoRest_tr hq hρ]
      have hto : ∀ ρ', Upd I bs ρ ρ' → Upd I bs (ρ.set x s (eval I t ρ)) (ρ'.set x s (eval I t ρ)) := by
        intro ρ' hu
        refine ⟨hu.1.set hd, fun y r hb => ?_⟩
        simp only [Env.set]
        split
        · rfl
        · exact hu.2 y r hb
      have hback : ∀ ρ', Upd I bs (ρ.set x s (eval I t ρ)) ρ' →
          ∃ ρ1, Upd I bs ρ ρ1 ∧ ρ' = ρ1.set x s (eval I t ρ) := by
        intro ρ' hu
        refine ⟨ρ'.set x s (ρ x s), ⟨hu.1.set (hρ x s), fun y r hb => ?_⟩, ?_⟩
        · simp only [Env.set]
          split
          · next e => rw [e.1, e.2]
          · next e =>
            rw [hu.2 y r hb]
            simp only [Env.set]
            rw [if_neg e]
        · funext y r
          simp only [Env.set]
          split
          · next e =>
            rw [e.1, e.2, hu.2 x s hn.1]
            simp [Env.set]
          · rfl
      rcases hq with rfl | rfl
      · simp only [if_true]
        constructor
        · intro h ρ' hu
          rw [hsub ρ' hu.1, hupd_t ρ' hu]
          exact h _ (hto ρ' hu)
        · intro h ρ' hu
          obtain ⟨ρ1, hu1, rfl⟩ := hback ρ' hu
          have := h ρ1 hu1
          rw [hsub ρ1 hu1.1, hupd_t ρ1 hu1] at this
          exact this
      · simp only [if_neg (show Binder.ex ≠ .all by decide)]
        constructor
        · rintro ⟨ρ', hu, h⟩
          obtain ⟨ρ1, hu1, rfl⟩ := hback ρ' hu
          refine ⟨ρ1, hu1, ?_⟩
          rw [hsub ρ1 hu1.1, hupd_t ρ1 hu1]
          exact h
        · rintro ⟨ρ', hu, h⟩
          refine ⟨_, hto ρ' hu, ?_⟩
          rw [hsub ρ' hu.1, hupd_t ρ' hu] at h
          exact h
    have hm' : ∀ b ∈ bs, ∀ t, mapGet m (.var b.1 b.2) = some t → sortOf t = some b.2 ∧ ∀ b' ∈ bs, b' ∉ t.fv :=
      fun b hb t ht => ⟨(hm b (List.mem_cons_of_mem _ hb) t ht).1, fun b' hb' =>
        (hm b (List.mem_cons_of_mem _ hb) t ht).2 b' (List.mem_cons_of_mem _ hb')⟩
    have step3 := skoLoop_sound hq h hrest hn.2 hm' ρ hρ
    rw [step1, step2, step3, hsub _ (skoEnv_ok hρ fun b hb t ht => (hm' b hb t ht).1)]
    have et : eval I t (skoEnv m bs ρ) = eval I t ρ := hkeep fun v hv => by
      unfold skoEnv
      rw [if_neg fun hb => htf v (List.mem_cons_of_mem _ hb) hv]
    rw [et]
    have : (skoEnv m bs ρ).set x s (eval I t ρ) = skoEnv m ((x, s) :: bs) ρ := by
      funext y r
      simp only [Env.set, skoEnv]
      split
      · next e =>
        obtain ⟨rfl, rfl⟩ := e
        rw [if_pos (List.mem_cons_self ..), ht]
      · next e =>
        have : (y, r) ∈ (x, s) :: bs ↔ (y, r) ∈ bs := by
          rw [List.mem_cons]
          exact ⟨fun h => h.resolve_left fun e' => e (by cases e'; exact ⟨rfl, rfl⟩), .inr⟩
        simp only [this]
    rw [this]

end Carcara
