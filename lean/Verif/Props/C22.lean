import Verif.Lemmas.Quantifier
import Verif.Lemmas.Alpha
import Verif.Spec.Witness

/-!
# C22: quantifier rules are sound

`qnt_join`, `qnt_simplify` and `miniscope_distribute` are sound without restrictions. The others are refuted and
proved under side conditions:

* `qnt_rm_unused`, `miniscope_split`, `miniscope_ite` rely on the computed free variables, which miss variables in the
  values of `let` bindings (C26);
* `qnt_cnf` may move a quantifier over a free variable of the same name;
* `forall_inst` inherits the defects of substitution (C25) and alpha-equivalence (C24).
-/

namespace Carcara

/-- The claim of **C22**. -/
def C22Full : Prop := SoundRule forallInst ∧ SoundRule qntJoin ∧ SoundRule qntRmUnused ∧ SoundRule qntSimplify ∧
  SoundRule qntCnf ∧ SoundRule miniscopeDistribute ∧ SoundRule miniscopeSplit ∧ SoundRule miniscopeIte

/-- An equality of Boolean terms holds if both sides are true in the same environments. -/
theorem holds_eq_of_tr {M : Model} {a b : Term} {s : Srt} (h : sortOf (.op .equals [a, b]) = some s)
    (ha : sortOf a = some .bool) (hT : (eval M.I a M.env).T ↔ (eval M.I b M.env).T) : M.Holds (.op .equals [a, b]) := by
  obtain ⟨_, r, ha', hb⟩ := sort_equals.1 h
  rw [ha] at ha'
  cases ha'
  rw [M.holds_eq]
  exact (eq_bool_iff ha hb M.env_dom).2 hT

/-- **C22**: `qnt_join`. -/
theorem c22_qnt_join : SoundRule qntJoin := by
  intro c ps as h hc _ M _
  simp only [qntJoin, bind_ok, get1_ok, match2_ok, asQuantErr_ok, assertEq_ok, require_ok, Prod.exists] at h
  obtain ⟨_, rfl, l, r, rfl, q, bs1, t, ⟨hq, rfl⟩, q2, bs2, phi, ⟨_, rfl⟩, q3, bs3, phi3, ⟨_, rfl⟩, _, rfl, _, rfl, _,
    rfl, rfl⟩ := h
  have hsort := hc _ (List.mem_singleton_self _)
  obtain ⟨_, s, hl, hr⟩ := sort_equals.1 hsort
  obtain ⟨rfl, _, hl2⟩ := (sort_quant hq).1 hl
  rw [Model.sat_singleton]
  refine holds_eq_of_tr hsort hl ?_
  have hcomp : ∀ b, b ∈ dedup (bs1 ++ bs2) ↔ b ∈ bs1 ∨ b ∈ bs2 := fun b => by rw [mem_dedup, List.mem_append]
  rcases hq with rfl | rfl
  · rw [tr_all M.env_dom, tr_all M.env_dom]
    constructor
    · intro h ρ' hu
      obtain ⟨ρ1, h1, h2⟩ := (Upd.comp hcomp M.env_dom).1 hu
      exact (tr_all h1.1).1 (h ρ1 h1) ρ' h2
    · intro h ρ1 h1
      rw [tr_all h1.1]
      exact fun ρ' h2 => h ρ' ((Upd.comp hcomp M.env_dom).2 ⟨ρ1, h1, h2⟩)
  · rw [tr_ex M.env_dom, tr_ex M.env_dom]
    constructor
    · rintro ⟨ρ1, h1, h⟩
      obtain ⟨ρ', h2, h⟩ := (tr_ex h1.1).1 h
      exact ⟨ρ', (Upd.comp hcomp M.env_dom).2 ⟨ρ1, h1, h2⟩, h⟩
    · rintro ⟨ρ', hu, h⟩
      obtain ⟨ρ1, h1, h2⟩ := (Upd.comp hcomp M.env_dom).1 hu
      exact ⟨ρ1, h1, (tr_ex h1.1).2 ⟨ρ', h2, h⟩⟩

/-- **C22**: `qnt_simplify`. -/
theorem c22_qnt_simplify : SoundRule qntSimplify := by
  intro c ps as h hc _ M _
  simp only [qntSimplify, bind_ok, get1_ok, match2_ok, Prod.exists] at h
  obtain ⟨_, rfl, l, r, rfl, h⟩ := h
  have hsort := hc _ (List.mem_singleton_self _)
  obtain ⟨_, s, hl, hr⟩ := sort_equals.1 hsort
  rw [Model.sat_singleton]
  have konst : ∀ {body : Term}, body.isBoolFalse = true ∨ body.isBoolTrue = true → ∀ ρ, eval M.I body ρ =
      eval M.I body M.env := by
    intro body hb ρ
    simp only [Term.isBoolFalse, Term.isBoolTrue, decide_eq_true_eq] at hb
    rcases hb with rfl | rfl <;> simp [eval, Term.tru, Term.fls, evalL]
  split at h
  · next bs body =>
    simp only [bind_ok, require_ok, assertEq_ok] at h
    obtain ⟨_, hb, rfl⟩ := h
    obtain ⟨rfl, _, _⟩ := (sort_quant (.inl rfl)).1 hl
    refine holds_eq_of_tr hsort hl ?_
    rw [tr_all M.env_dom]
    exact ⟨fun h => h _ (.refl M.env_dom), fun h ρ' _ => by rw [konst hb]; exact h⟩
  · next bs body =>
    simp only [bind_ok, require_ok, assertEq_ok] at h
    obtain ⟨_, hb, rfl⟩ := h
    obtain ⟨rfl, _, _⟩ := (sort_quant (.inr rfl)).1 hl
    refine holds_eq_of_tr hsort hl ?_
    rw [tr_ex M.env_dom]
    exact ⟨fun ⟨ρ', _, h⟩ => by rw [konst hb] at h; exact h, fun h => ⟨_, .refl M.env_dom, h⟩⟩
  · cases h

theorem miniDistLoop_ok {q : Binder} {bs : List (String × Srt)} : ∀ {phis rs : List Term}, rs.length = phis.length →
    miniDistLoop q bs phis rs = .ok () → rs = phis.map (.binder q bs)
  | [], [], _, _ => rfl
  | phi :: phis, r :: rs, hl, h => by
    simp only [miniDistLoop, bind_ok, matchBinder_ok, require_ok, assertEq_ok, Prod.exists] at h
    obtain ⟨b, inner, rfl, _, rfl, _, rfl, h⟩ := h
    rw [List.map_cons, ← miniDistLoop_ok (by simpa using hl) h]

/-- **C22**: `miniscope_distribute`. -/
theorem c22_miniscope_distribute : SoundRule miniscopeDistribute := by
  intro c ps as h hc _ M _
  simp only [miniscopeDistribute, bind_ok, get1_ok, require_ok, Prod.exists] at h
  obtain ⟨c, rfl, q, bs, phis, rs, hm, _, hlen, h⟩ := h
  have hrs := miniDistLoop_ok hlen h
  subst hrs
  rw [Model.sat_singleton]
  have hsort := hc _ (List.mem_singleton_self _)
  split at hm
  · next bs' phis' rs' hm' =>
    cases hm
    simp only [matchMini, bind_ok, match2_ok, matchBinder_ok, matchOp_ok, Prod.exists, ok_inj, Prod.mk.injEq] at hm'
    obtain ⟨l, r, rfl, _, body, rfl, _, rfl, _, rfl, rfl, rfl, rfl⟩ := hm'
    obtain ⟨_, s, hl, hr⟩ := sort_equals.1 hsort
    obtain ⟨rfl, _, _⟩ := (sort_quant (.inl rfl)).1 hl
    refine holds_eq_of_tr hsort hl ?_
    rw [tr_all M.env_dom, tr_and]
    constructor
    · intro h t ht
      obtain ⟨phi, hphi, rfl⟩ := List.mem_map.1 ht
      rw [tr_all M.env_dom]
      exact fun ρ' hu => tr_and.1 (h ρ' hu) phi hphi
    · intro h ρ' hu
      rw [tr_and]
      exact fun phi hphi => (tr_all M.env_dom).1 (h _ (List.mem_map.2 ⟨phi, hphi, rfl⟩)) ρ' hu
  · simp only [bind_ok, Prod.exists, ok_inj, Prod.mk.injEq] at hm
    obtain ⟨bs', phis', rs', hm', rfl, rfl, rfl, rfl⟩ := hm
    simp only [matchMini, bind_ok, match2_ok, matchBinder_ok, matchOp_ok, Prod.exists, ok_inj, Prod.mk.injEq] at hm'
    obtain ⟨l, r, rfl, _, body, rfl, _, rfl, _, rfl, rfl, rfl, rfl⟩ := hm'
    obtain ⟨_, s, hl, hr⟩ := sort_equals.1 hsort
    obtain ⟨rfl, _, _⟩ := (sort_quant (.inr rfl)).1 hl
    refine holds_eq_of_tr hsort hl ?_
    rw [tr_ex M.env_dom, tr_or]
    constructor
    · rintro ⟨ρ', hu, h⟩
      obtain ⟨phi, hphi, h⟩ := tr_or.1 h
      exact ⟨_, List.mem_map.2 ⟨phi, hphi, rfl⟩, (tr_ex M.env_dom).2 ⟨ρ', hu, h⟩⟩
    · rintro ⟨t, ht, h⟩
      obtain ⟨phi, hphi, rfl⟩ := List.mem_map.1 ht
      obtain ⟨ρ', hu, h⟩ := (tr_ex M.env_dom).1 h
      exact ⟨ρ', hu, tr_or.2 ⟨phi, hphi, h⟩⟩

/-- **C22**, partial: `qnt_rm_unused`, if the values of `let` bindings are closed. -/
theorem c22_qnt_rm_unused_partial (c : List Term) (ps : List (List Term)) (as : List Term)
    (h : qntRmUnused c ps as = .ok ()) (hc : ClauseOK c) (hp : ∀ t ∈ c, t.closedParts = true) : Valid c := by
  intro M
  simp only [qntRmUnused, bind_ok, get1_ok, match2_ok, asQuantErr_ok, Prod.exists] at h
  obtain ⟨_, rfl, l, r, rfl, q, left, phi, ⟨hq, rfl⟩, h⟩ := h
  have hsort := hc _ (List.mem_singleton_self _)
  obtain ⟨_, s, hl, hr⟩ := sort_equals.1 hsort
  obtain ⟨rfl, _, hphi⟩ := (sort_quant hq).1 hl
  rw [Model.sat_singleton]
  refine holds_eq_of_tr hsort hl ?_
  have hphi' : (sortOf phi).isSome = true := by rw [hphi]; rfl
  have hcp : phi.closedParts = true := by
    have := hp _ (List.mem_singleton_self _)
    simp only [Term.closedParts, Term.closedPartsL, Bool.and_eq_true] at this
    exact this.1
  split at h
  · next hif =>
    obtain ⟨hall, rfl⟩ := hif
    simp only [List.all_eq_true, decide_eq_true_eq] at hall
    have hu : ∀ ρ', Upd M.I left M.env ρ' → eval M.I phi ρ' = eval M.I phi M.env :=
      fun ρ' hu => eval_upd hphi' hcp M.env_dom hu hall
    rcases hq with rfl | rfl
    · rw [tr_all M.env_dom]
      exact ⟨fun h => h _ (.refl M.env_dom), fun h ρ' hu' => by rw [hu ρ' hu']; exact h⟩
    · rw [tr_ex M.env_dom]
      exact ⟨fun ⟨ρ', hu', h⟩ => by rw [hu ρ' hu'] at h; exact h, fun h => ⟨_, .refl M.env_dom, h⟩⟩
  · simp only [bind_ok, asQuantErr_ok, require_ok, assertEq_ok, Prod.exists] at h
    obtain ⟨q2, right, phi2, ⟨_, rfl⟩, _, rfl, _, rfl, _, h1, h2⟩ := h
    -- an update on the left is, up to unused variables, an update on the right
    have key : ∀ ρ', Upd M.I left M.env ρ' → ∃ ρ'', Upd M.I right M.env ρ'' ∧
        eval M.I phi ρ' = eval M.I phi ρ'' := by
      intro ρ' hu
      refine ⟨fun x s => if (x, s) ∈ right then ρ' x s else M.env x s, ⟨fun x s => ?_, fun x s hx => ?_⟩, ?_⟩
      · dsimp only
        split
        · exact hu.1 x s
        · exact M.env_dom x s
      · dsimp only; rw [if_neg hx]
      · refine eval_congr_freeVars hphi' hcp hu.1 fun v hv => ?_
        split
        · rfl
        · next hr =>
          exact hu.2 v.1 v.2 fun hl => h2 v hl hr hv
    rcases hq with rfl | rfl
    · rw [tr_all M.env_dom, tr_all M.env_dom]
      constructor
      · exact fun h ρ' hu => h ρ' (hu.mono h1)
      · intro h ρ' hu
        obtain ⟨ρ'', hu', e⟩ := key ρ' hu
        rw [e]
        exact h ρ'' hu'
    · rw [tr_ex M.env_dom, tr_ex M.env_dom]
      constructor
      · rintro ⟨ρ', hu, h⟩
        obtain ⟨ρ'', hu', e⟩ := key ρ' hu
        exact ⟨ρ'', hu', e ▸ h⟩
      · rintro ⟨ρ', hu, h⟩
        exact ⟨ρ', hu.mono h1, h⟩

/-- **C22**, partial: `qnt_cnf`, if no variable that is only quantified on the right is free in the formula on the
left. -/
theorem c22_qnt_cnf_partial (lbs rbs : List (String × Srt)) (phi phi' : Term) (ps : List (List Term)) (as : List Term)
    (h : qntCnf [.op .or [.op .not [.binder .all lbs phi], .binder .all rbs phi']] ps as = .ok ())
    (hc : ClauseOK [.op .or [.op .not [.binder .all lbs phi], .binder .all rbs phi']])
    (hp : ∀ v ∈ rbs, v ∉ lbs → v ∉ phi.fv) :
    Valid [.op .or [.op .not [.binder .all lbs phi], .binder .all rbs phi']] := by
  intro M
  simp only [qntCnf, bind_ok, get1_ok, match2_ok, match1_ok, asQuantErr_ok, require_ok, Prod.exists] at h
  obtain ⟨_, hcl, _, _, rfl, _, rfl, _, _, _, ⟨_, rfl⟩, _, _, _, ⟨_, rfl⟩, _, rfl, _, rfl, cnf, hcnf, clauses, hcls, _,
    _, _, hmem, _⟩ := h
  cases hcl
  obtain ⟨_, _, hall⟩ := sort_or.1 (hc _ (List.mem_singleton_self _))
  have hl := (sort_not.1 (hall _ (List.mem_cons_self ..))).2
  obtain ⟨_, _, hphi⟩ := (sort_quant (.inl rfl)).1 hl
  rw [Model.sat_singleton, M.holds_or]
  by_cases hT : M.Holds (.binder .all lbs phi)
  · refine ⟨_, List.mem_cons_of_mem _ (List.mem_singleton_self _), ?_⟩
    refine (tr_all M.env_dom).2 fun ρ hu => qntCnf_clause hphi hu.1 hcnf hcls hmem ?_
    have h1 := (tr_all M.env_dom).1 hT (fun x s => if (x, s) ∈ lbs then ρ x s else M.env x s) ⟨fun x s => by
      dsimp only
      split
      · exact hu.1 x s
      · exact M.env_dom x s, fun x s hx => by dsimp only; rw [if_neg hx]⟩
    rwa [eval_congr_fv phi (phi.choiceOK_of_sort (by rw [hphi]; rfl)) (.inr hu.1) (ρ' := fun x s => if (x, s) ∈ lbs then ρ x s else M.env x s)]
    intro v hv
    dsimp only
    split
    · rfl
    · next hl => exact hu.2 v.1 v.2 fun hr => hp v hr hl hv
  · exact ⟨_, List.mem_cons_self .., (M.holds_not _).2 hT⟩

/-- **C22**, partial: `miniscope_split`, if the values of `let` bindings are closed. -/
theorem c22_miniscope_split_partial (c : List Term) (ps : List (List Term)) (as : List Term)
    (h : miniscopeSplit c ps as = .ok ()) (hc : ClauseOK c) (hp : ∀ t ∈ c, t.closedParts = true) : Valid c := by
  intro M
  simp only [miniscopeSplit, bind_ok, get1_ok, require_ok, Prod.exists] at h
  obtain ⟨c, rfl, q, o, bs, phis, rs, hm, _, hlen, _, hloop, hfree⟩ := h
  rw [Model.sat_singleton]
  have hsort := hc _ (List.mem_singleton_self _)
  have hcp := hp _ (List.mem_singleton_self _)
  have hfree' : ∀ r ∈ rs, ∀ v ∈ bs, v ∉ freeVars r := fun r hr v hv hf =>
    hfree v hv (by rw [freeVars]; exact mem_freeVarsL.2 (.inr ⟨r, hr, hf⟩))
  split at hm
  · next bs' phis' rs' hm' =>
    cases hm
    simp only [matchMini, bind_ok, match2_ok, matchBinder_ok, matchOp_ok, Prod.exists, ok_inj, Prod.mk.injEq] at hm'
    obtain ⟨l, r, rfl, _, body, rfl, _, rfl, _, rfl, rfl, rfl, rfl⟩ := hm'
    obtain ⟨_, s, hl, hr⟩ := sort_equals.1 hsort
    obtain ⟨rfl, _, hbody⟩ := (sort_quant (.inl rfl)).1 hl
    simp only [Term.closedParts, Term.closedPartsL, Bool.and_eq_true, Term.closedPartsL_iff] at hcp
    refine holds_eq_of_tr hsort hl ?_
    have := split_tr (I := M.I) (pol := false) hlen.symm hloop (sort_or.1 hbody).2.2 (sort_or.1 hr).2.2
      hcp.2.1 hfree' M.env_dom
    rw [tr_all M.env_dom, tr_or]
    simp only [Signed, Bool.false_eq_true, if_false] at this
    constructor
    · intro h
      by_contra hn
      push Not at hn
      obtain ⟨ρ', hu, h'⟩ := this.2 hn
      obtain ⟨t, ht, hT⟩ := tr_or.1 (h ρ' hu)
      exact h' t ht hT
    · rintro ⟨t, ht, hT⟩ ρ' hu
      by_contra hn
      rw [tr_or] at hn
      push Not at hn
      exact this.1 ⟨ρ', hu, hn⟩ t ht hT
  · simp only [bind_ok, Prod.exists, ok_inj, Prod.mk.injEq] at hm
    obtain ⟨bs', phis', rs', hm', rfl, rfl, rfl, rfl, rfl⟩ := hm
    simp only [matchMini, bind_ok, match2_ok, matchBinder_ok, matchOp_ok, Prod.exists, ok_inj, Prod.mk.injEq] at hm'
    obtain ⟨l, r, rfl, _, body, rfl, _, rfl, _, rfl, rfl, rfl, rfl⟩ := hm'
    obtain ⟨_, s, hl, hr⟩ := sort_equals.1 hsort
    obtain ⟨rfl, _, hbody⟩ := (sort_quant (.inr rfl)).1 hl
    simp only [Term.closedParts, Term.closedPartsL, Bool.and_eq_true, Term.closedPartsL_iff] at hcp
    refine holds_eq_of_tr hsort hl ?_
    have := split_tr (I := M.I) (pol := true) hlen.symm hloop (sort_and.1 hbody).2.2 (sort_and.1 hr).2.2
      hcp.2.1 hfree' M.env_dom
    rw [tr_ex M.env_dom, tr_and]
    simp only [Signed, if_true] at this
    rw [← this]
    exact exists_congr fun ρ' => and_congr_right fun _ => tr_and

/-- **C22**, partial: `miniscope_ite`, if the values of `let` bindings are closed. -/
theorem c22_miniscope_ite_partial (c : List Term) (ps : List (List Term)) (as : List Term)
    (h : miniscopeIte c ps as = .ok ()) (hc : ClauseOK c) (hp : ∀ t ∈ c, t.closedParts = true) : Valid c := by
  classical
  intro M
  simp only [miniscopeIte, bind_ok, get1_ok, match2_ok, match3_ok, matchBinder_ok, assertEq_ok, require_ok,
    Prod.exists] at h
  obtain ⟨_, rfl, _, _, rfl, bs, _, rfl, p1, p2, p3, rfl, _, _, _, rfl, _, _, rfl, _, _, rfl, _, rfl, _, rfl, _, rfl, _,
    rfl, _, rfl, hfree⟩ := h
  have hsort := hc _ (List.mem_singleton_self _)
  have hcp := hp _ (List.mem_singleton_self _)
  obtain ⟨_, s, hl, hr⟩ := sort_equals.1 hsort
  obtain ⟨rfl, _, hbody⟩ := (sort_quant (.inl rfl)).1 hl
  obtain ⟨h1, h2, h3⟩ := sort_ite.1 hbody
  simp only [Term.closedParts, Term.closedPartsL, Bool.and_eq_true] at hcp
  rw [Model.sat_singleton]
  refine holds_eq_of_tr hsort hl ?_
  have hite : ∀ (a b : Term) (ρ : Env M.I.U) (hρ : M.I.EnvOK ρ), (eval M.I (.op .ite [p1, a, b]) ρ).T ↔
      if (eval M.I p1 ρ).T then (eval M.I a ρ).T else (eval M.I b ρ).T := by
    intro a b ρ hρ
    have := Model.val_ite ⟨M.I, ρ, hρ⟩ p1 a b
    change eval M.I _ ρ = if (eval M.I p1 ρ).T then _ else _ at this
    rw [this]
    by_cases hT : (eval M.I p1 ρ).T <;> simp only [hT, if_true, if_false] <;> rfl
  have hsame : ∀ ρ', Upd M.I bs M.env ρ' → eval M.I p1 ρ' = eval M.I p1 M.env := fun ρ' hu =>
    eval_upd (by rw [h1]; rfl) hcp.1.1 M.env_dom hu hfree
  rw [tr_all M.env_dom, hite _ _ _ M.env_dom, tr_all M.env_dom, tr_all M.env_dom]
  by_cases hT : (eval M.I p1 M.env).T
  · rw [if_pos hT]
    refine forall_congr' fun ρ' => imp_congr_right fun hu => ?_
    rw [hite _ _ _ hu.1, hsame ρ' hu, if_pos hT]
  · rw [if_neg hT]
    refine forall_congr' fun ρ' => imp_congr_right fun hu => ?_
    rw [hite _ _ _ hu.1, hsame ρ' hu, if_neg hT]

/-- The conclusion of `forall_inst`. -/
def instClause (bs : List (String × Srt)) (original result : Term) : List Term :=
  [.op .or [.op .not [.binder .all bs original], result]]

theorem instMap_ok : ∀ {bs : List (String × Srt)} {vs : List Term} {m m' : List (Term × Term)},
    instMap bs vs m = .ok m' → ∀ p ∈ m', p ∈ m ∨ ∃ b ∈ bs, p.1 = .var b.1 b.2 ∧ p.2 ∈ vs
  | [], vs, m, m', h, p, hp => by simp only [instMap] at h; cases h; exact .inl hp
  | _ :: _, [], m, m', h, p, hp => by simp only [instMap] at h; cases h; exact .inl hp
  | (x, s) :: bs, v :: vs, m, m', h, p, hp => by
    simp only [instMap, bind_ok, require_ok] at h
    obtain ⟨_, _, h⟩ := h
    rcases instMap_ok h p hp with hp | ⟨b, hb, e, hv⟩
    · rcases mem_mapInsert_cases hp with rfl | hp
      · exact .inr ⟨_, List.mem_cons_self .., rfl, List.mem_cons_self ..⟩
      · exact .inl hp
    · exact .inr ⟨b, List.mem_cons_of_mem _ hb, e, List.mem_cons_of_mem _ hv⟩

/-- **C22**, partial: `forall_inst`, if the quantified formula is safe for the substitution (`quoteSafe`, see C25),
the values of `let` bindings in the arguments are closed, and the result and the substituted formula are safe for the
comparison (see C24). -/
theorem c22_forall_inst_partial (bs : List (String × Srt)) (original result : Term) (ps : List (List Term))
    (args : List Term) (h : forallInst (instClause bs original result) ps args = .ok ())
    (hc : ClauseOK (instClause bs original result)) (hq : original.quoteSafe = true)
    (ha : ∀ a ∈ args, a.closedParts = true)
    (hsafe : ∀ m σ r, instMap bs args [] = .ok m → Subst.new m = .ok σ → σ.apply original = .ok r →
      Comparable false result r.1 ∧ result.aligned r.1 = true ∧ result.barendregt = true ∧ r.1.barendregt = true) :
    Valid (instClause bs original result) := by
  intro M
  simp only [forallInst, bind_ok, get1_ok, match2_ok, match1_ok, matchBinder_ok, require_ok, Prod.exists] at h
  obtain ⟨_, hcl, _, _, rfl, _, rfl, _, _, rfl, _, hlen, m, hm, σ, hσ, t', σ', hap, _, heq, rfl⟩ := h
  cases hcl
  obtain ⟨_, _, hall⟩ := sort_or.1 (hc _ (List.mem_singleton_self _))
  have hl := (sort_not.1 (hall _ (List.mem_cons_self ..))).2
  obtain ⟨_, _, hphi⟩ := (sort_quant (.inl rfl)).1 hl
  have hcp : ∀ p ∈ m, p.2.closedParts = true := by
    intro p hp
    rcases instMap_ok hm p hp with h | ⟨_, _, _, h⟩
    · cases h
    · exact ha _ h
  have hgood := Subst.new_good hcp hσ
  obtain ⟨u, σ'', h1, _, _, h4⟩ := applyGo_ok original.size False σ original (Nat.le_refl _) ⟨by rw [hphi]; rfl, hq⟩
    hgood.1
  rw [Subst.apply, h1] at hap
  cases hap
  obtain ⟨s1, s2, s3, s4⟩ := hsafe m σ (t', σ') hm hσ h1
  have hsame := alphaWith_sound rfl rfl heq s1 s2 s3 s4
  have hmok : MapOK m := hgood.2 ▸ hgood.1.map
  rw [instClause, Model.sat_singleton, M.holds_or]
  by_cases hT : M.Holds (.binder .all bs original)
  · refine ⟨result, List.mem_cons_of_mem _ (List.mem_singleton_self _), ?_⟩
    change (eval M.I result M.env).T
    have hsem := h4.sem M.I M.env M.env_dom
    rw [hgood.2] at hsem
    rw [hsame M.I M.env M.env_dom, hsem]
    refine (tr_all M.env_dom).1 hT _ ⟨hmok.env M.env_dom, fun x s hx => ?_⟩
    unfold Interp.substEnv
    rcases substOf_cases m (x, s) with hmem | e
    · rcases instMap_ok hm _ hmem with h | ⟨b, hb, e, _⟩
      · cases h
      · exact absurd (by rw [var_inj (v := (x, s)) e]; exact hb) hx
    · rw [e]; rfl
  · exact ⟨_, List.mem_cons_self .., (M.holds_not _).2 hT⟩

section Examples

private instance (c : List Term) : Decidable (ClauseOK c) := by unfold ClauseOK; infer_instance

private def X : Term := .var "x" .int
private def Y : Term := .var "y" .int
private def Y' : Term := .var "y'" .int
private def Z : Term := .var "z" .int
private def n (k : Int) : Term := .const (.int k)
private def eq (a b : Term) : Term := .op .equals [a, b]
private def all (x : String) (t : Term) : Term := .binder .all [(x, .int)] t

/-- `(= (forall ((x Int)) (forall ((y Int)) (= x y))) (forall ((x Int) (y Int)) (= x y)))` -/
example : qntJoin [eq (all "x" (all "y" (eq X Y))) (.binder .all [("x", .int), ("y", .int)] (eq X Y))] [] [] = .ok () ∧
    ClauseOK [eq (all "x" (all "y" (eq X Y))) (.binder .all [("x", .int), ("y", .int)] (eq X Y))] := by decide

/-- `(= (forall ((x Int)) false) false)` -/
example : qntSimplify [eq (all "x" .fls) .fls] [] [] = .ok () ∧ ClauseOK [eq (all "x" .fls) .fls] := by decide

/-- `(= (forall ((x Int)) (and (= x y) (= x 1))) (and (forall ((x Int)) (= x y)) (forall ((x Int)) (= x 1))))` -/
example : let c := [eq (all "x" (.op .and [eq X Y, eq X (n 1)])) (.op .and [all "x" (eq X Y), all "x" (eq X (n 1))])]
    miniscopeDistribute c [] [] = .ok () ∧ ClauseOK c := by decide

/-- `(= (forall ((x Int) (y Int)) (= x z)) (forall ((x Int)) (= x z)))` -/
example : let c := [eq (.binder .all [("x", .int), ("y", .int)] (eq X Z)) (all "x" (eq X Z))]
    qntRmUnused c [] [] = .ok () ∧ ClauseOK c ∧ ∀ t ∈ c, t.closedParts = true := by decide

/-- `(= (forall ((x Int)) (or (= x z) (= y z))) (or (forall ((x Int)) (= x z)) (= y z)))` -/
example : let c := [eq (all "x" (.op .or [eq X Z, eq Y Z])) (.op .or [all "x" (eq X Z), eq Y Z])]
    miniscopeSplit c [] [] = .ok () ∧ ClauseOK c ∧ ∀ t ∈ c, t.closedParts = true := by decide

/-- `(= (forall ((x Int)) (ite (= y z) (= x y) (= x z))) (ite (= y z) (forall …) (forall …)))` -/
example : let c := [eq (all "x" (.op .ite [eq Y Z, eq X Y, eq X Z])) (.op .ite [eq Y Z, all "x" (eq X Y), all "x" (eq X Z)])]
    miniscopeIte c [] [] = .ok () ∧ ClauseOK c ∧ ∀ t ∈ c, t.closedParts = true := by decide

/-- `(or (not (forall ((x Int)) (and (= x y) (forall ((z Int)) (= z x))))) (forall ((x Int) (z Int)) (= z x)))` -/
example : let l := .op .and [eq X Y, all "z" (eq Z X)]
    let c : List Term := [.op .or [.op .not [all "x" l], .binder .all [("x", .int), ("z", .int)] (eq Z X)]]
    qntCnf c [] [] = .ok () ∧ ClauseOK c ∧
      ∀ v ∈ [("x", Srt.int), ("z", .int)], v ∉ [("x", Srt.int)] → v ∉ l.fv := by decide

/-- `(or (not (forall ((x Int)) (exists ((y Int)) (= x y)))) (exists ((w Int)) (= y w)))`, by `x ↦ y`: the bound
variable is renamed, and the hypotheses of `c22_forall_inst_partial` hold. -/
example :
    let original : Term := .binder .ex [("y", .int)] (eq X Y)
    let result : Term := .binder .ex [("w", .int)] (eq Y (.var "w" .int))
    let c := instClause [("x", .int)] original result
    forallInst c [] [Y] = .ok () ∧ ClauseOK c ∧ original.quoteSafe = true ∧ (∀ a ∈ [Y], a.closedParts = true) ∧
    (∀ m σ r, instMap [("x", .int)] [Y] [] = .ok m → Subst.new m = .ok σ → σ.apply original = .ok r →
      Comparable false result r.1 ∧ result.aligned r.1 = true ∧ result.barendregt = true ∧
        r.1.barendregt = true) := by
  refine ⟨by decide +kernel, by decide, by decide, by decide, fun m σ r h1 h2 h3 => ?_⟩
  have e1 : instMap [("x", .int)] [Y] [] = .ok [(X, Y)] := by decide
  cases e1.symm.trans h1
  have e2 : Subst.new [(X, Y)] = .ok ⟨[(X, Y)], none, []⟩ := by decide
  cases e2.symm.trans h2
  have e3 : (Subst.apply ⟨[(X, Y)], none, []⟩ (.binder .ex [("y", .int)] (eq X Y))).map Prod.fst =
    .ok (.binder .ex [("y'", .int)] (eq Y Y')) := by decide
  rw [h3] at e3
  rw [Except.ok.inj e3]
  exact ⟨⟨by decide +kernel, by decide +kernel, by decide +kernel, by decide +kernel, by decide +kernel⟩,
    by decide +kernel, by decide +kernel, by decide +kernel⟩

/-- The counterexamples use a model in which all integer variables but one are `0`, and that one is `1`. -/
private theorem exists_model (x : String) : ∃ M : Model, M.env x .int = .int 1 ∧ ∀ y, y ≠ x → M.env y .int = .int 0 := by
  refine ⟨Witness.model fun y _ => if y = x then .int 1 else .int 0, ?_, fun y hy => ?_⟩
  · simp [Witness.model, Witness.coerce, Witness.valSort]; rfl
  · simp [Witness.model, Witness.coerce, Witness.valSort, hy]; rfl

private theorem upd {M : Model} (x : String) (k : Int) : Upd M.I [(x, .int)] M.env (M.env.set x .int (.int k)) := by
  have := Upd.setMany (I := M.I) (bs := [(x, .int)]) M.env_dom (vs := [.int k]) (.cons ((M.I.dom_int _).2 ⟨k, rfl⟩) .nil)
  exact this

private theorem T_eq {I : Interp} {a b : Term} {ρ : Env I.U} : (eval I (eq a b) ρ).T ↔ eval I a ρ = eval I b ρ := by
  simp only [eq, eval, evalL, evalOp, stdOp, Sem.chain, and_true, Option.getD_some, Val.T_prop]

/-- `(let ((y x)) (= y 0))` -/
private def lt : Term := .let_ [("y", X)] (eq Y (n 0))

private theorem T_lt {I : Interp} {ρ : Env I.U} (hρ : I.EnvOK ρ) :
    (eval I lt ρ).T ↔ ρ "x" .int = .int 0 := by
  rw [lt, eval, T_eq]
  obtain ⟨k, hk⟩ := (I.dom_int _).1 (hρ "x" .int)
  simp [Interp.letMany, Interp.letSet, X, n, Y, evalB_eq_map, eval, evalConst, hk, (I.dom_int _).2 ⟨k, rfl⟩]

/-- `(= (forall ((x Int)) (let ((y x)) (= y 0))) (let ((y x)) (= y 0)))` -/
theorem c22_qnt_rm_unused_fails : ¬ SoundRule qntRmUnused := by
  intro h
  obtain ⟨M, hy, h0⟩ := exists_model "y"
  have := h [eq (all "x" lt) lt] [] [] (by decide) (by decide) (by simp) M (by simp)
  rw [Model.sat_singleton] at this
  have := T_eq.1 this
  have hT : (eval M.I (all "x" lt) M.env).T := by rw [this, T_lt M.env_dom]; exact h0 _ (by decide)
  have := (T_lt (upd "x" 1).1).1 ((tr_all M.env_dom).1 hT _ (upd "x" 1))
  simp [Env.set] at this

/-- `(= (forall ((x Int)) (or (= x 1) (let ((y x)) (= y 0)))) (or (forall ((x Int)) (= x 1)) (let ((y x)) (= y 0))))` -/
theorem c22_miniscope_split_fails : ¬ SoundRule miniscopeSplit := by
  intro h
  obtain ⟨M, hy, h0⟩ := exists_model "y"
  have := h [eq (all "x" (.op .or [eq X (n 1), lt])) (.op .or [all "x" (eq X (n 1)), lt])] [] [] (by decide) (by decide)
    (by simp) M (by simp)
  rw [Model.sat_singleton] at this
  have := T_eq.1 this
  have hT : (eval M.I (all "x" (.op .or [eq X (n 1), lt])) M.env).T := by
    rw [this, tr_or]
    exact ⟨lt, by simp, (T_lt M.env_dom).2 (h0 _ (by decide))⟩
  obtain ⟨t, ht, hT⟩ := tr_or.1 ((tr_all M.env_dom).1 hT _ (upd "x" 2))
  simp only [List.mem_cons, List.not_mem_nil, or_false] at ht
  rcases ht with rfl | rfl
  · rw [T_eq] at hT
    simp [X, n, eval, evalConst, Env.set] at hT
  · rw [T_lt (upd "x" 2).1] at hT
    simp [Env.set] at hT

/-- `(= (forall ((x Int)) (ite (let ((y x)) (= y 0)) true false)) (ite (let ((y x)) (= y 0)) (forall ((x Int)) true)
(forall ((x Int)) false)))` -/
theorem c22_miniscope_ite_fails : ¬ SoundRule miniscopeIte := by
  intro h
  obtain ⟨M, hy, h0⟩ := exists_model "y"
  have := h [eq (all "x" (.op .ite [lt, .tru, .fls])) (.op .ite [lt, all "x" .tru, all "x" .fls])] [] [] (by decide)
    (by decide) (by simp) M (by simp)
  rw [Model.sat_singleton] at this
  have := T_eq.1 this
  have hT : (eval M.I (all "x" (.op .ite [lt, .tru, .fls])) M.env).T := by
    rw [this]
    have e : eval M.I (.op .ite [lt, all "x" .tru, all "x" .fls]) M.env = _ := M.val_ite lt _ _
    rw [e, if_pos (show M.Holds lt from (T_lt M.env_dom).2 (h0 _ (by decide)))]
    exact (tr_all M.env_dom).2 fun ρ' _ => by simp [Term.tru, eval, evalL_eq_map, evalOp, stdOp, Val.T, Val.prop]
  have hT := (tr_all M.env_dom).1 hT _ (upd "x" 1)
  have e := Model.val_ite ⟨M.I, _, (upd (M := M) "x" 1).1⟩ lt .tru .fls
  change eval M.I _ _ = _ at e
  rw [e, if_neg] at hT
  · revert hT
    change ¬ (eval M.I .fls _).T
    simp [Term.fls, eval, evalL_eq_map, evalOp, stdOp, Val.T, Val.prop]
  · change ¬ (eval M.I lt _).T
    rw [T_lt (upd "x" 1).1]
    simp [Env.set]

/-- `(or (not (forall ((y Int)) (or (forall ((x Int)) (= x x)) (= x 1)))) (forall ((x Int)) …))`: the free `x` on the
left is captured. -/
theorem c22_qnt_cnf_fails : ¬ SoundRule qntCnf := by
  intro h
  obtain ⟨M, hx, h0⟩ := exists_model "x"
  have := h [.op .or [.op .not [all "y" (.op .or [all "x" (eq X (n 1)), eq X (n 1)])],
    all "x" (.op .or [eq X (n 1), eq X (n 1)])]] [] [] (by decide) (by decide) (by simp) M (by simp)
  rw [Model.sat_singleton, M.holds_or] at this
  obtain ⟨t, ht, hT⟩ := this
  simp only [List.mem_cons, List.not_mem_nil, or_false] at ht
  rcases ht with rfl | rfl
  · refine (M.holds_not _).1 hT ((tr_all M.env_dom).2 fun ρ' hu => tr_or.2 ⟨eq X (n 1), by simp, T_eq.2 ?_⟩)
    simp [X, n, eval, evalConst, hu.2 "x" .int (by simp), hx]
  · obtain ⟨t, ht, hT⟩ := tr_or.1 ((tr_all M.env_dom).1 hT _ (upd "x" 2))
    simp only [List.mem_cons, List.not_mem_nil, or_false, or_self] at ht
    subst ht
    rw [T_eq] at hT
    simp [X, n, eval, evalConst, Env.set] at hT

/-- `(or (not (forall ((x Int)) (forall ((y Int)) (=> (= x y') (= y' 0))))) (forall ((y' Int)) (=> (= y y') (= y' 0))))`
with `x ↦ y`: the substitution renames the bound `y` to `y'`, which captures the free `y'`. -/
theorem c22_forall_inst_fails : ¬ SoundRule forallInst := by
  intro h
  obtain ⟨M, hy, h0⟩ := exists_model "y"
  have := h (instClause [("x", .int)] (all "y" (.op .implies [eq X Y', eq Y' (n 0)]))
    (all "y'" (.op .implies [eq Y Y', eq Y' (n 0)]))) [] [Y] (by decide +kernel) (by decide) (by simp) M (by simp)
  rw [instClause, Model.sat_singleton, M.holds_or] at this
  obtain ⟨t, ht, hT⟩ := this
  simp only [List.mem_cons, List.not_mem_nil, or_false] at ht
  have impl : ∀ (a b : Term) (ρ : Env M.I.U), M.I.EnvOK ρ →
      ((eval M.I (.op .implies [a, b]) ρ).T ↔ ((eval M.I a ρ).T → (eval M.I b ρ).T)) :=
    fun a b ρ hρ => Model.holds_implies ⟨M.I, ρ, hρ⟩ a b
  rcases ht with rfl | rfl
  · refine (M.holds_not _).1 hT ((tr_all M.env_dom).2 fun ρ' hu => (tr_all hu.1).2 fun ρ'' hu' => ?_)
    refine (impl _ _ _ hu'.1).2 fun _ => T_eq.2 ?_
    simp [Y', n, eval, evalConst, hu'.2 "y'" .int (by decide), hu.2 "y'" .int (by decide), h0 "y'" (by decide)]
  · have := (impl _ _ _ (upd "y'" 1).1).1 ((tr_all M.env_dom).1 hT _ (upd "y'" 1)) (by
      rw [T_eq]; simp [Y, Y', eval, Env.set, hy])
    rw [T_eq] at this
    simp [Y', n, eval, evalConst, Env.set] at this

theorem c22_full_fails : ¬ C22Full := fun h => c22_forall_inst_fails h.1

end Examples

end Carcara
