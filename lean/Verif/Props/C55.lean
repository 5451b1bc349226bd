import Verif.Lemmas.ContextRules
import Verif.Lemmas.Scope
import Verif.Lemmas.NoPanic
import Verif.Model.BindLet
import Verif.Spec.Witness

/-!
# C55: `bind_let`

The rule never looks at the anchor of the subproof it closes, nor at the assumptions that are discharged. It is sound
for subproofs without assumptions whose anchor only declares variables, among them the bound ones. In general it is
not.
-/

namespace Carcara
variable {I : Interp}

/-- The claim of **C55**: whatever the anchor `as` and the assumptions `ts` of the subproof, an accepted step follows. -/
def C55Full : Prop :=
  ∀ (Γ : List (List AnchorArg)) (as : List AnchorArg) (ts : List Term) (conclusion previous : List Term)
    (premises : List (List Term)), (∀ a ∈ as, a.ok = true) → (∀ t ∈ ts, sortOf t = some .bool) → ClauseOK conclusion →
    ClauseOK previous → (∀ p ∈ premises, ClauseOK p) → bindLet conclusion premises (some previous) = .ok () →
    CloseSound Γ as ts previous premises conclusion

private theorem bindLetPremises_mem {ps : List (List Term)} {es : List (Term × Term)} (h : bindLetPremises ps = .ok es) :
    ∀ e ∈ es, [.op .equals [e.1, e.2]] ∈ ps := by
  induction ps generalizing es with
  | nil => cases h; intro e he; cases he
  | cons p ps ih =>
    simp only [bindLetPremises, bind_ok, get1_ok, match2_ok, pure_ok, Prod.exists] at h
    obtain ⟨t, rfl, a, b, rfl, es', h1, rfl⟩ := h
    intro e he
    rcases List.mem_cons.1 he with rfl | he
    · exact List.mem_cons_self ..
    · exact List.mem_cons_of_mem _ (ih h1 e he)

private theorem bindLetFind_ok {e : Term × Term} {es es' : List (Term × Term)} (h : bindLetFind e es = .ok es') :
    e ∈ es ∧ ∀ x ∈ es', x ∈ es := by
  induction es with
  | nil => cases h
  | cons p ps ih =>
    unfold bindLetFind at h
    split at h
    · next hp =>
      cases h
      exact ⟨hp ▸ List.mem_cons_self .., fun x hx => List.mem_cons_of_mem _ hx⟩
    · exact ⟨List.mem_cons_of_mem _ (ih h).1, fun x hx => List.mem_cons_of_mem _ ((ih h).2 x hx)⟩

private theorem bindLetPairs_ok {es : List (Term × Term)} {ls rs : List (String × Term)}
    (h : bindLetPairs es ls rs = .ok ()) :
    List.Forall₂ (fun l r => l.1 = r.1 ∧ (l.2 = r.2 ∨ (l.2, r.2) ∈ es)) ls rs := by
  induction ls generalizing es rs with
  | nil => cases rs with
    | nil => exact .nil
    | cons => cases h
  | cons l ls ih => cases rs with
    | nil => cases h
    | cons r rs =>
      simp only [bindLetPairs, bind_ok, require_ok] at h
      obtain ⟨_, hn, es', hf, h⟩ := h
      unfold bindLetJustify at hf
      split at hf
      · next he =>
        cases hf
        exact .cons ⟨hn, .inl he⟩ (ih h)
      · obtain ⟨h1, h2⟩ := bindLetFind_ok hf
        exact .cons ⟨hn, .inr h1⟩ ((ih h).imp fun _ _ hx => ⟨hx.1, hx.2.imp_right (h2 _)⟩)

/-- **C55.** What an accepted step looks like: the bindings have the same names in the same order, their values are equal
or equated by a premise, and the bodies are the two sides of the last clause of the subproof. -/
theorem c55_shape {conclusion previous : List Term} {premises : List (List Term)}
    (h : bindLet conclusion premises (some previous) = .ok ()) :
    ∃ ls rs u u', conclusion = [.op .equals [.let_ ls u, .let_ rs u']] ∧ previous = [.op .equals [u, u']] ∧
      List.Forall₂ (fun l r => l.1 = r.1 ∧ (l.2 = r.2 ∨ [.op .equals [l.2, r.2]] ∈ premises)) ls rs := by
  simp only [bindLet, bind_ok, get1_ok, match2_ok, require_ok, orErr_ok, assertEq_ok, Prod.exists] at h
  obtain ⟨_, hp, _, rfl, _, rfl, u, u', rfl, l, r, rfl, ls, left, hl, rs, right, hr, _, _, es, hes, _, hpairs, _, rfl,
    rfl⟩ := h
  cases hp
  have key : ∀ {t bs b}, asLetErr t = .ok (bs, b) → t = .let_ bs b := by
    intro t bs b h
    unfold asLetErr at h
    split at h
    · simp only [ok_inj, Prod.mk.injEq] at h
      rw [h.1, h.2]
    · cases h
  refine ⟨ls, rs, left, right, by rw [key hl, key hr], rfl, (bindLetPairs_ok hpairs).imp fun _ _ hx => ⟨hx.1, ?_⟩⟩
  exact hx.2.imp_right fun hm => bindLetPremises_mem hes _ hm

/-- If an anchor only declares variables, any values can be chosen for them. -/
private theorem enters_choose {ρ1 : Env I.U} (h1 : I.EnvOK ρ1) : ∀ {as : List AnchorArg} (ρ0 : Env I.U),
    (∀ a ∈ as, ∃ x s, a = .var x s) →
    ∃ ρ, I.Enters as ρ0 ρ ∧ ∀ y r, ρ y r = if .var y r ∈ as then ρ1 y r else ρ0 y r
  | [], ρ0, _ => ⟨ρ0, rfl, fun _ _ => by simp⟩
  | a :: as, ρ0, ha => by
    obtain ⟨x, s, rfl⟩ := ha a (List.mem_cons_self ..)
    obtain ⟨ρ, he, hv⟩ := enters_choose h1 (as := as) (ρ0.set x s (ρ1 x s)) fun a h => ha a (List.mem_cons_of_mem _ h)
    refine ⟨ρ, ⟨_, h1 x s, he⟩, fun y r => ?_⟩
    rw [hv y r]
    by_cases hm : .var y r ∈ as
    · rw [if_pos hm, if_pos (List.mem_cons_of_mem _ hm)]
    · rw [if_neg hm]
      by_cases e : y = x ∧ r = s
      · obtain ⟨rfl, rfl⟩ := e
        rw [if_pos (List.mem_cons_self ..)]
        simp [Env.set]
      · rw [if_neg (by rw [List.mem_cons, not_or]; exact ⟨fun h => e (by cases h; exact ⟨rfl, rfl⟩), hm⟩)]
        simp only [Env.set, if_neg e]

/-- **C55, what holds.** A step is sound if the subproof has no assumptions, its anchor only declares variables, and every
free variable of the two bodies that has the name of a binding is declared by the anchor. The full claim is `C55Full`,
refuted below. -/
theorem c55_bind_let_partial (Γ : List (List AnchorArg)) (as : List AnchorArg) (ls rs : List (String × Term))
    (u u' : Term) (previous : List Term) (premises : List (List Term)) (hpk : ClauseOK previous)
    (hvar : ∀ a ∈ as, ∃ x s, a = .var x s)
    (hdecl : ∀ v ∈ u.fv ++ u'.fv, v.1 ∈ ls.map (·.1) → .var v.1 v.2 ∈ as)
    (hok : bindLet [.op .equals [.let_ ls u, .let_ rs u']] premises (some previous) = .ok ()) :
    CloseSound Γ as [] previous premises [.op .equals [.let_ ls u, .let_ rs u']] := by
  intro I ρ0 h0 _ hprem hprev
  obtain ⟨_, _, _, _, hc, rfl, hpairs⟩ := c55_shape hok
  simp only [List.cons.injEq, Term.op.injEq, Term.let_.injEq, and_true, true_and] at hc
  obtain ⟨⟨rfl, rfl⟩, rfl, rfl⟩ := hc
  obtain ⟨_, r, hu, hu'⟩ := sort_equals.1 (hpk _ (List.mem_singleton_self _))
  rw [satC_one, true_eq]
  simp only [eval, evalB_eq_map]
  have hid : I.Enters as ρ0 ρ0 := by
    obtain ⟨ρ, he, hv⟩ := enters_choose h0 ρ0 hvar
    have : ρ = ρ0 := by
      funext y r
      rw [hv]
      split <;> rfl
    rwa [this] at he
  have hbs : ls.map (fun b => (b.1, eval I b.2 ρ0)) = rs.map (fun b => (b.1, eval I b.2 ρ0)) := by
    clear hok hdecl
    induction hpairs with
    | nil => rfl
    | cons h _ ih =>
      rw [List.map_cons, List.map_cons, ih]
      congr 1
      refine Prod.ext h.1 ?_
      rcases h.2 with e | hm
      · rw [e]
      · have := (hprem _ hm).elim id fun h => h ρ0 hid (fun _ h => by cases h)
        rwa [satC_one, true_eq] at this
  rw [← hbs]
  have h1 : I.EnvOK (I.letMany ρ0 (ls.map fun b => (b.1, eval I b.2 ρ0))) := Interp.EnvOK.letMany h0
  obtain ⟨ρ, he, hv⟩ := enters_choose h1 ρ0 hvar
  have hp := hprev ρ he (fun _ h => by cases h)
  rw [satC_one, true_eq] at hp
  have hagree : ∀ v ∈ u.fv ++ u'.fv, I.letMany ρ0 (ls.map fun b => (b.1, eval I b.2 ρ0)) v.1 v.2 = ρ v.1 v.2 := by
    intro v hm
    rw [hv]
    split
    · rfl
    · next hn =>
      apply letMany_other
      intro hx
      rw [List.map_map] at hx
      exact hn (hdecl v hm hx)
  rw [eval_congr_fv u (u.choiceOK_of_sort (by rw [hu]; rfl)) (.inr h1) fun v h => hagree v (List.mem_append_left _ h),
    eval_congr_fv u' (u'.choiceOK_of_sort (by rw [hu']; rfl)) (.inr h1) fun v h => hagree v (List.mem_append_right _ h)]
  exact hp

/-- **C55.** The rule never panics. -/
theorem c55_no_panic (conclusion : List Term) (premises : List (List Term)) (previous : Option (List Term)) :
    bindLet conclusion premises previous ≠ panic := by
  have prem : ∀ ps, bindLetPremises ps ≠ panic := by
    intro ps
    induction ps with
    | nil => simp [bindLetPremises, nopanic]
    | cons p ps ih => simp [bindLetPremises, nopanic, ih]
  have find : ∀ e es, bindLetFind e es ≠ panic := by
    intro e es
    induction es with
    | nil => simp [bindLetFind, nopanic]
    | cons p ps ih => simp [bindLetFind, nopanic, ih]
  have pairs : ∀ ls es rs, bindLetPairs es ls rs ≠ panic := by
    intro ls
    induction ls with
    | nil => intro es rs; cases rs <;> simp [bindLetPairs, nopanic]
    | cons l ls ih =>
      intro es rs
      cases rs <;> simp [bindLetPairs, bindLetJustify, nopanic, find, ih]
  have aslet : ∀ t, asLetErr t ≠ panic := by
    intro t
    unfold asLetErr
    split <;> simp [nopanic]
  simp [bindLet, nopanic, prem, pairs, aslet]

private theorem bindLetFind_sub {e : Term × Term} {d es : List (Term × Term)} (h : (e :: d).Sublist es) :
    ∃ es', bindLetFind e es = .ok es' ∧ d.Sublist es' := by
  induction es with
  | nil => cases h
  | cons p ps ih =>
    unfold bindLetFind
    by_cases hp : p = e
    · rw [if_pos hp]
      refine ⟨ps, rfl, ?_⟩
      cases h with
      | cons _ h => exact (List.sublist_cons_self e d).trans h
      | cons_cons _ h => exact h
    · rw [if_neg hp]
      cases h with
      | cons _ h => exact ih h
      | cons_cons _ h => exact absurd rfl hp

/-- **C55.** What the rule accepts: bindings with the same names, premises that contain, in order, an equality for each
pair of different values, and the right bodies. Other premises are skipped, as long as they are equalities. -/
theorem c55_complete (ls rs : List (String × Term)) (u u' : Term) (es : List (Term × Term))
    (hn : ls.map (·.1) = rs.map (·.1))
    (hs : (((ls.map (·.2)).zip (rs.map (·.2))).filter fun p => decide (p.1 ≠ p.2)).Sublist es) :
    bindLet [.op .equals [.let_ ls u, .let_ rs u']] (es.map fun e => [.op .equals [e.1, e.2]])
      (some [.op .equals [u, u']]) = .ok () := by
  have hp : ∀ es : List (Term × Term), bindLetPremises (es.map fun e => [.op .equals [e.1, e.2]]) = .ok es := by
    intro es
    induction es with
    | nil => rfl
    | cons e es ih =>
      rw [List.map_cons]
      simp only [bindLetPremises, bind_ok, get1_ok, match2_ok, pure_ok, Prod.exists]
      exact ⟨_, rfl, _, _, rfl, _, ih, rfl⟩
  have hpairs : ∀ (ls rs : List (String × Term)) (es : List (Term × Term)), ls.map (·.1) = rs.map (·.1) →
      (((ls.map (·.2)).zip (rs.map (·.2))).filter fun p => decide (p.1 ≠ p.2)).Sublist es →
      bindLetPairs es ls rs = .ok () := by
    intro ls
    induction ls with
    | nil =>
      intro rs es hn _
      cases rs with
      | nil => rfl
      | cons r rs => cases hn
    | cons l ls ih =>
      intro rs es hn hs
      cases rs with
      | nil => cases hn
      | cons r rs =>
        simp only [List.map_cons, List.cons.injEq] at hn
        simp only [List.map_cons, List.zip_cons_cons] at hs
        simp only [bindLetPairs, bind_ok, require_ok]
        by_cases he : l.2 = r.2
        · refine ⟨(), hn.1, es, by rw [bindLetJustify, if_pos he], ih rs es hn.2 ?_⟩
          rwa [List.filter_cons_of_neg (by simp [he])] at hs
        · rw [List.filter_cons_of_pos (by simp [he])] at hs
          obtain ⟨es', h1, h2⟩ := bindLetFind_sub hs
          exact ⟨(), hn.1, es', by rw [bindLetJustify, if_neg he, h1], ih rs es' hn.2 h2⟩
  have hl : ls.length = rs.length := by simpa using congrArg List.length hn
  simp only [bindLet, bind_ok, get1_ok, match2_ok, require_ok, orErr_ok, assertEq_ok, Prod.exists]
  exact ⟨_, rfl, _, rfl, _, rfl, _, _, rfl, _, _, rfl, _, _, rfl, _, _, rfl, (), hl, es, hp es, (),
    hpairs ls rs es hn hs, (), rfl, rfl⟩

/-! ## Examples and refutations -/

private def X : Term := .var "x" .int
private def Y : Term := .var "y" .int
private def int (n : Int) : Term := .const (.int n)
private def eq (a b : Term) : Term := .op .equals [a, b]

/-- With the anchor `(x Int)` and the premise `(= 1 y)`, the inner step `(= (+ x 0) x)` gives
`(= (let ((x 1)) (+ x 0)) (let ((x y)) x))`; all conditions of the partial theorem hold. -/
example :
    let u := Term.op .add [X, int 0]
    let as : List AnchorArg := [.var "x" .int]
    let c := [eq (.let_ [("x", int 1)] u) (.let_ [("x", Y)] X)]
    bindLet c [[eq (int 1) Y]] (some [eq u X]) = .ok () ∧ ClauseOK c ∧ ClauseOK [eq u X] ∧
      (∀ a ∈ as, ∃ x s, a = .var x s) ∧
      ∀ v ∈ u.fv ++ X.fv, v.1 ∈ ([("x", int 1)] : List (String × Term)).map (·.1) → .var v.1 v.2 ∈ as := by
  refine ⟨by decide, by unfold ClauseOK; decide, by unfold ClauseOK; decide, ?_, by decide⟩
  intro a ha
  rw [List.mem_singleton.1 ha]
  exact ⟨_, _, rfl⟩

/-- The sublist condition of `c55_complete`, with a premise that is skipped. -/
example :
    bindLet [eq (.let_ [("x", int 1), ("y", int 2)] X) (.let_ [("x", Y), ("y", int 2)] X)]
      [[eq X X], [eq (int 1) Y]] (some [eq X X]) = .ok () :=
  c55_complete [("x", int 1), ("y", int 2)] [("x", Y), ("y", int 2)] X X [(X, X), (int 1, Y)] rfl (by decide)

/-- The anchor may assign a value to the bound variable: with the anchor `(:= x 1)` the inner step `(= x 1)` gives
`(= (let ((x 0)) x) (let ((x 0)) 1))`, that is, `0 = 1`. -/
theorem c55_bind_let_fails : ¬ C55Full := by
  intro h
  have hs := h [] [.assign "x" .int (int 1)] [] [eq (.let_ [("x", int 0)] X) (.let_ [("x", int 0)] (int 1))]
    [eq X (int 1)] [] (by decide) (fun _ h => by cases h) (by unfold ClauseOK; decide) (by unfold ClauseOK; decide)
    (fun _ h => by cases h) (by decide)
  let M := Witness.model fun _ _ => .int 0
  have := hs M.I M.env M.env_dom M.env_dom (fun _ h => by cases h) (by
    intro ρ he _
    cases he
    rw [satC_one, show ∀ a b, eq a b = .op .equals [a, b] from fun _ _ => rfl, true_eq]
    simp [X, int, eval, evalConst, Env.set])
  rw [satC_one, show ∀ a b, eq a b = .op .equals [a, b] from fun _ _ => rfl, true_eq] at this
  have hd : M.I.dom .int (.int 0) := (M.I.dom_int _).2 ⟨0, rfl⟩
  simp [X, int, eval, evalConst, Interp.letMany, Interp.letSet, hd] at this

/-- The assumptions of the subproof are forgotten: a subproof that consists of the assumption `(= x 1)` gives the same
conclusion. -/
theorem c55_bind_let_assumption_fails : ¬ ∀ (t : Term) (conclusion : List Term), sortOf t = some .bool →
    ClauseOK conclusion → bindLet conclusion [] (some [t]) = .ok () →
    CloseSound [] [.var "x" .int] [t] [t] [] conclusion := by
  intro h
  have hs := h (eq X (int 1)) [eq (.let_ [("x", int 0)] X) (.let_ [("x", int 0)] (int 1))] (by decide)
    (by unfold ClauseOK; decide) (by decide)
  let M := Witness.model fun _ _ => .int 0
  have := hs M.I M.env M.env_dom M.env_dom (fun _ h => by cases h) (by
    intro ρ he ht
    rw [satC_one]
    exact ht _ (List.mem_singleton_self _))
  rw [satC_one, show ∀ a b, eq a b = .op .equals [a, b] from fun _ _ => rfl, true_eq] at this
  have hd : M.I.dom .int (.int 0) := (M.I.dom_int _).2 ⟨0, rfl⟩
  simp [X, int, eval, evalConst, Interp.letMany, Interp.letSet, hd] at this

end Carcara
