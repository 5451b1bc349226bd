import Verif.Lemmas.SubstitutionApply
import Verif.Lemmas.SubstitutionSort
import Verif.Spec.Witness

/-!
# C25: substitution is capture avoiding

"Applying a substitution to a term yields a term whose value in any interpretation equals the value of the original
term in the interpretation updated with the values of the substituted terms."
-/

namespace Carcara
open Classical Val

/-- The full claim: a substitution that the code accepts can be applied to every term, with the right meaning. -/
def C25Full : Prop :=
  ∀ (m : List (Term × Term)) (σ : Subst) (t : Term), (sortOf t).isSome = true → Subst.new m = .ok σ →
    ∃ t' σ', σ.apply t = .ok (t', σ') ∧ SubstOK m t t'

/-- Partial: the claim holds, and sorts are preserved, for terms that are safe for the way new names are made: no
variable in the scope of a binder differs from one of its variables only in sort or in quotes at the end of the name,
and there is no `let`. Nothing is assumed about the names in the substitution. Missing: the other terms, for which the
claim is false (`c25_substitution_fails`, `c25_substitution_let_fails`). -/
theorem c25_substitution_partial (m : List (Term × Term)) (σ : Subst) (t : Term) (hs : (sortOf t).isSome = true)
    (hq : t.quoteSafe = true) (hv : ∀ p ∈ m, p.2.closedParts = true) (hm : Subst.new m = .ok σ) :
    ∃ t' σ', σ.apply t = .ok (t', σ') ∧ SubstOK m t t' ∧ sortOf t' = sortOf t := by
  obtain ⟨hg, rfl⟩ := Subst.new_good hv hm
  obtain ⟨t', σ', h1, _, _, h4⟩ := applyGo_ok t.size False σ t (Nat.le_refl _) ⟨hs, hq⟩ hg
  exact ⟨t', σ', h1, h4.sem, h4.sort⟩

/-- The substitution objects that arise from calls of `empty`, `new`, `insert` and `apply`. -/
inductive SubstHistory : Subst → Prop where
  | empty : SubstHistory .empty
  | new {m σ} : (∀ p ∈ m, p.2.closedParts = true) → Subst.new m = .ok σ → SubstHistory σ
  | insert {σ σ' x u} : SubstHistory σ → u.closedParts = true → σ.insert x u = .ok σ' → SubstHistory σ'
  | apply {σ σ' t t'} : SubstHistory σ → (sortOf t).isSome = true → t.quoteSafe = true →
      σ.apply t = .ok (t', σ') → SubstHistory σ'

theorem SubstHistory.good {σ : Subst} (h : SubstHistory σ) : SubstGood False σ := by
  induction h with
  | empty => exact ⟨fun p h => (by cases h), fun h => h.elim, fun l h => (by cases h), fun t u h => (by cases h)⟩
  | new hv hm => exact (Subst.new_good hv hm).1
  | insert _ hu h ih => exact (Subst.insert_good ih hu h).1
  | apply _ hs hq h ih =>
    obtain ⟨t', σ', h1, _, h3, _⟩ := applyGo_ok _ False _ _ (Nat.le_refl _) ⟨hs, hq⟩ ih
    rw [Subst.apply, h1] at h
    cases h
    exact h3

/-- Partial: the same after any history of insertions and applications. In particular the results remembered from
earlier calls stay right when mappings are added. Missing: as above, and `remove` (`c25_remove_fails`). -/
theorem c25_substitution_history_partial (σ : Subst) (t : Term) (h : SubstHistory σ)
    (hs : (sortOf t).isSome = true) (hq : t.quoteSafe = true) :
    ∃ t' σ', σ.apply t = .ok (t', σ') ∧ SubstOK σ.map t t' ∧ sortOf t' = sortOf t := by
  obtain ⟨t', σ', h1, _, _, h4⟩ := applyGo_ok t.size False σ t (Nat.le_refl _) ⟨hs, hq⟩ h.good
  exact ⟨t', σ', h1, h4.sem, h4.sort⟩

/-- The mappings in force are those that were inserted, the last one for each variable. -/
theorem c25_insert_map (σ σ' : Subst) (x u : Term) (h : σ.insert x u = .ok σ') (v : String × Srt) :
    substOf σ'.map v = if x = .var v.1 v.2 then u else substOf σ.map v := by
  unfold Subst.insert at h
  split at h
  · split at h
    · cases h
      simp only [substOf_eq, mapGet_insert]
      split <;> simp
    · cases h
  · cases h

/-- Applying a substitution does not change its mappings. -/
theorem c25_apply_map (σ σ' : Subst) (t t' : Term) (h : SubstHistory σ) (hs : (sortOf t).isSome = true)
    (hq : t.quoteSafe = true) (ha : σ.apply t = .ok (t', σ')) : σ'.map = σ.map := by
  obtain ⟨u, σ'', h1, h2, _, _⟩ := applyGo_ok t.size False σ t (Nat.le_refl _) ⟨hs, hq⟩ h.good
  rw [Subst.apply, h1] at ha
  cases ha
  exact h2

/-- A substitution preserves the sort of every term that it is applied to, whatever names occur. -/
theorem c25_sort (m : List (Term × Term)) (σ σ' : Subst) (t t' : Term) (hm : Subst.new m = .ok σ) (hs : (sortOf t).isSome = true)
    (h : σ.apply t = .ok (t', σ')) : sortOf t' = sortOf t := Subst.apply_sort hm hs h

/-- The renaming loop stops, at a name that is not to be avoided. -/
theorem c25_fresh_name (avoid : List String) (x : String) : freshName avoid x ∉ avoid := freshName_not_mem avoid x

section Examples

private def X : Term := .var "x" .int
private def Y : Term := .var "y" .int
private def Y' : Term := .var "y'" .int

/-- The result of applying a new substitution. -/
private def run (m : List (Term × Term)) (t : Term) : Res Term := do
  let σ ← Subst.new m
  let r ← σ.apply t
  .ok r.1

/-- `{x ↦ y}` on `(and (= x 1) (forall ((y Int)) (exists ((z Int)) (= x y))))`: the bound `y` is renamed. -/
example :
    let t : Term := .op .and [.op .equals [X, .const (.int 1)],
      .binder .all [("y", .int)] (.binder .ex [("z", .int)] (.op .equals [X, Y]))]
    (sortOf t).isSome = true ∧ t.quoteSafe = true ∧
      run [(X, Y)] t = .ok (.op .and [.op .equals [Y, .const (.int 1)],
        .binder .all [("y'", .int)] (.binder .ex [("z", .int)] (.op .equals [Y, .var "y'" .int]))]) := by decide

/-- A shadowed variable: `{x ↦ y}` does not touch `(exists ((x Int)) (= x 1))`. -/
example :
    let t : Term := .binder .ex [("x", .int)] (.op .equals [X, .const (.int 1)])
    (sortOf t).isSome = true ∧ t.quoteSafe = true ∧ run [(X, Y)] t = .ok t := by decide

/-- A history: insert `x ↦ y`, apply, insert `y ↦ 1`, apply again. -/
example :
    (do
      let σ ← Subst.empty.insert X Y
      let (t1, σ) ← σ.apply (.op .equals [X, Y])
      let σ ← σ.insert Y (.const (.int 1))
      let (t2, _) ← σ.apply (.op .equals [X, Y])
      .ok (t1, t2) : Res (Term × Term)) =
    .ok (.op .equals [Y, Y], .op .equals [Y, .const (.int 1)]) := by decide

/-- `{x ↦ y}` on `(forall ((y Int)) (= x y'))` renames the bound variable to `y'`, which captures the free `y'`. -/
theorem c25_substitution_fails : ¬ C25Full := by
  intro h
  let t : Term := .binder .all [("y", .int)] (.op .equals [X, Y'])
  obtain ⟨t', σ', ha, hok⟩ := h [(X, Y)] ⟨[(X, Y)], none, []⟩ t (by decide) (by decide)
  have e : t' = .binder .all [("y'", .int)] (.op .equals [Y, Y']) := by
    have : run [(X, Y)] t = .ok (.binder .all [("y'", .int)] (.op .equals [Y, Y'])) := by decide
    have hrun : run [(X, Y)] t = .ok t' := bind_ok.2 ⟨⟨[(X, Y)], none, []⟩, by decide, bind_ok.2 ⟨_, ha, rfl⟩⟩
    rw [this] at hrun
    exact (Except.ok.inj hrun).symm
  subst e
  let M := Witness.model fun _ _ => .int 0
  have env : ∀ x, M.env x .int = .int 0 := by
    intro x; simp [M, Witness.model, Witness.coerce, Witness.valSort]; rfl
  have hev := hok M.I M.env M.env_dom
  have hr : eval M.I t (M.I.substEnv [(X, Y)] M.env) = .bool true := by
    simp only [t, eval, evalBinder, Val.prop]
    simp only [Val.bool.injEq]
    refine decide_eq_true ?_
    intro vs hvs
    match vs, hvs with
    | [v], _ =>
      simp [Env.setMany, Env.set, X, Y', eval, evalOp, stdOp, Interp.substEnv, substOf, Y, env, Val.T,
        Val.prop, Sem.chain]
  have hl : eval M.I (.binder .all [("y'", .int)] (.op .equals [Y, Y'])) M.env = .bool false := by
    simp only [eval, evalBinder, Val.prop]
    simp only [Val.bool.injEq]
    refine decide_eq_false ?_
    intro hall
    have := hall [.int 1] (.cons ((M.I.dom_int _).2 ⟨1, rfl⟩) .nil)
    simp [Env.setMany, Env.set, Y, Y', eval, evalOp, stdOp, env, Val.T, Val.prop, Sem.chain] at this
  rw [hl, hr] at hev
  cases hev

/-- A new substitution panics on every `let` with bindings that it reaches. -/
theorem c25_substitution_let_fails : ∃ (m : List (Term × Term)) (σ : Subst) (t : Term),
    sortOf t = some .int ∧ Subst.new m = .ok σ ∧ σ.apply t = panic :=
  ⟨[(X, Y)], ⟨[(X, Y)], none, []⟩, .let_ [("z", .const (.int 1))] X, by decide, by decide, by decide⟩

/-- `remove` keeps results that depended on the removed mapping: after `{x ↦ 5}`, an application and the removal of
`x`, the term `x = 1` is still mapped to `5 = 1`. -/
theorem c25_remove_fails : ∃ σ σ' σ'' : Subst, ∃ t t', SubstHistory σ' ∧ σ'' = σ'.remove X ∧ σ''.map = [] ∧
    σ''.apply t = .ok (t', σ'') ∧ ¬ SubstOK σ''.map t t' := by
  let t : Term := .op .equals [X, .const (.int 1)]
  let t' : Term := .op .equals [.const (.int 5), .const (.int 1)]
  let σ : Subst := ⟨[(X, .const (.int 5))], none, []⟩
  let σ' : Subst := ⟨[(X, .const (.int 5))], none, [(.const (.int 1), .const (.int 1)), (t, t')]⟩
  refine ⟨σ, σ', ⟨[], none, [(.const (.int 1), .const (.int 1)), (t, t')]⟩, t, t', ?_, by decide, rfl, by decide, ?_⟩
  · exact .apply (σ := σ) (t := t) (t' := t') (.new (m := [(X, .const (.int 5))]) (by decide) (by decide)) (by decide)
      (by decide) (by decide)
  · intro hok
    let M := Witness.model fun _ _ => .int 1
    have env : ∀ x, M.env x .int = .int 1 := by
      intro x; simp [M, Witness.model, Witness.coerce, Witness.valSort]; rfl
    have := hok M.I M.env M.env_dom
    simp [t, t', X, eval, evalOp, stdOp, Interp.substEnv, substOf, env, Val.prop, Sem.chain, evalConst] at this

end Examples

end Carcara
