import Verif.Model.Polynomial
import Verif.Lemmas.ArithSimplify

/-! # Values of linear combinations and polynomials -/

namespace Carcara
open Classical Val Sem

/-! ## Maps from keys to coefficients -/

/-- The value of a coefficient map for a valuation of its keys. -/
noncomputable def coeffEval {α : Type} (f : α → ℝ) (m : List (α × Rat)) : ℝ :=
  (m.map fun e => (e.2 : ℝ) * f e.1).sum

section
variable {α : Type} (f : α → ℝ)

@[simp] theorem coeffEval_nil : coeffEval f [] = 0 := rfl
@[simp] theorem coeffEval_cons (e : α × Rat) (m : List (α × Rat)) :
    coeffEval f (e :: m) = (e.2 : ℝ) * f e.1 + coeffEval f m := rfl

theorem coeffEval_insert [DecidableEq α] (k : α) (v : Rat) (m : List (α × Rat)) :
    coeffEval f (coeffInsert k v m) = coeffEval f m + v * f k := by
  induction m with
  | nil => simp [coeffInsert]
  | cons e m ih =>
    simp only [coeffInsert]
    split
    · next h =>
      subst h
      split
      · next hz =>
        have : (e.2 : ℝ) + v = 0 := by exact_mod_cast hz
        simp only [coeffEval_cons]
        linear_combination -(f e.1) * this
      · simp only [coeffEval_cons]; push_cast; ring
    · simp only [coeffEval_cons, ih]; ring

theorem coeffEval_add [DecidableEq α] (k : α) (v : Rat) (m : List (α × Rat)) :
    coeffEval f (coeffAdd m k v) = coeffEval f m + v * f k := by
  unfold coeffAdd
  split
  · next h => simp [h]
  · exact coeffEval_insert ..

theorem coeffEval_addAll [DecidableEq α] (m' m : List (α × Rat)) :
    coeffEval f (m'.foldl (fun m e => coeffAdd m e.1 e.2) m) = coeffEval f m + coeffEval f m' := by
  induction m' generalizing m with
  | nil => simp
  | cons e m' ih => simp only [List.foldl_cons, ih, coeffEval_add, coeffEval_cons]; ring

theorem coeffEval_scale (m : List (α × Rat)) (s : Rat) :
    coeffEval f (m.map fun e => (e.1, e.2 * s)) = coeffEval f m * s := by
  induction m with
  | nil => simp
  | cons e m ih => simp only [List.map_cons, coeffEval_cons, ih]; push_cast; ring

theorem coeffEval_neg (m : List (α × Rat)) : coeffEval f (m.map fun e => (e.1, -e.2)) = - coeffEval f m := by
  induction m with
  | nil => simp
  | cons e m ih => simp only [List.map_cons, coeffEval_cons, ih]; push_cast; ring
end

/-! ## Linear combinations -/

namespace LinComb
variable (f : Term → ℝ)

/-- Value of a linear combination. -/
noncomputable def eval (a : LinComb) : ℝ := coeffEval f a.terms + a.const

theorem eval_insert (a : LinComb) (k : Term) (v : Rat) : (a.insert k v).eval f = a.eval f + v * f k := by
  simp only [eval, insert, coeffEval_add]; ring

theorem eval_add (a b : LinComb) : (a.add b).eval f = a.eval f + b.eval f := by
  simp only [eval, add, coeffEval_addAll]; push_cast; ring

theorem eval_neg (a : LinComb) : a.neg.eval f = - a.eval f := by
  simp only [eval, neg, coeffEval_neg]; push_cast; ring

theorem eval_sub (a b : LinComb) : (a.sub b).eval f = a.eval f - b.eval f := by
  rw [sub, eval_add, eval_neg]; ring

theorem terms_mul (a : LinComb) (s : Rat) : coeffEval f (a.mul s).terms = coeffEval f a.terms * s := by
  unfold mul
  split
  · next h => simp [h, zero]
  · split
    · next h => simp [h]
    · exact coeffEval_scale ..

theorem const_mul (a : LinComb) (s : Rat) : (a.mul s).const = a.const * s := by
  unfold mul
  split
  · next h => simp [h, zero]
  · split
    · next h => simp [h]
    · rfl

theorem addTerms_eval {M : Model} : ∀ {ts : List Term} {c : Rat} {lc lc' : LinComb},
    (∀ t ∈ ts, ∀ {c : Rat} {lc lc' : LinComb}, addTerm t c lc = .ok lc' →
      lc'.eval M.numv = lc.eval M.numv + c * M.numv t) →
    addTerms ts c lc = .ok lc' → lc'.eval M.numv = lc.eval M.numv + c * (ts.map M.numv).sum := by
  intro ts
  induction ts with
  | nil => intro c lc lc' _ h; simp only [addTerms, ok_inj] at h; simp [h]
  | cons t ts ih =>
    intro c lc lc' ht h
    simp only [addTerms, bind_ok] at h
    obtain ⟨lc1, h1, h2⟩ := h
    rw [ih (fun u hu => ht u (by simp [hu])) h2, ht t (by simp) h1]
    simp only [List.map_cons, List.sum_cons]; ring

/-- The linear combination of a term has the value of the term. -/
theorem addTerm_eval {M : Model} (t : Term) : ∀ {s : Srt}, sortOf t = some s → t.exactDivs = true →
    ∀ {c : Rat} {lc lc' : LinComb}, addTerm t c lc = .ok lc' → lc'.eval M.numv = lc.eval M.numv + c * M.numv t := by
  induction t using Term.ind with
  | op o as ih =>
    intro s hs hx c lc lc' h
    have hargs : ∀ r : Srt, (∀ t ∈ as, sortOf t = some r) → ∀ t ∈ as, ∀ {c : Rat} {lc lc' : LinComb},
        addTerm t c lc = .ok lc' → lc'.eval M.numv = lc.eval M.numv + c * M.numv t :=
      fun r hr t ht => ih t ht (hr t ht) (exact_args hx t ht)
    unfold addTerm at h
    split at h
    · next heq =>
      cases heq
      obtain ⟨-, hc⟩ := fold_children (Or.inl rfl) hs
      rw [addTerms_eval (hargs _ hc) h, M.numv_add hs]
    · simp at h
    · next heq =>
      cases heq
      obtain ⟨h1, -⟩ := sort_neg hs
      rw [ih _ (by simp) h1 (exact_args hx _ (by simp)) h, M.numv_neg hs]; push_cast; ring
    · next a as' hne heq =>
      cases heq
      obtain ⟨hne', hc⟩ := arith_children (Or.inr (Or.inl rfl)) hs
      have hc : ∀ t ∈ a :: as', sortOf t = some s := by
        rcases hc with ⟨rfl, h⟩ | ⟨rfl, h⟩ <;> exact h
      simp only [bind_ok] at h
      obtain ⟨lc1, h1, h2⟩ := h
      cases as' with
      | nil => exact absurd rfl hne
      | cons b bs =>
        rw [addTerms_eval (fun t ht => hargs _ hc t (by simp [ht])) h2, ih a (by simp) (hc a (by simp))
          (exact_args hx a (by simp)) h1, M.numv_sub hs]
        push_cast; ring
    · next a b heq =>
      cases heq
      obtain ⟨-, hc⟩ := fold_children (Or.inr rfl) hs
      have ha := hc a (by simp)
      have hb := hc b (by simp)
      have xa := exact_args hx a (by simp)
      have xb := exact_args hx b (by simp)
      simp only [bind_ok] at h
      obtain ⟨p, hp, q, hq, h⟩ := h
      have hm := M.numv_mult hs
      simp only [List.map_cons, List.map_nil, List.prod_cons, List.prod_nil, mul_one] at hm
      split at h
      · rw [ih a (by simp) ha xa h, hm, (asFraction_spec hq hb xb).2.2]; push_cast; ring
      · rw [ih b (by simp) hb xb h, hm, (asFraction_spec hp ha xa).2.2]; push_cast; ring
      · simp only [ok_inj] at h
        rw [← h, eval_insert]
    · simp only [bind_ok] at h
      obtain ⟨r, hr, h⟩ := h
      cases r with
      | none => simp only [ok_inj] at h; rw [← h, eval_insert]
      | some r =>
        simp only [ok_inj] at h
        rw [← h, (asFraction_spec hr hs hx).2.2]
        simp only [eval]; push_cast; ring
  | _ =>
    intro s hs hx c lc lc' h
    simp only [addTerm, bind_ok] at h
    obtain ⟨r, hr, h⟩ := h
    cases r with
    | none => simp only [ok_inj] at h; rw [← h, eval_insert]
    | some r =>
      simp only [ok_inj] at h
      rw [← h, (asFraction_spec hr hs hx).2.2]
      simp only [eval]; push_cast; ring

theorem fromTerm_eval {M : Model} {t : Term} {s : Srt} (hs : sortOf t = some s) (hx : t.exactDivs = true)
    {lc : LinComb} (h : fromTerm t = .ok lc) : lc.eval M.numv = M.numv t := by
  rw [addTerm_eval t hs hx h]; simp [eval, zero]

end LinComb
end Carcara
