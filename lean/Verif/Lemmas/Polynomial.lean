import Verif.Lemmas.Linear
import Mathlib.Algebra.BigOperators.Group.List.Basic

/-! # Facts used in the proofs about polynomials -/

namespace Carcara
open Classical Val Sem

/-- Value of a monomial. -/
noncomputable def monoEval (f : Term → ℝ) (m : List Term) : ℝ := (m.map f).prod

theorem monoInsert_perm (addr : Term → Nat) (t : Term) (ts : List Term) : (monoInsert addr t ts).Perm (t :: ts) := by
  induction ts with
  | nil => exact List.Perm.refl _
  | cons u us ih =>
    simp only [monoInsert]
    split
    · exact List.Perm.refl _
    · exact (ih.cons u).trans (List.Perm.swap ..)

theorem monoSort_perm (addr : Term → Nat) (ts : List Term) : (monoSort addr ts).Perm ts := by
  induction ts with
  | nil => exact List.Perm.refl _
  | cons t ts ih => exact (monoInsert_perm ..).trans (ih.cons t)

theorem monoEval_mul (addr : Term → Nat) (f : Term → ℝ) (a b : List Term) :
    monoEval f (monoMul addr a b) = monoEval f a * monoEval f b := by
  unfold monoEval monoMul
  rw [((monoSort_perm addr (a ++ b)).map f).prod_eq]
  simp

@[simp] theorem monoEval_single (f : Term → ℝ) (t : Term) : monoEval f [t] = f t := by simp [monoEval]

namespace Polynom
variable (f : Term → ℝ)

/-- Value of a polynomial. -/
noncomputable def eval (p : Polynom) : ℝ := coeffEval (monoEval f) p.terms + p.const

theorem eval_zero : zero.eval f = 0 := by simp [eval, zero]

theorem eval_insert (p : Polynom) (m : List Term) (v : Rat) : (p.insert m v).eval f = p.eval f + v * monoEval f m := by
  simp only [eval, insert, coeffEval_add]; ring

theorem insertAll_eval (g : List Term × Rat → List Term) (k : List Term × Rat → Rat) (x : ℝ)
    (h : ∀ e : List Term × Rat, (k e : ℝ) * monoEval f (g e) = x * (e.2 * monoEval f e.1)) :
    ∀ (m : List (List Term × Rat)) (r : Polynom),
      (m.foldl (fun r e => r.insert (g e) (k e)) r).eval f = r.eval f + x * coeffEval (monoEval f) m := by
  intro m
  induction m with
  | nil => intro r; simp
  | cons e m ih =>
    intro r
    rw [List.foldl_cons, ih, eval_insert, h, coeffEval_cons]; ring

theorem eval_mulMono (addr : Term → Nat) (x : List Term) (c : Rat) (q r : Polynom) :
    (mulMono addr x c q r).eval f = r.eval f + c * monoEval f x * q.eval f := by
  unfold mulMono
  rw [eval_insert, insertAll_eval f (fun e => monoMul addr x e.1) (fun e => c * e.2) (c * monoEval f x)]
  · simp only [eval]; push_cast; ring
  · intro e; rw [monoEval_mul]; push_cast; ring

theorem eval_mul (addr : Term → Nat) (p q : Polynom) : (mul addr p q).eval f = p.eval f * q.eval f := by
  have h1 : ∀ (m : List (List Term × Rat)) (r : Polynom),
      (m.foldl (fun r e => mulMono addr e.1 e.2 q r) r).eval f = r.eval f + coeffEval (monoEval f) m * q.eval f := by
    intro m
    induction m with
    | nil => intro r; simp
    | cons e m ih => intro r; rw [List.foldl_cons, ih, eval_mulMono, coeffEval_cons]; ring
  have h2 := insertAll_eval f (fun e => e.1) (fun e => e.2 * p.const) p.const (fun e => by push_cast; ring) q.terms
    (p.terms.foldl (fun r e => mulMono addr e.1 e.2 q r) zero)
  rw [h1, eval_zero] at h2
  have h3 : (mul addr p q).eval f = (q.terms.foldl (fun r e => r.insert e.1 (e.2 * p.const))
      (p.terms.foldl (fun r e => mulMono addr e.1 e.2 q r) zero)).eval f + p.const * q.const := by
    simp only [mul, eval]; push_cast; ring
  rw [h3, h2]
  simp only [eval]; ring

theorem eval_addScaled (p q : Polynom) (c : Rat) : (p.addScaled q c).eval f = p.eval f + c * q.eval f := by
  have h2 := insertAll_eval f (fun e => e.1) (fun e => e.2 * c) c (fun e => by push_cast; ring) q.terms p
  have h3 : (p.addScaled q c).eval f = (q.terms.foldl (fun r e => r.insert e.1 (e.2 * c)) p).eval f + c * q.const := by
    simp only [addScaled, eval]; push_cast; ring
  rw [h3, h2]; simp only [eval]; ring

theorem eval_add (a b : Polynom) : (a.add b).eval f = a.eval f + b.eval f := by
  simp only [eval, add, coeffEval_addAll]; push_cast; ring

theorem eval_neg (a : Polynom) : a.neg.eval f = - a.eval f := by
  simp only [eval, neg, coeffEval_neg]; push_cast; ring

theorem eval_sub (a b : Polynom) : (a.sub b).eval f = a.eval f - b.eval f := by
  rw [sub, eval_add, eval_neg]; ring

theorem isZero_eval {p : Polynom} (h : p.isZero = true) : p.eval f = 0 := by
  simp only [isZero, Bool.and_eq_true, List.isEmpty_iff, decide_eq_true_eq] at h
  simp [eval, h.1, h.2]

/-- `p` has been extended by the value `v` with coefficient `c`. -/
def Adds (v : ℝ) (c : Rat) (p p' : Polynom) : Prop := p'.eval f = p.eval f + c * v

/-- The value of a term in a polynomial. `P t v` says that `v` is a possible value of `t`. -/
def AddOK (addr : Term → Nat) (P : Term → ℝ → Prop) (t : Term) : Prop :=
  ∃ v, P t v ∧ ∀ {c : Rat} {p p' : Polynom}, addTerm addr t c p = .ok p' → Adds f v c p p'

theorem addTerms_eval {addr : Term → Nat} {ts : List Term} {vs : List ℝ}
    (h : List.Forall₂ (fun t v => ∀ {c : Rat} {p p' : Polynom}, addTerm addr t c p = .ok p' → Adds f v c p p') ts vs) :
    ∀ {c : Rat} {p p' : Polynom}, addTerms addr ts c p = .ok p' → Adds f vs.sum c p p' := by
  induction h with
  | nil => intro c p p' h; simp only [addTerms, ok_inj] at h; simp [Adds, h]
  | cons ht _ ih =>
    intro c p p' h
    simp only [addTerms, bind_ok] at h
    obtain ⟨p1, h1, h2⟩ := h
    have e1 := ht h1
    have e2 := ih h2
    unfold Adds at *
    rw [e2, e1, List.sum_cons]; ring

theorem productFrom_eval {addr : Term → Nat} {ts : List Term} {vs : List ℝ}
    (h : List.Forall₂ (fun t v => ∀ {c : Rat} {p p' : Polynom}, addTerm addr t c p = .ok p' → Adds f v c p p') ts vs) :
    ∀ {p p' : Polynom}, productFrom addr p ts = .ok p' → p'.eval f = p.eval f * vs.prod := by
  induction h with
  | nil => intro p p' h; simp only [productFrom, ok_inj] at h; simp [h]
  | cons ht _ ih =>
    intro p p' h
    simp only [productFrom, bind_ok] at h
    obtain ⟨q, h1, h2⟩ := h
    have e1 := ht h1
    unfold Adds at e1
    rw [ih h2, eval_mul, e1, eval_zero, List.prod_cons]; push_cast; ring

theorem product_eval {addr : Term → Nat} {ts : List Term} {vs : List ℝ}
    (h : List.Forall₂ (fun t v => ∀ {c : Rat} {p p' : Polynom}, addTerm addr t c p = .ok p' → Adds f v c p p') ts vs)
    {p' : Polynom} (h' : product addr ts = .ok p') : p'.eval f = vs.prod := by
  cases h with
  | nil => simp [product] at h'
  | cons ht hts =>
    simp only [product, bind_ok] at h'
    obtain ⟨q, h1, h2⟩ := h'
    have e1 := ht h1
    unfold Adds at e1
    rw [productFrom_eval f hts h2, e1, eval_zero, List.prod_cons]; push_cast; ring

end Polynom

/-! ## Numeric terms -/

theorem forall₂_map_right {α β : Type} {R : α → β → Prop} {g : α → β} {l : List α} (h : ∀ a ∈ l, R a (g a)) :
    List.Forall₂ R l (l.map g) := by
  induction l with
  | nil => exact .nil
  | cons a l ih => exact .cons (h a (by simp)) (ih fun b hb => h b (by simp [hb]))

theorem addAtom_num {M : Model} {t : Term} {s : Srt} (hs : sortOf t = some s) (hn : s.IsNum) (hx : t.exactDivs = true)
    {c : Rat} {p p' : Polynom} (h : Polynom.addAtom t c p = .ok p') : Polynom.Adds M.numv (M.numv t) c p p' := by
  simp only [Polynom.addAtom, bind_ok] at h
  obtain ⟨r, hr, h⟩ := h
  cases r with
  | some r =>
    simp only [ok_inj] at h
    rw [(asFraction_spec hr hs hx).2.2, ← h]
    simp only [Polynom.Adds, Polynom.eval]; push_cast; ring
  | none =>
    simp only at h
    split at h
    · simp only [sortOf, Const.sort, Option.some.injEq] at hs
      subst hs
      rcases hn with e | e <;> cases e
    · simp only [ok_inj] at h
      rw [← h, Polynom.Adds, Polynom.eval_insert, monoEval_single]

theorem sort_toReal {a : Term} {as : List Term} {s : Srt} (h : sortOf (.op .toReal (a :: as)) = some s) :
    as = [] ∧ s = .real ∧ sortOf a = some .int := by
  obtain ⟨ss, h1, h2⟩ := sortOf_op (by decide) h
  simp only [opSort, Option.ite_none_right_eq_some, Option.some.injEq] at h2
  obtain ⟨rfl, rfl⟩ := h2
  rw [sortOfL_cons] at h1
  obtain ⟨s1, ss1, e, h3, h4⟩ := h1
  simp only [List.cons.injEq] at e
  obtain ⟨rfl, rfl⟩ := e
  cases as with
  | nil => exact ⟨rfl, rfl, h3⟩
  | cons b bs => rw [sortOfL_cons] at h4; obtain ⟨_, _, e, _⟩ := h4; cases e

theorem Model.numv_toReal (M : Model) {a : Term} (h : sortOf a = some .int) :
    M.numv (.op .toReal [a]) = M.numv a := by
  obtain ⟨z, e⟩ := M.val_int h
  rw [M.numv_int e, M.numv_real (z := z)]
  simp [M.val_op, e, evalOp, stdOp]

/-- A bit-vector operator has no numeric sort. -/
theorem bvOp_not_num {o : Op} (ho : o = .bvAdd ∨ o = .bvMul ∨ o = .bvSub ∨ o = .bvNeg) {as : List Term} {s : Srt}
    (h : sortOf (.op o as) = some s) : ¬ s.IsNum := by
  obtain ⟨ss, h1, h2⟩ := sortOf_op (by rcases ho with rfl | rfl | rfl | rfl <;> decide) h
  rintro (rfl | rfl) <;> rcases ho with rfl | rfl | rfl | rfl <;> simp only [opSort] at h2 <;>
    first
      | (split at h2 <;> simp at h2; done)
      | simp [Option.ite_none_right_eq_some] at h2

theorem addTerm_num {M : Model} (addr : Term → Nat) (t : Term) : ∀ {s : Srt}, sortOf t = some s → s.IsNum →
    t.exactDivs = true → ∀ {c : Rat} {p p' : Polynom}, Polynom.addTerm addr t c p = .ok p' →
    Polynom.Adds M.numv (M.numv t) c p p' := by
  induction t using Term.ind with
  | op o as ih =>
    intro s hs hn hx c p p' h
    have hargs : (∀ t ∈ as, sortOf t = some s) → List.Forall₂ (fun t v => ∀ {c : Rat} {p p' : Polynom},
        Polynom.addTerm addr t c p = .ok p' → Polynom.Adds M.numv v c p p') as (as.map M.numv) :=
      fun hr => forall₂_map_right fun t ht _ _ _ => ih t ht (hr t ht) hn (exact_args hx t ht)
    unfold Polynom.addTerm at h
    split at h
    · next heq =>
      cases heq
      rw [M.numv_add hs]
      exact Polynom.addTerms_eval _ (hargs (fold_children (Or.inl rfl) hs).2) h
    · next heq => cases heq; exact absurd hn (bvOp_not_num (by simp) hs)
    · simp at h
    · next heq =>
      cases heq
      obtain ⟨h1, -⟩ := sort_neg hs
      have := ih _ (by simp) h1 hn (exact_args hx _ (by simp)) h
      unfold Polynom.Adds at *
      rw [this, M.numv_neg hs]; push_cast; ring
    · next a as' hne heq =>
      cases heq
      have hc : ∀ t ∈ a :: as', sortOf t = some s := by
        obtain ⟨-, ⟨rfl, h⟩ | ⟨rfl, h⟩⟩ := arith_children (Or.inr (Or.inl rfl)) hs <;> exact h
      simp only [bind_ok] at h
      obtain ⟨p1, h1, h2⟩ := h
      cases as' with
      | nil => exact absurd rfl hne
      | cons b bs =>
        have e1 := ih a (by simp) (hc a (by simp)) hn (exact_args hx a (by simp)) h1
        have hargs := hargs hc
        rw [List.map_cons, List.forall₂_cons] at hargs
        have e2 := Polynom.addTerms_eval _ hargs.2 h2
        unfold Polynom.Adds at *
        rw [e2, e1, M.numv_sub hs]; push_cast; ring
    · next heq => cases heq; exact absurd hn (bvOp_not_num (by simp) hs)
    · next heq => cases heq; exact absurd hn (bvOp_not_num (by simp) hs)
    · next heq => cases heq; exact absurd hn (bvOp_not_num (by simp) hs)
    · next heq =>
      cases heq
      simp only [bind_ok, ok_inj] at h
      obtain ⟨q, hq, rfl⟩ := h
      rw [M.numv_mult hs, Polynom.Adds, Polynom.eval_addScaled,
        Polynom.product_eval _ (hargs (fold_children (Or.inr rfl) hs).2) hq]
    · next heq => cases heq; exact absurd hn (bvOp_not_num (by simp) hs)
    · next a b heq =>
      cases heq
      obtain ⟨e, -⟩ | ⟨-, rfl, ha, hb⟩ := sort_division (Or.inr rfl) hs
      · cases e
      simp only [bind_ok] at h
      obtain ⟨r, hr, h⟩ := h
      cases r with
      | none => exact addAtom_num hs hn hx h
      | some r =>
        simp only at h
        split at h
        · simp only [ok_inj] at h
          rw [← h, Polynom.Adds, Polynom.eval_insert, monoEval_single]
        · next hz =>
          have e1 := ih a (by simp) ha hn (exact_args hx _ (by simp)) h
          have hv := (asFraction_spec hr hb (exact_args hx b (by simp))).2.2 M
          unfold Polynom.Adds at *
          rw [e1, M.numv_real (M.numv_realDiv hs), hv, Interp.rdiv, if_neg (by exact_mod_cast hz)]
          push_cast; ring
    · simp at h
    · next a as' heq =>
      cases heq
      obtain ⟨rfl, rfl, ha⟩ := sort_toReal hs
      rw [M.numv_toReal ha]
      exact ih a (by simp) ha (Or.inl rfl) (exact_args hx _ (by simp)) h
    · next a b heq =>
      cases heq
      simp only [bind_ok] at h
      obtain ⟨r, hr, h⟩ := h
      cases r with
      | none => exact addAtom_num hs hn hx h
      | some r =>
        simp only at h
        split at h
        · simp only [ok_inj] at h
          rw [← h, Polynom.Adds, Polynom.eval_insert, monoEval_single]
        · exact addAtom_num hs hn hx h
    · exact addAtom_num hs hn hx h
  | _ =>
    intro s hs hn hx c p p' h
    simp only [Polynom.addTerm] at h
    exact addAtom_num hs hn hx h

theorem fromTerm_num {M : Model} {addr : Term → Nat} {t : Term} {s : Srt} (hs : sortOf t = some s) (hn : s.IsNum)
    (hx : t.exactDivs = true) {p : Polynom} (h : Polynom.fromTerm addr t = .ok p) : p.eval M.numv = M.numv t := by
  have := addTerm_num (M := M) addr t hs hn hx h
  rw [Polynom.Adds, Polynom.eval_zero] at this
  rw [this]; push_cast; ring

end Carcara
