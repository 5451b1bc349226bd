import Verif.Lemmas.Polynomial
import Verif.Lemmas.Bv
import Mathlib.RingTheory.Coprime.Lemmas

/-! # Polynomials over bit-vectors and over other sorts -/

namespace Carcara
open Classical Val Sem

theorem asFraction_sort {t : Term} {q : Rat} {s : Srt} (h : t.asFraction = .ok (some q)) (hs : sortOf t = some s) :
    s.IsNum := by
  have hu : ∀ {t : Term} {q : Rat} {s : Srt}, t.asUnsignedFraction = .ok (some q) → sortOf t = some s → s.IsNum := by
    intro t q s h hs
    unfold Term.asUnsignedFraction at h
    split at h
    · obtain ⟨-, rfl, -⟩ | ⟨e, -⟩ := sort_division (Or.inl rfl) hs
      · exact Or.inl rfl
      · cases e
    · obtain ⟨e, -⟩ | ⟨-, rfl, -⟩ := sort_division (Or.inr rfl) hs
      · cases e
      · exact Or.inr rfl
    · simp only [ok_inj] at h; exact asNumber_num h hs
  unfold Term.asFraction at h
  split at h
  · exact (sort_neg hs).2
  · exact hu h hs

/-- A term that is neither a number nor a bit-vector becomes an atom. -/
theorem addTerm_other {addr : Term → Nat} {t : Term} {s : Srt} (hs : sortOf t = some s) (hn : ¬ s.IsNum)
    (hb : ∀ w, s ≠ .bv w) {c : Rat} {p p' : Polynom} (h : Polynom.addTerm addr t c p = .ok p') :
    p' = p.insert [t] c := by
  have atom : ∀ {p' : Polynom}, Polynom.addAtom t c p = .ok p' → p' = p.insert [t] c := by
    intro p' h
    simp only [Polynom.addAtom, bind_ok] at h
    obtain ⟨r, hr, h⟩ := h
    cases r with
    | some r => exact absurd (asFraction_sort hr hs) hn
    | none =>
      simp only at h
      split at h
      · simp only [sortOf, Const.sort, Option.some.injEq] at hs
        exact absurd hs.symm (hb _)
      · simp only [ok_inj] at h; exact h.symm
  have arith : ∀ {o : Op} {as : List Term}, o = .add ∨ o = .sub ∨ o = .mult → t = .op o as → False := by
    rintro o as ho rfl
    obtain ⟨-, ⟨rfl, -⟩ | ⟨rfl, -⟩⟩ := arith_children ho hs
    · exact hn (Or.inl rfl)
    · exact hn (Or.inr rfl)
  unfold Polynom.addTerm at h
  split at h
  · exact (arith (Or.inl rfl) rfl).elim
  · obtain ⟨w, rfl, -⟩ := sort_bvNary (by simp) hs; exact absurd rfl (hb w)
  · cases h
  · exact (arith (Or.inr (Or.inl rfl)) rfl).elim
  · exact (arith (Or.inr (Or.inl rfl)) rfl).elim
  · obtain ⟨w, _, rfl, -⟩ := sort_bvUn (by simp) hs; exact absurd rfl (hb w)
  · cases h
  · obtain ⟨w, _, _, rfl, -⟩ := sort_bvBin (by simp) hs; exact absurd rfl (hb w)
  · exact (arith (Or.inr (Or.inr rfl)) rfl).elim
  · obtain ⟨w, rfl, -⟩ := sort_bvNary (by simp) hs; exact absurd rfl (hb w)
  · obtain ⟨e, -⟩ | ⟨-, rfl, -⟩ := sort_division (Or.inr rfl) hs
    · cases e
    · exact absurd (Or.inr rfl) hn
  · cases h
  · obtain ⟨-, rfl, -⟩ := sort_toReal hs; exact absurd (Or.inr rfl) hn
  · obtain ⟨-, rfl, -⟩ | ⟨e, -⟩ := sort_division (Or.inl rfl) hs
    · exact absurd (Or.inl rfl) hn
    · cases e
  · exact atom h

/-- Atoms have no other representation. -/
theorem poly_other {addr : Term → Nat} {t u : Term} {s : Srt} (ht : sortOf t = some s) (hu : sortOf u = some s)
    (hn : ¬ s.IsNum) (hb : ∀ w, s ≠ .bv w) {p q : Polynom} (hp : Polynom.fromTerm addr t = .ok p)
    (hq : Polynom.fromTerm addr u = .ok q) (h : (p.sub q).isZero = true) : t = u := by
  have e1 := addTerm_other ht hn hb hp
  have e2 := addTerm_other hu hn hb hq
  have hz := Polynom.isZero_eval (fun v => if v = t then 1 else 0) h
  rw [Polynom.eval_sub, e1, e2, Polynom.eval_insert, Polynom.eval_insert, monoEval_single, monoEval_single] at hz
  by_contra hne
  simp [Polynom.eval_zero, Ne.symm hne] at hz

/-! ## Bit-vectors -/

/-- The value of a bit-vector term as a real number. -/
noncomputable def Model.bvReal (M : Model) (w : ℕ) (t : Term) : ℝ := ((M.bits w t).toNat : ℤ)

/-- An integer that represents the value of a bit-vector term. -/
def BvRep (M : Model) (w : ℕ) (t : Term) (v : ℝ) : Prop := ∃ z : ℤ, v = z ∧ (z : BitVec w) = M.bits w t

theorem bvRep_self (M : Model) (w : ℕ) (t : Term) : BvRep M w t (M.bvReal w t) :=
  ⟨_, rfl, by simp⟩

theorem bvRep_list {M : Model} {w : ℕ} {R : Term → ℝ → Prop} {ts : List Term}
    (h : ∀ t ∈ ts, ∃ v, BvRep M w t v ∧ R t v) :
    ∃ zs : List ℤ, List.Forall₂ R ts (zs.map (Int.cast : ℤ → ℝ)) ∧
      zs.map (Int.cast : ℤ → BitVec w) = ts.map (M.bits w) := by
  induction ts with
  | nil => exact ⟨[], .nil, rfl⟩
  | cons t ts ih =>
    obtain ⟨zs, h1, h2⟩ := ih fun u hu => h u (by simp [hu])
    obtain ⟨_, ⟨z, rfl, hz⟩, hr⟩ := h t (by simp)
    exact ⟨z :: zs, .cons hr h1, by simp [h2, hz]⟩

theorem cast_sum_bv {w : ℕ} (zs : List ℤ) : ((zs.sum : ℤ) : BitVec w) = (zs.map (Int.cast : ℤ → BitVec w)).sum := by
  induction zs with
  | nil => simp
  | cons z zs ih => rw [List.sum_cons, Int.cast_add, ih, List.map_cons, List.sum_cons]

theorem cast_prod_bv {w : ℕ} (zs : List ℤ) : ((zs.prod : ℤ) : BitVec w) = (zs.map (Int.cast : ℤ → BitVec w)).prod := by
  induction zs with
  | nil => simp
  | cons z zs ih => rw [List.prod_cons, Int.cast_mul, ih, List.map_cons, List.prod_cons]

theorem addAtom_bv {M : Model} {w : ℕ} {t : Term} (hs : sortOf t = some (.bv w)) :
    ∃ v, BvRep M w t v ∧ ∀ {c : Rat} {p p' : Polynom}, Polynom.addAtom t c p = .ok p' →
      Polynom.Adds (M.bvReal w) v c p p' := by
  have hnone : ∀ {r}, t.asFraction = .ok r → r = none := by
    intro r hr
    cases r with
    | none => rfl
    | some r => rcases asFraction_sort hr hs with e | e <;> cases e
  by_cases hc : ∃ z w', t = .const (.bv z w')
  · obtain ⟨z, w', rfl⟩ := hc
    simp only [sortOf, Const.sort, Option.some.injEq, Srt.bv.injEq] at hs
    subst hs
    refine ⟨z, ⟨z, rfl, ?_⟩, ?_⟩
    · rw [M.bits_of_val (b := BitVec.ofInt w' z) rfl]; rfl
    · intro c p p' h
      simp only [Polynom.addAtom, bind_ok] at h
      obtain ⟨r, hr, h⟩ := h
      rw [hnone hr] at h
      simp only [ok_inj] at h
      rw [← h]
      simp only [Polynom.Adds, Polynom.eval]; push_cast; ring
  · refine ⟨_, bvRep_self M w t, ?_⟩
    intro c p p' h
    simp only [Polynom.addAtom, bind_ok] at h
    obtain ⟨r, hr, h⟩ := h
    rw [hnone hr] at h
    simp only at h
    split at h
    · exact absurd ⟨_, _, rfl⟩ hc
    · simp only [ok_inj] at h
      rw [← h, Polynom.Adds, Polynom.eval_insert, monoEval_single]

theorem addTerm_bv {M : Model} (addr : Term → Nat) (w : ℕ) (t : Term) : sortOf t = some (.bv w) →
    ∃ v, BvRep M w t v ∧ ∀ {c : Rat} {p p' : Polynom}, Polynom.addTerm addr t c p = .ok p' →
      Polynom.Adds (M.bvReal w) v c p p' := by
  induction t using Term.ind with
  | op o as ih =>
    intro hs
    have arith : o = .add ∨ o = .sub ∨ o = .mult → False := by
      intro ho
      obtain ⟨-, ⟨e, -⟩ | ⟨e, -⟩⟩ := arith_children ho hs <;> cases e
    by_cases h1 : o = .bvAdd
    · subst h1
      obtain ⟨w', e, hl, ht⟩ := sort_bvNary (by simp) hs
      cases e
      obtain ⟨zs, hz, hb⟩ := bvRep_list fun t h => ih t h (ht t h)
      refine ⟨_, ⟨zs.sum, (cast_sum zs).symm, by rw [cast_sum_bv, hb, M.bits_add hs]⟩, fun h => ?_⟩
      simp only [Polynom.addTerm] at h
      exact Polynom.addTerms_eval _ hz h
    by_cases h2 : o = .bvMul
    · subst h2
      obtain ⟨w', e, hl, ht⟩ := sort_bvNary (by simp) hs
      cases e
      obtain ⟨zs, hz, hb⟩ := bvRep_list fun t h => ih t h (ht t h)
      refine ⟨_, ⟨zs.prod, (cast_prod zs).symm, by rw [cast_prod_bv, hb, M.bits_mul hs]⟩, fun h => ?_⟩
      simp only [Polynom.addTerm, bind_ok, ok_inj] at h
      obtain ⟨q, hq, rfl⟩ := h
      rw [Polynom.Adds, Polynom.eval_addScaled, Polynom.product_eval _ hz hq]
    by_cases h3 : o = .bvNeg
    · subst h3
      obtain ⟨w', a, e, rfl, ha⟩ := sort_bvUn (by simp) hs
      cases e
      obtain ⟨_, ⟨z, rfl, hz⟩, hr⟩ := ih a (by simp) ha
      refine ⟨_, ⟨-z, rfl, by rw [Int.cast_neg, hz, M.bits_neg ha]⟩, fun h => ?_⟩
      simp only [Polynom.addTerm] at h
      have := hr h
      unfold Polynom.Adds at *
      rw [this]; push_cast; ring
    by_cases h4 : o = .bvSub
    · subst h4
      obtain ⟨w', a, b, e, rfl, ha, hb⟩ := sort_bvBin (by simp) hs
      cases e
      obtain ⟨_, ⟨z, rfl, hz⟩, hr⟩ := ih a (by simp) ha
      obtain ⟨_, ⟨y, rfl, hy⟩, hr'⟩ := ih b (by simp) hb
      refine ⟨_, ⟨z - y, rfl, by rw [Int.cast_sub, hz, hy, M.bits_sub ha hb]⟩, fun h => ?_⟩
      simp only [Polynom.addTerm, Polynom.addTerms, bind_ok, ok_inj] at h
      obtain ⟨p1, h1, _, h2, rfl⟩ := h
      have e1 := hr h1
      have e2 := hr' h2
      unfold Polynom.Adds at *
      rw [e2, e1]; push_cast; ring
    obtain ⟨v, hv, h⟩ := addAtom_bv (M := M) hs
    refine ⟨v, hv, fun h' => h ?_⟩
    unfold Polynom.addTerm at h'
    split at h'
    · next e => cases e; exact (arith (Or.inl rfl)).elim
    · next e => cases e; exact absurd rfl h1
    · cases h'
    · next e => cases e; exact (arith (Or.inr (Or.inl rfl))).elim
    · next e => cases e; exact (arith (Or.inr (Or.inl rfl))).elim
    · next e => cases e; exact absurd rfl h3
    · cases h'
    · next e => cases e; exact absurd rfl h4
    · next e => cases e; exact (arith (Or.inr (Or.inr rfl))).elim
    · next e => cases e; exact absurd rfl h2
    · next e => cases e; obtain ⟨e, -⟩ | ⟨-, e, -⟩ := sort_division (Or.inr rfl) hs <;> cases e
    · cases h'
    · next e => cases e; obtain ⟨-, e, -⟩ := sort_toReal hs; cases e
    · next e => cases e; obtain ⟨-, e, -⟩ | ⟨e, -⟩ := sort_division (Or.inl rfl) hs <;> cases e
    · exact h'
  | _ =>
    intro hs
    obtain ⟨v, hv, h⟩ := addAtom_bv (M := M) hs
    exact ⟨v, hv, fun h' => h (by simpa only [Polynom.addTerm] using h')⟩

/-- The monomials have integer values. -/
theorem monoEval_int {f : Term → ℝ} (hf : ∀ t, ∃ z : ℤ, f t = z) (m : List Term) : ∃ z : ℤ, monoEval f m = z := by
  induction m with
  | nil => exact ⟨1, by simp [monoEval]⟩
  | cons t m ih =>
    obtain ⟨y, hy⟩ := ih
    obtain ⟨z, hz⟩ := hf t
    refine ⟨z * y, ?_⟩
    simp only [monoEval, List.map_cons, List.prod_cons] at hy ⊢
    rw [hy, hz]; push_cast; rfl

theorem modCoeff_some {n : ℤ} {c c' : Rat} (h : Polynom.modCoeff n c = some c') : ∃ z : ℤ, c' = c - n * z := by
  unfold Polynom.modCoeff at h
  split at h
  · next hd =>
    cases h
    refine ⟨c.num / n, ?_⟩
    rw [Int.emod_def, Int.cast_sub, (Rat.den_eq_one_iff c).1 hd]; push_cast; rfl
  · cases h

theorem modulo_eval {f : Term → ℝ} (hf : ∀ t, ∃ z : ℤ, f t = z) {n : ℤ} {p p' : Polynom}
    (h : p.modulo n = some p') : ∃ z : ℤ, p'.eval f = p.eval f - n * z := by
  have terms : ∀ {m m' : List (List Term × Rat)}, Polynom.modTerms n m = some m' →
      ∃ z : ℤ, coeffEval (monoEval f) m' = coeffEval (monoEval f) m - n * z := by
    intro m
    induction m with
    | nil => intro m' h; simp only [Polynom.modTerms, Option.some.injEq] at h; subst h; exact ⟨0, by simp⟩
    | cons e m ih =>
      intro m' h
      simp only [Polynom.modTerms] at h
      split at h
      · next c m1 h1 h2 =>
        cases h
        obtain ⟨z, hz⟩ := ih h2
        obtain ⟨y, hy⟩ := modCoeff_some h1
        obtain ⟨x, hx⟩ := monoEval_int hf e.1
        refine ⟨z + y * x, ?_⟩
        rw [coeffEval_cons, coeffEval_cons, hz, hx, hy]; push_cast; ring
      · cases h
  unfold Polynom.modulo at h
  split at h
  · next m c h1 h2 =>
    cases h
    obtain ⟨z, hz⟩ := terms h1
    obtain ⟨y, hy⟩ := modCoeff_some h2
    refine ⟨z + y, ?_⟩
    simp only [Polynom.eval]
    rw [hz, hy]; push_cast; ring
  · cases h

theorem two_pow_bv (w : ℕ) : ((2 ^ w : ℤ) : BitVec w) = 0 := by
  apply BitVec.eq_of_toNat_eq
  change (BitVec.ofInt w (2 ^ w)).toNat = _
  simp [BitVec.toNat_ofInt]

/-- Bit-vectors with equal polynomials are equal. -/
theorem poly_bv {M : Model} {addr : Term → Nat} {w : ℕ} {t u : Term} (ht : sortOf t = some (.bv w))
    (hu : sortOf u = some (.bv w)) {p q p' q' : Polynom} (hp : Polynom.fromTerm addr t = .ok p)
    (hq : Polynom.fromTerm addr u = .ok q) (hp' : p.modulo (2 ^ w) = some p') (hq' : q.modulo (2 ^ w) = some q')
    (h : (p'.sub q').isZero = true) : M.val t = M.val u := by
  have hf : ∀ t, ∃ z : ℤ, M.bvReal w t = z := fun t => ⟨_, rfl⟩
  obtain ⟨_, ⟨z, rfl, hz⟩, e1⟩ := addTerm_bv (M := M) addr w t ht
  obtain ⟨_, ⟨y, rfl, hy⟩, e2⟩ := addTerm_bv (M := M) addr w u hu
  have e1 := e1 hp
  have e2 := e2 hq
  obtain ⟨k, hk⟩ := modulo_eval hf hp'
  obtain ⟨l, hl⟩ := modulo_eval hf hq'
  have h0 := Polynom.isZero_eval (M.bvReal w) h
  rw [Polynom.Adds, Polynom.eval_zero] at e1 e2
  rw [Polynom.eval_sub, hk, hl, e1, e2] at h0
  push_cast at h0
  have h1 : z = y + 2 ^ w * (k - l) := by
    have : (z : ℝ) = ((y + 2 ^ w * (k - l) : ℤ) : ℝ) := by push_cast; linear_combination h0
    exact_mod_cast this
  rw [M.val_bits ht, M.val_bits hu, ← hz, ← hy, h1, Int.cast_add, Int.cast_mul, two_pow_bv]
  simp

/-- An odd constant is a unit. -/
theorem odd_bv_mul {w : ℕ} {z : ℤ} (hz : z % 2 = 1) (a : BitVec w) : (z : BitVec w) * a = 0 ↔ a = 0 := by
  constructor
  · intro h
    have hc : IsCoprime z (2 ^ w : ℤ) := by
      apply IsCoprime.pow_right
      refine ⟨1, -(z / 2), ?_⟩
      omega
    obtain ⟨x, y, hxy⟩ := hc
    have h1 : ((x * z + y * 2 ^ w : ℤ) : BitVec w) = 1 := by rw [hxy]; simp
    rw [Int.cast_add, Int.cast_mul, Int.cast_mul, two_pow_bv, mul_zero, add_zero] at h1
    calc a = ((x : BitVec w) * z) * a := by rw [h1, one_mul]
      _ = 0 := by rw [mul_assoc, h, mul_zero]
  · rintro rfl; exact mul_zero _

end Carcara

namespace Carcara

theorem asNumber_exact {t : Term} {q : Rat} (h : t.asNumber = some q) : t.exactDivs = true := by
  unfold Term.asNumber at h
  split at h <;> first | rfl | cases h

theorem asSignedNumber_exact {t : Term} {q : Rat} (h : t.asSignedNumber = some q) : t.exactDivs = true := by
  unfold Term.asSignedNumber at h
  split at h
  · rw [Option.map_eq_some_iff] at h
    obtain ⟨r, hr, -⟩ := h
    simp [Term.exactDivs, Term.exactDivsL, asNumber_exact hr]
  · exact asNumber_exact h

/-- A fraction with an integral value contains only exact divisions. -/
theorem asFraction_exact {t : Term} {q : Rat} {s : Srt} (h : t.asFraction = .ok (some q)) (hs : sortOf t = some s)
    (hq : s = .int → q.den = 1) : t.exactDivs = true := by
  have hu : ∀ {t : Term} {q : Rat} {s : Srt}, t.asUnsignedFraction = .ok (some q) → sortOf t = some s →
      (s = .int → q.den = 1) → t.exactDivs = true := by
    intro t q s h hs hq
    unfold Term.asUnsignedFraction at h
    split at h
    · split at h
      · next p r hp hr =>
        split at h
        · cases h
        next hz =>
        simp only [ok_inj, Option.some.injEq] at h
        obtain ⟨-, rfl, ha, hb⟩ | ⟨e, -⟩ := sort_division (Or.inl rfl) hs
        · obtain ⟨x, hx1, rfl⟩ := asSignedNumber_int hp ha
          obtain ⟨y, hy1, rfl⟩ := asSignedNumber_int hr hb
          simp only [Term.exactDivs, Term.exactDivsL, hx1, hy1, asSignedNumber_exact hp, asSignedNumber_exact hr,
            Bool.and_true, decide_eq_true_eq]
          refine ⟨q.num, ?_⟩
          have h1 : (x : Rat) / y = q.num := by rw [h, (Rat.den_eq_one_iff q).1 (hq rfl)]
          rw [div_eq_iff hz] at h1
          have : x = q.num * y := by exact_mod_cast h1
          rw [this]; ring
        · cases e
      · cases h
    · split at h
      · next p r hp hr =>
        simp [Term.exactDivs, Term.exactDivsL, asSignedNumber_exact hp, asSignedNumber_exact hr]
      · cases h
    · simp only [ok_inj] at h; exact asNumber_exact h
  unfold Term.asFraction at h
  split at h
  · next x =>
    simp only [bind_ok, ok_inj, Option.map_eq_some_iff] at h
    obtain ⟨r, hr, p, rfl, rfl⟩ := h
    have := hu hr (sort_neg hs).1 fun e => by simpa using hq e
    simp [Term.exactDivs, Term.exactDivsL, this]
  · exact hu h hs hq

end Carcara
