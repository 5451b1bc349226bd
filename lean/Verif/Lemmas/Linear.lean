import Verif.Lemmas.Coeffs

/-! # Facts used in the proofs about the linear arithmetic rules -/

namespace Carcara
open Classical Val Sem

/-- The rational number is an integer. -/
def RatInt (q : Rat) : Prop := ∃ z : ℤ, q = z

theorem ratInt_iff {q : Rat} : RatInt q ↔ q.den = 1 := by
  constructor
  · rintro ⟨z, rfl⟩; simp
  · intro h; exact ⟨q.num, ((Rat.den_eq_one_iff q).1 h).symm⟩

theorem RatInt.add {p q : Rat} : RatInt p → RatInt q → RatInt (p + q) := by
  rintro ⟨a, rfl⟩ ⟨b, rfl⟩; exact ⟨a + b, by push_cast; rfl⟩
theorem RatInt.mul {p q : Rat} : RatInt p → RatInt q → RatInt (p * q) := by
  rintro ⟨a, rfl⟩ ⟨b, rfl⟩; exact ⟨a * b, by push_cast; rfl⟩
theorem RatInt.neg {p : Rat} : RatInt p → RatInt (-p) := by
  rintro ⟨a, rfl⟩; exact ⟨-a, by push_cast; rfl⟩

namespace LinComb

/-- An invariant of `addTerm`. -/
structure AddInv (Q : LinComb → Prop) (G : Term → Prop) (C : Rat → Prop) : Prop where
  add : ∀ as, G (.op .add as) → ∀ a ∈ as, G a
  sub : ∀ as, G (.op .sub as) → ∀ a ∈ as, G a
  mult : ∀ a b, G (.op .mult [a, b]) → G a ∧ G b
  neg : ∀ c, C c → C (-c)
  scale : ∀ t k c, G t → t.asFraction = .ok (some k) → C c → C (k * c)
  const : ∀ t k c lc, G t → t.asFraction = .ok (some k) → C c → Q lc → Q ⟨lc.terms, lc.const + k * c⟩
  insert : ∀ t c lc, G t → C c → Q lc → Q (lc.insert t c)

variable {Q : LinComb → Prop} {G : Term → Prop} {C : Rat → Prop}

theorem AddInv.terms : ∀ {ts : List Term} {c : Rat} {lc lc' : LinComb},
    (∀ t ∈ ts, ∀ {c : Rat} {lc lc' : LinComb}, C c → Q lc → addTerm t c lc = .ok lc' → Q lc') →
    C c → Q lc → addTerms ts c lc = .ok lc' → Q lc' := by
  intro ts
  induction ts with
  | nil => intro c lc lc' _ _ hq h; simp only [addTerms, ok_inj] at h; exact h ▸ hq
  | cons t ts ih =>
    intro c lc lc' ht hc hq h
    simp only [addTerms, bind_ok] at h
    obtain ⟨lc1, h1, h2⟩ := h
    exact ih (fun u hu => ht u (by simp [hu])) hc (ht t (by simp) hc hq h1) h2

theorem AddInv.term (I : AddInv Q G C) (t : Term) : ∀ {c : Rat} {lc lc' : LinComb}, G t → C c → Q lc →
    addTerm t c lc = .ok lc' → Q lc' := by
  induction t using Term.ind with
  | op o as ih =>
    intro c lc lc' hg hc hq h
    unfold addTerm at h
    split at h
    · next heq =>
      cases heq
      exact AddInv.terms (fun t ht _ _ _ => ih t ht (I.add _ hg t ht)) hc hq h
    · simp at h
    · next heq =>
      cases heq
      exact ih _ (by simp) (I.sub _ hg _ (by simp)) (I.neg _ hc) hq h
    · next heq =>
      cases heq
      simp only [bind_ok] at h
      obtain ⟨lc1, h1, h2⟩ := h
      exact AddInv.terms (fun t ht _ _ _ => ih t (by simp [ht]) (I.sub _ hg t (by simp [ht]))) (I.neg _ hc)
        (ih _ (by simp) (I.sub _ hg _ (by simp)) hc hq h1) h2
    · next a b heq =>
      cases heq
      simp only [bind_ok] at h
      obtain ⟨p, hp, q, hq', h⟩ := h
      obtain ⟨ga, gb⟩ := I.mult _ _ hg
      split at h
      · exact ih a (by simp) ga (I.scale b _ _ gb hq' hc) hq h
      · exact ih b (by simp) gb (I.scale a _ _ ga hp hc) hq h
      · simp only [ok_inj] at h; exact h ▸ I.insert _ _ _ hg hc hq
    · simp only [bind_ok] at h
      obtain ⟨r, hr, h⟩ := h
      cases r with
      | none => simp only [ok_inj] at h; exact h ▸ I.insert _ _ _ hg hc hq
      | some r => simp only [ok_inj] at h; exact h ▸ I.const _ _ _ _ hg hr hc hq
  | _ =>
    intro c lc lc' hg hc hq h
    simp only [addTerm, bind_ok] at h
    obtain ⟨r, hr, h⟩ := h
    cases r with
    | none => simp only [ok_inj] at h; exact h ▸ I.insert _ _ _ hg hc hq
    | some r => simp only [ok_inj] at h; exact h ▸ I.const _ _ _ _ hg hr hc hq

end LinComb

/-! ## Integrality -/

theorem asNumber_integral {t : Term} {q : Rat} (h : t.asNumber = some q) (hi : t.integralNumerals = true) :
    RatInt q := by
  unfold Term.asNumber at h
  split at h
  · cases h; exact ratInt_iff.2 (by simpa [Term.integralNumerals] using hi)
  · cases h; exact ⟨_, rfl⟩
  · cases h

theorem asFraction_integral {t : Term} {q : Rat} {s : Srt} (h : t.asFraction = .ok (some q))
    (hi : t.integralNumerals = true) (hs : sortOf t = some s) (hx : t.exactDivs = true) : RatInt q := by
  have hu : ∀ {t : Term} {q : Rat} {s : Srt}, t.asUnsignedFraction = .ok (some q) → t.integralNumerals = true →
      sortOf t = some s → t.exactDivs = true → RatInt q := by
    intro t q s h hi hs hx
    have h0 := h
    unfold Term.asUnsignedFraction at h
    split at h
    · obtain ⟨-, rfl, -⟩ | ⟨e, -⟩ := sort_division (Or.inl rfl) hs
      · exact ratInt_iff.2 ((asUnsignedFraction_spec h0 hs hx).2.1 rfl)
      · cases e
    · simp [Term.integralNumerals] at hi
    · simp only [ok_inj] at h; exact asNumber_integral h hi
  unfold Term.asFraction at h
  split at h
  · next x =>
    simp only [bind_ok, ok_inj, Option.map_eq_some_iff] at h
    obtain ⟨r, hr, p, rfl, rfl⟩ := h
    simp only [Term.integralNumerals, Term.integralNumeralsL, Bool.and_true] at hi
    exact (hu hr hi (sort_neg hs).1 (exact_args hx x (by simp))).neg
  · exact hu h hi hs hx

/-- The condition on terms in the invariants below. -/
def GoodTerm (P : Term → Prop) (t : Term) : Prop := (∃ s, sortOf t = some s) ∧ t.exactDivs = true ∧ P t

theorem arith_sorted {o : Op} (ho : o = .add ∨ o = .sub ∨ o = .mult) {as : List Term}
    (h : ∃ s, sortOf (.op o as) = some s) : ∀ a ∈ as, ∃ s, sortOf a = some s := by
  obtain ⟨s, h⟩ := h
  obtain ⟨-, ⟨rfl, hi⟩ | ⟨rfl, hr⟩⟩ := arith_children ho h
  · exact fun a ha => ⟨_, hi a ha⟩
  · exact fun a ha => ⟨_, hr a ha⟩

theorem integralConst_inv :
    LinComb.AddInv (fun lc => RatInt lc.const) (GoodTerm fun t => t.integralNumerals = true) RatInt where
  add as h a ha := ⟨arith_sorted (by simp) h.1 a ha, exact_args h.2.1 a ha, by
    have := h.2.2; simp only [Term.integralNumerals, Term.integralNumeralsL_iff] at this; exact this a ha⟩
  sub as h a ha := ⟨arith_sorted (by simp) h.1 a ha, exact_args h.2.1 a ha, by
    have := h.2.2; simp only [Term.integralNumerals, Term.integralNumeralsL_iff] at this; exact this a ha⟩
  mult a b h := by
    have := h.2.2; simp only [Term.integralNumerals, Term.integralNumeralsL_iff] at this
    exact ⟨⟨arith_sorted (by simp) h.1 a (by simp), exact_args h.2.1 a (by simp), this a (by simp)⟩,
      arith_sorted (by simp) h.1 b (by simp), exact_args h.2.1 b (by simp), this b (by simp)⟩
  neg c h := h.neg
  scale t k c h hk hc := (asFraction_integral hk h.2.2 h.1.choose_spec h.2.1).mul hc
  const t k c lc h hk hc hq := hq.add ((asFraction_integral hk h.2.2 h.1.choose_spec h.2.1).mul hc)
  insert t c lc h hc hq := hq

/-- Integer coefficients, integer atoms and an integer constant. -/
def LinComb.Integral (lc : LinComb) : Prop :=
  (∀ e ∈ lc.terms, RatInt e.2 ∧ sortOf e.1 = some .int) ∧ RatInt lc.const

theorem coeffInsert_mem {k : Term} {v : Rat} {m : List (Term × Rat)}
    (hm : ∀ e ∈ m, RatInt e.2 ∧ sortOf e.1 = some .int) (hk : sortOf k = some .int) (hv : RatInt v) :
    ∀ e ∈ coeffInsert k v m, RatInt e.2 ∧ sortOf e.1 = some .int := by
  induction m with
  | nil => simp only [coeffInsert, List.mem_singleton]; rintro e rfl; exact ⟨hv, hk⟩
  | cons d m ih =>
    have hd := hm d (by simp)
    have hm' : ∀ e ∈ m, RatInt e.2 ∧ sortOf e.1 = some .int := fun e he => hm e (by simp [he])
    simp only [coeffInsert]
    split
    · split
      · exact hm'
      · intro e he
        rcases List.mem_cons.1 he with rfl | he
        · exact ⟨hd.1.add hv, hk⟩
        · exact hm' e he
    · intro e he
      rcases List.mem_cons.1 he with rfl | he
      · exact hd
      · exact ih hm' e he

theorem coeffAdd_mem {k : Term} {v : Rat} {m : List (Term × Rat)}
    (hm : ∀ e ∈ m, RatInt e.2 ∧ sortOf e.1 = some .int) (hk : sortOf k = some .int) (hv : RatInt v) :
    ∀ e ∈ coeffAdd m k v, RatInt e.2 ∧ sortOf e.1 = some .int := by
  unfold coeffAdd
  split
  · exact hm
  · exact coeffInsert_mem hm hk hv

theorem integral_inv : LinComb.AddInv LinComb.Integral (GoodTerm fun t => sortOf t = some .int) RatInt where
  add as h a ha := by
    obtain ⟨-, hc⟩ := fold_children (Or.inl rfl) h.2.2
    exact ⟨⟨_, hc a ha⟩, exact_args h.2.1 a ha, hc a ha⟩
  sub as h a ha := by
    obtain ⟨-, ⟨-, hc⟩ | ⟨e, -⟩⟩ := arith_children (Or.inr (Or.inl rfl)) h.2.2
    · exact ⟨⟨_, hc a ha⟩, exact_args h.2.1 a ha, hc a ha⟩
    · cases e
  mult a b h := by
    obtain ⟨-, hc⟩ := fold_children (Or.inr rfl) h.2.2
    exact ⟨⟨⟨_, hc a (by simp)⟩, exact_args h.2.1 a (by simp), hc a (by simp)⟩,
      ⟨⟨_, hc b (by simp)⟩, exact_args h.2.1 b (by simp), hc b (by simp)⟩⟩
  neg c h := h.neg
  scale t k c h hk hc := (ratInt_iff.2 ((asFraction_spec hk h.2.2 h.2.1).2.1 rfl)).mul hc
  const t k c lc h hk hc hq := ⟨hq.1, hq.2.add ((ratInt_iff.2 ((asFraction_spec hk h.2.2 h.2.1).2.1 rfl)).mul hc)⟩
  insert t c lc h hc hq := ⟨coeffAdd_mem hq.1 h.2.2 hc, hq.2⟩

namespace LinComb

theorem Integral.zero : LinComb.zero.Integral := ⟨by simp [LinComb.zero], ⟨0, rfl⟩⟩

theorem Integral.neg {a : LinComb} (h : a.Integral) : a.neg.Integral := by
  refine ⟨?_, h.2.neg⟩
  intro e he
  simp only [LinComb.neg, List.mem_map] at he
  obtain ⟨d, hd, rfl⟩ := he
  exact ⟨(h.1 d hd).1.neg, (h.1 d hd).2⟩

theorem Integral.add {a b : LinComb} (ha : a.Integral) (hb : b.Integral) : (a.add b).Integral := by
  refine ⟨?_, ha.2.add hb.2⟩
  have key : ∀ (m' m : List (Term × Rat)), (∀ e ∈ m', RatInt e.2 ∧ sortOf e.1 = some .int) →
      (∀ e ∈ m, RatInt e.2 ∧ sortOf e.1 = some .int) →
      ∀ e ∈ m'.foldl (fun m e => coeffAdd m e.1 e.2) m, RatInt e.2 ∧ sortOf e.1 = some .int := by
    intro m'
    induction m' with
    | nil => intro m _ hm; exact hm
    | cons d m' ih =>
      intro m hm' hm
      exact ih _ (fun e he => hm' e (by simp [he]))
        (coeffAdd_mem hm (hm' d (by simp)).2 (hm' d (by simp)).1)
  exact key b.terms a.terms hb.1 ha.1

theorem Integral.sub {a b : LinComb} (ha : a.Integral) (hb : b.Integral) : (a.sub b).Integral := ha.add hb.neg

theorem gcdLoop_spec : ∀ (m : List (Term × Rat)) (g : ℤ), 1 ≤ gcdLoop m g ∧
    (gcdLoop m g = 1 ∨ (gcdLoop m g ∣ g ∧ ∀ e ∈ m, ∃ z : ℤ, e.2 = ((gcdLoop m g * z : ℤ) : Rat))) := by
  intro m
  induction m with
  | nil =>
    intro g
    simp only [gcdLoop]
    refine ⟨le_max_left _ _, ?_⟩
    rcases le_total g 1 with h | h
    · left; omega
    · right; rw [max_eq_right h]; exact ⟨dvd_rfl, by simp⟩
  | cons e m ih =>
    intro g
    simp only [gcdLoop]
    split
    · simp
    · split
      · next hd =>
        obtain ⟨h1, h2⟩ := ih (Int.gcd g e.2.num)
        refine ⟨h1, h2.imp_right fun ⟨h3, h4⟩ => ⟨h3.trans (Int.gcd_dvd_left ..), ?_⟩⟩
        intro d hd'
        rcases List.mem_cons.1 hd' with rfl | hd'
        · obtain ⟨z, hz⟩ := h3.trans (Int.gcd_dvd_right ..)
          exact ⟨z, by rw [← hz]; exact ((Rat.den_eq_one_iff _).1 hd).symm⟩
        · exact h4 d hd'
      · simp

/-- An integral combination without its constant is an integer, and a multiple of any common divisor of the
coefficients. -/
theorem terms_int {m : List (Term × Rat)} (hm : ∀ e ∈ m, RatInt e.2 ∧ sortOf e.1 = some .int) (M : Model) (g : ℤ)
    (hg : ∀ e ∈ m, ∃ z : ℤ, e.2 = ((g * z : ℤ) : Rat)) : ∃ z : ℤ, coeffEval M.numv m = ((g * z : ℤ) : ℝ) := by
  induction m with
  | nil => exact ⟨0, by simp⟩
  | cons e m ih =>
    obtain ⟨z, hz⟩ := ih (fun d hd => hm d (by simp [hd])) fun d hd => hg d (by simp [hd])
    obtain ⟨k, hk⟩ := hg e (by simp)
    obtain ⟨y, hy⟩ := M.numv_int_exists (hm e (by simp)).2
    refine ⟨k * y + z, ?_⟩
    rw [coeffEval_cons, hz, hk, hy]; push_cast; ring

end LinComb

/-! ## Comparisons -/

/-- The relation denoted by a comparison. -/
def cmpRel : Op → ℝ → ℝ → Prop
  | .lt, a, b => a < b
  | .gt, a, b => a > b
  | .le, a, b => a ≤ b
  | .ge, a, b => a ≥ b
  | .equals, a, b => a = b
  | _, _, _ => False

/-- The literal compares `a` and `b`. -/
def Compares (t a b : Term) : Prop :=
  ∃ o, (o.IsCmp ∧ t = .op o [a, b]) ∨ ((o.IsCmp ∨ o = .equals) ∧ t = .op .not [.op o [a, b]])

theorem negatedComparison_ok {t : Term} {o : Op} {a b : Term} (h : negatedComparison t = some (o, [a, b])) :
    (o = .equals ∧ t = .op .not [.op .equals [a, b]]) ∨
    (o.IsCmp ∧ (t = .op .not [.op o [a, b]] ∨ ∃ o', o'.IsCmp ∧ negateOperator o' = some o ∧ t = .op o' [a, b])) := by
  unfold negatedComparison at h
  split at h
  · next o1 as1 hr =>
    split at h
    · next ho =>
      simp only [Option.some.injEq, Prod.mk.injEq] at h
      obtain ⟨rfl, rfl⟩ := h
      rw [removeNegation_some] at hr
      rcases ho with rfl | rfl | rfl | rfl | rfl
      · right; exact ⟨by simp [Op.IsCmp], Or.inl hr⟩
      · right; exact ⟨by simp [Op.IsCmp], Or.inl hr⟩
      · right; exact ⟨by simp [Op.IsCmp], Or.inl hr⟩
      · right; exact ⟨by simp [Op.IsCmp], Or.inl hr⟩
      · left; exact ⟨rfl, hr⟩
    · cases h
  · split at h
    · next o1 as1 _ =>
      simp only [Option.map_eq_some_iff, Prod.mk.injEq] at h
      obtain ⟨o2, h2, rfl, rfl⟩ := h
      right
      have : o1.IsCmp ∧ o2.IsCmp := by
        unfold negateOperator at h2
        split at h2 <;> cases h2 <;> simp [Op.IsCmp]
      exact ⟨this.2, Or.inr ⟨o1, this.1, h2, rfl⟩⟩
    · cases h

theorem Model.cmp_false {M : Model} {t : Term} {o : Op} {a b : Term} (h : negatedComparison t = some (o, [a, b]))
    (hs : sortOf t = some .bool) (hf : ¬ M.Holds t) : cmpRel o (M.numv a) (M.numv b) := by
  obtain ⟨rfl, rfl⟩ | ⟨ho, rfl | ⟨o', ho', hn, rfl⟩⟩ := negatedComparison_ok h
  · rw [M.holds_not, not_not, M.holds_eq] at hf
    exact M.numv_eq_of_val hf
  · rw [M.holds_not, not_not] at hf
    obtain ⟨-, sa, sb, ha, hb, na, nb⟩ := (sort_cmp ho).1 (sort_not.1 hs).2
    obtain ⟨h1, h2, h3, h4⟩ := M.holds_cmp ha hb na nb
    rcases ho with rfl | rfl | rfl | rfl
    · exact h1.1 hf
    · exact h2.1 hf
    · exact h3.1 hf
    · exact h4.1 hf
  · obtain ⟨-, sa, sb, ha, hb, na, nb⟩ := (sort_cmp ho').1 hs
    obtain ⟨h1, h2, h3, h4⟩ := M.holds_cmp ha hb na nb
    rcases ho' with rfl | rfl | rfl | rfl <;> cases hn
    · rw [h1, not_lt] at hf; exact hf
    · rw [h2, not_lt] at hf; exact hf
    · rw [h3, not_le] at hf; exact hf
    · rw [h4, not_le] at hf; exact hf

theorem negatedComparison_args {t : Term} {o : Op} {a b : Term} (h : negatedComparison t = some (o, [a, b]))
    (hs : sortOf t = some .bool) (hx : t.exactDivs = true) :
    (∃ s, sortOf a = some s) ∧ (∃ s, sortOf b = some s) ∧ a.exactDivs = true ∧ b.exactDivs = true := by
  obtain ⟨rfl, rfl⟩ | ⟨ho, rfl | ⟨o', ho', hn, rfl⟩⟩ := negatedComparison_ok h
  · obtain ⟨-, r, ha, hb⟩ := sort_equals.1 (sort_not.1 hs).2
    have hx' := exact_args hx _ (List.mem_singleton_self _)
    exact ⟨⟨_, ha⟩, ⟨_, hb⟩, exact_args hx' a (by simp), exact_args hx' b (by simp)⟩
  · obtain ⟨-, sa, sb, ha, hb, na, nb⟩ := (sort_cmp ho).1 (sort_not.1 hs).2
    have hx' := exact_args hx _ (List.mem_singleton_self _)
    exact ⟨⟨_, ha⟩, ⟨_, hb⟩, exact_args hx' a (by simp), exact_args hx' b (by simp)⟩
  · obtain ⟨-, sa, sb, ha, hb, na, nb⟩ := (sort_cmp ho').1 hs
    exact ⟨⟨_, ha⟩, ⟨_, hb⟩, exact_args hx a (by simp), exact_args hx b (by simp)⟩

/-- The two sides of a normalised literal. -/
theorem normalize_sides {t : Term} {o : Op} {d : LinComb} (h : normalizeDisequality t = .ok (o, d)) :
    ∃ o' a b l r, negatedComparison t = some (o', [a, b]) ∧ LinComb.fromTerm a = .ok l ∧
      LinComb.fromTerm b = .ok r ∧
      ((o' = .lt ∧ o = .gt ∧ d = (⟨(l.sub r).terms, -(l.sub r).const⟩ : LinComb).neg) ∨
       (o' = .le ∧ o = .ge ∧ d = (⟨(l.sub r).terms, -(l.sub r).const⟩ : LinComb).neg) ∨
       (o' ≠ .lt ∧ o' ≠ .le ∧ o = o' ∧ d = ⟨(l.sub r).terms, -(l.sub r).const⟩)) := by
  simp only [normalizeDisequality, negateDisequality, bind_ok, orErr_ok, Prod.exists] at h
  obtain ⟨o', l, r, ⟨o1, as, h1, h2⟩, h⟩ := h
  split at h2
  · next a b =>
    simp only [bind_ok, ok_inj, Prod.mk.injEq] at h2
    obtain ⟨l', hl, r', hr, rfl, rfl, rfl⟩ := h2
    refine ⟨o1, a, b, _, _, h1, hl, hr, ?_⟩
    split at h
    · next e => simp only [ok_inj, Prod.mk.injEq] at h; exact Or.inl ⟨e, h.1.symm, h.2.symm⟩
    · next e1 =>
      split at h
      · next e => simp only [ok_inj, Prod.mk.injEq] at h; exact Or.inr (Or.inl ⟨e, h.1.symm, h.2.symm⟩)
      · next e2 =>
        simp only [ok_inj, Prod.mk.injEq] at h
        exact Or.inr (Or.inr ⟨e1, e2, h.1.symm, h.2.symm⟩)
  · simp at h2

/-- A false literal yields a true comparison of the normalised combination with its constant. -/
theorem normalize_ok {M : Model} {t : Term} {o : Op} {d : LinComb} (h : normalizeDisequality t = .ok (o, d))
    (hs : sortOf t = some .bool) (hx : t.exactDivs = true) (hf : ¬ M.Holds t) :
    (o = .equals ∨ o = .ge ∨ o = .gt) ∧ cmpRel o (coeffEval M.numv d.terms) d.const := by
  obtain ⟨o', a, b, l, r, hn, hl, hr, hd⟩ := normalize_sides h
  obtain ⟨⟨sa, ha⟩, ⟨sb, hb⟩, xa, xb⟩ := negatedComparison_args hn hs hx
  have hc := M.cmp_false hn hs hf
  have e1 := LinComb.fromTerm_eval (M := M) ha xa hl
  have e2 := LinComb.fromTerm_eval (M := M) hb xb hr
  have e3 := LinComb.eval_sub M.numv l r
  rw [e1, e2] at e3
  simp only [LinComb.eval] at e3
  rcases hd with ⟨rfl, rfl, rfl⟩ | ⟨rfl, rfl, rfl⟩ | ⟨h1, h2, rfl, rfl⟩
  · refine ⟨by simp, ?_⟩
    simp only [cmpRel, LinComb.neg, coeffEval_neg] at hc ⊢
    push_cast; linarith
  · refine ⟨by simp, ?_⟩
    simp only [cmpRel, LinComb.neg, coeffEval_neg] at hc ⊢
    push_cast; linarith
  · obtain ⟨rfl, -⟩ | ⟨ho, -⟩ := negatedComparison_ok hn
    · refine ⟨by simp, ?_⟩
      simp only [cmpRel] at hc ⊢
      push_cast; linarith
    · rcases ho with rfl | rfl | rfl | rfl
      · exact absurd rfl h1
      · refine ⟨by simp, ?_⟩
        simp only [cmpRel] at hc ⊢
        push_cast; linarith
      · exact absurd rfl h2
      · refine ⟨by simp, ?_⟩
        simp only [cmpRel] at hc ⊢
        push_cast; linarith

/-! ## Strengthening -/

theorem strengthen_weak {d d' : LinComb} {o : Op} {a : Rat} (h : strengthen .ge d a = .ok (o, d'))
    (hd : RatInt d.const) (ha : RatInt a) : o = .ge ∧ d' = d := by
  have h1 := ratInt_iff.1 hd
  have h2 := ratInt_iff.1 (hd.mul ha)
  simp only [strengthen, h1, h2, decide_true, ite_self, if_true, ok_inj, Prod.mk.injEq] at h
  exact ⟨h.1.symm, h.2.symm⟩

theorem strengthen_equals {d d' : LinComb} {o : Op} {a : Rat} (h : strengthen .equals d a = .ok (o, d')) :
    o = .equals ∧ d' = d := by
  simp only [strengthen, ok_inj, Prod.mk.injEq] at h
  exact ⟨h.1.symm, h.2.symm⟩

theorem strengthen_strict {M : Model} {d d' : LinComb} {o : Op} {a : Rat} (h : strengthen .gt d a = .ok (o, d'))
    (hd : d.Integral) (hgt : coeffEval M.numv d.terms > d.const) :
    o = .ge ∧ coeffEval M.numv d'.terms ≥ d'.const := by
  obtain ⟨c, hc⟩ := hd.2
  obtain ⟨S, hS⟩ := LinComb.terms_int hd.1 M 1 fun e he => by
    obtain ⟨z, hz⟩ := (hd.1 e he).1; exact ⟨z, by rw [hz]; push_cast; ring⟩
  simp only [one_mul] at hS
  have hSc : c < S := by rw [hS, hc] at hgt; exact_mod_cast hgt
  have hfl : d.const.floor = c := by rw [hc]; exact Rat.floor_intCast c
  simp only [strengthen, hfl] at h
  generalize (if a = 0 then true else if a = 1 then decide (d.const.den = 1) else decide ((d.const * a).den = 1)) =
    isInt at h
  split at h
  · simp only [ok_inj, Prod.mk.injEq] at h
    obtain ⟨rfl, rfl⟩ := h
    refine ⟨rfl, ?_⟩
    simp only [LinComb.coefficientsGcd, Rat.den_intCast, if_true, Rat.num_intCast]
    obtain ⟨g1, g2⟩ := LinComb.gcdLoop_spec d.terms c
    generalize LinComb.gcdLoop d.terms c = g at g1 g2
    have key : c + g ≤ S := by
      rcases g2 with rfl | ⟨⟨y, hy⟩, hz⟩
      · omega
      · obtain ⟨z, hz⟩ := LinComb.terms_int hd.1 M g hz
        have e : S = g * z := by rw [hS] at hz; exact_mod_cast hz
        rw [e, hy] at hSc ⊢
        have : y < z := by
          by_contra hle
          push Not at hle
          have := mul_le_mul_of_nonneg_left hle (by omega : (0 : ℤ) ≤ g)
          omega
        have : g * (y + 1) ≤ g * z := mul_le_mul_of_nonneg_left (by omega) (by omega)
        linarith
    rw [hS]; push_cast; exact_mod_cast key
  · simp only [ok_inj, Prod.mk.injEq] at h
    obtain ⟨rfl, rfl⟩ := h
    refine ⟨rfl, ?_⟩
    rw [hS]; push_cast; exact_mod_cast hSc

/-! ## The sum of the literals -/

/-- The comparison is satisfied, and it is `=` or `>=`. -/
def DiseqOK (M : Model) (o : Op) (d : LinComb) : Prop :=
  (o = .equals ∧ coeffEval M.numv d.terms = d.const) ∨ (o = .ge ∧ coeffEval M.numv d.terms ≥ d.const)

theorem scale_ok {M : Model} {o : Op} {d : LinComb} {a : Rat} (h : DiseqOK M o d) :
    DiseqOK M o (d.mul (if o = .equals then a else if a < 0 then -a else a)) := by
  unfold DiseqOK
  rcases h with ⟨rfl, h⟩ | ⟨rfl, h⟩
  · left
    simp only [if_true, LinComb.terms_mul, LinComb.const_mul, h, true_and]
    push_cast; rfl
  · right
    simp only [reduceCtorEq, if_false, LinComb.terms_mul, LinComb.const_mul, true_and, ge_iff_le]
    push_cast
    refine mul_le_mul_of_nonneg_right h ?_
    split
    · next hn => exact_mod_cast (by linarith : (0 : Rat) ≤ -a)
    · next hn => exact_mod_cast not_lt.1 hn

/-- The arguments of the rule, read as coefficients. -/
theorem integerNumeral_ratInt {k : Term} {q : Rat} (hk : k.integerNumeral = true)
    (h : k.asFraction = .ok (some q)) : RatInt q := by
  unfold Term.integerNumeral at hk
  split at hk <;>
    simp only [Term.asFraction, Term.asUnsignedFraction, Term.asNumber, ok_inj, Option.some.injEq, bind_ok,
      exists_eq_left', Option.map_some, reduceCtorEq, beq_iff_eq, Bool.false_eq_true] at h hk
  · exact ⟨_, h.symm⟩
  · exact h ▸ ratInt_iff.2 hk
  · exact h ▸ RatInt.neg ⟨_, rfl⟩
  · exact h ▸ (ratInt_iff.2 hk).neg

theorem fromTerm_integral {a : Term} {l : LinComb} (h : LinComb.fromTerm a = .ok l) (hs : sortOf a = some .int)
    (hx : a.exactDivs = true) : l.Integral :=
  integral_inv.term a ⟨⟨_, hs⟩, hx, hs⟩ ⟨1, by norm_num⟩ LinComb.Integral.zero h

theorem fromTerm_const {a : Term} {l : LinComb} (h : LinComb.fromTerm a = .ok l) (hs : ∃ s, sortOf a = some s)
    (hx : a.exactDivs = true) (hi : a.integralNumerals = true) : RatInt l.const :=
  integralConst_inv.term a ⟨hs, hx, hi⟩ ⟨1, by norm_num⟩ ⟨0, rfl⟩ h

/-- One literal. -/
theorem scaled_ok {M : Model} {t k : Term} {a : Rat} {o : Op} {d : LinComb} (h : scaledDisequality t a = .ok (o, d))
    (hk : k.asFraction = .ok (some a)) (hok : FarkasOK t k) (hs : sortOf t = some .bool) (hx : t.exactDivs = true)
    (hf : ¬ M.Holds t) : DiseqOK M o d := by
  simp only [scaledDisequality, bind_ok, Prod.exists, ok_inj, Prod.mk.injEq] at h
  obtain ⟨o1, d1, hn, o2, d2, hst, rfl, rfl⟩ := h
  apply scale_ok
  obtain ⟨ho, hc⟩ := normalize_ok hn hs hx hf
  obtain ⟨o', x, y, l, r, hneg, hl, hr, hd⟩ := normalize_sides hn
  obtain ⟨sx, sy, xx, xy⟩ := negatedComparison_args hneg hs hx
  cases hok with
  | eq a b k =>
    simp only [negatedComparison, Term.removeNegation, or_true, if_true, Option.some.injEq, Prod.mk.injEq] at hneg
    obtain ⟨rfl, -⟩ := hneg
    rcases hd with ⟨e, -⟩ | ⟨e, -⟩ | ⟨-, -, rfl, rfl⟩
    · cases e
    · cases e
    · obtain ⟨rfl, rfl⟩ := strengthen_equals hst
      exact Or.inl ⟨rfl, hc⟩
  | strict a b k ht ha hb =>
    have hgt : o1 = .gt ∧ x = a ∧ y = b := by
      simp only [strictNegation, List.mem_cons, List.not_mem_nil, or_false] at ht
      rcases ht with rfl | rfl | rfl | rfl <;>
        simp [negatedComparison, Term.removeNegation, negateOperator] at hneg <;>
        obtain ⟨rfl, rfl, rfl⟩ := hneg <;> simp at hd <;> exact ⟨hd.1, rfl, rfl⟩
    obtain ⟨rfl, rfl, rfl⟩ := hgt
    have il := fromTerm_integral hl ha xx
    have ir := fromTerm_integral hr hb xy
    have is := il.sub ir
    have is' : (⟨(l.sub r).terms, -(l.sub r).const⟩ : LinComb).Integral := ⟨is.1, is.2.neg⟩
    have id : d1.Integral := by
      rcases hd with ⟨-, -, rfl⟩ | ⟨-, e, rfl⟩ | ⟨-, -, -, rfl⟩
      · exact is'.neg
      · cases e
      · exact is'
    exact Or.inr (strengthen_strict hst id hc)
  | weak a b k ht ha hb hk' =>
    have hge : o1 = .ge ∧ x = a ∧ y = b := by
      simp only [weakNegation, List.mem_cons, List.not_mem_nil, or_false] at ht
      rcases ht with rfl | rfl | rfl | rfl <;>
        simp [negatedComparison, Term.removeNegation, negateOperator] at hneg <;>
        obtain ⟨rfl, rfl, rfl⟩ := hneg <;> simp at hd <;> exact ⟨hd.1, rfl, rfl⟩
    obtain ⟨rfl, rfl, rfl⟩ := hge
    have il := fromTerm_const hl sx xx ha
    have ir := fromTerm_const hr sy xy hb
    have is : RatInt (l.sub r).const := il.add ir.neg
    have id : RatInt d1.const := by
      rcases hd with ⟨-, e, rfl⟩ | ⟨-, e, rfl⟩ | ⟨-, -, -, rfl⟩
      · cases e
      · exact is.neg.neg
      · exact is.neg
    obtain ⟨rfl, rfl⟩ := strengthen_weak hst id (integerNumeral_ratInt hk' hk)
    exact Or.inr ⟨rfl, hc⟩

theorem sum_ok {M : Model} : ∀ {ts ks : List Term} {as : List Rat} {o o' : Op} {d d' : LinComb},
    sumDisequalities (ts.zip as) o d = .ok (o', d') → DiseqOK M o d → as.length = ts.length →
    List.Forall₂ (fun k a => k.asFraction = .ok (some a)) ks as → List.Forall₂ FarkasOK ts ks →
    (∀ t ∈ ts, sortOf t = some .bool ∧ t.exactDivs = true ∧ ¬ M.Holds t) → DiseqOK M o' d' := by
  intro ts
  induction ts with
  | nil =>
    intro ks as o o' d d' h hd _ _ _ _
    simp only [List.zip_nil_left, sumDisequalities, ok_inj, Prod.mk.injEq] at h
    obtain ⟨rfl, rfl⟩ := h
    exact hd
  | cons t ts ih =>
    intro ks as o o' d d' h hd hlen hks hok ht
    cases as with
    | nil => simp at hlen
    | cons a as =>
      cases hks with
      | cons hk hks =>
      cases hok with
      | cons hok hoks =>
      simp only [List.zip_cons_cons, sumDisequalities, bind_ok, Prod.exists] at h
      obtain ⟨o1, d1, h1, h2⟩ := h
      obtain ⟨hs, hx, hf⟩ := ht t (by simp)
      have hd1 := scaled_ok h1 hk hok hs hx hf
      refine ih h2 ?_ (by simpa using hlen) hks hoks fun u hu => ht u (by simp [hu])
      have e : coeffEval M.numv (d.add d1).terms = coeffEval M.numv d.terms + coeffEval M.numv d1.terms :=
        coeffEval_addAll ..
      have e' : (d.add d1).const = d.const + d1.const := rfl
      unfold DiseqOK
      rw [e, e']
      push_cast
      rcases hd with ⟨rfl, hd⟩ | ⟨rfl, hd⟩ <;> rcases hd1 with ⟨rfl, hd1⟩ | ⟨rfl, hd1⟩
      · left; exact ⟨by simp [sumOperator], by rw [hd, hd1]⟩
      · right; exact ⟨by simp [sumOperator], by linarith⟩
      · right; exact ⟨by simp [sumOperator], by linarith⟩
      · right; exact ⟨by simp [sumOperator], by linarith⟩

theorem zeroCompares_ok {M : Model} {o : Op} {d : LinComb} (h : DiseqOK M o d) (ht : d.terms = []) :
    zeroCompares o d.const = true := by
  unfold DiseqOK at h
  rw [ht, coeffEval_nil] at h
  unfold zeroCompares
  rcases h with ⟨rfl, h⟩ | ⟨rfl, h⟩
  · have : d.const = 0 := by exact_mod_cast h.symm
    simp [this]
  · have : d.const ≤ 0 := by exact_mod_cast h
    split
    · next hp => exact absurd hp (not_lt.2 this)
    · split <;> simp

end Carcara
