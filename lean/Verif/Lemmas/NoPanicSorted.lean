import Verif.Lemmas.NoPanicArith
import Verif.Lemmas.PolyBv
import Verif.Lemmas.Quantifier
import Verif.Lemmas.Bitblast

/-! # Panics that do not occur in well-sorted steps -/

namespace Carcara

/-! ## `distinct_elim` -/

@[nopanic] theorem distinctPair_panic {a b t : Term} : distinctPair a b t = panic ↔ False := by
  simp [distinctPair, nopanic]

@[nopanic] theorem distinctLoop_panic : ∀ {ps : List (Term × Term)} {ts : List Term}, distinctLoop ps ts = panic ↔ False := by
  intro ps
  induction ps with
  | nil => simp [distinctLoop, nopanic]
  | cons p ps ih => obtain ⟨a, b⟩ := p; intro ts; cases ts <;> simp [distinctLoop, nopanic, ih]

theorem distinctElim_panic {c : List Term} {ps : List (List Term)} {as : List Term} (hc : ClauseOK c) :
    distinctElim c ps as ≠ panic := by
  simp only [distinctElim, ne_eq, nopanic, false_or, get1_ok, match2_ok, matchOp_ok]
  rintro ⟨_, rfl, ⟨l, r⟩, rfl, args, e, h⟩
  simp only at e
  subst e
  obtain ⟨-, s, hl, -⟩ := sort_equals.1 (hc _ (List.mem_singleton.2 rfl))
  split at h
  · simp [sortOf, sortOfL, opSort] at hl
  · next a =>
    cases ha : sortOf a <;> simp [sortOf, sortOfL, opSort, ha] at hl
  · simp [nopanic] at h
  · simp [nopanic] at h

/-! ## `poly_simp` -/

/-- All coefficients are integers. -/
def Polynom.Integral (p : Polynom) : Prop := (∀ e ∈ p.terms, RatInt e.2) ∧ RatInt p.const

theorem coeffInsert_int {α : Type} [DecidableEq α] {m : List (α × Rat)} {k : α} {v : Rat} (hm : ∀ e ∈ m, RatInt e.2)
    (hv : RatInt v) : ∀ e ∈ coeffInsert k v m, RatInt e.2 := by
  induction m with
  | nil => simpa [coeffInsert] using hv
  | cons e m ih =>
    have h1 := hm e (by simp)
    have h2 : ∀ e ∈ m, RatInt e.2 := fun e he => hm e (by simp [he])
    simp only [coeffInsert]
    split
    · split
      · exact h2
      · intro x hx
        rcases List.mem_cons.1 hx with rfl | hx
        · exact h1.add hv
        · exact h2 x hx
    · intro x hx
      rcases List.mem_cons.1 hx with rfl | hx
      · exact h1
      · exact ih h2 x hx

theorem Polynom.Integral.insert {p : Polynom} (hp : p.Integral) {m : List Term} {v : Rat} (hv : RatInt v) :
    (p.insert m v).Integral := by
  refine ⟨?_, hp.2⟩
  simp only [Polynom.insert, coeffAdd]
  split
  · exact hp.1
  · exact coeffInsert_int hp.1 hv

theorem Polynom.Integral.zero : Polynom.zero.Integral := ⟨by simp [Polynom.zero], 0, by simp [Polynom.zero]⟩

theorem Polynom.Integral.fold {β : Type} {l : List β} {f : Polynom → β → Polynom}
    (h : ∀ b ∈ l, ∀ p, p.Integral → (f p b).Integral) : ∀ {p : Polynom}, p.Integral → (l.foldl f p).Integral := by
  induction l with
  | nil => intro p hp; exact hp
  | cons b l ih =>
    intro p hp
    exact ih (fun c hc => h c (by simp [hc])) (h b (by simp) p hp)

theorem Polynom.Integral.mulMono {addr : Term → Nat} {x : List Term} {c : Rat} {q r : Polynom} (hc : RatInt c)
    (hq : q.Integral) (hr : r.Integral) : (Polynom.mulMono addr x c q r).Integral :=
  (Integral.fold (fun e he _ hp => hp.insert (hc.mul (hq.1 e he))) hr).insert (hc.mul hq.2)

theorem Polynom.Integral.mul {addr : Term → Nat} {p q : Polynom} (hp : p.Integral) (hq : q.Integral) :
    (Polynom.mul addr p q).Integral := by
  have h1 := Integral.fold (l := p.terms) (f := fun r e => Polynom.mulMono addr e.1 e.2 q r)
    (fun e he _ hr => Integral.mulMono (hp.1 e he) hq hr) Integral.zero
  have h2 := Integral.fold (l := q.terms) (f := fun r e => r.insert e.1 (e.2 * p.const))
    (fun e he _ hr => hr.insert ((hq.1 e he).mul hp.2)) h1
  exact ⟨h2.1, h2.2.add (hp.2.mul hq.2)⟩

theorem Polynom.Integral.addScaled {p q : Polynom} {c : Rat} (hp : p.Integral) (hq : q.Integral) (hc : RatInt c) :
    (p.addScaled q c).Integral := by
  have h1 := Integral.fold (l := q.terms) (f := fun r e => r.insert e.1 (e.2 * c))
    (fun e he _ hr => hr.insert ((hq.1 e he).mul hc)) hp
  exact ⟨h1.1, h1.2.add (hc.mul hq.2)⟩

/-- The polynomial of a term keeps the coefficients integral. -/
def Polynom.Keeps (addr : Term → Nat) (t : Term) : Prop := ∀ {c : Rat} {p p' : Polynom}, RatInt c → p.Integral →
  Polynom.addTerm addr t c p = .ok p' → p'.Integral

theorem Polynom.addTerms_int {addr : Term → Nat} : ∀ {ts : List Term}, (∀ t ∈ ts, Polynom.Keeps addr t) →
    ∀ {c : Rat} {p p' : Polynom}, RatInt c → p.Integral → Polynom.addTerms addr ts c p = .ok p' → p'.Integral
  | [], _, c, p, p', _, hp, h => by simp [Polynom.addTerms] at h; subst h; exact hp
  | t :: ts, hk, c, p, p', hc, hp, h => by
    simp only [Polynom.addTerms, bind_ok] at h
    obtain ⟨q, h1, h2⟩ := h
    exact addTerms_int (fun u hu => hk u (by simp [hu])) hc (hk t (by simp) hc hp h1) h2

theorem Polynom.productFrom_int {addr : Term → Nat} : ∀ {ts : List Term}, (∀ t ∈ ts, Polynom.Keeps addr t) →
    ∀ {p p' : Polynom}, p.Integral → Polynom.productFrom addr p ts = .ok p' → p'.Integral
  | [], _, p, p', hp, h => by simp [Polynom.productFrom] at h; subst h; exact hp
  | t :: ts, hk, p, p', hp, h => by
    simp only [Polynom.productFrom, bind_ok] at h
    obtain ⟨q, h1, h2⟩ := h
    exact productFrom_int (fun u hu => hk u (by simp [hu])) (hp.mul (hk t (by simp) ⟨1, by simp⟩ .zero h1)) h2

theorem Polynom.product_int {addr : Term → Nat} {ts : List Term} (hk : ∀ t ∈ ts, Polynom.Keeps addr t)
    {p' : Polynom} (h : Polynom.product addr ts = .ok p') : p'.Integral := by
  cases ts with
  | nil => simp [Polynom.product] at h
  | cons t ts =>
    simp only [Polynom.product, bind_ok] at h
    obtain ⟨q, h1, h2⟩ := h
    exact productFrom_int (fun u hu => hk u (by simp [hu])) (hk t (by simp) ⟨1, by simp⟩ .zero h1) h2

theorem addAtom_int {t : Term} {w : ℕ} (hs : sortOf t = some (.bv w)) {c : Rat} {p p' : Polynom} (hc : RatInt c)
    (hp : p.Integral) (h : Polynom.addAtom t c p = .ok p') : p'.Integral := by
  simp only [Polynom.addAtom, bind_ok] at h
  obtain ⟨r, hr, h⟩ := h
  cases r with
  | some r => rcases asFraction_sort hr hs with e | e <;> cases e
  | none =>
    simp only at h
    split at h
    · simp only [ok_inj] at h; subst h
      exact ⟨hp.1, hp.2.add (RatInt.mul ⟨_, rfl⟩ hc)⟩
    · simp only [ok_inj] at h; subst h; exact hp.insert hc

theorem addTerm_int {addr : Term → Nat} {w : ℕ} (t : Term) : sortOf t = some (.bv w) → Polynom.Keeps addr t := by
  induction t using Term.ind with
  | op o as ih =>
    intro hs c p p' hc hp h'
    have arith : o = .add ∨ o = .sub ∨ o = .mult → False := by
      intro ho
      obtain ⟨-, ⟨e, -⟩ | ⟨e, -⟩⟩ := arith_children ho hs <;> cases e
    unfold Polynom.addTerm at h'
    split at h'
    · next e => cases e; exact (arith (Or.inl rfl)).elim
    · next e =>
      cases e
      obtain ⟨w', e, hl, ht⟩ := sort_bvNary (by simp) hs
      cases e
      exact Polynom.addTerms_int (fun t h => ih t h (ht t h)) hc hp h'
    · cases h'
    · next e => cases e; exact (arith (Or.inr (Or.inl rfl))).elim
    · next e => cases e; exact (arith (Or.inr (Or.inl rfl))).elim
    · next e =>
      cases e
      obtain ⟨w', a, e, h1, ha⟩ := sort_bvUn (by simp) hs
      cases e; cases h1
      exact ih _ (by simp) ha hc.neg hp h'
    · cases h'
    · next e =>
      cases e
      obtain ⟨w', a, b, e, h1, ha, hb⟩ := sort_bvBin (by simp) hs
      cases e; cases h1
      simp only [Polynom.addTerms, bind_ok, ok_inj] at h'
      obtain ⟨p1, h1, _, h2, rfl⟩ := h'
      exact ih b (by simp) hb hc.neg (ih _ (by simp) ha hc hp h1) h2
    · next e => cases e; exact (arith (Or.inr (Or.inr rfl))).elim
    · next e =>
      cases e
      obtain ⟨w', e, hl, ht⟩ := sort_bvNary (by simp) hs
      cases e
      simp only [bind_ok, ok_inj] at h'
      obtain ⟨q, hq, rfl⟩ := h'
      exact hp.addScaled (Polynom.product_int (fun t h => ih t h (ht t h)) hq) hc
    · next e => cases e; obtain ⟨e, -⟩ | ⟨-, e, -⟩ := sort_division (Or.inr rfl) hs <;> cases e
    · cases h'
    · next e => cases e; obtain ⟨-, e, -⟩ := sort_toReal hs; cases e
    · next e => cases e; obtain ⟨-, e, -⟩ | ⟨e, -⟩ := sort_division (Or.inl rfl) hs <;> cases e
    · exact addAtom_int hs hc hp h'
  | _ =>
    intro hs c p p' hc hp h'
    simp only [Polynom.addTerm] at h'
    exact addAtom_int hs hc hp h'

theorem modulo_int {p : Polynom} (h : p.Integral) (n : ℤ) : (p.modulo n).isSome = true := by
  have hc : ∀ c, RatInt c → ∃ q, Polynom.modCoeff n c = some q := fun c hc => by
    simp [Polynom.modCoeff, ratInt_iff.1 hc]
  have ht : ∀ m : List (List Term × Rat), (∀ e ∈ m, RatInt e.2) → ∃ m', Polynom.modTerms n m = some m' := by
    intro m
    induction m with
    | nil => intro _; exact ⟨[], rfl⟩
    | cons e m ih =>
      intro h
      obtain ⟨c, hc⟩ := hc e.2 (h e (by simp))
      obtain ⟨m', hm⟩ := ih fun e he => h e (by simp [he])
      exact ⟨(e.1, c) :: m', by simp [Polynom.modTerms, hc, hm]⟩
  obtain ⟨m, hm⟩ := ht _ h.1
  obtain ⟨c, hc⟩ := hc _ h.2
  simp [Polynom.modulo, hm, hc]

theorem addAtom_panic {t : Term} (h : t.NoZeroDivision) (c : Rat) (p : Polynom) : Polynom.addAtom t c p ≠ panic := by
  simp only [Polynom.addAtom, ne_eq, nopanic, asFraction_panic h, false_or]
  rintro ⟨a, -, e⟩
  split at e
  · simp [nopanic] at e
  · split at e <;> simp [nopanic] at e

theorem polyAddTerms_panic {addr : Term → Nat} : ∀ {ts : List Term},
    (∀ t ∈ ts, ∀ c p, Polynom.addTerm addr t c p ≠ panic) → ∀ c p, Polynom.addTerms addr ts c p ≠ panic
  | [], _, c, p => by simp [Polynom.addTerms, nopanic]
  | t :: ts, h, c, p => by
    have ih := polyAddTerms_panic (ts := ts) fun u hu => h u (by simp [hu])
    simp [Polynom.addTerms, nopanic, h t (by simp), ih]

theorem productFrom_panic {addr : Term → Nat} : ∀ {ts : List Term},
    (∀ t ∈ ts, ∀ c p, Polynom.addTerm addr t c p ≠ panic) → ∀ p, Polynom.productFrom addr p ts ≠ panic
  | [], _, p => by simp [Polynom.productFrom, nopanic]
  | t :: ts, h, p => by
    have ih := productFrom_panic (ts := ts) fun u hu => h u (by simp [hu])
    simp [Polynom.productFrom, nopanic, h t (by simp), ih]

theorem product_panic {addr : Term → Nat} {ts : List Term} (hl : ts ≠ [])
    (h : ∀ t ∈ ts, ∀ c p, Polynom.addTerm addr t c p ≠ panic) : Polynom.product addr ts ≠ panic := by
  cases ts with
  | nil => exact absurd rfl hl
  | cons t ts =>
    simp [Polynom.product, nopanic, h t (by simp), productFrom_panic (ts := ts) fun u hu => h u (by simp [hu])]

theorem polyAddTerm_panic {addr : Term → Nat} (t : Term) : (sortOf t).isSome = true → t.NoZeroDivision → ∀ c p,
    Polynom.addTerm addr t c p ≠ panic := by
  induction t using Term.ind with
  | op o as ih =>
    intro hs hz c p
    have ih' : ∀ t ∈ as, ∀ c p, Polynom.addTerm addr t c p ≠ panic :=
      fun t ht => ih t ht (sorted_op_args hs t ht) (hz.op ht)
    unfold Polynom.addTerm
    split
    · next heq => cases heq; exact polyAddTerms_panic ih' _ _
    · next heq => cases heq; exact polyAddTerms_panic ih' _ _
    · next heq => cases heq; simp [sortOf, sortOfL, opSort] at hs
    · next heq => cases heq; exact ih' _ (by simp) _ _
    · next heq =>
      cases heq
      simp only [ne_eq, nopanic, ih' _ (List.mem_cons_self ..), false_or, not_exists, not_and]
      intro _ _
      exact polyAddTerms_panic (fun t ht => ih' t (by simp [ht])) _ _
    · next heq => cases heq; exact ih' _ (by simp) _ _
    · next heq => cases heq; simp [sortOf, sortOfL, opSort] at hs
    · next heq =>
      cases heq
      simp only [ne_eq, nopanic, ih' _ (List.mem_cons_self ..), false_or, not_exists, not_and]
      intro _ _
      exact polyAddTerms_panic (fun t ht => ih' t (by simp [ht])) _ _
    · next heq =>
      cases heq
      have hl : as ≠ [] := by rintro rfl; simp [sortOf, sortOfL, opSort] at hs
      simp [nopanic, product_panic hl ih']
    · next heq =>
      cases heq
      have hl : as ≠ [] := by rintro rfl; simp [sortOf, sortOfL, opSort] at hs
      simp [nopanic, product_panic hl ih']
    · next a b heq =>
      cases heq
      simp only [ne_eq, nopanic, asFraction_panic (hz.op (show b ∈ [a, b] by simp)), false_or]
      rintro ⟨_, -, e⟩
      split at e
      · simp [nopanic, ih' a (by simp)] at e
      · exact addAtom_panic hz _ _ e
    · next heq => cases heq; simp [sortOf, sortOfL, opSort] at hs
    · next heq => cases heq; exact ih' _ (by simp) _ _
    · next a b heq =>
      cases heq
      simp only [ne_eq, nopanic, asFraction_panic (hz.op (show b ∈ [a, b] by simp)), false_or]
      rintro ⟨_, -, e⟩
      split at e
      · simp [nopanic, addAtom_panic hz] at e
      · exact addAtom_panic hz _ _ e
    · exact addAtom_panic hz _ _
  | _ =>
    intro hs hz c p
    simp only [Polynom.addTerm]
    exact addAtom_panic hz _ _

theorem polySimp_panic {addr : Term → Nat} {c : List Term} {ps : List (List Term)} {as : List Term} (hc : ClauseOK c)
    (hz : ∀ t ∈ c, t.NoZeroDivision) : polySimp addr c ps as ≠ panic := by
  simp only [polySimp, ne_eq, nopanic, false_or, get1_ok, match2_ok]
  rintro ⟨_, rfl, ⟨l, r⟩, rfl, h⟩
  have hz := hz _ (List.mem_singleton.2 rfl)
  obtain ⟨-, s, hl, hr⟩ := sort_equals.1 (hc _ (List.mem_singleton.2 rfl))
  simp only [Polynom.fromTerm, polyAddTerm_panic l (by simp [hl]) (hz.op (by simp)),
    polyAddTerm_panic r (by simp [hr]) (hz.op (by simp)), false_or] at h
  obtain ⟨p, hp, q, hq, h⟩ := h
  simp only [hl] at h
  split at h
  · next e => cases e
  · next w e =>
    cases e
    have ip := modulo_int (addTerm_int l hl ⟨1, by simp⟩ .zero hp) (2 ^ w)
    have iq := modulo_int (addTerm_int r hr ⟨1, by simp⟩ .zero hq) (2 ^ w)
    simp [nopanic] at h
    rcases h with h | h
    · simp [h] at ip
    · simp [h] at iq
  · simp [nopanic] at h

@[nopanic] theorem matchDifference_panic {t : Term} : matchDifference t = panic ↔ False := by
  unfold matchDifference; split <;> simp [nopanic]
@[nopanic] theorem assertOddBv_panic {t : Term} : assertOddBv t = panic ↔ False := by
  unfold assertOddBv; split <;> simp [nopanic]

theorem polySimpRel_panic {c : List Term} {ps : List (List Term)} {as : List Term} (hc : ∀ p ∈ ps, ClauseOK p)
    (hz : ∀ p ∈ ps, ∀ t ∈ p, t.NoZeroDivision) : polySimpRel c ps as ≠ panic := by
  simp only [polySimpRel, ne_eq, nopanic, false_or, get1_ok, premiseTerm_ok]
  rintro ⟨t, rfl, u, rfl, h⟩
  have hs := hc [t] (by simp) t (by simp)
  have hz := hz [t] (by simp) t (by simp)
  split at h
  · next l r =>
    obtain ⟨-, s, hl, hr⟩ := sort_equals.1 hs
    split at h
    · next c1 x1 x2 c2 y1 y2 h1 h2 =>
      unfold matchBvScaled at h1
      split at h1
      · simp only [Option.some.injEq, Prod.mk.injEq] at h1
        obtain ⟨rfl, rfl, rfl⟩ := h1
        obtain ⟨w, -, -, ht⟩ := sort_bvNary (by simp) hl
        rw [ht _ (List.mem_cons_self ..)] at h
        simp [nopanic] at h
      · simp at h1
    · simp only [polySimpRelNum, nopanic, false_or, match2_ok] at h
      obtain ⟨⟨c1, xs⟩, rfl, ⟨c2, ys⟩, rfl, _, -, _, -, h⟩ := h
      have z1 : c1.NoZeroDivision := (hz.op (a := .op .mult [c1, xs]) (by simp)).op (by simp)
      have z2 : c2.NoZeroDivision := (hz.op (a := .op .mult [c2, ys]) (by simp)).op (by simp)
      simp only [asFraction_panic z1, asFraction_panic z2, and_false, exists_false, or_false, false_or] at h
      obtain ⟨_, -, _, -, _, -, _, -, _, -, _, -, _, -, h⟩ := h
      split at h
      · simp [nopanic] at h
      · simp [nopanic] at h
  · simp [nopanic] at h

/-! ## `qnt_cnf` -/

/-- The conjunctive normal form exists and has no empty clause. -/
def CnfOK (t : Term) : Prop := ∃ f, toCnf t = .ok f ∧ ∀ c ∈ f, c ≠ []

theorem distribute_total : ∀ {fs : List (List (List Term))}, fs ≠ [] → (∀ f ∈ fs, ∀ c ∈ f, c ≠ []) →
    ∃ f, distribute fs = .ok f ∧ ∀ c ∈ f, c ≠ []
  | [], h, _ => absurd rfl h
  | [f], _, h => ⟨f, rfl, h f (by simp)⟩
  | f :: g :: fs, _, h => by
    obtain ⟨t, ht, hn⟩ := distribute_total (fs := g :: fs) (by simp) fun x hx => h x (by simp only [List.mem_cons] at hx ⊢; tauto)
    refine ⟨f.flatMap fun x => t.map fun y => x ++ y, by simp [distribute, ht], ?_⟩
    intro c hc
    simp only [List.mem_flatMap, List.mem_map] at hc
    obtain ⟨x, hx, y, -, rfl⟩ := hc
    have := h f (by simp) x hx
    simp [this]

theorem toCnfL_total : ∀ {ts : List Term}, (∀ t ∈ ts, CnfOK t) → ∃ fs, toCnfL ts = .ok fs ∧
    fs.length = ts.length ∧ ∀ f ∈ fs, ∀ c ∈ f, c ≠ []
  | [], _ => ⟨[], rfl, rfl, by simp⟩
  | t :: ts, h => by
    obtain ⟨f, h1, h2⟩ := h t (by simp)
    obtain ⟨fs, h3, h4, h5⟩ := toCnfL_total (ts := ts) fun u hu => h u (by simp [hu])
    refine ⟨f :: fs, by simp [toCnfL, h1, h3], by simp [h4], ?_⟩
    intro g hg
    rcases List.mem_cons.1 hg with rfl | hg
    · exact h2
    · exact h5 g hg

theorem CnfOK.and {ts : List Term} (h : ∀ t ∈ ts, CnfOK t) : CnfOK (.op .and ts) := by
  obtain ⟨fs, h1, -, h3⟩ := toCnfL_total h
  refine ⟨fs.flatten, by simp [toCnf, h1], fun c hc => ?_⟩
  obtain ⟨f, hf, hc⟩ := List.mem_flatten.1 hc
  exact h3 f hf c hc

theorem CnfOK.or {ts : List Term} (hn : ts ≠ []) (h : ∀ t ∈ ts, CnfOK t) : CnfOK (.op .or ts) := by
  obtain ⟨fs, h1, h2, h3⟩ := toCnfL_total h
  have : fs ≠ [] := by rintro rfl; exact hn (List.length_eq_zero_iff.1 h2.symm)
  obtain ⟨f, h4, h5⟩ := distribute_total this h3
  exact ⟨f, by simp [toCnf, h1, h4], h5⟩

theorem CnfOK.flip {pol : Bool} {o : Op} (ho : o = .and ∨ o = .or) {ts : List Term} (hn : ts ≠ [])
    (h : ∀ t ∈ ts, CnfOK (prenex t).2) : CnfOK (prenex (.op (flipOp o pol) ts)).2 := by
  have h' : ∀ t ∈ ts.map fun t => (prenex t).2, CnfOK t := by
    intro t ht
    obtain ⟨u, hu, rfl⟩ := List.mem_map.1 ht
    exact h u hu
  have hn' : ts.map (fun t => (prenex t).2) ≠ [] := by simpa using hn
  have : flipOp o pol = .and ∨ flipOp o pol = .or := by
    unfold flipOp; rcases ho with rfl | rfl <;> cases pol <;> simp
  rcases this with e | e <;> rw [e] <;> simp only [prenex, prenexL_eq]
  · exact CnfOK.and h'
  · exact CnfOK.or hn' h'

theorem CnfOK.lit {pol : Bool} {t : Term} (h1 : ∀ as, t ≠ .op .and as) (h2 : ∀ as, t ≠ .op .or as)
    (h3 : ∀ bs u, t ≠ .binder .all bs u) : CnfOK (prenex (nnfLit pol t)).2 := by
  have key : ∀ t : Term, (∀ as, t ≠ .op .and as) → (∀ as, t ≠ .op .or as) → (∀ bs u, t ≠ .binder .all bs u) →
      CnfOK (prenex t).2 := by
    intro t h1 h2 h3
    have hp : (prenex t).2 = t := by unfold prenex; split <;> simp_all
    rw [hp]
    refine ⟨[[t]], ?_, by simp⟩
    unfold toCnf; split <;> simp_all
  cases pol
  · simp only [nnfLit]
    exact key _ (by simp) (by simp) (by simp)
  · exact key _ h1 h2 h3

theorem CnfOK.pair {pol : Bool} {a b c d : Term} (ha : CnfOK (prenex a).2) (hb : CnfOK (prenex b).2)
    (hc : CnfOK (prenex c).2) (hd : CnfOK (prenex d).2) : CnfOK (prenex (nnfPair pol a b c d)).2 := by
  refine CnfOK.flip (Or.inl rfl) (by simp) ?_
  intro t ht
  simp only [List.mem_cons, List.not_mem_nil, or_false] at ht
  rcases ht with rfl | rfl
  · exact CnfOK.flip (Or.inr rfl) (by simp) (by simp [ha, hb])
  · exact CnfOK.flip (Or.inr rfl) (by simp) (by simp [hc, hd])

theorem CnfOK.quant {pol : Bool} {q : Binder} (hq : q = .all ∨ q = .ex) {bs : List (String × Srt)} {t : Term}
    (h : CnfOK (prenex t).2) : CnfOK (prenex (.binder (flipQuant q pol) bs t)).2 := by
  have : flipQuant q pol = .all ∨ flipQuant q pol = .ex := by
    unfold flipQuant; rcases hq with rfl | rfl <;> cases pol <;> simp
  rcases this with e | e <;> rw [e]
  · simpa [prenex] using h
  · exact ⟨[[.binder .ex bs t]], by simp [prenex, toCnf], by simp⟩

theorem nnf_cnfOK_aux (n : Nat) : ∀ (t : Term), sizeOf t < n → ∀ (pol : Bool), sortOf t = some .bool →
    CnfOK (prenex (nnf t pol)).2 := by
  induction n with
  | zero => intro t hn; omega
  | succ n ih =>
    intro t hn pol hs
    have sub : ∀ {o : Op} {as : List Term} {a : Term}, t = .op o as → a ∈ as → sizeOf a < n := by
      intro o as a e ha
      subst e
      have := List.sizeOf_lt_of_mem ha
      simp at hn
      omega
    unfold nnf
    split
    · exact ih _ (sub rfl (by simp)) _ (sort_not.1 hs).2
    · obtain ⟨-, h1, h2⟩ := sort_and.1 hs
      rw [nnfL_eq]
      refine CnfOK.flip (Or.inl rfl) (by simp; rintro rfl; simp at h1) ?_
      intro t ht
      obtain ⟨u, hu, rfl⟩ := List.mem_map.1 ht
      exact ih u (sub rfl hu) _ (h2 u hu)
    · obtain ⟨-, h1, h2⟩ := sort_or.1 hs
      rw [nnfL_eq]
      refine CnfOK.flip (Or.inr rfl) (by simp; rintro rfl; simp at h1) ?_
      intro t ht
      obtain ⟨u, hu, rfl⟩ := List.mem_map.1 ht
      exact ih u (sub rfl hu) _ (h2 u hu)
    · obtain ⟨-, h1, h2⟩ := sort_implies.1 hs
      refine CnfOK.flip (Or.inr rfl) (by simp) ?_
      intro t ht
      simp only [List.mem_cons, List.not_mem_nil, or_false] at ht
      rcases ht with rfl | rfl
      · exact ih _ (sub rfl (by simp)) _ h1
      · exact ih _ (sub rfl (by simp)) _ h2
    · obtain ⟨h1, h2, h3⟩ := sort_ite.1 hs
      exact CnfOK.pair (ih _ (sub rfl (by simp)) _ h1) (ih _ (sub rfl (by simp)) _ h2) (ih _ (sub rfl (by simp)) _ h1)
        (ih _ (sub rfl (by simp)) _ h3)
    · obtain ⟨-, -, h⟩ := (sort_quant (Or.inl rfl)).1 hs
      exact CnfOK.quant (Or.inl rfl) (ih _ (by simp at hn; omega) _ h)
    · obtain ⟨-, -, h⟩ := (sort_quant (Or.inr rfl)).1 hs
      exact CnfOK.quant (Or.inr rfl) (ih _ (by simp at hn; omega) _ h)
    · obtain ⟨-, s, h1, h2⟩ := sort_equals.1 hs
      split
      · next e =>
        rw [h1] at e; cases e
        exact CnfOK.pair (ih _ (sub rfl (by simp)) _ h1) (ih _ (sub rfl (by simp)) _ h2)
          (ih _ (sub rfl (by simp)) _ h2) (ih _ (sub rfl (by simp)) _ h1)
      · exact CnfOK.lit (by simp) (by simp) (by simp)
    · exact CnfOK.lit (by simp_all) (by simp_all) (by simp_all)

theorem qntCnf_panic {c : List Term} {ps : List (List Term)} {as : List Term} (hc : ClauseOK c) :
    qntCnf c ps as ≠ panic := by
  simp only [qntCnf, ne_eq, nopanic, false_or, get1_ok, match2_ok, match1_ok, asQuantErr_ok, and_false, exists_false,
    or_false]
  rintro ⟨_, rfl, ⟨nl, r⟩, rfl, l, e, ⟨lq, lbs, phi⟩, ⟨hq, rfl⟩, _, -, _, -, _, -, h⟩
  simp only at e
  subst e
  obtain ⟨-, -, h2⟩ := sort_or.1 (hc _ (List.mem_singleton.2 rfl))
  have hs := (sort_not.1 (h2 _ (List.mem_cons_self ..))).2
  obtain ⟨-, -, hs⟩ := (sort_quant hq).1 hs
  obtain ⟨f, hf, hn⟩ := nnf_cnfOK_aux _ phi (Nat.lt_succ_self _) true hs
  have hm : mapRes cnfClause f ≠ panic := mapRes_panic fun c hc => by
    have := hn c hc
    unfold cnfClause; split <;> simp_all [nopanic]
  simp only [hf, ok_inj] at h
  simp [nopanic, hm] at h

/-! ## Bit-blasting -/

theorem bvSizeOf_panic {t : Term} {w : ℕ} (h : sortOf t = some (.bv w)) : bvSizeOf t ≠ panic := by
  simp [bvSizeOf, h, nopanic]

/-- The vector of the term is long enough. -/
def BitsReadable (size : ℕ) (t : Term) : Prop := size ≤ (buildTermVec t size).length

theorem bitsOf_readable {size : ℕ} {t : Term} (h : BitsReadable size t) : bitsOf t size ≠ panic := by
  unfold BitsReadable at h
  simp [bitsOf, readable, h, nopanic]

theorem bitsReadable_sorted {w : ℕ} {t : Term} (h : sortOf t = some (.bv w)) : BitsReadable w t := by
  unfold BitsReadable buildTermVec
  split
  · obtain ⟨e, -, -⟩ := sort_bb h
    cases e
    exact le_refl _
  · simp

theorem bitsReadable_bb {size : ℕ} {f : ℕ → Term} : BitsReadable size (mkBb (tabulate size f)) := by
  simp [BitsReadable, buildTermVec, mkBb, tabulate]

theorem sameSizes_panic {size w : ℕ} : ∀ {ts : List Term}, (∀ t ∈ ts, sortOf t = some (.bv w)) → sameSizes size ts ≠ panic
  | [], _ => by simp [sameSizes, nopanic]
  | t :: ts, h => by
    have ih := sameSizes_panic (size := size) (ts := ts) fun u hu => h u (by simp [hu])
    simp [sameSizes, nopanic, bvSizeOf_panic (h t (by simp)), ih]

theorem combine_panic {f : Term → Term → Res Term} {size : ℕ}
    (hf : ∀ x y, BitsReadable size x → BitsReadable size y → f x y ≠ panic ∧ ∀ t, f x y = .ok t → BitsReadable size t) :
    ∀ {ts : List Term} {t : Term}, BitsReadable size t → (∀ u ∈ ts, BitsReadable size u) → combine f t ts ≠ panic
  | [], t, _, _ => by simp [combine, nopanic]
  | u :: ts, t, ht, h => by
    obtain ⟨h1, h2⟩ := hf t u ht (h u (by simp))
    simp only [combine, ne_eq, nopanic, h1, false_or, not_exists, not_and]
    intro t' e
    exact combine_panic hf (h2 t' e) fun v hv => h v (by simp [hv])

theorem bitwise_total {g : Term → Term → Term} {size : ℕ} {x y : Term} (hx : BitsReadable size x) (hy : BitsReadable size y) :
    bitwise g size x y ≠ panic ∧ ∀ t, bitwise g size x y = .ok t → BitsReadable size t := by
  constructor
  · simp [bitwise, nopanic, bitsOf_readable hx, bitsOf_readable hy]
  · intro t h
    simp only [bitwise, bind_ok, ok_inj] at h
    obtain ⟨_, -, _, -, rfl⟩ := h
    exact bitsReadable_bb

theorem adder_total {size : ℕ} {x y : Term} (hx : BitsReadable size x) (hy : BitsReadable size y) :
    rippleCarryAdder size x y ≠ panic ∧ ∀ t, rippleCarryAdder size x y = .ok t → BitsReadable size t := by
  constructor
  · simp [rippleCarryAdder, nopanic, bitsOf_readable hx, bitsOf_readable hy]
  · intro t h
    simp only [rippleCarryAdder, bind_ok, ok_inj] at h
    obtain ⟨_, -, _, -, rfl⟩ := h
    exact bitsReadable_bb

theorem multiplier_total {size : ℕ} (hs : size ≠ 0) {x y : Term} (hx : BitsReadable size x) (hy : BitsReadable size y) :
    shiftAddMultiplier size x y ≠ panic ∧ ∀ t, shiftAddMultiplier size x y = .ok t → BitsReadable size t := by
  constructor
  · simp [shiftAddMultiplier, nopanic, bitsOf_readable hx, bitsOf_readable hy, hs]
  · intro t h
    simp only [shiftAddMultiplier, bind_ok, if_neg hs, ok_inj] at h
    obtain ⟨_, -, _, -, rfl⟩ := h
    exact bitsReadable_bb

theorem bbNary_panic {o : Op} (ho : o = .bvAdd ∨ o = .bvMul ∨ o = .bvAnd ∨ o = .bvOr ∨ o = .bvXor)
    {f : ℕ → Term → Term → Res Term} {c : List Term} {ps : List (List Term)} {as : List Term} (hc : ClauseOK c)
    (hf : ∀ w x y, (∃ u ∈ c, ∃ t ∈ u.subterms, sortOf t = some (.bv w)) → BitsReadable w x → BitsReadable w y →
      f w x y ≠ panic ∧ ∀ t, f w x y = .ok t → BitsReadable w t) : bbNary o f c ps as ≠ panic := by
  simp only [bbNary, ne_eq, nopanic, false_or, get1_ok, match2_ok, matchOp_ok]
  rintro ⟨_, rfl, ⟨l, r⟩, rfl, args, e, h⟩
  simp only at e
  subst e
  obtain ⟨-, s, hl, -⟩ := sort_equals.1 (hc _ (List.mem_singleton.2 rfl))
  obtain ⟨w, -, hlen, ht⟩ := sort_bvNary ho hl
  cases args with
  | nil => simp at hlen
  | cons a args =>
    have ha := ht a (by simp)
    have hsize : bvSizeOf a = .ok w := by simp [bvSizeOf, ha]
    simp only [hsize, nopanic, ok_inj, exists_eq_left', false_or, sameSizes_panic ht, and_false, exists_false, or_false] at h
    obtain ⟨_, -, h⟩ := h
    refine combine_panic (fun x y hx hy => hf w x y ⟨_, List.mem_singleton.2 rfl, a, ?_, ha⟩ hx hy) (bitsReadable_sorted ha)
      (fun u hu => bitsReadable_sorted (ht u (by simp [hu]))) h
    exact subterms_op (List.mem_cons_self ..) _ (subterms_op (List.mem_cons_self ..) _ a.self_mem_subterms)

/-- Two terms of the same bit-vector sort below a binary operator. -/
theorem bbBinary_panic {o : Op} {c : List Term} (hs : ∀ a b, (∃ r, c = [.op .equals [.op o [a, b], r]]) →
    ∃ w, sortOf a = some (.bv w) ∧ sortOf b = some (.bv w)) : bbBinary o c ≠ panic := by
  simp only [bbBinary, ne_eq, nopanic, false_or, get1_ok, match2_ok]
  rintro ⟨_, rfl, ⟨l, r⟩, rfl, ⟨a, b⟩, e, h⟩
  simp only at e
  subst e
  obtain ⟨w, ha, hb⟩ := hs a b ⟨r, rfl⟩
  have hsize : bvSizeOf a = .ok w := by simp [bvSizeOf, ha]
  simp [hsize, nopanic, bitsOf_readable (bitsReadable_sorted ha), bitsOf_readable (bitsReadable_sorted hb)] at h

theorem bbBinary_size {o : Op} {c : List Term} {w : ℕ} {x y : ℕ → Term} {r : Term} (h : bbBinary o c = .ok (w, x, y, r)) :
    ∃ u ∈ c, ∃ t ∈ u.subterms, sortOf t = some (.bv w) := by
  simp only [bbBinary, bind_ok, get1_ok, match2_ok, bvSizeOf_ok, Prod.exists, ok_inj, Prod.mk.injEq] at h
  obtain ⟨_, rfl, _, _, rfl, a, b, rfl, _, ha, _, hx, _, hy, rfl, rfl, rfl, rfl⟩ := h
  exact ⟨_, List.mem_singleton.2 rfl, a, subterms_op (List.mem_cons_self ..) _ (subterms_op (List.mem_cons_self ..) _ a.self_mem_subterms), ha⟩

theorem bbBinary_sorted {o : Op} (ho : o = .bvXNor ∨ o = .bvComp ∨ o = .bvULt ∨ o = .bvSLt) {c : List Term}
    (hc : ClauseOK c) : ∀ a b, (∃ r, c = [.op .equals [.op o [a, b], r]]) →
    ∃ w, sortOf a = some (.bv w) ∧ sortOf b = some (.bv w) := by
  rintro a b ⟨r, rfl⟩
  obtain ⟨-, s, hl, -⟩ := sort_equals.1 (hc _ (List.mem_singleton.2 rfl))
  have : ∃ w, sortOf a = some (.bv w) := by
    obtain ⟨ss, h1, h2⟩ := sortOf_op (by rcases ho with rfl | rfl | rfl | rfl <;> decide) hl
    rw [sortOfL_cons] at h1
    obtain ⟨s1, ss1, rfl, h1, -⟩ := h1
    rw [h1]
    rcases ho with rfl | rfl | rfl | rfl <;> cases s1 <;> simp [opSort, sameBv] at h2 <;> simp
  obtain ⟨w, ha⟩ := this
  exact ⟨w, ha, sort_bvBin' (by tauto) hl ha⟩

theorem bbEqTerm_panic {w : ℕ} (hw : w ≠ 0) {x y : ℕ → Term} : bbEqTerm w x y ≠ panic := by
  have hl := length_tabulate (w := w) (f := fun i => mkEq (x i) (y i))
  unfold bbEqTerm
  split
  · next e => rw [e] at hl; exact absurd hl.symm hw
  · simp [nopanic]
  · simp [nopanic]

theorem bbUnary_panic {o : Op} (ho : o = .bvNeg ∨ o = .bvNot) {c : List Term} (hc : ClauseOK c) : bbUnary o c ≠ panic := by
  simp only [bbUnary, ne_eq, nopanic, false_or, get1_ok, match2_ok, match1_ok]
  rintro ⟨_, rfl, ⟨l, r⟩, rfl, a, e, h⟩
  simp only at e
  subst e
  obtain ⟨-, s, hl, -⟩ := sort_equals.1 (hc _ (List.mem_singleton.2 rfl))
  obtain ⟨w, _, -, e, ha⟩ := sort_bvUn ho hl
  cases e
  have hsize : bvSizeOf a = .ok w := by simp [bvSizeOf, ha]
  simp [hsize, nopanic, bitsOf_readable (bitsReadable_sorted ha)] at h

@[nopanic] theorem bbValue_panic : ∀ {as : List Term} {i n : ℕ}, bbValue as i n = panic ↔ False := by
  intro as
  induction as with
  | nil => intro i n; simp [bbValue, nopanic]
  | cons a as ih => intro i n; simp [bbValue, nopanic, ih]

theorem neverPanics_bbValueRule : NeverPanics bbValueRule := by no_panic bbValueRule

theorem bbVar_panic {c : List Term} {ps : List (List Term)} {as : List Term} (hc : ClauseOK c) : bbVar c ps as ≠ panic := by
  simp only [bbVar, ne_eq, nopanic, false_or, get1_ok, match2_ok]
  rintro ⟨_, rfl, ⟨l, r⟩, rfl, h⟩
  obtain ⟨-, s, hl, -⟩ := sort_equals.1 (hc _ (List.mem_singleton.2 rfl))
  simp only [hl] at h
  split at h
  · simp [nopanic] at h
  · simp [nopanic] at h
  · next e => cases e

@[nopanic] theorem extractBits_panic {x : Term} : ∀ {rs : List Term} {i : ℕ}, extractBits x i rs = panic ↔ False := by
  intro rs
  induction rs with
  | nil => intro i; simp [extractBits, nopanic]
  | cons r rs ih => intro i; simp [extractBits, nopanic, ih]

theorem extractArgs_panic {args : List Term} : ∀ {rs : List Term} {i : ℕ}, i + rs.length ≤ args.length →
    extractArgs args i rs ≠ panic
  | [], i, _ => by simp [extractArgs, nopanic]
  | r :: rs, i, h => by
    simp only [List.length_cons] at h
    have ih := extractArgs_panic (args := args) (rs := rs) (i := i + 1) (by omega)
    simp [extractArgs, nopanic, ih]
    omega

theorem sort_paramOp {o : ParamOp} {ps as : List Term} {s : Srt} (h : sortOf (.paramOp o ps as) = some s) :
    ∃ ss, sortOfL as = some ss ∧ popSort o ps ss = some s := by
  unfold sortOf at h
  split at h
  · exact ⟨_, by assumption, h⟩
  · simp at h

theorem bbExtract_panic {c : List Term} {ps : List (List Term)} {as : List Term} (hc : ClauseOK c) :
    bbExtract c ps as ≠ panic := by
  simp only [bbExtract, ne_eq, nopanic, false_or, get1_ok, match2_ok]
  rintro ⟨_, rfl, ⟨l, r⟩, rfl, h⟩
  obtain ⟨-, s, hl, hr⟩ := sort_equals.1 (hc _ (List.mem_singleton.2 rfl))
  simp only at h hl hr
  split at h
  · next i j x =>
    simp only [nopanic, matchOp_ok, false_or] at h
    obtain ⟨rs, rfl, h⟩ := h
    obtain ⟨rfl, -, -⟩ := sort_bb hr
    obtain ⟨ss, h1, h2⟩ := sort_paramOp hl
    rw [sortOfL_cons] at h1
    obtain ⟨s1, ss1, rfl, h1, h3⟩ := h1
    rw [sortOfL_nil] at h3
    subst h3
    unfold popSort at h2
    split at h2 <;> (try (next e _ _ => cases e; done)) <;> (try (simp at h2; done))
    next i' j' m e1 e2 e3 =>
    cases e2; cases e3
    simp only [Option.ite_none_right_eq_some, Option.some.injEq, Srt.bv.injEq] at h2
    obtain ⟨⟨hj, hji, him⟩, hlen⟩ := h2
    split at h
    · next j'' e =>
      cases e
      split at h
      · obtain ⟨e, -, -⟩ := sort_bb h1
        cases e
        refine extractArgs_panic ?_ h
        simp at hj hji him hlen
        omega
      · simp [nopanic] at h
    · next hne =>
      obtain ⟨n, rfl⟩ := Int.eq_ofNat_of_zero_le hj
      exact hne n rfl
  · simp [nopanic] at h

theorem totalWidth_bv : ∀ {ss : List Srt} {n : ℕ}, totalWidth ss = some n → ∀ s ∈ ss, ∃ w, s = .bv w
  | [], _, _, s, h => by simp at h
  | s' :: ss, n, h, s, hs => by
    unfold totalWidth at h
    split at h
    · next e => cases e
    · next e =>
      cases e
      simp only [Option.map_eq_some_iff] at h
      obtain ⟨k, hk, -⟩ := h
      rcases List.mem_cons.1 hs with rfl | hs
      · exact ⟨_, rfl⟩
      · exact totalWidth_bv hk s hs
    · simp at h

theorem concatVec_panic : ∀ {as bits : List Term} {n : ℕ}, (∀ a ∈ as, ∃ w, sortOf a = some (.bv w)) →
    concatVec as bits n ≠ panic
  | [], bits, n, _ => by simp [concatVec, nopanic]
  | a :: as, bits, n, h => by
    obtain ⟨w, hw⟩ := h a (by simp)
    have ih := fun bits n => concatVec_panic (as := as) (bits := bits) (n := n) fun u hu => h u (by simp [hu])
    simp [concatVec, nopanic, bvSizeOf_panic hw, ih]

theorem bbConcat_panic {c : List Term} {ps : List (List Term)} {as : List Term} (hc : ClauseOK c) :
    bbConcat c ps as ≠ panic := by
  simp only [bbConcat, ne_eq, nopanic, false_or, get1_ok, match2_ok, matchOp_ok]
  rintro ⟨_, rfl, ⟨l, r⟩, rfl, args, e, _, -, h⟩
  obtain ⟨-, s, hl, hr⟩ := sort_equals.1 (hc _ (List.mem_singleton.2 rfl))
  simp only at e hl
  subst e
  obtain ⟨ss, h1, h2⟩ := sortOf_op (by decide) hl
  simp only [opSort, Option.ite_none_right_eq_some, Option.map_eq_some_iff] at h2
  obtain ⟨hlen, n, hn, -⟩ := h2
  obtain ⟨hl1, hts⟩ := sortOfL_all h1
  have hbv : ∀ a ∈ args.reverse, ∃ w, sortOf a = some (.bv w) := by
    intro a ha
    obtain ⟨s, hs, e⟩ := hts a (List.mem_reverse.1 ha)
    obtain ⟨w, rfl⟩ := totalWidth_bv hn s hs
    exact ⟨w, e⟩
  split at h
  · next e =>
    have := congrArg List.length e
    simp at this
    subst this
    simp at hl1
    omega
  · next a as' e =>
    rw [e] at hbv
    obtain ⟨w, hw⟩ := hbv a (by simp)
    have := fun bits n => concatVec_panic (as := as') (bits := bits) (n := n) fun u hu => hbv u (by simp [hu])
    simp [nopanic, bvSizeOf_panic hw, this] at h

theorem bbSignExtend_panic {c : List Term} {ps : List (List Term)} {as : List Term} (hc : ClauseOK c)
    (hw : ∀ u ∈ c, ∀ t ∈ u.subterms, sortOf t ≠ some (.bv 0)) : bbSignExtend c ps as ≠ panic := by
  simp only [bbSignExtend, ne_eq, nopanic, false_or, get1_ok, match2_ok]
  rintro ⟨_, rfl, ⟨l, r⟩, rfl, h⟩
  obtain ⟨-, s, hl, hr⟩ := sort_equals.1 (hc _ (List.mem_singleton.2 rfl))
  simp only at h hl hr
  split at h
  · next i x =>
    obtain ⟨ss, h1, h2⟩ := sort_paramOp hl
    rw [sortOfL_cons] at h1
    obtain ⟨s1, ss1, rfl, h1, h3⟩ := h1
    rw [sortOfL_nil] at h3
    subst h3
    unfold popSort at h2
    split at h2 <;> (try (next e _ _ => cases e; done)) <;> (try (simp at h2; done))
    next i' m e1 e2 e3 =>
    cases e2; cases e3
    simp only [Option.ite_none_right_eq_some, Option.some.injEq] at h2
    obtain ⟨hi, -⟩ := h2
    have hm : m ≠ 0 := by
      rintro rfl
      exact hw _ (List.mem_singleton.2 rfl) x (subterms_op (List.mem_cons_self ..) _
        (subterms_paramOp (List.mem_cons_self ..) _ x.self_mem_subterms)) h1
    have hsize : bvSizeOf x = .ok m := by simp [bvSizeOf, h1]
    have hread := bitsReadable_sorted h1
    unfold BitsReadable at hread
    split at h
    · simp [nopanic, hsize, hm] at h
      omega
    · next hne =>
      obtain ⟨n, rfl⟩ := Int.eq_ofNat_of_zero_le hi
      exact hne n rfl
  · simp [nopanic] at h

theorem bbAnd_panic {c : List Term} {ps : List (List Term)} {as : List Term} (hc : ClauseOK c) : bbAnd c ps as ≠ panic :=
  bbNary_panic (by simp) hc fun _ _ _ _ hx hy => bitwise_total hx hy
theorem bbOr_panic {c : List Term} {ps : List (List Term)} {as : List Term} (hc : ClauseOK c) : bbOr c ps as ≠ panic :=
  bbNary_panic (by simp) hc fun _ _ _ _ hx hy => bitwise_total hx hy
theorem bbXor_panic {c : List Term} {ps : List (List Term)} {as : List Term} (hc : ClauseOK c) : bbXor c ps as ≠ panic :=
  bbNary_panic (by simp) hc fun _ _ _ _ hx hy => bitwise_total hx hy
theorem bbAdd_panic {c : List Term} {ps : List (List Term)} {as : List Term} (hc : ClauseOK c) : bbAdd c ps as ≠ panic :=
  bbNary_panic (by simp) hc fun _ _ _ _ hx hy => adder_total hx hy

/-- No subterm is a bit-vector without bits. -/
def NoEmptyBv (c : List Term) : Prop := ∀ u ∈ c, ∀ t ∈ u.subterms, sortOf t ≠ some (.bv 0)

instance (c : List Term) : Decidable (NoEmptyBv c) := by unfold NoEmptyBv; infer_instance

theorem NoEmptyBv.ne {c : List Term} (h : NoEmptyBv c) {w : ℕ} (hw : ∃ u ∈ c, ∃ t ∈ u.subterms, sortOf t = some (.bv w)) :
    w ≠ 0 := by
  rintro rfl
  obtain ⟨u, hu, t, ht, e⟩ := hw
  exact h u hu t ht e

theorem bbMult_panic {c : List Term} {ps : List (List Term)} {as : List Term} (hc : ClauseOK c) (hw : NoEmptyBv c) :
    bbMult c ps as ≠ panic :=
  bbNary_panic (by simp) hc fun _ _ _ h hx hy => multiplier_total (hw.ne h) hx hy

theorem bbXnor_panic {c : List Term} {ps : List (List Term)} {as : List Term} (hc : ClauseOK c) : bbXnor c ps as ≠ panic := by
  simp [bbXnor, nopanic, bbBinary_panic (bbBinary_sorted (o := .bvXNor) (by simp) hc)]

theorem bbUlt_panic {c : List Term} {ps : List (List Term)} {as : List Term} (hc : ClauseOK c) (hw : NoEmptyBv c) :
    bbUlt c ps as ≠ panic := by
  simp only [bbUlt, ne_eq, nopanic, bbBinary_panic (bbBinary_sorted (o := .bvULt) (by simp) hc), false_or]
  rintro ⟨⟨w, x, y, r⟩, h1, h2⟩
  simp [hw.ne (bbBinary_size h1), nopanic] at h2

theorem bbSlt_panic {c : List Term} {ps : List (List Term)} {as : List Term} (hc : ClauseOK c) (hw : NoEmptyBv c) :
    bbSlt c ps as ≠ panic := by
  simp only [bbSlt, ne_eq, nopanic, bbBinary_panic (bbBinary_sorted (o := .bvSLt) (by simp) hc), false_or]
  rintro ⟨⟨w, x, y, r⟩, h1, h2⟩
  simp [hw.ne (bbBinary_size h1), nopanic] at h2

theorem bbComp_panic {c : List Term} {ps : List (List Term)} {as : List Term} (hc : ClauseOK c) (hw : NoEmptyBv c) :
    bbComp c ps as ≠ panic := by
  simp only [bbComp, ne_eq, nopanic, bbBinary_panic (bbBinary_sorted (o := .bvComp) (by simp) hc), false_or]
  rintro ⟨⟨w, x, y, r⟩, h1, h2⟩
  simp [bbEqTerm_panic (hw.ne (bbBinary_size h1)), nopanic] at h2

theorem bbEqual_panic {c : List Term} {ps : List (List Term)} {as : List Term} (hw : NoEmptyBv c)
    (hs : ∀ a b, (∃ r, c = [.op .equals [.op .equals [a, b], r]]) → ∃ w, sortOf a = some (.bv w) ∧ sortOf b = some (.bv w)) :
    bbEqual c ps as ≠ panic := by
  simp only [bbEqual, ne_eq, nopanic, bbBinary_panic hs, false_or]
  rintro ⟨⟨w, x, y, r⟩, h1, h2⟩
  simp [bbEqTerm_panic (hw.ne (bbBinary_size h1)), nopanic] at h2

theorem bbNot_panic {c : List Term} {ps : List (List Term)} {as : List Term} (hc : ClauseOK c) : bbNot c ps as ≠ panic := by
  simp [bbNot, nopanic, bbUnary_panic (.inr rfl) hc]

theorem bbNeg_panic {c : List Term} {ps : List (List Term)} {as : List Term} (hc : ClauseOK c) : bbNeg c ps as ≠ panic := by
  simp [bbNeg, nopanic, bbUnary_panic (.inl rfl) hc]

/-! ## Indices -/

theorem asUsizeErr_panic {t : Term} (h : ∀ n : ℤ, t = .const (.int n) → n < 2 ^ 64) : t.asUsizeErr ≠ panic := by
  unfold Term.asUsizeErr
  split
  · next i e =>
    have : t = .const (.int i) := by
      unfold Term.asInteger at e
      split at e <;> simp_all
    have := h i this
    split_ifs <;> simp [nopanic]
  · simp [nopanic]

theorem andPos_panic {c : List Term} {ps : List (List Term)} {as : List Term}
    (h : ∀ a ∈ as, ∀ n : ℤ, a = .const (.int n) → n < 2 ^ 64) : andPos c ps as ≠ panic := by
  simp only [andPos, ne_eq, nopanic, false_or, get1_ok]
  rintro ⟨_, -, a, rfl, _, -, _, -, h'⟩
  simp [asUsizeErr_panic (h a (by simp)), nopanic] at h'

theorem orNeg_panic {c : List Term} {ps : List (List Term)} {as : List Term}
    (h : ∀ a ∈ as, ∀ n : ℤ, a = .const (.int n) → n < 2 ^ 64) : orNeg c ps as ≠ panic := by
  simp only [orNeg, ne_eq, nopanic, false_or, get1_ok]
  rintro ⟨_, -, a, rfl, _, -, _, -, h'⟩
  simp [asUsizeErr_panic (h a (by simp)), nopanic] at h'

theorem andRule_panic {c : List Term} {ps : List (List Term)} {as : List Term}
    (h : ∀ a ∈ as, ∀ n : ℤ, a = .const (.int n) → n < 2 ^ 64) : andRule c ps as ≠ panic := by
  simp only [andRule, ne_eq, nopanic, false_or, get1_ok]
  rintro ⟨_, -, a, rfl, _, -, _, -, _, -, h'⟩
  simp [asUsizeErr_panic (h a (by simp)), nopanic] at h'

theorem notOr_panic {c : List Term} {ps : List (List Term)} {as : List Term}
    (h : ∀ a ∈ as, ∀ n : ℤ, a = .const (.int n) → n < 2 ^ 64) : notOr c ps as ≠ panic := by
  simp only [notOr, ne_eq, nopanic, false_or, get1_ok]
  rintro ⟨_, -, a, rfl, _, -, _, -, _, -, _, -, _, -, h'⟩
  simp [asUsizeErr_panic (h a (by simp)), nopanic] at h'

/-! ## Multiplication of comparisons -/

theorem laMult_panic {pos : Bool} {c : List Term} {ps : List (List Term)} {as : List Term}
    (h : ∀ p o l r s, c = [.op .implies [.op .and [p, .op o [l, r]], s]] → o = .equals ∨ o = .lt ∨ o = .gt ∨ o = .le ∨ o = .ge) :
    laMult pos c ps as ≠ panic := by
  simp only [laMult, ne_eq, nopanic, false_or, get1_ok, match2_ok, orErr_ok, require_ok]
  rintro ⟨_, rfl, ⟨p, s⟩, rfl, ⟨cmp, o⟩, e, ⟨m, z⟩, -, _, -, -, -, h'⟩
  simp only at e
  subst e
  split at h'
  · next o' l r e =>
    have ho := h cmp o' l r s (by rw [← e])
    rcases ho with rfl | rfl | rfl | rfl | rfl <;> cases pos <;>
      simp [mirrorOperator, matchComparison, nopanic] at h'
  · simp [nopanic] at h'

end Carcara
