import Verif.Lemmas.Equality

/-!
# C11 and C13: clause manipulation, symmetry, transitivity and congruence
-/

namespace Carcara
open Classical Val Sem

/-! ## C13 -/

/-- **C13.** `eq_reflexive`. -/
theorem c13_eq_reflexive : SoundRule eqReflexive := by
  intro c ps as h hc hps M hM
  simp only [eqReflexive] at h
  invert h
  exact (Model.sat_singleton.2 ((M.holds_eq _ _).2 rfl))

/-- **C13.** `trans`. -/
theorem c13_trans : SoundRule trans := by
  intro c ps as h hc hps M hM
  simp only [trans, bind_ok, get1_ok, match2_ok, collectRes_ok, Prod.exists] at h
  obtain ⟨_, rfl, t, u, rfl, eqs, he, h⟩ := h
  refine Model.sat_singleton.2 ((M.holds_eq _ _).2 (findChain_sound M.val h fun p hp => ?_))
  obtain ⟨q, hq, hr⟩ := forall2_mem_left he p hp
  rw [premiseEq_ok] at hr
  subst hr
  obtain ⟨l, hl, ht⟩ := hM _ hq
  simp only [List.mem_singleton] at hl
  subst hl
  exact (M.holds_eq _ _).1 ht

/-- **C13.** `eq_transitive`. -/
theorem c13_eq_transitive : SoundRule eqTransitive := by
  intro c ps as h hc hps M hM
  simp only [eqTransitive, bind_ok, require_ok, orPanic_ok, match2_ok, collectRes_ok, Prod.exists] at h
  obtain ⟨_, -, last, hl, t, u, rfl, eqs, he, h⟩ := h
  rw [dropLast_concat_getLast? hl, Model.sat_append]
  by_contra hn
  push Not at hn
  refine hn.2 (Model.sat_singleton.2 ((M.holds_eq _ _).2 (findChain_sound M.val h fun p hp => ?_)))
  obtain ⟨q, hq, hr⟩ := forall2_mem_left he p hp
  rw [matchNeq_ok] at hr
  subst hr
  by_contra hne
  exact hn.1 ⟨_, hq, by rw [M.holds_not, M.holds_eq]; exact hne⟩

/-- **C13.** `cong`. -/
theorem c13_cong : SoundRule cong := by
  intro c ps as h hc hps M hM
  simp only [cong, bind_ok, get1_ok, require_ok, match2_ok, collectRes_ok, Prod.exists] at h
  obtain ⟨_, rfl, _, -, eqs, he, f, g, rfl, h⟩ := h
  have hv : ∀ p ∈ eqs, M.val p.1 = M.val p.2 := by
    intro p hp
    obtain ⟨q, hq, hr⟩ := forall2_mem_left he p hp
    rw [premiseEq_ok] at hr
    subst hr
    obtain ⟨l, hl, ht⟩ := hM _ hq
    simp only [List.mem_singleton] at hl
    subst hl
    exact (M.holds_eq _ _).1 ht
  refine Model.sat_singleton.2 ((M.holds_eq _ _).2 ?_)
  split at h
  · next a b c d =>
    have key : ∀ {a b c d : Term}, checkCong eqs [a, b] [c, d] = .ok () →
        M.val (.op .equals [a, b]) = M.val (.op .equals [c, d]) := by
      intro a b c d h
      rw [M.val_op, M.val_op, checkCong_sound M.val h rfl hv]
    split at h
    · next hor =>
      simp only [Bool.or_eq_true, Res.isOk_iff] at hor
      rcases hor with ((h | h) | h) | h
      · exact key h
      · exact (M.val_eq_symm _ _).trans (key h)
      · exact (key h).trans (M.val_eq_symm _ _)
      · exact ((M.val_eq_symm _ _).trans (key h)).trans (M.val_eq_symm _ _)
    · exact key h
  · simp only [congGeneral, bind_ok, require_ok, Prod.exists] at h
    obtain ⟨as, bs, h1, _, hl, h2⟩ := h
    exact cong_val M h1 (checkCong_sound M.val h2 hl hv)

/-- **C13.** `ho_cong`. -/
theorem c13_ho_cong : SoundRule hoCong := by
  intro c ps as h hc hps M hM
  simp only [hoCong, bind_ok, get1_ok, require_ok, match2_ok, collectRes_ok, Prod.exists] at h
  obtain ⟨_, rfl, _, -, eqs, he, f, g, rfl, h⟩ := h
  have hv : ∀ p ∈ eqs, M.val p.1 = M.val p.2 := by
    intro p hp
    obtain ⟨q, hq, hr⟩ := forall2_mem_left he p hp
    rw [premiseEq_ok] at hr
    subst hr
    obtain ⟨l, hl, ht⟩ := hM _ hq
    simp only [List.mem_singleton] at hl
    subst hl
    exact (M.holds_eq _ _).1 ht
  refine Model.sat_singleton.2 ((M.holds_eq _ _).2 ?_)
  split at h
  · simp only [bind_ok, require_ok] at h
    obtain ⟨_, hl, h⟩ := h
    have := checkCong_sound M.val h (by simpa using hl) hv
    simp only [List.map_cons, List.cons.injEq] at this
    rw [M.val_app, M.val_app, this.1, this.2]
  · simp at h

/-- A clause of negated equalities, none of which is true, makes the equalities true. -/
theorem genericCongruent_sound (M : Model) {lits eqs : List Term} {p q : Term}
    (he : List.Forall₂ (fun a b => Term.removeNegErr a = .ok b) lits eqs)
    (h : genericCongruent eqs p q = .ok ()) (hn : ¬ M.Sat lits) : M.val p = M.val q := by
  simp only [genericCongruent, bind_ok, require_ok, collectRes_ok, Prod.exists] at h
  obtain ⟨ps, hps, as, bs, h1, _, hl, _, hl', h2⟩ := h
  refine cong_val M (sameHead_congArgs h1) (justify_sound M.val h2 hl' hl fun x hx => ?_)
  obtain ⟨e, he', hr⟩ := forall2_mem_left hps x hx
  rw [match2_ok] at hr
  subst hr
  obtain ⟨l, hl, hr⟩ := forall2_mem_left he _ he'
  rw [Term.removeNegErr_ok] at hr
  subst hr
  by_contra hne
  exact hn ⟨_, hl, by rw [M.holds_not, M.holds_eq]; exact hne⟩

/-- **C13.** `eq_congruent`. -/
theorem c13_eq_congruent : SoundRule eqCongruent := by
  intro c ps as h hc hps M hM
  simp only [eqCongruent, bind_ok, require_ok, orPanic_ok, match2_ok, collectRes_ok, Prod.exists] at h
  obtain ⟨_, -, last, hl, f, g, rfl, eqs, he, h⟩ := h
  rw [dropLast_concat_getLast? hl, Model.sat_append]
  by_contra hn
  push Not at hn
  exact hn.2 (Model.sat_singleton.2 ((M.holds_eq _ _).2 (genericCongruent_sound M he h hn.1)))

/-- **C13.** `eq_congruent_pred`. -/
theorem c13_eq_congruent_pred : SoundRule eqCongruentPred := by
  intro c ps as h hc hps M hM
  simp only [eqCongruentPred, bind_ok, require_ok, get2_ok, collectRes_ok, Prod.exists] at h
  obtain ⟨_, -, x, y, hd, p, q, hpq, eqs, he, h⟩ := h
  rw [← List.take_append_drop (c.length - 2) c, Model.sat_append, hd]
  by_contra hn
  push Not at hn
  have hv := genericCongruent_sound M he h hn.1
  have hiff : M.Holds p ↔ M.Holds q := by simp only [Model.Holds, hv]
  refine hn.2 ?_
  unfold predPair at hpq
  simp only [Model.sat_cons]
  split at hpq
  · next p' hp' =>
    simp only [ok_inj, Prod.mk.injEq] at hpq
    obtain ⟨rfl, rfl⟩ := hpq
    have : x = .op .not [p'] := by
      unfold Term.removeNegation at hp'; split at hp' <;> simp_all
    subst this
    rw [M.holds_not]
    tauto
  · simp only [bind_ok, pure_ok, Term.removeNegErr_ok, Prod.mk.injEq] at hpq
    obtain ⟨q', rfl, rfl, rfl⟩ := hpq
    rw [M.holds_not]
    tauto

/-- **C13.** `symm`. -/
theorem c13_symm : SoundRule symm := by
  intro c ps as h hc hps M hM
  simp only [symm] at h
  invert h
  have ht := Model.sat_singleton.1 (hM _ (List.mem_singleton_self _))
  exact (Model.sat_singleton.2 ((M.holds_eq _ _).2 ((M.holds_eq _ _).1 ht).symm))

/-- **C13.** `not_symm`. -/
theorem c13_not_symm : SoundRule notSymm := by
  intro c ps as h hc hps M hM
  simp only [notSymm, bind_ok, matchNeq_ok] at h
  invert h
  have ht := Model.sat_singleton.1 (hM _ (List.mem_singleton_self _))
  refine Model.sat_singleton.2 ?_
  rw [M.holds_not, M.holds_eq] at ht ⊢
  exact fun h => ht h.symm

/-- **C13.** `eq_symmetric`. -/
theorem c13_eq_symmetric : SoundRule eqSymmetric := by
  intro c ps as h hc hps M hM
  simp only [eqSymmetric] at h
  invert h
  exact (Model.sat_singleton.2 ((M.holds_eq _ _).2 (M.val_eq_symm _ _)))

/-- **C13.** `shuffle`. -/
theorem c13_shuffle : SoundRule shuffle := by
  intro c ps as h hc hps M hM
  simp only [shuffle, bind_ok, get1_ok, match2_ok, Prod.exists] at h
  obtain ⟨_, rfl, l, r, rfl, h⟩ := h
  split at h
  · next o as o' bs =>
    simp only [bind_ok, require_ok] at h
    obtain ⟨_, rfl, _, ho, h⟩ := h
    rw [MultiSet.eq_iff (.ofList _) (.ofList _), MultiSet.ofList_perm] at h
    obtain ⟨s, hs, -⟩ := eq_children (hc _ (List.mem_singleton_self _))
    exact (Model.sat_singleton.2 ((M.holds_eq _ _).2 (perm_val M ho h hs)))
  · simp at h

/-! ## C11 -/

/-- **C11.** `reordering`. -/
theorem c11_reordering : SoundRule reordering := by
  intro c ps as h hc hps M hM
  simp only [reordering, bind_ok, get1_ok, require_ok] at h
  obtain ⟨p, rfl, _, -, h⟩ := h
  rw [MultiSet.symmetricDifference_none (.ofList _) (.ofList _), MultiSet.ofList_perm] at h
  exact Model.sat_mono (hM p (by simp)) (fun l hl => h.mem_iff.2 hl)

/-- **C11.** `reordering` accepts exactly the permutations of its premise. -/
theorem c11_reordering_exact (c : List Term) (ps : List (List Term)) (as : List Term) :
    reordering c ps as = .ok () ↔ ∃ p, ps = [p] ∧ c.Perm p := by
  simp only [reordering, bind_ok, get1_ok, require_ok]
  constructor
  · rintro ⟨p, rfl, _, -, h⟩
    rw [MultiSet.symmetricDifference_none (.ofList _) (.ofList _), MultiSet.ofList_perm] at h
    exact ⟨p, rfl, h⟩
  · rintro ⟨p, rfl, h⟩
    refine ⟨p, rfl, (), h.length_eq, ?_⟩
    rw [MultiSet.symmetricDifference_none (.ofList _) (.ofList _), MultiSet.ofList_perm]
    exact h

theorem assertEqs_prefix : ∀ {ts us : List Term}, ts.length ≤ us.length →
    (assertEqs ts us = .ok () ↔ ts <+: us)
  | [], us, _ => by simp [assertEqs]
  | t :: ts, u :: us, hl => by
    simp only [assertEqs, bind_ok, assertEq_ok, List.cons_prefix_cons]
    rw [← assertEqs_prefix (by simpa using hl)]
    simp

/-- **C11.** `weakening`. -/
theorem c11_weakening : SoundRule weakening := by
  intro c ps as h hc hps M hM
  simp only [weakening, bind_ok, get1_ok, require_ok] at h
  obtain ⟨p, rfl, _, hl, h⟩ := h
  exact Model.sat_mono (hM p (by simp)) (fun l hl' => ((assertEqs_prefix hl).1 h).subset hl')

/-- **C11.** `weakening` accepts exactly the extensions of its premise at the end. -/
theorem c11_weakening_exact (c : List Term) (ps : List (List Term)) (as : List Term) :
    weakening c ps as = .ok () ↔ ∃ p, ps = [p] ∧ p <+: c := by
  simp only [weakening, bind_ok, get1_ok, require_ok]
  constructor
  · rintro ⟨p, rfl, _, hl, h⟩
    exact ⟨p, rfl, (assertEqs_prefix hl).1 h⟩
  · rintro ⟨p, rfl, h⟩
    exact ⟨p, rfl, (), h.length_le, (assertEqs_prefix h.length_le).2 h⟩

theorem andIntroLoop_sound (M : Model) : ∀ {ts : List Term} {ps : List (List Term)}, ps.length = ts.length →
    andIntroLoop ts ps = .ok () → (∀ p ∈ ps, M.Sat p) → ∀ t ∈ ts, M.Holds t
  | [], [], _, _, _ => by simp
  | t :: ts, p :: ps, hl, h, hM => by
    have h0 := hM p (by simp)
    have ih : andIntroLoop ts ps = .ok () → ∀ t ∈ ts, M.Holds t := fun h =>
      andIntroLoop_sound M (by simpa using hl) h (fun q hq => hM q (by simp [hq]))
    have h1 : M.Holds t ∧ andIntroLoop ts ps = .ok () := by
      unfold andIntroLoop at h
      split at h
      · simp only [bind_ok, assertEq_ok] at h
        obtain ⟨_, rfl, h⟩ := h
        obtain ⟨l, hl, ht⟩ := h0
        simp only [List.mem_singleton] at hl
        subst hl
        exact ⟨ht, h⟩
      · simp only [bind_ok, assertEq_ok] at h
        obtain ⟨_, rfl, h⟩ := h
        exact ⟨(M.holds_or _).2 h0, h⟩
    intro u hu
    rcases List.mem_cons.1 hu with rfl | hu
    · exact h1.1
    · exact ih h1.2 u hu

/-- **C11.** `and_intro`. -/
theorem c11_and_intro : SoundRule andIntro := by
  intro c ps as h hc hps M hM
  simp only [andIntro, bind_ok, get1_ok, matchOp_ok, require_ok] at h
  obtain ⟨_, rfl, ts, rfl, _, hl, h⟩ := h
  exact (Model.sat_singleton.2 ((M.holds_and _).2 (andIntroLoop_sound M hl h hM)))

/-! ## Each rule accepts an instance that satisfies the hypotheses -/

section
private abbrev p : Term := .var "p" .bool
private abbrev q : Term := .var "q" .bool
private abbrev r : Term := .var "r" .bool
private abbrev x : Term := .var "x" .int
private abbrev y : Term := .var "y" .int
private abbrev z : Term := .var "z" .int
private abbrev w : Term := .var "w" .int
private abbrev f (a b : Term) : Term := .app (.var "f" (.fn [.int, .int] .int)) [a, b]
private abbrev P (a b : Term) : Term := .app (.var "P" (.fn [.int, .int] .bool)) [a, b]

/-- Accepted, and well sorted. -/
private abbrev Instance (rule : Rule) (c : List Term) (ps : List (List Term)) (as : List Term) : Prop :=
  rule c ps as = .ok () ∧ (∀ l ∈ c, sortOf l = some .bool) ∧ ∀ p ∈ ps, ∀ l ∈ p, sortOf l = some .bool

example : Instance eqReflexive [.eq (f x y) (f x y)] [] [] := by decide
/-- A chain given out of order and with flipped equalities. -/
example : Instance trans [.eq x w] [[.eq z y], [.eq w z], [.eq x y]] [] := by decide
example : Instance eqTransitive [.neg (.eq z y), .neg (.eq w z), .neg (.eq x y), .eq x w] [] [] := by decide
example : Instance cong [.eq (f x y) (f z y)] [[.eq z x]] [] := by decide
example : Instance cong [.eq (.eq x y) (.eq y z)] [[.eq x z]] [] := by decide
example : Instance cong [.eq (.paramOp .bvBitOf [.const (.int 1)] [.var "a" (.bv 4)])
    (.paramOp .bvBitOf [.const (.int 1)] [.var "b" (.bv 4)])] [[.eq (.var "a" (.bv 4)) (.var "b" (.bv 4))]] [] := by
  decide
example : Instance hoCong [.eq (.app (.var "f" (.fn [.int] .int)) [x]) (.app (.var "g" (.fn [.int] .int)) [y])]
    [[.eq (.var "f" (.fn [.int] .int)) (.var "g" (.fn [.int] .int))], [.eq x y]] [] := by decide
example : Instance eqCongruent [.neg (.eq x z), .neg (.eq w y), .eq (f x y) (f z w)] [] [] := by decide
example : Instance eqCongruentPred [.neg (.eq x z), .neg (.eq w y), .neg (P x y), P z w] [] [] := by decide
example : Instance eqCongruentPred [.neg (.eq x z), .neg (.eq w y), P x y, .neg (P z w)] [] [] := by decide
example : Instance symm [.eq y x] [[.eq x y]] [] := by decide
example : Instance notSymm [.neg (.eq y x)] [[.neg (.eq x y)]] [] := by decide
example : Instance eqSymmetric [.eq (.eq x y) (.eq y x)] [] [] := by decide
example : Instance shuffle [.eq (.op .add [x, y, x]) (.op .add [y, x, x])] [] [] := by decide
example : Instance reordering [p, q, p] [[q, p, p]] [] := by decide
example : Instance weakening [p, q, r] [[p, q]] [] := by decide
example : Instance andIntro [.op .and [p, .op .or [q, r]]] [[p], [q, r]] [] := by decide

/-- Near misses. -/
example : trans [.eq x w] [[.eq z y], [.eq x y]] [] = err := by decide
example : cong [.eq (f x y) (f z w)] [[.eq z x]] [] = err := by decide
example : cong [.eq (f x y) (f x z)] [[.eq z x]] [] = err := by decide
example : eqCongruentPred [.neg (.eq x z), .neg (.eq w y), P x y, P z w] [] [] = err := by decide
example : shuffle [.eq (.op .sub [x, y]) (.op .sub [y, x])] [] [] = err := by decide
example : shuffle [.eq (.op .add [x, y, y]) (.op .add [y, x, x])] [] [] = err := by decide
example : reordering [p, q] [[q, p, p]] [] = err := by decide
example : weakening [p] [[p, q]] [] = err := by decide
end

end Carcara
