import Verif.Model.Resolution
import Verif.Lemmas.Holds
import Mathlib.Tactic.Ring
import Mathlib.Tactic.Tauto

/-! # Facts about resolution -/

namespace Carcara

/-- Truth of a literal with a number of negations. -/
def Model.HoldsLit (M : Model) (l : Lit) : Prop := if l.1 % 2 = 0 then M.Holds l.2 else ¬ M.Holds l.2

/-- Truth of a literal with a polarity. -/
def Model.HoldsP (M : Model) (l : PLit) : Prop := if l.1 then M.Holds l.2 else ¬ M.Holds l.2

theorem Model.holds_removeAll (M : Model) (t : Term) : M.HoldsLit t.removeAllNegations ↔ M.Holds t := by
  induction t using Term.ind with
  | op o as ih =>
    unfold Term.removeAllNegations
    split
    · next t h =>
      simp only [Term.op.injEq] at h
      obtain ⟨rfl, rfl⟩ := h
      have := ih t (by simp)
      generalize t.removeAllNegations = p at this
      obtain ⟨n, u⟩ := p
      simp only [HoldsLit, holds_not] at this ⊢
      rcases Nat.mod_two_eq_zero_or_one n with h | h
      · rw [← this, if_pos h, if_neg (by omega)]
      · rw [← this, if_neg (by omega : ¬ n % 2 = 0), if_pos (by omega), not_not]
    · simp [HoldsLit]
  | _ => simp [Term.removeAllNegations, HoldsLit]

theorem Model.holdsP_iff (M : Model) (t : Term) : M.HoldsP t.removeAllNegationsPol ↔ M.Holds t := by
  rw [← M.holds_removeAll t]
  simp only [HoldsP, Term.removeAllNegationsPol, HoldsLit, beq_iff_eq]

theorem Model.holdsLit_succ (M : Model) (n : Nat) (t : Term) :
    M.HoldsLit (n + 1, t) ↔ ¬ M.HoldsLit (n, t) := by
  simp only [HoldsLit]
  rcases Nat.mod_two_eq_zero_or_one n with h | h
  · rw [if_pos h, if_neg (by omega)]
  · rw [if_neg (by omega : ¬ n % 2 = 0), if_pos (by omega), not_not]

theorem Model.holdsP_neg (M : Model) (l : PLit) : M.HoldsP l.neg ↔ ¬ M.HoldsP l := by
  obtain ⟨b, t⟩ := l
  cases b <;> simp [HoldsP, PLit.neg]

theorem Model.holds_literalToTerm (M : Model) (l : Lit) : M.Holds (literalToTerm l) ↔ M.HoldsLit l := by
  obtain ⟨n, t⟩ := l
  induction n with
  | zero => simp [literalToTerm, notN, HoldsLit]
  | succ n ih => rw [holdsLit_succ, ← ih]; simp [literalToTerm, notN]

/-- A list of literals is true. -/
def Model.SatLits (M : Model) (c : List Lit) : Prop := ∃ l ∈ c, M.HoldsLit l

theorem Model.satLits_map (M : Model) (c : List Term) :
    M.SatLits (c.map Term.removeAllNegations) ↔ M.Sat c := by
  simp [SatLits, Sat, holds_removeAll]

/-- The laws of a clause collection needed for soundness. -/
class LawfulColl (C : Type) [ClauseColl C] where
  /-- invariant -/
  Inv : C → Prop
  inv_ofList : ∀ l, Inv (ClauseColl.ofList l)
  inv_insert : ∀ c l, Inv c → Inv (ClauseColl.insertTerm c l)
  inv_remove : ∀ c l, Inv c → Inv (ClauseColl.removeTerm c l).1
  mem_ofList : ∀ l x, x ∈ ClauseColl.toList (ClauseColl.ofList l : C) ↔ x ∈ l
  mem_insert : ∀ (c : C) l x, x ∈ ClauseColl.toList (ClauseColl.insertTerm c l) ↔
    x ∈ ClauseColl.toList c ∨ x = l
  mem_remove : ∀ (c : C) l x, Inv c → x ∈ ClauseColl.toList c → x ≠ l →
    x ∈ ClauseColl.toList (ClauseColl.removeTerm c l).1

instance : LawfulColl VecClause where
  Inv _ := True
  inv_ofList _ := trivial
  inv_insert _ _ _ := trivial
  inv_remove _ _ _ := trivial
  mem_ofList _ _ := Iff.rfl
  mem_insert c l x := by simp [ClauseColl.toList, ClauseColl.insertTerm]
  mem_remove c l x _ hx hne := by
    simp only [ClauseColl.toList, ClauseColl.removeTerm] at *
    split
    · exact (List.mem_erase_of_ne hne).2 hx
    · exact hx

instance : LawfulColl SetClause where
  Inv c := c.lits.Nodup
  inv_ofList l := nodup_setOf l
  inv_insert _ _ h := nodup_setInsert h
  inv_remove _ _ h := nodup_setRemove h
  mem_ofList _ _ := mem_setOf
  mem_insert c l x := mem_setInsert
  mem_remove c l x _ hx hne := by
    simp only [ClauseColl.toList, ClauseColl.removeTerm] at *
    exact (mem_setRemove_of_ne hne).2 hx

open ClauseColl LawfulColl

section
variable {C : Type} [ClauseColl C] [LawfulColl C]

theorem insertRest_spec (pivot : Lit) (ts : List Term) : ∀ (found : Bool) (c c' : C) (found' : Bool),
    insertRest pivot found c ts = (found', c') → Inv c →
    Inv c' ∧ (∀ x, x ∈ toList c → x ∈ toList c') ∧
    (∀ t ∈ ts, t.removeAllNegations ∈ toList c' ∨ t.removeAllNegations = pivot) := by
  induction ts with
  | nil =>
    intro found c c' found' h hi
    simp only [insertRest, Prod.mk.injEq] at h
    obtain ⟨-, rfl⟩ := h
    exact ⟨hi, fun _ h => h, by simp⟩
  | cons t ts ih =>
    intro found c c' found' h hi
    simp only [insertRest] at h
    split at h
    · next hc =>
      obtain ⟨h1, h2, h3⟩ := ih _ _ _ _ h hi
      refine ⟨h1, h2, fun u hu => ?_⟩
      rcases List.mem_cons.1 hu with rfl | hu
      · exact Or.inr hc.2
      · exact h3 u hu
    · obtain ⟨h1, h2, h3⟩ := ih _ _ _ _ h (inv_insert _ _ hi)
      refine ⟨h1, fun x hx => h2 x ((mem_insert _ _ _).2 (Or.inl hx)), fun u hu => ?_⟩
      rcases List.mem_cons.1 hu with rfl | hu
      · exact Or.inl (h2 _ ((mem_insert _ _ _).2 (Or.inr rfl)))
      · exact h3 u hu

theorem binaryResolution_sound (M : Model) {cur cur' : C} {next : List Term} {pivot : Lit} {pol : Bool}
    (h : binaryResolution cur next pivot pol = .ok cur') (hi : Inv cur)
    (h1 : M.SatLits (toList cur)) (h2 : M.Sat next) : Inv cur' ∧ M.SatLits (toList cur') := by
  simp only [binaryResolution] at h
  have hneg : M.HoldsLit (if pol then (pivot, (pivot.1 + 1, pivot.2)) else ((pivot.1 + 1, pivot.2), pivot)).1 →
      ¬ M.HoldsLit (if pol then (pivot, (pivot.1 + 1, pivot.2)) else ((pivot.1 + 1, pivot.2), pivot)).2 := by
    obtain ⟨n, t⟩ := pivot
    cases pol
    · simp [Model.holdsLit_succ]
    · simp [Model.holdsLit_succ]
  generalize (if pol then (pivot, (pivot.1 + 1, pivot.2)) else ((pivot.1 + 1, pivot.2), pivot)) = q at h hneg
  obtain ⟨pc, pn⟩ := q
  simp only at h hneg
  split at h
  · simp at h
  · generalize hr : insertRest pn false (removeTerm cur pc).1 next = r at h
    obtain ⟨found, c⟩ := r
    simp only at h
    split at h
    · simp at h
    · simp only [ok_inj] at h
      subst h
      obtain ⟨i1, i2, i3⟩ := insertRest_spec pn next _ _ _ _ hr (inv_remove _ _ hi)
      refine ⟨i1, ?_⟩
      obtain ⟨l, hl, hlt⟩ := h1
      by_cases e : l = pc
      · subst e
        obtain ⟨t, ht, htt⟩ := h2
        rcases i3 t ht with h | h
        · exact ⟨_, h, (M.holds_removeAll t).2 htt⟩
        · rw [← M.holds_removeAll, h] at htt
          exact absurd htt (hneg hlt)
      · exact ⟨l, i2 l (mem_remove _ _ _ hi hl e), hlt⟩

theorem resolveAll_sound (M : Model) (l : List (List Term × (Lit × Bool))) : ∀ {cur cur' : C},
    resolveAll cur l = .ok cur' → Inv cur → M.SatLits (toList cur) → (∀ p ∈ l, M.Sat p.1) →
    M.SatLits (toList cur') := by
  induction l with
  | nil => intro cur cur' h hi h1 _; simp [resolveAll] at h; subst h; exact h1
  | cons p l ih =>
    obtain ⟨next, pivot, pol⟩ := p
    intro cur cur' h hi h1 h2
    simp only [resolveAll, bind_ok] at h
    obtain ⟨c, h3, h4⟩ := h
    obtain ⟨i1, i2⟩ := binaryResolution_sound M h3 hi h1 (h2 (next, pivot, pol) (by simp))
    exact ih h4 i1 i2 (fun p hp => h2 p (by simp [hp]))

theorem applyGeneric_sound (M : Model) {premises : List (List Term)} {args : List Term} {c : C}
    (h : applyGenericResolution C premises args = .ok c) (hp : ∀ p ∈ premises, M.Sat p) :
    M.SatLits (toList c) := by
  simp only [applyGenericResolution, bind_ok, require_ok] at h
  obtain ⟨-, -, -, -, pivots, -, h⟩ := h
  cases premises with
  | nil => simp at h
  | cons first rest =>
    simp only at h
    refine resolveAll_sound M _ h (inv_ofList _) ?_ ?_
    · obtain ⟨l, hl, hlt⟩ := hp first (by simp)
      exact ⟨l.removeAllNegations, (mem_ofList _ _).2 (List.mem_map_of_mem hl), (M.holds_removeAll l).2 hlt⟩
    · rintro ⟨n, q⟩ hq
      exact hp n (List.mem_cons_of_mem _ (List.of_mem_zip hq).1)

end

/-! ## RUP -/

/-- A set of polarity literals is true. -/
def Model.SatP (M : Model) (c : List PLit) : Prop := ∃ l ∈ c, M.HoldsP l

theorem minByLen_mem : ∀ {cs : List (List PLit)} {c}, minByLen cs = some c → c ∈ cs
  | [], _, h => by simp [minByLen] at h
  | c :: cs, d, h => by
    simp only [minByLen] at h
    cases hm : minByLen cs with
    | none => simp [hm] at h; simp [h]
    | some e =>
      simp only [hm] at h
      split at h
      · simp at h; subst h; exact List.mem_cons_of_mem _ (minByLen_mem hm)
      · simp at h; simp [h]

theorem rupLoop_sound (M : Model) : ∀ (n : Nat) (cs : List (List PLit)), rupLoop n cs = true →
    ¬ ∀ c ∈ cs, M.SatP c := by
  intro n
  induction n with
  | zero => intro cs h; simp [rupLoop] at h
  | succ n ih =>
    intro cs h hall
    simp only [rupLoop] at h
    split at h
    · simp at h
    · next hm =>
      obtain ⟨l, hl, -⟩ := hall _ (minByLen_mem hm)
      simp at hl
    · next l hm =>
      refine ih _ h ?_
      have hl : M.HoldsP l := by
        obtain ⟨l', hl', ht⟩ := hall _ (minByLen_mem hm)
        simp at hl'; subst hl'; exact ht
      intro c hc
      simp only [List.mem_map, List.mem_filter] at hc
      obtain ⟨c', ⟨hc', -⟩, rfl⟩ := hc
      obtain ⟨k, hk, hkt⟩ := hall c' hc'
      refine ⟨k, (mem_setRemove_of_ne ?_).2 hk, hkt⟩
      rintro rfl
      exact (M.holdsP_neg l).1 hkt hl
    · simp at h

/-- The iteration bound of `rupLoop` is never the reason for a negative answer. -/
theorem rupLoop_fuel : ∀ (n : Nat) (cs : List (List PLit)), cs.length < n →
    rupLoop n cs = rupLoop (n + 1) cs := by
  intro n
  induction n with
  | zero => intro cs h; omega
  | succ n ih =>
    intro cs h
    rw [rupLoop, rupLoop]
    split
    · rfl
    · rfl
    · next l hm =>
      apply ih
      simp only [List.length_map]
      have : (cs.filter (fun c => l ∉ c)).length < cs.length := by
        rw [List.length_filter_lt_length_iff_exists]
        exact ⟨[l], minByLen_mem hm, by simp⟩
      omega
    · rfl

theorem rupResolution_sound (M : Model) {conclusion : List Term} {premises : List (List Term)}
    (h : rupResolution conclusion premises = true) (hp : ∀ p ∈ premises, M.Sat p) : M.Sat conclusion := by
  by_contra hc
  refine rupLoop_sound M _ _ h ?_
  intro c hcm
  simp only [List.mem_append, List.mem_map] at hcm
  rcases hcm with ⟨p, hpm, rfl⟩ | ⟨t, ht, rfl⟩
  · obtain ⟨l, hl, hlt⟩ := hp p hpm
    exact ⟨_, mem_setOf.2 (List.mem_map_of_mem hl), (M.holdsP_iff l).2 hlt⟩
  · refine ⟨_, by simp; rfl, ?_⟩
    have : ¬ M.HoldsP t.removeAllNegationsPol := by
      rw [M.holdsP_iff]; exact fun hh => hc ⟨t, ht, hh⟩
    exact (M.holdsP_neg t.removeAllNegationsPol).2 this

end Carcara
