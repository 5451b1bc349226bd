import Verif.Lemmas.Greedy
import Verif.Spec.Resolution

/-! # What `resolution_with_args` computes, exactly -/

namespace Carcara

open ClauseColl Spec

theorem removeAll_not (t : Term) : (Term.op .not [t]).removeAllNegations =
    (t.removeAllNegations.1 + 1, t.removeAllNegations.2) := by
  rw [Term.removeAllNegations]

/-- The literals of `c` are the terms of the set `f`. -/
def Represents (c : SetClause) (f : Term → Prop) : Prop :=
  c.lits.Nodup ∧ ∀ l, l ∈ c.lits ↔ ∃ t, f t ∧ t.removeAllNegations = l

theorem Represents.mem {c : SetClause} {f : Term → Prop} (h : Represents c f) (t : Term) :
    t.removeAllNegations ∈ c.lits ↔ f t := by
  rw [h.2]
  constructor
  · rintro ⟨u, hu, e⟩; exact removeAll_injective e ▸ hu
  · exact fun h => ⟨t, h, rfl⟩

theorem Represents.congr {c : SetClause} {f g : Term → Prop} (h : Represents c f) (e : ∀ x, f x ↔ g x) :
    Represents c g := ⟨h.1, fun l => by simp only [h.2, e]⟩

theorem represents_ofList (ts : List Term) :
    Represents (ofList (ts.map Term.removeAllNegations)) (· ∈ ts) :=
  ⟨nodup_setOf _, fun l => by simp [ofList]⟩

theorem Represents.insert {c : SetClause} {f : Term → Prop} (h : Represents c f) (t : Term) :
    Represents (insertTerm c t.removeAllNegations) (fun x => f x ∨ x = t) := by
  refine ⟨nodup_setInsert h.1, fun l => ?_⟩
  simp only [insertTerm, mem_setInsert, h.2]
  constructor
  · rintro (⟨u, hu, e⟩ | rfl)
    · exact ⟨u, Or.inl hu, e⟩
    · exact ⟨t, Or.inr rfl, rfl⟩
  · rintro ⟨u, hu | rfl, e⟩
    · exact Or.inl ⟨u, hu, e⟩
    · exact Or.inr e.symm

theorem Represents.remove {c : SetClause} {f : Term → Prop} (h : Represents c f) (t : Term) :
    Represents (removeTerm c t.removeAllNegations).1 (fun x => f x ∧ x ≠ t) := by
  refine ⟨nodup_setRemove h.1, fun l => ?_⟩
  simp only [removeTerm, mem_setRemove h.1, h.2]
  constructor
  · rintro ⟨⟨u, hu, rfl⟩, hne⟩
    exact ⟨u, ⟨hu, fun e => hne (e ▸ rfl)⟩, rfl⟩
  · rintro ⟨u, ⟨hu, hne⟩, rfl⟩
    exact ⟨⟨u, hu, rfl⟩, fun e => hne (removeAll_injective e)⟩

theorem insertRest_true (pv : Lit) (ts : List Term) : ∀ (c : SetClause) (f : Term → Prop), Represents c f →
    ∃ c', insertRest pv true c ts = (true, c') ∧ Represents c' (fun x => f x ∨ x ∈ ts) := by
  induction ts with
  | nil => intro c f h; exact ⟨c, rfl, h.congr (by simp)⟩
  | cons t ts ih =>
    intro c f h
    obtain ⟨c', e, h'⟩ := ih _ _ (h.insert t)
    refine ⟨c', by simpa [insertRest] using e, h'.congr fun x => ?_⟩
    simp [or_assoc]

theorem insertRest_false (p : Term) (ts : List Term) : ∀ (c : SetClause) (f : Term → Prop), Represents c f →
    ∃ b c', insertRest p.removeAllNegations false c ts = (b, c') ∧ (b = true ↔ p ∈ ts) ∧
      Represents c' (fun x => f x ∨ x ∈ ts.erase p) := by
  induction ts with
  | nil => intro c f h; exact ⟨false, c, rfl, by simp, h.congr (by simp)⟩
  | cons t ts ih =>
    intro c f h
    by_cases e : t = p
    · subst e
      obtain ⟨c', e, h'⟩ := insertRest_true t.removeAllNegations ts c f h
      exact ⟨true, c', by simpa [insertRest] using e, by simp, h'.congr (by simp)⟩
    · obtain ⟨b, c', e', hb, h'⟩ := ih _ _ (h.insert t)
      refine ⟨b, c', ?_, ?_, h'.congr fun x => ?_⟩
      · rw [insertRest, if_neg (by rintro ⟨-, hh⟩; exact e (removeAll_injective hh))]
        exact e'
      · rw [hb]; simp [Ne.symm e]
      · simp [List.erase_cons_tail, e, or_assoc]

theorem binaryResolution_exact {c : SetClause} {f : Term → Prop} (h : Represents c f) (next : List Term)
    (p : Term) (pol : Bool) :
    ∀ l u, (if pol then (p, Term.op .not [p]) else (.op .not [p], p)) = (l, u) →
    (f l → u ∈ next → ∃ c', binaryResolution c next p.removeAllNegations pol = .ok c' ∧
        Represents c' (fun x => (f x ∧ x ≠ l) ∨ x ∈ next.erase u)) ∧
    (¬ (f l ∧ u ∈ next) → binaryResolution c next p.removeAllNegations pol = err) := by
  intro l u hlu
  have key : (if pol then (p.removeAllNegations, ((p.removeAllNegations.1 + 1, p.removeAllNegations.2) : Lit))
      else ((p.removeAllNegations.1 + 1, p.removeAllNegations.2), p.removeAllNegations)) =
      (l.removeAllNegations, u.removeAllNegations) := by
    cases pol <;> simp at hlu <;> obtain ⟨rfl, rfl⟩ := hlu <;> simp [removeAll_not]
  simp only [binaryResolution, key]
  have hr : (removeTerm c l.removeAllNegations).2 = true ↔ f l := by
    simp only [removeTerm, setRemove_snd]; exact h.mem l
  obtain ⟨b, c', e, hb, h'⟩ := insertRest_false u next _ _ (h.remove l)
  rw [e]
  refine ⟨fun h1 h2 => ?_, fun hn => ?_⟩
  · rw [hr.2 h1, hb.2 h2]
    exact ⟨c', by simp, h'⟩
  · by_cases h1 : f l
    · have : b = false := by
        cases b
        · rfl
        · exact absurd ⟨h1, hb.1 rfl⟩ hn
      simp [this]
    · have : (removeTerm c l.removeAllNegations).2 = false := by
        cases hh : (removeTerm c l.removeAllNegations).2 <;> simp_all
      simp [this]

theorem Spec.ResChain.congr_left {c c' : Term → Prop} {ds args e} (h : ResChain c ds args e) (hc : ∀ x, c x ↔ c' x) :
    ResChain c' ds args e := by
  have : c = c' := funext fun x => propext (hc x)
  exact this ▸ h

theorem resolveAll_exact (args : List Term) : ∀ (ds : List (List Term)) (c : SetClause) (f e : Term → Prop),
    args.length = ds.length * 2 → Represents c f →
    ((∃ pivots c', parsePivots args = .ok pivots ∧ resolveAll c (ds.zip pivots) = .ok c' ∧ Represents c' e) ↔
      ResChain f ds args e) := by
  induction args using parsePivots.induct with
  | case1 p b rest hb ih =>
    intro ds c f e hlen h
    obtain _ | ⟨d, ds⟩ := ds
    · simp at hlen
    simp only [Term.isBoolTrue, decide_eq_true_eq] at hb
    subst hb
    have hl : rest.length = ds.length * 2 := by simp at hlen; omega
    have hx := binaryResolution_exact h d p true p (.op .not [p]) (by simp)
    constructor
    · rintro ⟨pv, c', hp, hr, he⟩
      simp only [parsePivots, Term.isBoolTrue, decide_true, if_true, bind_ok, pure_ok] at hp
      obtain ⟨ps, hps, rfl⟩ := hp
      simp only [List.zip_cons_cons, resolveAll, bind_ok] at hr
      obtain ⟨c1, h1, h2⟩ := hr
      rcases Classical.em (_ ∧ _) with hh | hh
      · obtain ⟨c2, e2, r2⟩ := hx.1 hh.1 hh.2
        rw [e2] at h1
        cases h1
        exact .pos ⟨hh.1, hh.2, fun _ => Iff.rfl⟩ ((ih ds _ _ e hl r2).1 ⟨ps, c', hps, h2, he⟩)
      · rw [hx.2 hh] at h1; cases h1
    · intro hc
      cases hc with
      | pos hr hrest =>
        obtain ⟨c2, e2, r2⟩ := hx.1 hr.1 hr.2.1
        obtain ⟨ps, c', h1, h2, h3⟩ := (ih ds _ _ e hl r2).2 (hrest.congr_left hr.2.2)
        exact ⟨_, c', by simp only [parsePivots, Term.isBoolTrue, decide_true, if_true, h1]; rfl,
          by simp only [List.zip_cons_cons, resolveAll, e2]; exact h2, h3⟩
  | case2 p b rest hb hb' ih =>
    intro ds c f e hlen h
    obtain _ | ⟨d, ds⟩ := ds
    · simp at hlen
    simp only [Term.isBoolFalse, decide_eq_true_eq] at hb'
    subst hb'
    have hl : rest.length = ds.length * 2 := by simp at hlen; omega
    have hx := binaryResolution_exact h d p false (.op .not [p]) p (by simp)
    constructor
    · rintro ⟨pv, c', hp, hr, he⟩
      rw [parsePivots, if_neg (by simp [Term.isBoolTrue]), if_pos (by simp [Term.isBoolFalse])] at hp
      simp only [bind_ok, pure_ok] at hp
      obtain ⟨ps, hps, rfl⟩ := hp
      simp only [List.zip_cons_cons, resolveAll, bind_ok] at hr
      obtain ⟨c1, h1, h2⟩ := hr
      rcases Classical.em (_ ∧ _) with hh | hh
      · obtain ⟨c2, e2, r2⟩ := hx.1 hh.1 hh.2
        rw [e2] at h1
        cases h1
        exact .neg ⟨hh.1, hh.2, fun _ => Iff.rfl⟩ ((ih ds _ _ e hl r2).1 ⟨ps, c', hps, h2, he⟩)
      · rw [hx.2 hh] at h1; cases h1
    · intro hc
      cases hc with
      | neg hr hrest =>
        obtain ⟨c2, e2, r2⟩ := hx.1 hr.1 hr.2.1
        obtain ⟨ps, c', h1, h2, h3⟩ := (ih ds _ _ e hl r2).2 (hrest.congr_left hr.2.2)
        exact ⟨_, c', by rw [parsePivots, if_neg (by simp [Term.isBoolTrue]), if_pos (by simp [Term.isBoolFalse]), h1]; rfl,
          by simp only [List.zip_cons_cons, resolveAll, e2]; exact h2, h3⟩
  | case3 p b rest hb hb' =>
    intro ds c f e hlen h
    constructor
    · rintro ⟨pv, c', hp, -⟩
      simp only [parsePivots, if_neg hb, if_neg hb'] at hp
      cases hp
    · intro hc
      cases hc with
      | pos => exact absurd (by simp [Term.isBoolTrue]) hb
      | neg => exact absurd (by simp [Term.isBoolFalse]) hb'
  | case4 t => intro ds c f e hlen; simp at hlen; omega
  | case5 =>
    intro ds c f e hlen h
    obtain _ | ⟨d, ds⟩ := ds
    · constructor
      · rintro ⟨pv, c', hp, hr, he⟩
        cases hp
        cases hr
        refine .done fun x => ?_
        rw [← h.mem, he.mem]
      · intro hc
        cases hc with
        | done hc => exact ⟨[], c, rfl, rfl, h.congr hc⟩
    · simp at hlen

/-- Acceptance of `resolution_with_args`. -/
theorem resolutionWithArgs_exact (conclusion first : List Term) (rest : List (List Term)) (args : List Term) :
    resolutionWithArgs conclusion (first :: rest) args = .ok () ↔
      rest ≠ [] ∧ ResChain (· ∈ first) rest args (· ∈ conclusion) := by
  have hlen : ∀ {c ds as e}, ResChain c ds as e → as.length = ds.length * 2 := by
    intro c ds as e h
    induction h <;> simp_all <;> omega
  simp only [resolutionWithArgs, applyGenericResolution, bind_ok, require_ok, List.length_cons]
  constructor
  · rintro ⟨r, ⟨_, h1, _, h2, pv, hp, hr⟩, _, h3, h4⟩
    simp only [Nat.add_sub_cancel] at h2
    refine ⟨by rintro rfl; simp at h1, ?_⟩
    refine (resolveAll_exact args rest _ _ _ h2 (represents_ofList first)).1 ⟨pv, r, hp, hr, ?_⟩
    have hnd : ∀ (l : List (List Term × (Lit × Bool))) (c c' : SetClause), c.lits.Nodup →
        resolveAll c l = .ok c' → c'.lits.Nodup := by
      intro l
      induction l with
      | nil => intro c c' h e; cases e; exact h
      | cons x l ih =>
        obtain ⟨n, p, b⟩ := x
        intro c c' h e
        simp only [resolveAll, bind_ok] at e
        obtain ⟨c1, e1, e2⟩ := e
        refine ih _ _ ?_ e2
        cases b <;> simp only [binaryResolution, if_true, if_false, Bool.false_eq_true] at e1 <;>
        · split at e1
          · simp at e1
          · split at e1
            · simp at e1
            · simp only [Except.ok.injEq] at e1
              subst e1
              exact (insertRest_spec (C := SetClause) _ _ _ _ _ _ rfl (show List.Nodup _ from nodup_setRemove h)).1
    refine ⟨hnd _ _ _ (nodup_setOf _) hr, fun l => ?_⟩
    rw [← List.mem_map (f := Term.removeAllNegations) (l := conclusion)]
    exact ⟨fun h => by simpa using h4 l h, fun h => h3 l (by simpa using h)⟩
  · rintro ⟨h1, h2⟩
    have hl := hlen h2
    obtain ⟨pv, r, hp, hr, he⟩ := (resolveAll_exact args rest _ _ _ hl (represents_ofList first)).2 h2
    refine ⟨r, ⟨(), ?_, (), hl, pv, hp, hr⟩, (), ?_, ?_⟩
    · have := List.length_pos_iff.2 h1; omega
    · intro l hl
      simp only [mem_setOf, List.mem_map] at hl
      obtain ⟨t, ht, rfl⟩ := hl
      exact (he.mem t).2 ht
    · intro l hl
      obtain ⟨t, ht, rfl⟩ := (he.2 l).1 hl
      simp only [mem_setOf, List.mem_map]
      exact ⟨t, ht, rfl⟩

end Carcara
