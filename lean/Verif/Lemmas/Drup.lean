import Verif.Model.Drup
import Verif.Lemmas.Resolution
import Verif.Spec.UnitPropagation

/-! # Facts about the DRUP checker -/

namespace Carcara

open Spec

@[simp] theorem PLit.neg_neg (l : PLit) : l.neg.neg = l := by simp [PLit.neg]

theorem PLit.neg_ne (l : PLit) : l.neg ≠ l := by
  obtain ⟨b, t⟩ := l; cases b <;> simp [PLit.neg]

theorem PLit.neg_inj {l k : PLit} (h : l.neg = k.neg) : l = k := by
  rw [← l.neg_neg, h, k.neg_neg]

theorem Spec.holdsV_neg (v : Term → Prop) (l : PLit) : HoldsV v l.neg ↔ ¬ HoldsV v l := by
  obtain ⟨b, t⟩ := l
  cases b <;> simp [HoldsV, PLit.neg]

theorem Spec.Unit.sound {v : Term → Prop} {cs : List (List PLit)} (h : ∀ c ∈ cs, SatV v c) {l : PLit}
    (hu : Spec.Unit cs l) : HoldsV v l := by
  induction hu with
  | mk c l hc hl _ ih =>
    obtain ⟨k, hk, hkt⟩ := h c hc
    by_cases e : k = l
    · rw [← e]; exact hkt
    · exact absurd hkt ((holdsV_neg v k).1 (ih k hk e))

theorem Spec.Conflict.sound {v : Term → Prop} {cs : List (List PLit)} (h : ∀ c ∈ cs, SatV v c) :
    ¬ Conflict cs := by
  rintro ⟨c, hc, hall⟩
  obtain ⟨k, hk, hkt⟩ := h c hc
  exact (holdsV_neg v k).1 ((hall k hk).sound h) hkt

theorem Spec.Unit.mono {cs ds : List (List PLit)} (h : ∀ c ∈ cs, c ∈ ds) {l : PLit} (hu : Spec.Unit cs l) :
    Spec.Unit ds l := by
  induction hu with
  | mk c l hc hl _ ih => exact .mk c l (h c hc) hl ih

theorem Spec.Conflict.mono {cs ds : List (List PLit)} (h : ∀ c ∈ cs, c ∈ ds) (hu : Conflict cs) :
    Conflict ds := by
  obtain ⟨c, hc, hall⟩ := hu
  exact ⟨c, h c hc, fun k hk => (hall k hk).mono h⟩

/-! ## Invariants -/

/-- Invariant of a watched clause. -/
structure WClause.OK (c : WClause) : Prop where
  nodup : c.lits.Nodup
  mem1 : ∀ l, c.w1 = some l → l ∈ c.lits
  mem2 : ∀ l, c.w2 = some l → l ∈ c.lits
  ne : ∀ l, c.w1 = some l → c.w2 ≠ some l
  nones : c.w1 = none → c.w2 = none → c.lits = []
  one1 : ∀ l, c.w1 = some l → c.w2 = none → c.lits = [l]
  one2 : ∀ l, c.w1 = none → c.w2 = some l → c.lits = [l]

/-- Invariant of the assignment with respect to the set of clauses. -/
structure EnvInv (cs : List (List PLit)) (env : List (PLit × Bool)) : Prop where
  neg : ∀ l, mapGet env l = some true ↔ mapGet env l.neg = some false
  der : ∀ l, mapGet env l = some true → Spec.Unit cs l

theorem EnvInv.neg' {cs env} (h : EnvInv cs env) (l : PLit) :
    mapGet env l = some false ↔ mapGet env l.neg = some true := by
  rw [h.neg l.neg, PLit.neg_neg]

theorem EnvInv.false_der {cs env} (h : EnvInv cs env) {l : PLit} (hl : mapGet env l = some false) :
    Spec.Unit cs l.neg := h.der _ ((h.neg' l).1 hl)

theorem EnvInv.insert {cs env} (h : EnvInv cs env) {l : PLit} (hn : mapGet env l = none) (hl : Spec.Unit cs l) :
    EnvInv cs (mapInsert (mapInsert env l true) l.neg false) := by
  have hne := l.neg_ne
  have hnn : mapGet env l.neg = Option.none := by
    cases hg : mapGet env l.neg with
    | none => rfl
    | some b =>
      cases b with
      | true => rw [h.neg, PLit.neg_neg, hn] at hg; simp at hg
      | false => rw [h.neg', PLit.neg_neg, hn] at hg; simp at hg
  refine ⟨fun k => ?_, fun k hk => ?_⟩
  · simp only [mapGet_insert]
    by_cases h1 : l = k
    · subst h1; simp [hne]
    · by_cases h2 : l.neg = k
      · subst h2
        simp [hne]
      · have h3 : l.neg ≠ k.neg := fun e => h1 (PLit.neg_inj e)
        have h4 : l ≠ k.neg := by rintro rfl; simp at h2
        simp [h1, h2, h3, h4, h.neg]
  · simp only [mapGet_insert] at hk
    split at hk
    · simp at hk
    · split at hk
      · next e => subst e; exact hl
      · exact h.der k hk

/-! ## The scan over one clause -/

theorem setWatch_some (w : Option PLit × Option PLit) (l : PLit) (h1 : w.1.isSome) (h2 : w.2.isSome) :
    (setWatch w l).1.isSome ∧ (setWatch w l).2.isSome := by
  unfold setWatch
  split
  · simp [h1, h2]
  · exact ⟨h1, h2⟩

theorem scan_spec (env : List (PLit × Bool)) : ∀ (lits : List PLit) (s : Scan),
    (∀ u, s.unset = some u → (lits.foldl (scanStep env) s).unset = some u) ∧
    ((lits.foldl (scanStep env) s).notUnit = false → s.notUnit = false ∧
      ∀ l ∈ lits, mapGet env l = some false ∨ (lits.foldl (scanStep env) s).unset = some l) ∧
    (∀ u, (lits.foldl (scanStep env) s).unset = some u → s.unset = some u ∨ (u ∈ lits ∧ mapGet env u = none)) := by
  intro lits
  induction lits with
  | nil => intro s; simp
  | cons l lits ih =>
    intro s
    simp only [List.foldl_cons]
    obtain ⟨i1, i2, i3⟩ := ih (scanStep env s l)
    generalize hr : lits.foldl (scanStep env) (scanStep env s l) = r at *
    cases he : mapGet env l with
    | none =>
      by_cases hu : s.unset.isSome
      · have e : scanStep env s l = { s with w := setWatch s.w l, notUnit := true } := by
          simp [scanStep, he, hu]
        rw [e] at i1 i2 i3
        refine ⟨i1, fun h => ?_, fun u h => ?_⟩
        · exact absurd (i2 h).1 (by simp)
        · rcases i3 u h with h | ⟨h, h'⟩
          · exact Or.inl h
          · exact Or.inr ⟨by simp [h], h'⟩
      · have e : scanStep env s l = { s with w := setWatch s.w l, unset := some l } := by
          simp [scanStep, he, hu]
        rw [e] at i1 i2 i3
        refine ⟨fun u h => by simp [h] at hu, fun h => ⟨(i2 h).1, ?_⟩, fun u h => ?_⟩
        · intro k hk
          rcases List.mem_cons.1 hk with rfl | hk
          · exact Or.inr (i1 _ rfl)
          · exact (i2 h).2 k hk
        · rcases i3 u h with h | ⟨h, h'⟩
          · simp at h; subst h; exact Or.inr ⟨by simp, he⟩
          · exact Or.inr ⟨by simp [h], h'⟩
    | some b =>
      cases b with
      | true =>
        have e : scanStep env s l = { s with w := setWatch s.w l, notUnit := true } := by
          simp [scanStep, he]
        rw [e] at i1 i2 i3
        refine ⟨i1, fun h => ?_, fun u h => ?_⟩
        · exact absurd (i2 h).1 (by simp)
        · rcases i3 u h with h | ⟨h, h'⟩
          · exact Or.inl h
          · exact Or.inr ⟨by simp [h], h'⟩
      | false =>
        have e : scanStep env s l = s := by simp [scanStep, he]
        rw [e] at i1 i2 i3
        refine ⟨i1, fun h => ⟨(i2 h).1, ?_⟩, fun u h => ?_⟩
        · intro k hk
          rcases List.mem_cons.1 hk with rfl | hk
          · exact Or.inl he
          · exact (i2 h).2 k hk
        · rcases i3 u h with h | ⟨h, h'⟩
          · exact Or.inl h
          · exact Or.inr ⟨by simp [h], h'⟩

theorem scan_notUnit (env : List (PLit × Bool)) : ∀ (lits : List PLit) (s : Scan), lits.Nodup →
    (∀ u, s.unset = some u → u ∉ lits) → s.notUnit = false →
    (lits.foldl (scanStep env) s).notUnit = true →
    (∃ l ∈ lits, mapGet env l = some true) ∨
    (∃ l ∈ lits, ∃ k, (k ∈ lits ∨ s.unset = some k) ∧ k ≠ l ∧ mapGet env l = none ∧
      (k ∈ lits → mapGet env k = none)) := by
  intro lits
  induction lits with
  | nil => intro s _ _ h1 h2; simp [h1] at h2
  | cons l lits ih =>
    intro s hnd hu hn h
    simp only [List.foldl_cons] at h
    rw [List.nodup_cons] at hnd
    cases he : mapGet env l with
    | none =>
      cases hs : s.unset with
      | some u =>
        right
        refine ⟨l, by simp, u, Or.inr rfl, ?_, he, fun hm => absurd hm (hu u hs)⟩
        rintro rfl
        exact hu u hs (by simp)
      | none =>
        have e : scanStep env s l = { s with w := setWatch s.w l, unset := some l } := by
          simp [scanStep, he, hs]
        rw [e] at h
        rcases ih { s with w := setWatch s.w l, unset := some l } hnd.2
          (by intro u hu; simp at hu; subst hu; exact hnd.1) hn h with ⟨k, hk, ht⟩ | ⟨k, hk, j, hj, hne, h1, h2⟩
        · exact Or.inl ⟨k, by simp [hk], ht⟩
        · right
          rcases hj with hj | hj
          · exact ⟨k, by simp [hk], j, Or.inl (by simp [hj]), hne, h1, fun _ => h2 hj⟩
          · simp at hj; subst hj
            exact ⟨k, by simp [hk], l, Or.inl (by simp), hne, h1, fun _ => he⟩
    | some b =>
      cases b with
      | true => exact Or.inl ⟨l, by simp, he⟩
      | false =>
        have e : scanStep env s l = s := by simp [scanStep, he]
        rw [e] at h
        rcases ih s hnd.2 (fun u hh hm => hu u hh (by simp [hm])) hn h with
          ⟨k, hk, ht⟩ | ⟨k, hk, j, hj, hne, h1, h2⟩
        · exact Or.inl ⟨k, by simp [hk], ht⟩
        · right
          refine ⟨k, by simp [hk], j, ?_, hne, h1, fun hm => ?_⟩
          · rcases hj with hj | hj
            · exact Or.inl (by simp [hj])
            · exact Or.inr hj
          · rcases hj with hj | hj
            · exact h2 hj
            · exact absurd hm (hu j hj)

theorem setWatch_ok {c : WClause} (hc : c.OK) {w : Option PLit × Option PLit} {l : PLit} (hl : l ∈ c.lits)
    (h1 : w.1.isSome) (h2 : w.2.isSome) (hw : ({ c with w1 := w.1, w2 := w.2 } : WClause).OK) :
    ({ c with w1 := (setWatch w l).1, w2 := (setWatch w l).2 } : WClause).OK := by
  unfold setWatch
  split
  · next hne =>
    refine ⟨hc.nodup, ?_, hw.mem2, ?_, by simp, ?_, by simp⟩
    · rintro k hk; simp at hk; subst hk; exact hl
    · rintro k hk; simp at hk; subst hk; exact hne.2
    · intro k _ hk; simp only at hk; simp [hk] at h2
  · exact hw

theorem scan_ok {c : WClause} (hc : c.OK) (env : List (PLit × Bool)) : ∀ (lits : List PLit) (s : Scan),
    (∀ l ∈ lits, l ∈ c.lits) → s.w.1.isSome → s.w.2.isSome →
    ({ c with w1 := s.w.1, w2 := s.w.2 } : WClause).OK →
    ({ c with w1 := (lits.foldl (scanStep env) s).w.1, w2 := (lits.foldl (scanStep env) s).w.2 } : WClause).OK := by
  intro lits
  induction lits with
  | nil => intro s _ _ _ h; exact h
  | cons l lits ih =>
    intro s hs h1 h2 h
    simp only [List.foldl_cons]
    have hsome := setWatch_some s.w l h1 h2
    have hok := setWatch_ok hc (hs l (by simp)) h1 h2 h
    have hsub : ∀ k ∈ lits, k ∈ c.lits := fun k hk => hs k (by simp [hk])
    cases he : mapGet env l with
    | none =>
      by_cases hu : s.unset.isSome
      · have e : scanStep env s l = { s with w := setWatch s.w l, notUnit := true } := by
          simp [scanStep, he, hu]
        rw [e]; exact ih _ hsub hsome.1 hsome.2 hok
      · have e : scanStep env s l = { s with w := setWatch s.w l, unset := some l } := by
          simp [scanStep, he, hu]
        rw [e]; exact ih _ hsub hsome.1 hsome.2 hok
    | some b =>
      cases b with
      | true =>
        have e : scanStep env s l = { s with w := setWatch s.w l, notUnit := true } := by
          simp [scanStep, he]
        rw [e]; exact ih _ hsub hsome.1 hsome.2 hok
      | false =>
        have e : scanStep env s l = s := by simp [scanStep, he]
        rw [e]; exact ih _ hsub h1 h2 h

/-! ## One clause -/

/-- Meaning of the answer for one clause. -/
def Answer (env : List (PLit × Bool)) (lits : List PLit) : Option Implied → Prop
  | some .bottom => ∀ l ∈ lits, mapGet env l = some false
  | some (.pivot l) => l ∈ lits ∧ mapGet env l = none ∧ ∀ k ∈ lits, k ≠ l → mapGet env k = some false
  | some .notUnsat => False
  | none => (∃ l ∈ lits, mapGet env l = some true) ∨
      ∃ l ∈ lits, ∃ k ∈ lits, k ≠ l ∧ mapGet env l = none ∧ mapGet env k = none

theorem visit_spec {c : WClause} (hc : c.OK) (env : List (PLit × Bool)) :
    ∃ r c', visit env c = .ok (r, c') ∧ c'.OK ∧ c'.lits = c.lits ∧ Answer env c.lits r := by
  unfold visit
  cases h1 : c.w1 with
  | none =>
    cases h2 : c.w2 with
    | none => exact ⟨_, _, rfl, hc, rfl, by simp [Answer, hc.nones h1 h2]⟩
    | some l =>
      have hl := hc.one2 l h1 h2
      simp only [hl, List.length_singleton, if_true]
      cases he : mapGet env l with
      | none => exact ⟨_, _, rfl, hc, hl, by simp [Answer, he]⟩
      | some b => cases b with
        | true => exact ⟨_, _, rfl, hc, hl, by simp [Answer, he]⟩
        | false => exact ⟨_, _, rfl, hc, hl, by simp [Answer, he]⟩
  | some l =>
    cases h2 : c.w2 with
    | none =>
      have hl := hc.one1 l h1 h2
      simp only [hl, List.length_singleton, if_true]
      cases he : mapGet env l with
      | none => exact ⟨_, _, rfl, hc, hl, by simp [Answer, he]⟩
      | some b => cases b with
        | true => exact ⟨_, _, rfl, hc, hl, by simp [Answer, he]⟩
        | false => exact ⟨_, _, rfl, hc, hl, by simp [Answer, he]⟩
    | some l0 =>
      have m1 := hc.mem1 l h1
      have m2 := hc.mem2 l0 h2
      have hne : l0 ≠ l := by
        rintro rfl; exact hc.ne l0 h1 h2
      have scan : ∃ r c',
          (let s := c.lits.foldl (scanStep env) ⟨(some l, some l0), none, false⟩
           let c := { c with w1 := s.w.1, w2 := s.w.2 }
           if s.notUnit then .ok (none, c)
           else match s.unset with
            | some l => .ok (some (Implied.pivot l), c)
            | none => .ok (some .bottom, c) : Res (Option Implied × WClause)) = .ok (r, c') ∧ c'.OK ∧
            c'.lits = c.lits ∧ Answer env c.lits r := by
        have hok : ({ c with w1 := some l, w2 := some l0 } : WClause).OK := by
          have : ({ c with w1 := some l, w2 := some l0 } : WClause) = c := by rw [← h1, ← h2]
          rw [this]; exact hc
        have ok' := scan_ok hc env c.lits ⟨(some l, some l0), none, false⟩ (fun _ h => h) rfl rfl hok
        have sp := scan_spec env c.lits ⟨(some l, some l0), none, false⟩
        have sn := scan_notUnit env c.lits ⟨(some l, some l0), none, false⟩ hc.nodup (by simp) rfl
        generalize c.lits.foldl (scanStep env) ⟨(some l, some l0), none, false⟩ = s at *
        simp only
        cases hn : s.notUnit with
        | true =>
          refine ⟨_, _, rfl, ok', rfl, ?_⟩
          rcases sn hn with h | ⟨a, ha, k, hk, hne, he, he'⟩
          · exact Or.inl h
          · simp only [reduceCtorEq, or_false] at hk
            exact Or.inr ⟨a, ha, k, hk, hne, he, he' hk⟩
        | false =>
          obtain ⟨-, s2⟩ := sp.2.1 hn
          cases hu : s.unset with
          | none =>
            refine ⟨_, _, rfl, ok', rfl, ?_⟩
            intro k hk
            rcases s2 k hk with h | h
            · exact h
            · simp [hu] at h
          | some u =>
            refine ⟨_, _, rfl, ok', rfl, ?_⟩
            rcases sp.2.2 u hu with h | ⟨h, h'⟩
            · simp at h
            · refine ⟨h, h', fun k hk hku => ?_⟩
              rcases s2 k hk with h | h
              · exact h
              · rw [hu] at h; simp at h; exact absurd h.symm hku
      simp only
      cases he : mapGet env l with
      | none =>
        cases he0 : mapGet env l0 with
        | none => exact ⟨_, _, rfl, hc, rfl, Or.inr ⟨l, m1, l0, m2, hne, he, he0⟩⟩
        | some b => cases b with
          | true => exact ⟨_, _, rfl, hc, rfl, Or.inl ⟨l0, m2, he0⟩⟩
          | false => exact scan
      | some b => cases b with
        | true => exact ⟨_, _, rfl, hc, rfl, Or.inl ⟨l, m1, he⟩⟩
        | false =>
          cases he0 : mapGet env l0 with
          | none => exact scan
          | some b => cases b with
            | true => exact ⟨_, _, rfl, hc, rfl, Or.inl ⟨l0, m2, he0⟩⟩
            | false => exact scan

/-- Meaning of the answer for all clauses. -/
def Answers (env : List (PLit × Bool)) (cs : List (List PLit)) : Implied → Prop
  | .notUnsat => ∀ c ∈ cs, Answer env c none
  | i => ∃ c ∈ cs, Answer env c (some i)

theorem getImplied_spec (env : List (PLit × Bool)) : ∀ (cs : List WClause), (∀ c ∈ cs, c.OK) →
    ∃ i cs', getImplied env cs = .ok (i, cs') ∧ (∀ c ∈ cs', c.OK) ∧ cs'.map (·.lits) = cs.map (·.lits) ∧
      Answers env (cs.map (·.lits)) i := by
  intro cs
  induction cs with
  | nil => intro _; exact ⟨_, _, rfl, by simp, rfl, by simp [Answers]⟩
  | cons c cs ih =>
    intro h
    obtain ⟨r, c', h1, h2, h3, h4⟩ := visit_spec (h c (by simp)) env
    cases r with
    | some i =>
      refine ⟨i, c' :: cs, by simp [getImplied, h1], ?_, by simp [h3], ?_⟩
      · intro d hd
        rcases List.mem_cons.1 hd with rfl | hd
        · exact h2
        · exact h d (by simp [hd])
      · cases i with
        | notUnsat => exact absurd h4 (by simp [Answer])
        | pivot l => exact ⟨c.lits, by simp, h4⟩
        | bottom => exact ⟨c.lits, by simp, h4⟩
    | none =>
      obtain ⟨i, cs', i1, i2, i3, i4⟩ := ih (fun d hd => h d (by simp [hd]))
      refine ⟨i, c' :: cs', by simp [getImplied, h1, i1], ?_, by simp [h3, i3], ?_⟩
      · intro d hd
        rcases List.mem_cons.1 hd with rfl | hd
        · exact h2
        · exact i2 d hd
      · cases i with
        | notUnsat =>
          intro d hd
          simp only [List.map_cons, List.mem_cons] at hd
          rcases hd with rfl | hd
          · exact h4
          · exact i4 d hd
        | pivot l => obtain ⟨d, hd, ha⟩ := i4; exact ⟨d, by simp at hd ⊢; tauto, ha⟩
        | bottom => obtain ⟨d, hd, ha⟩ := i4; exact ⟨d, by simp at hd ⊢; tauto, ha⟩

/-- If no clause has an answer, everything derivable is assigned true. -/
theorem closed_true {env : List (PLit × Bool)} {cs : List (List PLit)} (hi : EnvInv cs env)
    (h : ∀ c ∈ cs, Answer env c none) {l : PLit} (hu : Spec.Unit cs l) : mapGet env l = some true := by
  induction hu with
  | mk c l hc hl _ ih =>
    have other : ∀ k ∈ c, k ≠ l → mapGet env k = some false := fun k hk hne => (hi.neg' k).2 (ih k hk hne)
    rcases h c hc with ⟨k, hk, ht⟩ | ⟨a, ha, k, hk, hne, h1, h2⟩
    · by_cases e : k = l
      · rw [← e]; exact ht
      · rw [other k hk e] at ht; simp at ht
    · by_cases e : a = l
      · subst e
        rw [other k hk hne] at h2; simp at h2
      · rw [other a ha e] at h1; simp at h1

theorem closed_no_conflict {env : List (PLit × Bool)} {cs : List (List PLit)} (hi : EnvInv cs env)
    (h : ∀ c ∈ cs, Answer env c none) : ¬ Conflict cs := by
  rintro ⟨c, hc, hall⟩
  have other : ∀ k ∈ c, mapGet env k = some false := fun k hk => (hi.neg' k).2 (closed_true hi h (hall k hk))
  rcases h c hc with ⟨k, hk, ht⟩ | ⟨a, ha, k, hk, hne, h1, h2⟩
  · rw [other k hk] at ht; simp at ht
  · rw [other a ha] at h1; simp at h1

/-! ## The whole run -/

/-- Number of unassigned literal occurrences. -/
def unassigned (env : List (PLit × Bool)) (cs : List (List PLit)) : Nat :=
  (cs.flatten.filter fun l => (mapGet env l).isNone).length

theorem unassigned_insert {env : List (PLit × Bool)} {cs : List (List PLit)} {l : PLit}
    (hl : ∃ c ∈ cs, l ∈ c) (hn : mapGet env l = none) :
    unassigned (mapInsert (mapInsert env l true) l.neg false) cs < unassigned env cs := by
  have hm : l ∈ cs.flatten := by simpa [List.mem_flatten] using hl
  unfold unassigned
  generalize cs.flatten = ls at hm
  have hle : ∀ ls : List PLit,
      (ls.filter fun k => (mapGet (mapInsert (mapInsert env l true) l.neg false) k).isNone).length ≤
      (ls.filter fun k => (mapGet env k).isNone).length := by
    intro ls
    apply List.Sublist.length_le
    apply List.monotone_filter_right
    intro k hk
    simp only [mapGet_insert] at hk
    split at hk
    · simp at hk
    · split at hk
      · simp at hk
      · exact hk
  induction ls with
  | nil => simp at hm
  | cons k ls ih =>
    by_cases e : k = l
    · subst e
      have := hle ls
      have hk : (mapGet (mapInsert (mapInsert env k true) k.neg false) k) = some true := by
        simp [mapGet_insert, k.neg_ne]
      simp only [List.filter_cons, hk, hn]
      simp
      omega
    · have hm' : l ∈ ls := by
        rcases List.mem_cons.1 hm with h | h
        · exact absurd h.symm e
        · exact h
      have i := ih hm'
      simp only [List.filter_cons]
      cases h1 : mapGet (mapInsert (mapInsert env l true) l.neg false) k with
      | some b =>
        simp only [Option.isNone_some, Bool.false_eq_true, if_false]
        split
        · simp; omega
        · exact i
      | none =>
        have h2 : mapGet env k = none := by
          simp only [mapGet_insert] at h1
          split at h1
          · simp at h1
          · split at h1
            · simp at h1
            · exact h1
        simp [h2]; omega

theorem rupRun_spec : ∀ (n : Nat) (env : List (PLit × Bool)) (cs : List WClause), (∀ c ∈ cs, c.OK) →
    EnvInv (cs.map (·.lits)) env → unassigned env (cs.map (·.lits)) < n →
    ∃ b, rupRun n env cs = .ok b ∧ (b = true ↔ Conflict (cs.map (·.lits))) := by
  intro n
  induction n with
  | zero => intro _ _ _ _ h; omega
  | succ n ih =>
    intro env cs hok hi hlt
    obtain ⟨i, cs', h1, h2, h3, h4⟩ := getImplied_spec env cs hok
    cases i with
    | bottom =>
      refine ⟨true, by simp [rupRun, h1], ?_⟩
      obtain ⟨c, hc, ha⟩ := h4
      simp only [true_iff]
      exact ⟨c, hc, fun k hk => hi.false_der (ha k hk)⟩
    | notUnsat =>
      refine ⟨false, by simp [rupRun, h1], ?_⟩
      simp only [Bool.false_eq_true, false_iff]
      exact closed_no_conflict hi h4
    | pivot l =>
      obtain ⟨c, hc, hl, hn, hall⟩ := h4
      have hu : Spec.Unit (cs.map (·.lits)) l := .mk c l hc hl (fun k hk hne => hi.false_der (hall k hk hne))
      have hlt' := unassigned_insert ⟨c, hc, hl⟩ hn
      obtain ⟨b, hb, hbc⟩ := ih (mapInsert (mapInsert env l true) l.neg false) cs' h2 (by rw [h3]; exact hi.insert hn hu)
        (by rw [h3]; omega)
      exact ⟨b, by simp [rupRun, h1, hb], by rw [hbc, h3]⟩

theorem EnvInv.nil (cs : List (List PLit)) : EnvInv cs [] := ⟨by simp [mapGet], by simp [mapGet]⟩

theorem rupClauses_ok {db : List (List PLit)} (hdb : ∀ c ∈ db, c.Nodup) (goal : List Term) :
    ∀ c ∈ rupClauses db goal, c.OK := by
  intro c hc
  simp only [rupClauses, List.mem_append, List.mem_map] at hc
  rcases hc with ⟨t, -, rfl⟩ | ⟨d, hd, rfl⟩
  · exact ⟨by simp, by simp, by simp, by simp, by simp, by simp, by simp⟩
  · have hn := hdb d hd
    match d, hn with
    | [], _ => exact ⟨by simp, by simp, by simp, by simp, by simp, by simp, by simp⟩
    | [a], _ => exact ⟨by simp, by simp, by simp, by simp, by simp, by simp, by simp⟩
    | a :: b :: d, hn =>
      refine ⟨hn, by simp, by simp, ?_, by simp, by simp, by simp⟩
      rintro l hl hl'
      simp at hl hl'
      subst hl; subst hl'
      simp at hn

/-- The clauses a run works on. -/
def rupSet (db : List (List PLit)) (goal : List Term) : List (List PLit) :=
  goal.map (fun t => [PLit.neg t.removeAllNegationsPol]) ++ db

theorem rupClauses_lits (db : List (List PLit)) (goal : List Term) :
    (rupClauses db goal).map (·.lits) = rupSet db goal := by
  simp [rupClauses, rupSet, Function.comp_def]

/-- `rup` never panics and decides whether unit propagation finds a conflict. -/
theorem rup_spec {db : List (List PLit)} (hdb : ∀ c ∈ db, c.Nodup) (goal : List Term) :
    ∃ b, rup db goal = .ok b ∧ (b = true ↔ Conflict (rupSet db goal)) := by
  have := rupRun_spec (((rupClauses db goal).map (·.lits.length)).sum + 1) [] (rupClauses db goal)
    (rupClauses_ok hdb goal) (EnvInv.nil _) (by
      unfold unassigned
      refine Nat.lt_succ_of_le (Nat.le_trans (List.length_filter_le _ _) ?_)
      simp [List.length_flatten, Function.comp_def])
  rw [rupClauses_lits] at this
  exact this

theorem rup_sound {v : Term → Prop} {db : List (List PLit)} (hdb : ∀ c ∈ db, c.Nodup) {goal : List Term}
    (h : rup db goal = .ok true) (hM : ∀ c ∈ db, SatV v c) : SatV v (goal.map Term.removeAllNegationsPol) := by
  obtain ⟨b, h1, h2⟩ := rup_spec hdb goal
  rw [h1, ok_inj] at h
  by_contra hc
  refine Spec.Conflict.sound (v := v) ?_ (h2.1 h)
  intro c hcm
  simp only [rupSet, List.mem_append, List.mem_map] at hcm
  rcases hcm with ⟨t, ht, rfl⟩ | hcm
  · refine ⟨_, List.mem_singleton.2 rfl, ?_⟩
    rw [holdsV_neg]
    exact fun hh => hc ⟨_, List.mem_map_of_mem ht, hh⟩
  · exact hM c hcm

/-! ## RAT -/

/-- Atoms have no leading negation. -/
def AtomsOK (c : List PLit) : Prop := ∀ l ∈ c, l.toTerm.removeAllNegationsPol = l

theorem removeAllNegations_idem (t : Term) : t.removeAllNegations.2.removeAllNegations = (0, t.removeAllNegations.2) := by
  induction t using Term.removeAllNegations.induct with
  | case1 t n u h ih => simpa [Term.removeAllNegations] using ih
  | case2 t h =>
    have : t.removeAllNegations = (0, t) := by
      unfold Term.removeAllNegations; split
      · next u => exact absurd rfl (h u)
      · rfl
    rw [this]; exact this

theorem atomsOK_setOf (ts : List Term) : AtomsOK (setOf (ts.map Term.removeAllNegationsPol)) := by
  intro l hl
  simp only [mem_setOf, List.mem_map] at hl
  obtain ⟨t, -, rfl⟩ := hl
  have hi := removeAllNegations_idem t
  unfold PLit.toTerm Term.removeAllNegationsPol
  generalize t.removeAllNegations = p at *
  obtain ⟨n, u⟩ := p
  simp only at hi ⊢
  by_cases h : n % 2 = 0
  · simp [h, hi]
  · simp [h, Term.removeAllNegations, hi]

/-- Making the literal `l` true. -/
def flip (v : Term → Prop) (l : PLit) : Term → Prop := fun t => if t = l.2 then l.1 = true else v t

theorem flip_self (v : Term → Prop) (l : PLit) : HoldsV (flip v l) l := by
  obtain ⟨b, t⟩ := l
  cases b <;> simp [HoldsV, flip]

theorem flip_of_ne {v : Term → Prop} {l k : PLit} (h : HoldsV v k) (hk : k ≠ l.neg) : HoldsV (flip v l) k := by
  by_cases e : k = l
  · rw [e]; exact flip_self v l
  · obtain ⟨b, t⟩ := l
    obtain ⟨c, u⟩ := k
    have : u ≠ t := by
      rintro rfl
      cases b <;> cases c <;> simp [PLit.neg] at hk e
    simpa [HoldsV, flip, this] using h

theorem checkDrat_go_spec {db : List (List PLit)} (hdb : ∀ c ∈ db, c.Nodup) (rest : List Term) (neg : PLit) :
    ∀ cs : List (List PLit), ∃ b, checkDrat.go db rest neg cs = .ok b ∧
      (b = true ↔ ∀ c ∈ cs, neg ∈ c → Conflict (rupSet db ((setRemove c neg).1.map PLit.toTerm ++ rest))) := by
  intro cs
  induction cs with
  | nil => exact ⟨true, rfl, by simp⟩
  | cons c cs ih =>
    obtain ⟨b, i1, i2⟩ := ih
    by_cases h : neg ∈ c
    · obtain ⟨r, r1, r2⟩ := rup_spec hdb ((setRemove c neg).1.map PLit.toTerm ++ rest)
      cases r with
      | true => exact ⟨b, by simp [checkDrat.go, h, r1, i1], by simp [i2, h, r2.1 rfl]⟩
      | false =>
        refine ⟨false, by simp [checkDrat.go, h, r1], ?_⟩
        simp only [Bool.false_eq_true, false_iff] at r2 ⊢
        exact fun hh => r2 (hh c (by simp) h)
    · exact ⟨b, by simp [checkDrat.go, h, i1], by simp [i2, h]⟩

theorem checkDrat_sat {v : Term → Prop} {db : List (List PLit)} (hdb : ∀ c ∈ db, c.Nodup)
    (hat : ∀ c ∈ db, AtomsOK c) {goal : List Term} (h : checkDrat db goal = .ok true) (hM : ∀ c ∈ db, SatV v c) :
    ∃ v', (∀ c ∈ db, SatV v' c) ∧ SatV v' (goal.map Term.removeAllNegationsPol) := by
  by_cases hg : SatV v (goal.map Term.removeAllNegationsPol)
  · exact ⟨v, hM, hg⟩
  match goal, h, hg with
  | pivot :: rest, h, hg =>
    simp only [checkDrat] at h
    obtain ⟨b, h1, h2⟩ := checkDrat_go_spec hdb rest (PLit.neg pivot.removeAllNegationsPol) db
    rw [h1, ok_inj] at h
    have h3 := h2.1 h
    refine ⟨flip v pivot.removeAllNegationsPol, fun c hc => ?_, ⟨_, by simp, flip_self _ _⟩⟩
    by_cases hn : PLit.neg pivot.removeAllNegationsPol ∈ c
    · have hr : rup db ((setRemove c (PLit.neg pivot.removeAllNegationsPol)).1.map PLit.toTerm ++ rest) = .ok true := by
        obtain ⟨b, r1, r2⟩ := rup_spec hdb
          ((setRemove c (PLit.neg pivot.removeAllNegationsPol)).1.map PLit.toTerm ++ rest)
        rw [r1, r2.2 (h3 c hc hn)]
      obtain ⟨k, hk, hkt⟩ := rup_sound hdb hr hM
      simp only [List.map_append, List.map_map, List.mem_append, List.mem_map, Function.comp_apply] at hk
      rcases hk with ⟨l, hl, rfl⟩ | ⟨t, ht, rfl⟩
      · rw [mem_setRemove (hdb c hc)] at hl
        rw [hat c hc l hl.1] at hkt
        exact ⟨l, hl.1, flip_of_ne hkt hl.2⟩
      · exact absurd ⟨_, by simp; exact Or.inr ⟨t, ht, rfl⟩, hkt⟩ hg
    · obtain ⟨k, hk, hkt⟩ := hM c hc
      exact ⟨k, hk, flip_of_ne hkt (by rintro rfl; exact hn hk)⟩

/-! ## The loop -/

theorem swapRemoveIdx_mem {γ : Type} {s : List γ} {i : Nat} (h : i < s.length) {x : γ}
    (hx : x ∈ swapRemoveIdx s i) : x ∈ s :=
  List.mem_of_mem_eraseIdx ((swapRemoveIdx_perm s i h).mem_iff.1 hx)

theorem mem_mapRemove {α β : Type} [DecidableEq α] {m : List (α × β)} {a : α} {x : α × β} (hx : x ∈ mapRemove m a) : x ∈ m := by
  unfold mapRemove at hx
  split at hx
  · next h =>
    refine swapRemoveIdx_mem ?_ hx
    have := List.idxOf_lt_length_iff.2 h
    simpa using this
  · exact hx

theorem mem_mapInsert {α β : Type} [DecidableEq α] {m : List (α × β)} {a : α} {b : β} {x : α × β}
    (hx : x ∈ mapInsert m a b) : x ∈ m ∨ x = (a, b) := by
  induction m with
  | nil => simpa [mapInsert] using hx
  | cons p m ih =>
    simp only [mapInsert] at hx
    split at hx
    · next e =>
      rcases List.mem_cons.1 hx with rfl | h
      · exact Or.inr (by rw [e])
      · exact Or.inl (by simp [h])
    · rcases List.mem_cons.1 hx with rfl | h
      · exact Or.inl (by simp)
      · rcases ih h with h | h
        · exact Or.inl (by simp [h])
        · exact Or.inr h

/-- Every stored clause comes from one of the terms `ts`. -/
def DbOK (hash : Term → Nat) (ts : List Term) (db : List (Nat × List PLit)) : Prop :=
  ∀ x ∈ db, ∃ t ∈ ts, x = (hashTerm hash t, drupClause t)

theorem drupClause_nodup (t : Term) : (drupClause t).Nodup := by
  unfold drupClause; split <;> exact nodup_setOf _

theorem drupClause_atoms (t : Term) : AtomsOK (drupClause t) := by
  unfold drupClause
  split
  · exact atomsOK_setOf _
  · exact atomsOK_setOf [_]

theorem DbOK.nodup {hash ts db} (h : DbOK hash ts db) : ∀ x ∈ db, x.2.Nodup := by
  intro x hx
  obtain ⟨t, -, rfl⟩ := h x hx
  exact drupClause_nodup t

theorem DbOK.atoms {hash ts db} (h : DbOK hash ts db) : ∀ x ∈ db, AtomsOK x.2 := by
  intro x hx
  obtain ⟨t, -, rfl⟩ := h x hx
  exact drupClause_atoms t

theorem DbOK.insert {hash ts db} (h : DbOK hash ts db) {t : Term} (ht : t ∈ ts) :
    DbOK hash ts (mapInsert db (hashTerm hash t) (drupClause t)) := by
  intro x hx
  rcases mem_mapInsert hx with hx | rfl
  · exact h x hx
  · exact ⟨t, ht, rfl⟩

theorem DbOK.remove {hash ts db} (h : DbOK hash ts db) (k : Nat) : DbOK hash ts (mapRemove db k) :=
  fun x hx => h x (mem_mapRemove hx)

/-- The database of the premises. -/
def premiseDb (hash : Term → Nat) (ps : List Term) : List (Nat × List PLit) :=
  ps.foldl (fun m p => mapInsert m (hashTerm hash p) (drupClause p)) []

theorem premiseDb_ok (hash : Term → Nat) (ps : List Term) : DbOK hash ps (premiseDb hash ps) := by
  have : ∀ (qs : List Term) (m : List (Nat × List PLit)), (∀ q ∈ qs, q ∈ ps) → DbOK hash ps m →
      DbOK hash ps (qs.foldl (fun m p => mapInsert m (hashTerm hash p) (drupClause p)) m) := by
    intro qs
    induction qs with
    | nil => intro m _ h; exact h
    | cons q qs ih =>
      intro m hq h
      exact ih _ (fun q' hq' => hq q' (by simp [hq'])) (h.insert (hq q (by simp)))
  exact this ps [] (fun _ h => h) (by simp [DbOK])

/-- Forms of an argument that do not make the checker panic. -/
def drupArgOK : Term → Prop
  | .op .delete [.op .cl terms] => terms ≠ []
  | .op .cl _ => True
  | _ => False

section
variable {hash : Term → Nat} {order : Nat → List (Nat × List PLit) → List (Nat × List PLit)}

/-- A property of databases kept by the loop. -/
theorem drupLoop_inv {rat : Bool} {ts : List Term}
    (P : List (Nat × List PLit) → Prop)
    (hdel : ∀ db k, P db → P (mapRemove db k))
    (hadd : ∀ i db terms, DbOK hash ts db → .op .cl terms ∈ ts → P db →
      (rup ((order i db).map (·.2)) terms = .ok true ∨
        (rat = true ∧ checkDrat ((order i db).map (·.2)) terms = .ok true)) →
      P (mapInsert db (hashTerm hash (.op .cl terms)) (drupClause (.op .cl terms)))) :
    ∀ (args : List Term) (i : Nat) (db db' : List (Nat × List PLit)), (∀ a ∈ args, a ∈ ts) → DbOK hash ts db →
      P db → drupLoop hash order rat i db args = .ok db' → DbOK hash ts db' ∧ P db' := by
  intro args
  induction args with
  | nil => intro i db db' _ hd hP h; simp only [drupLoop, ok_inj] at h; subst h; exact ⟨hd, hP⟩
  | cons t args ih =>
    intro i db db' ha hd hP h
    have ha' : ∀ a ∈ args, a ∈ ts := fun a h => ha a (by simp [h])
    simp only [drupLoop] at h
    split at h
    · split at h
      · simp at h
      · exact ih _ _ _ ha' (hd.remove _) (hdel _ _ hP) h
    · next terms =>
      simp only [bind_ok, require_ok] at h
      obtain ⟨r, hr, r', hr', -, rfl, h⟩ := h
      have htm : .op .cl terms ∈ ts := ha _ (by simp)
      refine ih _ _ _ ha' (hd.insert htm) (hadd i db terms hd htm hP ?_) h
      split at hr'
      · next hc => exact Or.inr ⟨hc.2.2, hr'⟩
      · simp at hr'; subst hr'; exact Or.inl hr
    · simp at h

theorem mem_of_mapGet_isSome {α β : Type} [DecidableEq α] {m : List (α × β)} {a : α} (h : (mapGet m a).isSome) :
    ∃ b, (a, b) ∈ m := by
  rw [mapGet_isSome] at h
  obtain ⟨⟨k, b⟩, hm, rfl⟩ := List.mem_map.1 h
  exact ⟨b, hm⟩

end

end Carcara
