import Verif.Lemmas.Resolution
import Verif.Lemmas.Drup

/-! # The loop of `rup_resolution` decides whether unit propagation finds a conflict -/

namespace Carcara

open Spec

theorem PLit.neg_eq_iff {k l : PLit} : k.neg = l ↔ k = l.neg := by
  obtain ⟨b, t⟩ := k
  obtain ⟨c, u⟩ := l
  cases b <;> cases c <;> simp [PLit.neg]

/-- The clauses after a literal was found. -/
def propagate (cs : List (List PLit)) (l : PLit) : List (List PLit) :=
  (cs.filter (fun c => l ∉ c)).map fun c => (setRemove c l.neg).1

theorem mem_propagate {cs : List (List PLit)} {l : PLit} {c : List PLit} :
    c ∈ propagate cs l ↔ ∃ d ∈ cs, l ∉ d ∧ (setRemove d l.neg).1 = c := by
  simp [propagate, and_assoc]

theorem propagate_unit {cs : List (List PLit)} {l : PLit} (hn : ∀ c ∈ cs, c.Nodup) (hl : [l] ∈ cs) {k : PLit} (h : Unit (propagate cs l) k) :
    Unit cs k := by
  have ul : Unit cs l := .mk [l] l hl (by simp) fun k hk hne => absurd (List.mem_singleton.1 hk) hne
  induction h with
  | mk c k hc hk _ ih =>
    obtain ⟨d, hd, hld, rfl⟩ := mem_propagate.1 hc
    rw [mem_setRemove (hn d hd)] at hk
    refine .mk d k hd hk.1 fun j hj hne => ?_
    by_cases hjl : j = l.neg
    · rw [hjl, PLit.neg_neg]; exact ul
    · exact ih j ((mem_setRemove (hn d hd)).2 ⟨hj, hjl⟩) hne

theorem unit_propagate {cs : List (List PLit)} {l : PLit} (hn : ∀ c ∈ cs, c.Nodup) {k : PLit} (h : Unit cs k) :
    Conflict (propagate cs l) ∨ k = l ∨ Unit (propagate cs l) k := by
  have off : ∀ k, Unit (propagate cs l) k → k ≠ l.neg := by
    rintro k ⟨c, _, hc, hk, _⟩ rfl
    obtain ⟨d, hd, _, rfl⟩ := mem_propagate.1 hc
    exact ((mem_setRemove (hn d hd)).1 hk).2 rfl
  induction h with
  | mk c k hc hk _ ih =>
    by_cases hconf : Conflict (propagate cs l)
    · exact .inl hconf
    right
    have ih' : ∀ j ∈ c, j ≠ k → j.neg = l ∨ Unit (propagate cs l) j.neg := fun j hj hne => (ih j hj hne).resolve_left hconf
    by_cases hlc : l ∈ c
    · by_cases hkl : l = k
      · exact .inl hkl.symm
      · rcases ih' l hlc hkl with h | h
        · exact absurd h (PLit.neg_ne l)
        · exact absurd rfl (off _ h)
    · right
      have hmem : (setRemove c l.neg).1 ∈ propagate cs l := mem_propagate.2 ⟨c, hc, hlc, rfl⟩
      have hother : ∀ j ∈ (setRemove c l.neg).1, j ≠ k → Unit (propagate cs l) j.neg := by
        intro j hj hne
        rw [mem_setRemove (hn c hc)] at hj
        rcases ih' j hj.1 hne with h | h
        · exact absurd (PLit.neg_eq_iff.1 h) hj.2
        · exact h
      by_cases hkl : k = l.neg
      · exfalso
        refine hconf ⟨_, hmem, fun j hj => hother j hj ?_⟩
        rintro rfl
        exact ((mem_setRemove (hn c hc)).1 hj).2 hkl
      · exact .mk _ k hmem ((mem_setRemove (hn c hc)).2 ⟨hk, hkl⟩) hother

theorem conflict_propagate {cs : List (List PLit)} {l : PLit} (hn : ∀ c ∈ cs, c.Nodup) (hl : [l] ∈ cs) :
    Conflict (propagate cs l) ↔ Conflict cs := by
  constructor
  · rintro ⟨c, hc, hall⟩
    obtain ⟨d, hd, hld, rfl⟩ := mem_propagate.1 hc
    refine ⟨d, hd, fun k hk => ?_⟩
    by_cases hkl : k = l.neg
    · rw [hkl, PLit.neg_neg]
      exact .mk [l] l hl (by simp) fun k hk hne => absurd (List.mem_singleton.1 hk) hne
    · exact propagate_unit hn hl (hall k ((mem_setRemove (hn d hd)).2 ⟨hk, hkl⟩))
  · rintro ⟨c, hc, hall⟩
    by_contra hconf
    have h : ∀ k ∈ c, k.neg = l ∨ Unit (propagate cs l) k.neg := fun k hk => (unit_propagate hn (hall k hk)).resolve_left hconf
    have hlc : l ∉ c := by
      intro hlc
      rcases h l hlc with h | h
      · exact PLit.neg_ne l h
      · obtain ⟨d', _, hd', hk, _⟩ := h
        obtain ⟨d, hd, _, rfl⟩ := mem_propagate.1 hd'
        exact ((mem_setRemove (hn d hd)).1 hk).2 rfl
    refine hconf ⟨_, mem_propagate.2 ⟨c, hc, hlc, rfl⟩, fun k hk => ?_⟩
    rw [mem_setRemove (hn c hc)] at hk
    rcases h k hk.1 with h | h
    · exact absurd (PLit.neg_eq_iff.1 h) hk.2
    · exact h

theorem minByLen_le : ∀ {cs : List (List PLit)} {c : List PLit}, minByLen cs = some c → ∀ d ∈ cs, c.length ≤ d.length
  | [], c, h => by simp [minByLen] at h
  | a :: cs, c, h => by
    intro d hd
    rw [minByLen] at h
    split at h
    · next hm =>
      cases h
      cases cs with
      | nil => simp at hd; rw [hd]
      | cons b cs =>
        rw [minByLen] at hm
        split at hm
        · simp at hm
        · split at hm <;> simp at hm
    · next e hm =>
      have := minByLen_le hm
      split at h
      · cases h
        rcases List.mem_cons.1 hd with rfl | hd
        · omega
        · exact this d hd
      · cases h
        rcases List.mem_cons.1 hd with rfl | hd
        · exact Nat.le_refl _
        · have := this d hd; omega

theorem no_unit {cs : List (List PLit)} (hn : ∀ c ∈ cs, c.Nodup) (h2 : ∀ c ∈ cs, 2 ≤ c.length) {k : PLit} : ¬ Unit cs k := by
  intro h
  induction h with
  | mk c k hc hk _ ih =>
    obtain ⟨j, hj, hne⟩ : ∃ j ∈ c, j ≠ k := by
      by_contra hcon
      push Not at hcon
      match c, h2 c hc, hn c hc, hcon with
      | a :: b :: _, _, hnd, hcon =>
        rw [List.nodup_cons] at hnd
        exact hnd.1 (by rw [hcon a (by simp), ← hcon b (by simp)]; simp)
    exact ih j hj hne

theorem rupLoop_exact : ∀ (n : Nat) (cs : List (List PLit)), cs.length < n → (∀ c ∈ cs, c.Nodup) → (rupLoop n cs = true ↔ Conflict cs) := by
  intro n
  induction n with
  | zero => intro cs h; omega
  | succ n ih =>
    intro cs h hn
    rw [rupLoop]
    split
    · next hm =>
      cases cs with
      | nil => simp [Conflict]
      | cons a cs =>
        rw [minByLen] at hm
        split at hm
        · simp at hm
        · split at hm <;> simp at hm
    · next hm =>
      simp only [true_iff]
      exact ⟨[], minByLen_mem hm, by simp⟩
    · next l hm =>
      rw [← conflict_propagate hn (minByLen_mem hm)]
      refine ih _ ?_ ?_
      · simp only [List.length_map]
        have : (cs.filter (fun c => l ∉ c)).length < cs.length := by
          rw [List.length_filter_lt_length_iff_exists]
          exact ⟨[l], minByLen_mem hm, by simp⟩
        omega
      · intro c hc
        obtain ⟨d, hd, _, rfl⟩ := mem_propagate.1 hc
        exact nodup_setRemove (hn d hd)
    · next c h0 h1 hm =>
      simp only [Bool.false_eq_true, false_iff]
      have h2 : ∀ d ∈ cs, 2 ≤ d.length := by
        intro d hd
        refine Nat.le_trans ?_ (minByLen_le hm d hd)
        match c, h0, h1 with
        | [], h0, _ => exact absurd rfl h0
        | [l], _, h1 => exact absurd rfl (h1 l)
        | _ :: _ :: _, _, _ => simp
      rintro ⟨d, hd, hall⟩
      match d, h2 d hd, hall with
      | a :: _, _, hall => exact no_unit hn h2 (hall a (by simp))

/-- Only the literals of the clauses count, not their order or number. -/
theorem Spec.Unit.congr {cs ds : List (List PLit)} (h : ∀ c ∈ cs, ∃ d ∈ ds, ∀ k, k ∈ d ↔ k ∈ c) {k : PLit} (hu : Unit cs k) : Unit ds k := by
  induction hu with
  | mk c k hc hk _ ih =>
    obtain ⟨d, hd, e⟩ := h c hc
    exact .mk d k hd ((e k).2 hk) fun j hj hne => ih j ((e j).1 hj) hne

theorem Spec.Conflict.congr {cs ds : List (List PLit)} (h : ∀ c ∈ cs, ∃ d ∈ ds, ∀ k, k ∈ d ↔ k ∈ c) (hu : Conflict cs) : Conflict ds := by
  obtain ⟨c, hc, hall⟩ := hu
  obtain ⟨d, hd, e⟩ := h c hc
  exact ⟨d, hd, fun k hk => (hall k ((e k).1 hk)).congr h⟩

/-- What `rup_resolution` decides. -/
theorem rupResolution_exact (conclusion : List Term) (premises : List (List Term)) : rupResolution conclusion premises = true ↔
    Conflict (premises.map (fun p => p.map Term.removeAllNegationsPol) ++ conclusion.map fun t => [PLit.neg t.removeAllNegationsPol]) := by
  unfold rupResolution
  rw [rupLoop_exact _ _ (Nat.lt_succ_self _)]
  · constructor
    · refine Conflict.congr fun c hc => ?_
      rcases List.mem_append.1 hc with hc | hc
      · obtain ⟨p, hp, rfl⟩ := List.mem_map.1 hc
        exact ⟨_, List.mem_append_left _ (List.mem_map_of_mem hp), fun k => by rw [mem_setOf]⟩
      · exact ⟨c, List.mem_append_right _ hc, fun _ => Iff.rfl⟩
    · refine Conflict.congr fun c hc => ?_
      rcases List.mem_append.1 hc with hc | hc
      · obtain ⟨p, hp, rfl⟩ := List.mem_map.1 hc
        exact ⟨_, List.mem_append_left _ (List.mem_map_of_mem hp), fun k => by rw [mem_setOf]⟩
      · exact ⟨c, List.mem_append_right _ hc, fun _ => Iff.rfl⟩
  · intro c hc
    rcases List.mem_append.1 hc with hc | hc
    · obtain ⟨p, hp, rfl⟩ := List.mem_map.1 hc
      exact nodup_setOf _
    · obtain ⟨t, _, rfl⟩ := List.mem_map.1 hc
      simp

end Carcara
