import Verif.Lemmas.AciLaw
import Verif.Lemmas.Drup

/-!
# Soundness of `aci_simp` for the idempotent operators
-/

namespace Carcara

/-- Sorted terms, and applications of idempotent operators to such terms, which need not have a sort. -/
inductive Nearly : Term → Prop
  | sorted {t : Term} {s : Srt} (h : sortOf t = some s) : Nearly t
  | idem {o : Op} {b : Bool} (h : o.idem = some b) {as : List Term} (ha : ∀ a ∈ as, Nearly a) : Nearly (.op o as)

theorem Nearly.args {o : Op} {b : Bool} (h : o.idem = some b) {t : Term} (ht : Nearly t) :
    ∀ a ∈ argsOrSelf o t, Nearly a := by
  unfold argsOrSelf
  split
  · next o' as =>
    split
    · next e =>
      subst e
      cases ht with
      | sorted hs => exact fun a ha => .sorted ((Model.idem_sorts h hs).2.1 a ha)
      | idem _ ha => exact ha
    · simpa using ht
  · simpa using ht

theorem Nearly.build {o : Op} {b : Bool} (h : o.idem = some b) {e : Option Term} {as : List Term}
    (ha : ∀ a ∈ as, Nearly a) : Nearly (aciBuild o e as) := by
  have hm : ∀ a ∈ (dedup as).filter (fun t => some t ≠ e), Nearly a := fun a hm =>
    ha a (mem_dedup.1 (List.mem_filter.1 hm).1)
  unfold aciBuild
  split
  · next a e => exact hm a (by rw [e]; simp)
  · exact .idem h hm

/-- All results in the cache are such terms. -/
def NearlyCache (cache : AciCache) : Prop := ∀ p ∈ cache, Nearly p.2

theorem NearlyCache.insert {cache : AciCache} (h : NearlyCache cache) {t u : Term} (hu : Nearly u) :
    NearlyCache (mapInsert cache t u) := fun p hp => by
  rcases mem_mapInsert hp with hp | rfl
  · exact h p hp
  · exact hu

mutual
theorem aciTerm_nearly {o : Op} {b : Bool} (h : o.idem = some b) {e : Option Term} :
    ∀ (t : Term) (cache : AciCache), NearlyCache cache → Nearly t →
      NearlyCache (aciTerm o e cache t).1 ∧ Nearly (aciTerm o e cache t).2
  | t, cache, hc, ht => by
    unfold aciTerm
    cases hg : mapGet cache t with
    | some u => exact ⟨hc, hc (t, u) (mem_of_mapGet hg)⟩
    | none =>
      match t with
      | .op o' as =>
        by_cases ho : o' = o
        · subst ho
          have ha := ht.args h
          simp only [argsOrSelf, if_true] at ha
          obtain ⟨h1, h2⟩ := aciTermL_nearly h as cache hc ha
          simp only [if_true]
          exact ⟨h1.insert (.build h h2), .build h h2⟩
        · simp only [if_neg ho]
          exact ⟨hc.insert ht, ht⟩
      | .const _ | .var _ _ | .app _ _ | .paramOp _ _ _ | .binder _ _ _ | .let_ _ _ =>
        exact ⟨hc.insert ht, ht⟩
theorem aciTermL_nearly {o : Op} {b : Bool} (h : o.idem = some b) {e : Option Term} :
    ∀ (ts : List Term) (cache : AciCache), NearlyCache cache → (∀ t ∈ ts, Nearly t) →
      NearlyCache (aciTermL o e cache ts).1 ∧ ∀ t ∈ (aciTermL o e cache ts).2, Nearly t
  | [], cache, hc, _ => ⟨hc, by simp [aciTermL]⟩
  | t :: ts, cache, hc, ht => by
    obtain ⟨h1, h2⟩ := aciTerm_nearly h t cache hc (ht t (by simp))
    obtain ⟨h3, h4⟩ := aciTermL_nearly h ts _ h1 fun u hu => ht u (by simp [hu])
    refine ⟨h3, ?_⟩
    simp only [aciTermL]
    intro u hu
    rcases List.mem_append.1 hu with hu | hu
    · exact h2.args h u hu
    · exact h4 u hu
end

theorem aciSide_nearly {t : Term} {s : Srt} (hs : sortOf t = some s) (ht : Model.IdemTop t) {cache : AciCache}
    (hc : NearlyCache cache) {r : AciCache × Term} (h : aciSide cache t = .ok r) : NearlyCache r.1 ∧ Nearly r.2 := by
  match t with
  | .op o as =>
    simp only [aciSide, bind_ok, pure_ok] at h
    obtain ⟨e, he, h⟩ := h
    by_cases ha : aciAssoc o = true
    · rw [if_pos ha] at h
      subst h
      obtain ⟨b, hb⟩ := Option.isSome_iff_exists.1 (ht ha)
      exact aciTerm_nearly hb _ _ hc (.sorted hs)
    · rw [if_neg ha] at h
      subst h
      exact ⟨hc, .sorted hs⟩
  | .const _ | .var _ _ | .app _ _ | .paramOp _ _ _ | .binder _ _ _ | .let_ _ _ =>
    simp only [aciSide, pure_ok] at h
    subst h
    exact ⟨hc, .sorted hs⟩

/-- Soundness if the operators at the top are idempotent. -/
theorem aciSimp_idem {l r : Term} {s : Srt} (hl : sortOf l = some s) (hr : sortOf r = some s)
    (tl : Model.IdemTop l) (tr : Model.IdemTop r) (hs : s = .bool ∨ ∃ w, s = .bv w) {c1 c2 : AciCache} {l' r' : Term}
    (h1 : aciSide [] l = .ok (c1, l')) (h2 : aciSide c1 r = .ok (c2, r')) (h3 : aciCompare l' r' = .ok ())
    (M : Model) : M.val l = M.val r := by
  refine M.val_eq_of_bits hl hr hs fun i hi => ?_
  obtain ⟨b1, b2⟩ := M.aciSide_bit hl tl hi (cache := []) (by simp [Model.BitCache]) h1
  obtain ⟨-, b3⟩ := M.aciSide_bit hr tr hi b1 h2
  obtain ⟨n1, n2⟩ := aciSide_nearly hl tl (cache := []) (by simp [NearlyCache]) h1
  obtain ⟨-, n3⟩ := aciSide_nearly hr tr n1 h2
  rw [← M.bitAt_sorted i l hl, ← M.bitAt_sorted i r hr, ← b2, ← b3]
  rcases aciCompare_ok h3 with e | ⟨o, as, bs, ha, hc, e, e', hp⟩
  · rw [show l' = r' from e]
  · subst e e'
    cases ho : o.idem with
    | some b => rw [M.bitAt_op ho, M.bitAt_op ho]; exact Model.quant_perm hp
    | none =>
      cases n2 with
      | idem h => rw [ho] at h; cases h
      | sorted h =>
        simp only [Model.bitAt, ho]
        rw [aci_perm_val M ha hc h hp]

end Carcara
