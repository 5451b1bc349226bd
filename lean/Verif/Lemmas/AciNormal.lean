import Verif.Lemmas.AciSound
import Verif.Spec.AciSimp

/-!
# What `aci_simp` computes

With a cache that only one operator has used, `apply_aci_simp` returns the application of the operator to the distinct
operands that are not the neutral element.
-/

namespace Carcara

/-! ## Removal of duplicates -/

section
variable {κ : Type} [DecidableEq κ]

theorem dedupFrom_filter (seen l : List κ) : dedupFrom seen l = (dedup l).filter (fun a => a ∉ seen) := by
  have congr : ∀ (l s s' : List κ), (∀ a, a ∈ s ↔ a ∈ s') → dedupFrom s l = dedupFrom s' l := by
    intro l
    induction l with
    | nil => intros; rfl
    | cons a l ih =>
      intro s s' h
      simp only [dedupFrom]
      by_cases ha : a ∈ s
      · rw [if_pos ha, if_pos ((h a).1 ha), ih s s' h]
      · rw [if_neg ha, if_neg fun c => ha ((h a).2 c)]
        rw [ih (setInsert s a) (setInsert s' a)]
        intro b
        simp [mem_setInsert, h]
  induction l generalizing seen with
  | nil => rfl
  | cons a l ih =>
    have e : dedup (a :: l) = a :: (dedup l).filter (fun b => b ∉ [a]) := by
      unfold dedup
      simp only [dedupFrom, List.not_mem_nil, if_false]
      rw [ih]
      refine congrArg _ (List.filter_congr fun b _ => ?_)
      simp [mem_setInsert]
    rw [e]
    simp only [dedupFrom]
    by_cases ha : a ∈ seen
    · rw [if_pos ha, ih, List.filter_cons_of_neg (by simpa using ha), List.filter_filter]
      refine List.filter_congr fun b _ => ?_
      by_cases hb : b = a
      · subst hb; simp [ha]
      · simp [hb]
    · rw [if_neg ha, ih, List.filter_cons_of_pos (by simpa using ha), List.filter_filter]
      refine congrArg _ (List.filter_congr fun b _ => ?_)
      by_cases hb : b = a
      · subst hb; simp [mem_setInsert]
      · simp [mem_setInsert, hb]

theorem dedup_cons (a : κ) (l : List κ) : dedup (a :: l) = a :: (dedup l).filter (fun b => b ≠ a) := by
  unfold dedup
  simp only [dedupFrom, List.not_mem_nil, if_false]
  rw [dedupFrom_filter]
  refine congrArg _ (List.filter_congr fun b _ => ?_)
  simp [mem_setInsert]

theorem dedup_append (l l' : List κ) : dedup (l ++ l') = dedup l ++ (dedup l').filter (fun a => a ∉ l) := by
  induction l with
  | nil => simp [dedup, dedupFrom]
  | cons a l ih =>
    rw [List.cons_append, dedup_cons, dedup_cons, ih, List.filter_append, List.filter_filter, List.cons_append]
    refine congrArg _ (congrArg _ (List.filter_congr fun b _ => ?_))
    simp

theorem dedup_filter (p : κ → Bool) (l : List κ) : dedup (l.filter p) = (dedup l).filter p := by
  induction l with
  | nil => rfl
  | cons a l ih =>
    by_cases ha : p a = true
    · rw [List.filter_cons_of_pos ha, dedup_cons, dedup_cons, List.filter_cons_of_pos ha, ih, List.filter_filter,
        List.filter_filter]
      exact congrArg _ (List.filter_congr fun b _ => Bool.and_comm _ _)
    · rw [List.filter_cons_of_neg ha, dedup_cons, List.filter_cons_of_neg ha, ih, List.filter_filter]
      refine List.filter_congr fun b _ => ?_
      by_cases hb : b = a
      · subst hb; simp [ha]
      · simp [hb]

theorem dedup_of_nodup {l : List κ} (h : l.Nodup) : dedup l = l := by
  induction l with
  | nil => rfl
  | cons a l ih =>
    rw [List.nodup_cons] at h
    rw [dedup_cons, ih h.2, List.filter_eq_self.2]
    intro b hb
    simp only [decide_eq_true_eq]
    rintro rfl
    exact h.1 hb

theorem dedup_is_nodup (l : List κ) : (dedup l).Nodup := by
  induction l with
  | nil => exact List.nodup_nil
  | cons a l ih =>
    rw [dedup_cons, List.nodup_cons]
    exact ⟨by simp, ih.filter _⟩

theorem dedup_dedup (l : List κ) : dedup (dedup l) = dedup l := dedup_of_nodup (dedup_is_nodup l)

theorem dedup_append_congr {a a' b b' : List κ} (ha : dedup a = dedup a') (hb : dedup b = dedup b') :
    dedup (a ++ b) = dedup (a' ++ b') := by
  rw [dedup_append, dedup_append, ha, hb]
  refine congrArg _ (List.filter_congr fun c _ => ?_)
  have : c ∈ a ↔ c ∈ a' := by rw [← mem_dedup, ha, mem_dedup]
  simp [this]

end

/-! ## The normal form -/

/-- The operands that `apply_aci_simp` keeps. -/
def kept (e : Option Term) (l : List Term) : List Term := dedup (l.filter fun t => some t ≠ e)

theorem aciBuild_eq (o : Op) (e : Option Term) (l : List Term) :
    aciBuild o e l = match kept e l with | [a] => a | as => .op o as := by
  unfold aciBuild kept
  rw [dedup_filter]
  rfl

theorem kept_append {e : Option Term} {a a' b b' : List Term} (ha : kept e a = kept e a') (hb : kept e b = kept e b') :
    kept e (a ++ b) = kept e (a' ++ b') := by
  unfold kept at *
  rw [List.filter_append, List.filter_append]
  exact dedup_append_congr ha hb

theorem kept_kept (e : Option Term) (l : List Term) : kept e (kept e l) = kept e l := by
  unfold kept
  rw [dedup_filter, dedup_dedup, ← dedup_filter, List.filter_filter]
  exact congrArg _ (List.filter_congr fun b _ => by simp)

mutual
theorem operands_no {o : Op} : ∀ (t : Term) {u : Term}, u ∈ operands o t → ∀ as, u ≠ .op o as
  | .op o' as, u, h => by
    rw [operands] at h
    split at h
    · exact operandsL_no as h
    · next hne =>
      rw [List.mem_singleton] at h
      rintro bs rfl
      cases h
      exact hne rfl
  | .const _, u, h | .var _ _, u, h | .app _ _, u, h | .paramOp _ _ _, u, h | .binder _ _ _, u, h
  | .let_ _ _, u, h => by
    rw [operands] at h
    · rw [List.mem_singleton] at h
      subst h
      intro as h
      cases h
    · intro _ _ h; cases h
theorem operandsL_no {o : Op} : ∀ (ts : List Term) {u : Term}, u ∈ operandsL o ts → ∀ as, u ≠ .op o as
  | [], u, h => by simp [operandsL] at h
  | t :: ts, u, h => by
    rw [operandsL] at h
    rcases List.mem_append.1 h with h | h
    · exact operands_no t h
    · exact operandsL_no ts h
end

/-- The result of `apply_aci_simp`. -/
def aciNormal (o : Op) (e : Option Term) : Term → Term
  | .op o' as => if o' = o then aciBuild o e (operandsL o as) else .op o' as
  | t => t

theorem argsOrSelf_no {o : Op} {t : Term} (h : ∀ as, t ≠ .op o as) : argsOrSelf o t = [t] := by
  unfold argsOrSelf
  split
  · next o' as =>
    split
    · next e => subst e; exact absurd rfl (h as)
    · rfl
  · rfl

theorem operands_no_eq {o : Op} {t : Term} (h : ∀ as, t ≠ .op o as) : operands o t = [t] := by
  match t with
  | .op o' as =>
    rw [operands, if_neg]
    rintro rfl
    exact h as rfl
  | .const _ | .var _ _ | .app _ _ | .paramOp _ _ _ | .binder _ _ _ | .let_ _ _ => rfl

theorem operands_op (o : Op) (as : List Term) : operands o (.op o as) = operandsL o as := by
  rw [operands, if_pos rfl]

theorem argsOrSelf_build {o : Op} {e : Option Term} {l : List Term} (h : ∀ u ∈ l, ∀ as, u ≠ .op o as) :
    argsOrSelf o (aciBuild o e l) = kept e l := by
  rw [aciBuild_eq]
  split
  · next a ha =>
    rw [ha]
    refine argsOrSelf_no (h a ?_)
    have : a ∈ kept e l := by rw [ha]; simp
    exact (List.mem_filter.1 (mem_dedup.1 this)).1
  · simp [argsOrSelf]

theorem kept_normal (o : Op) (e : Option Term) (t : Term) :
    kept e (argsOrSelf o (aciNormal o e t)) = kept e (operands o t) := by
  by_cases h : ∃ as, t = .op o as
  · obtain ⟨as, rfl⟩ := h
    rw [aciNormal, if_pos rfl, argsOrSelf_build fun u hu => operandsL_no as hu, kept_kept, operands_op]
  · have h : ∀ as, t ≠ .op o as := fun as e => h ⟨as, e⟩
    rw [operands_no_eq h]
    have : aciNormal o e t = t := by
      match t with
      | .op o' as =>
        rw [aciNormal, if_neg]
        rintro rfl
        exact h as rfl
      | .const _ | .var _ _ | .app _ _ | .paramOp _ _ _ | .binder _ _ _ | .let_ _ _ => rfl
    rw [this, argsOrSelf_no h]

/-- All entries of the cache are normal forms with respect to this operator. -/
def NormalCache (o : Op) (e : Option Term) (cache : AciCache) : Prop := ∀ p ∈ cache, p.2 = aciNormal o e p.1

theorem NormalCache.insert {o : Op} {e : Option Term} {cache : AciCache} (h : NormalCache o e cache) {t u : Term}
    (hu : u = aciNormal o e t) : NormalCache o e (mapInsert cache t u) := fun p hp => by
  rcases mem_mapInsert hp with hp | rfl
  · exact h p hp
  · exact hu

theorem aciBuild_congr {o : Op} {e : Option Term} {l l' : List Term} (h : kept e l = kept e l') :
    aciBuild o e l = aciBuild o e l' := by
  rw [aciBuild_eq, aciBuild_eq, h]

mutual
theorem aciTerm_normal {o : Op} {e : Option Term} : ∀ (t : Term) (cache : AciCache), NormalCache o e cache →
    NormalCache o e (aciTerm o e cache t).1 ∧ (aciTerm o e cache t).2 = aciNormal o e t
  | t, cache, hc => by
    unfold aciTerm
    cases hg : mapGet cache t with
    | some u => exact ⟨hc, hc (t, u) (mem_of_mapGet hg)⟩
    | none =>
      match t with
      | .op o' as =>
        by_cases ho : o' = o
        · subst ho
          obtain ⟨h1, h2⟩ := aciTermL_normal as cache hc
          simp only [if_true]
          have h3 : aciBuild o' e (aciTermL o' e cache as).2 = aciNormal o' e (.op o' as) := by
            rw [aciNormal, if_pos rfl]
            exact aciBuild_congr h2
          exact ⟨h1.insert h3, h3⟩
        · simp only [if_neg ho]
          have : Term.op o' as = aciNormal o e (.op o' as) := by rw [aciNormal, if_neg ho]
          exact ⟨hc.insert this, this⟩
      | .const _ | .var _ _ | .app _ _ | .paramOp _ _ _ | .binder _ _ _ | .let_ _ _ =>
        exact ⟨hc.insert rfl, rfl⟩
theorem aciTermL_normal {o : Op} {e : Option Term} : ∀ (ts : List Term) (cache : AciCache), NormalCache o e cache →
    NormalCache o e (aciTermL o e cache ts).1 ∧ kept e (aciTermL o e cache ts).2 = kept e (operandsL o ts)
  | [], cache, hc => ⟨hc, rfl⟩
  | t :: ts, cache, hc => by
    obtain ⟨h1, h2⟩ := aciTerm_normal t cache hc
    obtain ⟨h3, h4⟩ := aciTermL_normal ts _ h1
    refine ⟨h3, ?_⟩
    simp only [aciTermL, operandsL]
    rw [h2]
    exact kept_append (kept_normal o e t) h4
end

theorem aciIdentity_neutral {o : Op} (ho : aciAssoc o = true) {as : List Term} {s : Srt}
    (hs : sortOf (.op o as) = some s) : aciIdentity o as = .ok (neutral o s) := by
  have hbv : ∀ ho : o = .bvAdd ∨ o = .bvMul ∨ o = .bvAnd ∨ o = .bvOr ∨ o = .bvXor,
      ∃ w a as', s = .bv w ∧ as = a :: as' ∧ sortOf a = some (.bv w) := by
    intro ho
    obtain ⟨w, rfl, hl, ht⟩ := sort_bvNary ho hs
    match as, hl with
    | a :: as, _ => exact ⟨w, a, as, rfl, rfl, ht a (by simp)⟩
  have har : o = .add ∨ o = .mult → ∃ a as', (s = .int ∨ s = .real) ∧ as = a :: as' ∧ sortOf a = some s := by
    intro ho
    obtain ⟨h1, h2, h3⟩ := folds_sorts (by rcases ho with rfl | rfl <;> rfl) hs
    match as, h1 with
    | a :: as, _ =>
    refine ⟨a, as, ?_, rfl, h2 a (by simp)⟩
    rcases ho with rfl | rfl <;>
    · simp only [opSort] at h3
      split at h3
      · simp_all
      · split at h3 <;> simp_all
  cases o <;> simp only [aciAssoc, Bool.false_eq_true] at ho <;>
    first
    | rfl
    | (obtain ⟨w, a, as', rfl, rfl, ha⟩ := hbv (by simp; done)
       simp only [aciIdentity, headSort, ha]; rfl)
    | (obtain ⟨a, as', rfl | rfl, rfl, ha⟩ := har (by simp; done) <;>
       (simp only [aciIdentity, headSort, ha]; rfl))
    | (cases s <;> rfl)

theorem aciTop_some {t : Term} {o : Op} (h : aciTop t = some o) : aciAssoc o = true ∧ ∃ as, t = .op o as := by
  match t with
  | .op o' as =>
    revert h
    cases o' <;> simp only [aciTop, reduceCtorEq, Option.some.injEq, false_implies] <;> rintro rfl <;>
      exact ⟨rfl, as, rfl⟩
  | .const _ | .var _ _ | .app _ _ | .paramOp _ _ _ | .binder _ _ _ | .let_ _ _ => cases h

theorem aciTop_none {t : Term} (h : aciTop t = none) : ∀ o as, t = .op o as → aciAssoc o = false := by
  rintro o as rfl
  revert h
  cases o <;> simp [aciTop, aciAssoc]

/-- The result for one side whose operator is the one the cache has been used with. -/
theorem aciSide_normal {t : Term} {s : Srt} (hs : sortOf t = some s) {o : Op} (ht : aciTop t = some o) {cache : AciCache}
    (hc : NormalCache o (neutral o s) cache) : ∃ cache', aciSide cache t = .ok (cache', aciNormal o (neutral o s) t) ∧
      NormalCache o (neutral o s) cache' := by
  obtain ⟨ho, as, rfl⟩ := aciTop_some ht
  obtain ⟨h1, h2⟩ := aciTerm_normal (o := o) (e := neutral o s) (.op o as) cache hc
  refine ⟨_, ?_, h1⟩
  rw [← h2]
  simp only [aciSide, aciIdentity_neutral ho hs]
  simp [bind, Except.bind, ho, pure, Except.pure]

/-! ## Values -/

section
variable {M : Model} {o : Op} {S : Srt → Prop} (L : OpLaw M o S)

mutual
theorem operands_val : ∀ (t : Term) {s : Srt}, S s → sortOf t = some s →
    (∀ u ∈ operands o t, ∃ s', S s' ∧ sortOf u = some s') ∧
      ∃ zs : List L.A, (operands o t).map M.val = zs.map L.c ∧ M.val t = L.c (L.prod zs)
  | t, s, h1, h2 => by
    by_cases h : ∃ as, t = .op o as
    · match t, h with
      | .op o' as, h =>
        obtain ⟨as, h⟩ := h
        cases h
        rw [operands_op]
        obtain ⟨hne, ha⟩ := L.arg h1 h2
        obtain ⟨h3, zss, h4, h5⟩ := operandsL_val as ha
        refine ⟨h3, zss.flatten, h4, ?_⟩
        rw [L.val_prod hne h5, L.prod_flatten]
    · rw [operands_no_eq fun as e => h ⟨as, e⟩]
      obtain ⟨z, hz⟩ := L.dom h1 h2
      refine ⟨fun u hu => ?_, [z], by simp [hz], by rw [hz]; exact congrArg _ (L.mul_one z).symm⟩
      rw [List.mem_singleton] at hu
      subst hu
      exact ⟨s, h1, h2⟩
theorem operandsL_val : ∀ (ts : List Term), (∀ t ∈ ts, ∃ s, S s ∧ sortOf t = some s) →
    (∀ u ∈ operandsL o ts, ∃ s', S s' ∧ sortOf u = some s') ∧
      ∃ zss : List (List L.A), (operandsL o ts).map M.val = zss.flatten.map L.c ∧
        ts.map M.val = (zss.map L.prod).map L.c
  | [], _ => ⟨by simp [operandsL], [], rfl, rfl⟩
  | t :: ts, h => by
    obtain ⟨s, h1, h2⟩ := h t (by simp)
    obtain ⟨h3, zs, h4, h5⟩ := operands_val t h1 h2
    obtain ⟨h6, zss, h7, h8⟩ := operandsL_val ts fun u hu => h u (by simp [hu])
    refine ⟨fun u hu => ?_, zs :: zss, by simp [operandsL, h4, h7], by simp [h5, h8]⟩
    rw [operandsL] at hu
    rcases List.mem_append.1 hu with hu | hu
    · exact h3 u hu
    · exact h6 u hu
end

theorem filter_val {e : Option Term} (he : ∀ u, e = some u → M.val u = L.c L.one) :
    ∀ (l : List Term) {zs : List L.A}, l.map M.val = zs.map L.c →
      ∃ ys : List L.A, (l.filter fun t => some t ≠ e).map M.val = ys.map L.c ∧ L.prod ys = L.prod zs
  | [], zs, h => ⟨zs, h, rfl⟩
  | t :: l, [], h => by simp at h
  | t :: l, z :: zs, h => by
    simp only [List.map_cons, List.cons.injEq] at h
    obtain ⟨ys, h1, h2⟩ := filter_val he l h.2
    by_cases c : some t = e
    · rw [List.filter_cons_of_neg (by simpa using c)]
      refine ⟨ys, h1, ?_⟩
      have hz : z = L.one := L.inj (h.1.symm.trans (he t c.symm))
      rw [h2, hz]
      exact (L.one_mul _).symm
    · rw [List.filter_cons_of_pos (by simpa using c)]
      exact ⟨z :: ys, by rw [List.map_cons, List.map_cons, h.1, h1], congrArg (L.mul z) h2⟩

end

/-- Other terms are left alone. -/
theorem aciSide_none {t : Term} {s : Srt} (hs : sortOf t = some s) (ht : aciTop t = none) (cache : AciCache) :
    aciSide cache t = .ok (cache, t) := by
  match t with
  | .op o as =>
    have ho := aciTop_none ht o as rfl
    have : aciIdentity o as = .ok none := by
      revert ho
      cases o <;> simp [aciAssoc, aciIdentity]
    simp [aciSide, this, ho, bind, Except.bind, pure, Except.pure]
  | .const _ | .var _ _ | .app _ _ | .paramOp _ _ _ | .binder _ _ _ | .let_ _ _ => rfl

/-- The neutral element, by the sort. -/
theorem opLaw_neutral (M : Model) {o : Op} (ho : aciAssoc o = true) {as : List Term} {s : Srt}
    (hs : sortOf (.op o as) = some s) : ∃ (S : Srt → Prop) (L : OpLaw M o S), S s ∧
      (o ≠ .bvConcat → ∀ x y, L.mul x y = L.mul y x) ∧ (∀ e, neutral o s = some e → M.val e = L.c L.one) := by
  obtain ⟨S, L, h1, h2, h3⟩ := opLaw_exists M ho hs
  refine ⟨S, L, h1, fun h => (h2 h).1, fun e he => h3 e ?_⟩
  rw [aciIdentity_neutral ho hs, he]

/-- What is known about a side: the elements it is made of. -/
structure SideOf (o : Op) {M : Model} {S : Srt → Prop} (L : OpLaw M o S) (t t' : Term) (K : List Term) : Prop where
  elems : argsOrSelf o t' = K
  build : (∃ a, K = [a] ∧ t' = a) ∨ t' = .op o K
  sorts : ∀ u ∈ K, ∃ s, S s ∧ sortOf u = some s
  vals : ∃ zs : List L.A, K.map M.val = zs.map L.c ∧ M.val t = L.c (L.prod zs)

theorem sideOf_some {o : Op} {M : Model} {S : Srt → Prop} (L : OpLaw M o S) {t : Term} {s : Srt} (hS : S s)
    (hs : sortOf t = some s) (he : ∀ e, neutral o s = some e → M.val e = L.c L.one) {as : List Term}
    (ht : t = .op o as) (hn : (properOperands o s t).Nodup) :
    SideOf o L t (aciNormal o (neutral o s) t) (properOperands o s t) := by
  have hk : kept (neutral o s) (operands o t) = properOperands o s t := dedup_of_nodup hn
  have hb : aciNormal o (neutral o s) t = aciBuild o (neutral o s) (operands o t) := by
    subst ht
    rw [aciNormal, if_pos rfl, operands_op]
  obtain ⟨h1, zs, h2, h3⟩ := operands_val L t hS hs
  obtain ⟨ys, h4, h5⟩ := filter_val L he _ h2
  refine ⟨?_, ?_, fun u hu => h1 u (List.mem_filter.1 hu).1, ys, h4, by rw [h3, h5]⟩
  · rw [hb, argsOrSelf_build fun u hu => operands_no t hu, hk]
  · rw [hb, aciBuild_eq, hk]
    split
    · next a ha => exact .inl ⟨a, ha, rfl⟩
    · exact .inr rfl

theorem sideOf_none {o : Op} {M : Model} {S : Srt → Prop} (L : OpLaw M o S) (ho : aciAssoc o = true) {t : Term} {s : Srt}
    (hS : S s) (hs : sortOf t = some s) (ht : aciTop t = none) : SideOf o L t t [t] := by
  have hno : ∀ as, t ≠ .op o as := by
    rintro as rfl
    rw [aciTop_none ht o as rfl] at ho
    cases ho
  obtain ⟨z, hz⟩ := L.dom hS hs
  refine ⟨argsOrSelf_no hno, .inl ⟨t, rfl, rfl⟩, fun u hu => ?_, [z], by simp [hz], by rw [hz]; exact congrArg _ (L.mul_one z).symm⟩
  rw [List.mem_singleton] at hu
  subst hu
  exact ⟨s, hS, hs⟩

theorem sides_val {o : Op} {M : Model} {S : Srt → Prop} (L : OpLaw M o S)
    (hcomm : o ≠ .bvConcat → ∀ x y, L.mul x y = L.mul y x) {l r l' r' : Term} {K K' : List Term}
    (hl : SideOf o L l l' K) (hr : SideOf o L r r' K') (h : aciCompare l' r' = .ok ()) : M.val l = M.val r := by
  obtain ⟨zs, h1, h2⟩ := hl.vals
  obtain ⟨ys, h3, h4⟩ := hr.vals
  have same : K.map M.val = K'.map M.val → M.val l = M.val r := by
    intro e
    rw [h1, h3] at e
    rw [h2, h4, L.map_inj e]
  rcases aciCompare_ok h with e | ⟨o', as, bs, ha, hc, e, e', hp⟩
  · refine same ?_
    rw [← hl.elems, ← hr.elems, e]
  · by_cases ho : o' = o
    · subst ho
      have k1 : K = as := by rw [← hl.elems, e]; simp [argsOrSelf]
      have k2 : K' = bs := by rw [← hr.elems, e']; simp [argsOrSelf]
      rw [h2, h4]
      congr 1
      refine L.prod_perm (hcomm hc) ((List.map_perm_map_iff (f := L.c) fun _ _ => L.inj).1 ?_)
      rw [← h1, ← h3, k1, k2]
      exact hp.map _
    · have k1 : K = [.op o' as] := by rw [← hl.elems, e]; simp [argsOrSelf, ho]
      have k2 : K' = [.op o' bs] := by rw [← hr.elems, e']; simp [argsOrSelf, ho]
      refine same ?_
      obtain ⟨s, -, hs⟩ := hl.sorts (.op o' as) (by rw [k1]; simp)
      rw [k1, k2, List.map_cons, List.map_cons, aci_perm_val M ha hc hs hp]

/-- Soundness if only one operator is involved and no operand occurs twice. -/
theorem aciSimp_distinct {l r : Term} {s : Srt} (hl : sortOf l = some s) (hr : sortOf r = some s) {o : Op}
    (tl : ∀ o', aciTop l = some o' → o' = o ∧ (properOperands o s l).Nodup)
    (tr : ∀ o', aciTop r = some o' → o' = o ∧ (properOperands o s r).Nodup) {c1 c2 : AciCache} {l' r' : Term}
    (h1 : aciSide [] l = .ok (c1, l')) (h2 : aciSide c1 r = .ok (c2, r')) (h3 : aciCompare l' r' = .ok ())
    (M : Model) : M.val l = M.val r := by
  have nil : NormalCache o (neutral o s) [] := by simp [NormalCache]
  cases e1 : aciTop l with
  | none =>
    rw [aciSide_none hl e1] at h1
    cases h1
    cases e2 : aciTop r with
    | none =>
      rw [aciSide_none hr e2] at h2
      cases h2
      rcases aciCompare_ok h3 with e | ⟨o', as, bs, ha, hc, e, e', hp⟩
      · rw [e]
      · rw [aciTop_none e1 o' as e] at ha
        cases ha
    | some o' =>
      obtain ⟨rfl, hn⟩ := tr o' e2
      obtain ⟨ho, as, e⟩ := aciTop_some e2
      obtain ⟨S, L, hS, hcomm, he⟩ := opLaw_neutral M ho (e ▸ hr)
      obtain ⟨c, h4, -⟩ := aciSide_normal hr e2 nil
      rw [h4] at h2
      cases h2
      exact sides_val L hcomm (sideOf_none L ho hS hl e1) (sideOf_some L hS hr he e hn) h3
  | some o' =>
    obtain ⟨rfl, hn⟩ := tl o' e1
    obtain ⟨ho, as, e⟩ := aciTop_some e1
    obtain ⟨S, L, hS, hcomm, he⟩ := opLaw_neutral M ho (e ▸ hl)
    obtain ⟨c, h4, h5⟩ := aciSide_normal hl e1 nil
    rw [h4] at h1
    cases h1
    have sl := sideOf_some L hS hl he e hn
    cases e2 : aciTop r with
    | none =>
      rw [aciSide_none hr e2] at h2
      cases h2
      exact sides_val L hcomm sl (sideOf_none L ho hS hr e2) h3
    | some o'' =>
      obtain ⟨rfl, hn'⟩ := tr o'' e2
      obtain ⟨-, as', e'⟩ := aciTop_some e2
      obtain ⟨c, h6, -⟩ := aciSide_normal hr e2 h5
      rw [h6] at h2
      cases h2
      exact sides_val L hcomm sl (sideOf_some L hS hr he e' hn') h3

end Carcara
