import Verif.Spec.Polyeq

/-! # Facts about subterms and sorts of subterms -/

namespace Carcara

theorem Term.self_mem_subterms (t : Term) : t ∈ t.subterms := by
  cases t <;> simp [Term.subterms]

theorem Term.mem_subtermsL {as : List Term} {u : Term} : u ∈ Term.subtermsL as ↔ ∃ a ∈ as, u ∈ a.subterms := by
  induction as with
  | nil => simp [Term.subtermsL]
  | cons a as ih => simp [Term.subtermsL, ih]

theorem Term.mem_subtermsB {bs : List (String × Term)} {u : Term} :
    u ∈ Term.subtermsB bs ↔ ∃ b ∈ bs, u ∈ b.2.subterms := by
  induction bs with
  | nil => simp [Term.subtermsB]
  | cons b bs ih => obtain ⟨x, t⟩ := b; simp [Term.subtermsB, ih]

theorem subterms_op {o : Op} {as : List Term} {a : Term} (h : a ∈ as) :
    ∀ u ∈ a.subterms, u ∈ (Term.op o as).subterms := fun u hu => by
  simp only [Term.subterms, List.mem_cons]; exact Or.inr (Term.mem_subtermsL.2 ⟨a, h, hu⟩)

theorem subterms_app {f : Term} {as : List Term} {a : Term} (h : a = f ∨ a ∈ as) :
    ∀ u ∈ a.subterms, u ∈ (Term.app f as).subterms := fun u hu => by
  simp only [Term.subterms, List.mem_cons, List.mem_append]
  rcases h with rfl | h
  · exact Or.inr (Or.inl hu)
  · exact Or.inr (Or.inr (Term.mem_subtermsL.2 ⟨a, h, hu⟩))

theorem subterms_paramOp {o : ParamOp} {ps as : List Term} {a : Term} (h : a ∈ as) :
    ∀ u ∈ a.subterms, u ∈ (Term.paramOp o ps as).subterms := fun u hu => by
  simp only [Term.subterms, List.mem_cons, List.mem_append]
  exact Or.inr (Or.inr (Term.mem_subtermsL.2 ⟨a, h, hu⟩))

theorem subterms_binder {b : Binder} {bs : List (String × Srt)} {t : Term} :
    ∀ u ∈ t.subterms, u ∈ (Term.binder b bs t).subterms := fun u hu => by
  simp only [Term.subterms, List.mem_cons]; exact Or.inr hu

theorem subterms_let {bs : List (String × Term)} {t a : Term} (h : a = t ∨ ∃ b ∈ bs, a = b.2) :
    ∀ u ∈ a.subterms, u ∈ (Term.let_ bs t).subterms := fun u hu => by
  simp only [Term.subterms, List.mem_cons, List.mem_append]
  rcases h with rfl | ⟨b, hb, rfl⟩
  · exact Or.inr (Or.inr hu)
  · exact Or.inr (Or.inl (Term.mem_subtermsB.2 ⟨b, hb, hu⟩))

/-! ## Subterms of well-sorted terms are well sorted -/

theorem sortOfL_mem {ts : List Term} {ss : List Srt} (h : sortOfL ts = some ss) {t : Term} (ht : t ∈ ts) :
    ∃ s ∈ ss, sortOf t = some s := by
  have := sortOfL_some h
  clear h
  induction this with
  | nil => simp at ht
  | cons h _ ih =>
    rcases List.mem_cons.1 ht with rfl | ht
    · exact ⟨_, by simp, h⟩
    · obtain ⟨s, hs, h⟩ := ih ht; exact ⟨s, by simp [hs], h⟩

theorem sortOf_op_eq {o : Op} {as : List Term} (ho : o ≠ .bvConst) :
    sortOf (.op o as) = (sortOfL as).bind (opSort o) := by
  have : sortOf (.op o as) = (match sortOfL as with | some ss => opSort o ss | none => none) := by
    cases o <;> first | rfl | exact absurd rfl ho
  rw [this]; cases sortOfL as <;> rfl

theorem sorted_op {o : Op} {as : List Term} (h : (sortOf (.op o as)).isSome = true) :
    ∃ ss, sortOfL as = some ss := by
  by_cases ho : o = .bvConst
  · subst ho
    simp only [sortOf] at h
    split at h
    · exact ⟨_, by assumption⟩
    · simp at h
  · rw [sortOf_op_eq ho] at h
    cases hs : sortOfL as with
    | none => simp [hs] at h
    | some ss => exact ⟨ss, rfl⟩

theorem sorted_op_mem {o : Op} {as : List Term} (h : (sortOf (.op o as)).isSome = true) {a : Term} (ha : a ∈ as) :
    (sortOf a).isSome = true := by
  obtain ⟨ss, hs⟩ := sorted_op h
  obtain ⟨s, _, e⟩ := sortOfL_mem hs ha
  simp [e]

theorem sorted_app {f : Term} {as : List Term} (h : (sortOf (.app f as)).isSome = true) :
    (sortOf f).isSome = true ∧ ∀ a ∈ as, (sortOf a).isSome = true := by
  simp only [sortOf] at h
  split at h
  · next h1 h2 =>
    refine ⟨by simp [h1], fun a ha => ?_⟩
    obtain ⟨s, _, e⟩ := sortOfL_mem h2 ha
    simp [e]
  · simp at h

theorem sorted_paramOp {o : ParamOp} {ps as : List Term} (h : (sortOf (.paramOp o ps as)).isSome = true) :
    ∀ a ∈ as, (sortOf a).isSome = true := by
  simp only [sortOf] at h
  split at h
  · next h2 =>
    intro a ha
    obtain ⟨s, _, e⟩ := sortOfL_mem h2 ha
    simp [e]
  · simp at h

theorem sorted_binder {b : Binder} {bs : List (String × Srt)} {t : Term}
    (h : (sortOf (.binder b bs t)).isSome = true) : (sortOf t).isSome = true := by
  simp only [sortOf] at h
  split at h <;> simp_all

theorem sortOfB_mem {bs : List (String × Term)} (h : sortOfB bs = true) : ∀ b ∈ bs, (sortOf b.2).isSome = true := by
  induction bs with
  | nil => simp
  | cons b bs ih =>
    obtain ⟨x, t⟩ := b
    simp only [sortOfB, Bool.and_eq_true] at h
    intro c hc
    rcases List.mem_cons.1 hc with rfl | hc
    · exact h.1
    · exact ih h.2 c hc

theorem sorted_let {bs : List (String × Term)} {t : Term} (h : (sortOf (.let_ bs t)).isSome = true) :
    (∀ b ∈ bs, (sortOf b.2).isSome = true) ∧ (sortOf t).isSome = true := by
  simp only [sortOf] at h
  split at h
  · next hb => exact ⟨sortOfB_mem hb, h⟩
  · simp at h

theorem Comparable.sub {n : Bool} {a b a' b' : Term} (h : Comparable n a b) (sa : (sortOf a').isSome = true)
    (sb : (sortOf b').isSome = true) (ha : ∀ u ∈ a'.subterms, u ∈ a.subterms)
    (hb : ∀ u ∈ b'.subterms, u ∈ b.subterms) : Comparable n a' b' :=
  ⟨sa, sb, fun u hu => h.clean_left u (ha u hu), fun u hu => h.clean_right u (hb u hu),
    fun u hu v hv => h.separate u (ha u hu) v (hb v hv)⟩

theorem sepNode_symm (u v : Term) : sepNode u v = sepNode v u := by
  rcases u with ⟨_ | _ | _ | _⟩ | _ | _ | _ | _ | _ | _ <;> rcases v with ⟨_ | _ | _ | _⟩ | _ | _ | _ | _ | _ | _ <;> rfl

theorem Comparable.symm {n : Bool} {a b : Term} (h : Comparable n a b) : Comparable n b a := by
  refine ⟨h.sort_right, h.sort_left, h.clean_right, h.clean_left, fun u hu v hv => ?_⟩
  rw [sepNode_symm]; exact h.separate v hv u hu

/-- Comparable arguments of comparable applications. -/
theorem Comparable.op_args {n : Bool} {o o' : Op} {as bs : List Term} (h : Comparable n (.op o as) (.op o' bs))
    {a b : Term} (ha : a ∈ as) (hb : b ∈ bs) : Comparable n a b :=
  h.sub (sorted_op_mem h.sort_left ha) (sorted_op_mem h.sort_right hb) (subterms_op ha) (subterms_op hb)

theorem Same.symm {a b : Term} (h : Same a b) : Same b a := fun I ρ hρ => (h I ρ hρ).symm

theorem Same.trans {a b c : Term} (h : Same a b) (h' : Same b c) : Same a c :=
  fun I ρ hρ => (h I ρ hρ).trans (h' I ρ hρ)

end Carcara
