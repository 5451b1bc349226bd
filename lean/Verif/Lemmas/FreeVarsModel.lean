import Verif.Model.FreeVars
import Verif.Lemmas.FreeVars

/-! # The computed free variables -/

namespace Carcara

theorem mem_setExtend {α : Type} [DecidableEq α] {s t : List α} {a : α} : a ∈ setExtend s t ↔ a ∈ s ∨ a ∈ t :=
  mem_foldl_setInsert

theorem nodup_setExtend {α : Type} [DecidableEq α] {s t : List α} (h : s.Nodup) : (setExtend s t).Nodup :=
  nodup_foldl_setInsert h

theorem nodup_setRemoveAll {α : Type} [DecidableEq α] {xs : List α} : ∀ {s : List α}, s.Nodup →
    (setRemoveAll s xs).Nodup := by
  induction xs with
  | nil => intro s h; exact h
  | cons x xs ih => intro s h; exact ih (nodup_setRemove h)

theorem mem_setRemoveAll {α : Type} [DecidableEq α] {xs : List α} {a : α} : ∀ {s : List α}, s.Nodup →
    (a ∈ setRemoveAll s xs ↔ a ∈ s ∧ a ∉ xs) := by
  induction xs with
  | nil => intro s _; simp [setRemoveAll]
  | cons x xs ih =>
    intro s h
    have := ih (s := (setRemove s x).1) (nodup_setRemove h)
    simp only [setRemoveAll, List.foldl_cons] at this ⊢
    rw [this, mem_setRemove h]
    simp only [List.mem_cons, not_or, and_assoc]

theorem mem_freeVarsL {a : String × Srt} : ∀ {ts : List Term} {set : List (String × Srt)},
    a ∈ freeVarsL set ts ↔ a ∈ set ∨ ∃ t ∈ ts, a ∈ freeVars t
  | [], set => by simp [freeVarsL]
  | t :: ts, set => by
    rw [freeVarsL, mem_freeVarsL, mem_setExtend]
    simp [or_assoc]

theorem nodup_freeVarsL : ∀ {ts : List Term} {set : List (String × Srt)}, set.Nodup → (freeVarsL set ts).Nodup
  | [], _, h => h
  | _ :: _, _, h => by rw [freeVarsL]; exact nodup_freeVarsL (nodup_setExtend h)

theorem nodup_freeVars (t : Term) : (freeVars t).Nodup := by
  induction t using Term.ind with
  | const c => simp [freeVars]
  | var x s => simp [freeVars]
  | app f as ihf _ => rw [freeVars]; exact nodup_freeVarsL ihf
  | op o as _ => rw [freeVars]; exact nodup_freeVarsL (by simp)
  | binder b bs t ih => rw [freeVars]; exact nodup_setRemoveAll ih
  | let_ bs t _ ih => rw [freeVars]; exact nodup_setRemoveAll ih
  | paramOp o ps as _ _ => rw [freeVars]; exact nodup_freeVarsL (by simp)

theorem mem_letBound {x : String} {s : Srt} : ∀ {bs : List (String × Term)},
    (x, s) ∈ letBound bs ↔ ∃ b ∈ bs, b.1 = x ∧ sortOf b.2 = some s
  | [] => by simp [letBound]
  | (y, t) :: bs => by
    rw [letBound]
    cases h : sortOf t with
    | none => simp [mem_letBound, h]
    | some r =>
      simp only [List.mem_cons, Prod.mk.injEq, mem_letBound, exists_eq_or_imp, h, Option.some.injEq]
      constructor
      · rintro (⟨rfl, rfl⟩ | h)
        · exact Or.inl ⟨rfl, rfl⟩
        · exact Or.inr h
      · rintro (⟨rfl, rfl⟩ | h)
        · exact Or.inl ⟨rfl, rfl⟩
        · exact Or.inr h

mutual
/-- The values of `let` bindings and the indices of indexed operators are closed terms. -/
def Term.closedParts : Term → Bool
  | .const _ => true
  | .var _ _ => true
  | .app f as => f.closedParts && Term.closedPartsL as
  | .op _ as => Term.closedPartsL as
  | .binder _ _ t => t.closedParts
  | .let_ bs t => (Term.fvB bs).isEmpty && t.closedParts
  | .paramOp _ ps as => (Term.fvL ps).isEmpty && Term.closedPartsL as
/-- The same for lists. -/
def Term.closedPartsL : List Term → Bool
  | [] => true
  | t :: ts => t.closedParts && Term.closedPartsL ts
end

theorem Term.closedPartsL_iff {ts : List Term} : Term.closedPartsL ts = true ↔ ∀ t ∈ ts, t.closedParts = true := by
  induction ts with
  | nil => simp [Term.closedPartsL]
  | cons t ts ih => simp [Term.closedPartsL, ih]

/-- On terms without open `let` values and indices the computed set is the set of free variables. -/
theorem mem_freeVars {t : Term} : ∀ {v : String × Srt}, t.closedParts = true → (v ∈ freeVars t ↔ v ∈ t.fv) := by
  induction t using Term.ind with
  | const c => intro v _; simp [freeVars, Term.fv]
  | var x s => intro v _; simp [freeVars, Term.fv]
  | app f as ihf ih =>
    intro v h
    simp only [Term.closedParts, Bool.and_eq_true, Term.closedPartsL_iff] at h
    rw [freeVars, mem_freeVarsL, ihf h.1, Term.fv, List.mem_append, Term.mem_fvL]
    exact or_congr_right (exists_congr fun a => and_congr_right fun ha => ih a ha (h.2 a ha))
  | op o as ih =>
    intro v h
    simp only [Term.closedParts, Term.closedPartsL_iff] at h
    rw [freeVars, mem_freeVarsL, Term.fv, Term.mem_fvL]
    simp only [List.not_mem_nil, false_or]
    exact exists_congr fun a => and_congr_right fun ha => ih a ha (h a ha)
  | binder b bs t ih =>
    intro v h
    rw [freeVars, mem_setRemoveAll (nodup_freeVars _), Term.mem_fv_binder, ih (by simpa [Term.closedParts] using h)]
  | let_ bs t _ ih =>
    rintro ⟨x, s⟩ h
    simp only [Term.closedParts, Bool.and_eq_true, List.isEmpty_iff] at h
    rw [freeVars, mem_setRemoveAll (nodup_freeVars _), ih h.2, mem_letBound, Term.fv, h.1]
    simp only [Prod.exists, not_exists, not_and, List.nil_append, List.mem_filter,
      Bool.not_eq_true', List.any_eq_false, decide_eq_true_eq, Prod.forall]
  | paramOp o ps as _ ih =>
    intro v h
    simp only [Term.closedParts, Bool.and_eq_true, List.isEmpty_iff, Term.closedPartsL_iff] at h
    rw [freeVars, mem_freeVarsL, Term.fv, h.1, List.nil_append, Term.mem_fvL]
    simp only [List.not_mem_nil, false_or]
    exact exists_congr fun a => and_congr_right fun ha => ih a ha (h.2 a ha)

/-- Indices of a well-sorted indexed operator are constants. -/
theorem popSort_const {o : ParamOp} {ps : List Term} {ss : List Srt} {s : Srt} (h : popSort o ps ss = some s) :
    ∀ p ∈ ps, ∃ c, p = .const c := by
  unfold popSort at h
  split at h <;> first | cases h | skip
  all_goals
    intro p hp
    simp only [List.mem_cons, List.not_mem_nil, or_false] at hp
    rcases hp with rfl | rfl <;> exact ⟨_, rfl⟩

theorem indices_const {o : ParamOp} {ps as : List Term} (h : (sortOf (.paramOp o ps as)).isSome = true) :
    ∀ p ∈ ps, ∃ c, p = .const c := by
  obtain ⟨s, hs⟩ := Option.isSome_iff_exists.1 h
  simp only [sortOf] at hs
  split at hs
  · exact popSort_const hs
  · cases hs

/-- In a well-sorted term every `choice` binds one variable. -/
theorem Term.choiceOK_of_sort (t : Term) : (sortOf t).isSome = true → t.choiceOK = true := by
  induction t using Term.ind with
  | const c => intros; rfl
  | var x s => intros; rfl
  | app f as ihf ih =>
    intro h
    obtain ⟨h1, h2⟩ := sorted_app h
    simp only [Term.choiceOK, ihf h1, Bool.true_and, Term.choiceOKL_iff]
    exact fun a ha => ih a ha (h2 a ha)
  | op o as ih =>
    intro h
    simp only [Term.choiceOK, Term.choiceOKL_iff]
    exact fun a ha => ih a ha (sorted_op_mem h ha)
  | binder b bs t ih =>
    intro h
    simp only [Term.choiceOK, ih (sorted_binder h), Bool.and_true, Bool.or_eq_true, decide_eq_true_eq]
    obtain ⟨s, hs⟩ := Option.isSome_iff_exists.1 h
    simp only [sortOf] at hs
    split at hs <;> simp_all
  | let_ bs t ihb ih =>
    intro h
    obtain ⟨h1, h2⟩ := sorted_let h
    simp only [Term.choiceOK, ih h2, Bool.and_true, Term.choiceOKB_iff]
    exact fun b hb => ihb b hb (h1 b hb)
  | paramOp o ps as _ ih =>
    intro h
    simp only [Term.choiceOK, Bool.and_eq_true, Term.choiceOKL_iff]
    refine ⟨fun p hp => ?_, fun a ha => ih a ha (sorted_paramOp h a ha)⟩
    obtain ⟨c, rfl⟩ := indices_const h p hp
    rfl

theorem Term.closedParts_of_sort (t : Term) : (sortOf t).isSome = true → t.noLet = true → t.closedParts = true := by
  induction t using Term.ind with
  | const c => intros; rfl
  | var x s => intros; rfl
  | app f as ihf ih =>
    intro h hl
    simp only [Term.noLet, Bool.and_eq_true, Term.noLetL_iff] at hl
    obtain ⟨h1, h2⟩ := sorted_app h
    simp only [Term.closedParts, ihf h1 hl.1, Bool.true_and, Term.closedPartsL_iff]
    exact fun a ha => ih a ha (h2 a ha) (hl.2 a ha)
  | op o as ih =>
    intro h hl
    simp only [Term.noLet, Term.noLetL_iff] at hl
    simp only [Term.closedParts, Term.closedPartsL_iff]
    exact fun a ha => ih a ha (sorted_op_mem h ha) (hl a ha)
  | binder b bs t ih =>
    intro h hl
    exact ih (sorted_binder h) hl
  | let_ bs t ihb ih => intro h hl; simp [Term.noLet] at hl
  | paramOp o ps as _ ih =>
    intro h hl
    simp only [Term.noLet, Bool.and_eq_true, Term.noLetL_iff] at hl
    simp only [Term.closedParts, Bool.and_eq_true, Term.closedPartsL_iff, List.isEmpty_iff]
    refine ⟨?_, fun a ha => ih a ha (sorted_paramOp h a ha) (hl.2 a ha)⟩
    rw [List.eq_nil_iff_forall_not_mem]
    intro v hv
    obtain ⟨p, hp, hv⟩ := Term.mem_fvL.1 hv
    obtain ⟨c, rfl⟩ := indices_const h p hp
    simp [Term.fv] at hv

end Carcara
