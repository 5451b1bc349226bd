import Verif.Lemmas.Holds
import Mathlib.Tactic.Ring

/-! # Values of arithmetic terms -/

namespace Carcara
open Classical Val Sem

@[simp] theorem asInts_map {U : Type} (zs : List ℤ) : asInts (zs.map (Val.int (U := U))) = some zs := by
  induction zs with
  | nil => rfl
  | cons z zs ih => simp [asInts, ih]

@[simp] theorem asNums_map_real {U : Type} (rs : List ℝ) : asNums (rs.map (Val.real (U := U))) = some rs := by
  induction rs with
  | nil => rfl
  | cons z zs ih => simp [asNums, num, ih]

@[simp] theorem asNums_map_int {U : Type} (zs : List ℤ) :
    asNums (zs.map (Val.int (U := U))) = some (zs.map (fun z => (z : ℝ))) := by
  induction zs with
  | nil => rfl
  | cons z zs ih => simp [asNums, num, ih]

theorem asInts_map_real {U : Type} (rs : List ℝ) (h : rs ≠ []) : asInts (rs.map (Val.real (U := U))) = none := by
  cases rs with
  | nil => exact absurd rfl h
  | cons r rs => simp [asInts]

theorem Model.val_int (M : Model) {t : Term} (h : sortOf t = some .int) : ∃ z, M.val t = .int z :=
  (M.I.dom_int _).1 (eval_dom t h M.env_dom)

theorem Model.val_real (M : Model) {t : Term} (h : sortOf t = some .real) : ∃ z, M.val t = .real z :=
  (M.I.dom_real _).1 (eval_dom t h M.env_dom)

theorem Model.vals_int (M : Model) {ts : List Term} (h : ∀ t ∈ ts, sortOf t = some .int) :
    ∃ zs : List ℤ, ts.map M.val = zs.map .int := by
  induction ts with
  | nil => exact ⟨[], rfl⟩
  | cons t ts ih =>
    obtain ⟨zs, hz⟩ := ih (fun t ht => h t (by simp [ht]))
    obtain ⟨z, hz'⟩ := M.val_int (h t (by simp))
    exact ⟨z :: zs, by simp [hz, hz']⟩

theorem Model.vals_real (M : Model) {ts : List Term} (h : ∀ t ∈ ts, sortOf t = some .real) :
    ∃ zs : List ℝ, ts.map M.val = zs.map .real := by
  induction ts with
  | nil => exact ⟨[], rfl⟩
  | cons t ts ih =>
    obtain ⟨zs, hz⟩ := ih (fun t ht => h t (by simp [ht]))
    obtain ⟨z, hz'⟩ := M.val_real (h t (by simp))
    exact ⟨z :: zs, by simp [hz, hz']⟩

theorem sorts_all {ts : List Term} {ss : List Srt} {s : Srt} (h : sortOfL ts = some ss) (hs : ∀ x ∈ ss, x = s) :
    ∀ t ∈ ts, sortOf t = some s := by
  have hf := sortOfL_some h
  clear h
  induction hf with
  | nil => simp
  | @cons s' t ss ts hts _ ih =>
    intro t ht
    rcases List.mem_cons.1 ht with rfl | ht
    · rw [hts, hs s' (by simp)]
    · exact ih (fun x hx => hs x (by simp [hx])) t ht

/-- Arguments of `+`, `-` and `*`. -/
theorem arith_children {o : Op} {ts : List Term} {s : Srt} (ho : o = .add ∨ o = .sub ∨ o = .mult)
    (h : sortOf (.op o ts) = some s) : ts ≠ [] ∧
      ((s = .int ∧ ∀ t ∈ ts, sortOf t = some .int) ∨ (s = .real ∧ ∀ t ∈ ts, sortOf t = some .real)) := by
  obtain ⟨ss, h1, h2⟩ := sortOf_op (by rcases ho with rfl | rfl | rfl <;> decide) h
  have hne : ss ≠ [] → ts ≠ [] := by
    rintro hn rfl; exact hn (sortOfL_nil.1 h1)
  rcases ho with rfl | rfl | rfl <;> simp only [opSort] at h2 <;> split at h2
  all_goals first
    | (next h3 => 
        simp at h2; subst h2
        exact ⟨hne (by rintro rfl; simp at h3), Or.inl ⟨rfl, sorts_all h1 (allSort_iff.1 h3.2)⟩⟩)
    | (split at h2
       · next h3 =>
          simp at h2; subst h2
          exact ⟨hne (by rintro rfl; simp at h3), Or.inr ⟨rfl, sorts_all h1 (allSort_iff.1 h3.2)⟩⟩
       · simp at h2)

theorem evalOp_add_int (I : Interp) (zs : List ℤ) : evalOp I .add (zs.map .int) = .int zs.sum := by
  simp [evalOp, stdOp, stdAdd]
theorem evalOp_add_real (I : Interp) (rs : List ℝ) (h : rs ≠ []) : evalOp I .add (rs.map .real) = .real rs.sum := by
  simp [evalOp, stdOp, stdAdd, asInts_map_real rs h]
theorem evalOp_mult_int (I : Interp) (zs : List ℤ) : evalOp I .mult (zs.map .int) = .int zs.prod := by
  simp [evalOp, stdOp, stdMult]
theorem evalOp_mult_real (I : Interp) (rs : List ℝ) (h : rs ≠ []) : evalOp I .mult (rs.map .real) = .real rs.prod := by
  simp [evalOp, stdOp, stdMult, asInts_map_real rs h]
theorem evalOp_sub_int (I : Interp) (zs : List ℤ) (h : zs ≠ []) : evalOp I .sub (zs.map .int) = .int (subL zs) := by
  simp [evalOp, stdOp, stdSub, h]
theorem evalOp_sub_real (I : Interp) (rs : List ℝ) (h : rs ≠ []) : evalOp I .sub (rs.map .real) = .real (subL rs) := by
  simp [evalOp, stdOp, stdSub, h, asInts_map_real rs h]

end Carcara
