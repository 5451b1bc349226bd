import Verif.Spec.Semantics

/-!
# Concrete models

A family of models used to refute claims: objects of the non-standard sorts are tagged with their sort. The
values of the variables, the functions denoted by the function objects, and division by zero can be chosen freely.
-/

namespace Carcara

open Classical

namespace Witness

/-- Objects: a sort and a number. -/
abbrev Obj := Srt × ℕ

/-- Sorts with a fixed carrier. -/
def fixedSort : Srt → Bool
  | .bool | .int | .real | .string | .bv _ => true
  | _ => false

/-- The sort of a value. -/
def valSort : Val Obj → Option Srt
  | .bool _ => some .bool
  | .int _ => some .int
  | .real _ => some .real
  | .str _ => some .string
  | .bv w _ => some (.bv w)
  | .other (s, _) => if fixedSort s then none else some s

/-- Some value of each sort. -/
noncomputable def default : Srt → Val Obj
  | .bool => .bool false
  | .int => .int 0
  | .real => .real 0
  | .string => .str ""
  | .bv w => .bv w 0
  | s => .other (s, 0)

@[simp] theorem valSort_default (s : Srt) : valSort (default s) = some s := by
  cases s <;> rfl

/-- `v` if it has sort `s`, otherwise some value of sort `s`. -/
noncomputable def coerce (s : Srt) (v : Val Obj) : Val Obj := if valSort v = some s then v else default s

@[simp] theorem valSort_coerce (s : Srt) (v : Val Obj) : valSort (coerce s v) = some s := by
  unfold coerce; split <;> simp_all

/-- Sorts of a list of values. -/
def valSorts : List (Val Obj) → Option (List Srt)
  | [] => some []
  | v :: vs => match valSort v, valSorts vs with
    | some s, some ss => some (s :: ss)
    | _, _ => none

theorem valSorts_of {ss : List Srt} {vs : List (Val Obj)}
    (h : List.Forall₂ (fun s v => valSort v = some s) ss vs) : valSorts vs = some ss := by
  induction h with
  | nil => rfl
  | cons h _ ih => simp [valSorts, h, ih]

theorem exists_tuple (ss : List Srt) : ∃ vs, List.Forall₂ (fun s v => valSort v = some s) ss vs := by
  induction ss with
  | nil => exact ⟨[], .nil⟩
  | cons s ss ih => obtain ⟨vs, h⟩ := ih; exact ⟨_, .cons (valSort_default s) h⟩

/-- Interpretation with chosen function objects and division by zero. -/
noncomputable def interp (F : ℕ → List (Val Obj) → Val Obj) (dz mz : ℤ → ℤ) (rz : ℝ → ℝ) : Interp where
  U := Obj
  dom s v := valSort v = some s
  dom_bool v := by
    cases v with
    | other u => obtain ⟨s, n⟩ := u; cases s <;> simp [valSort, fixedSort]
    | _ => simp [valSort]
  dom_int v := by
    cases v with
    | other u => obtain ⟨s, n⟩ := u; cases s <;> simp [valSort, fixedSort]
    | _ => simp [valSort]
  dom_real v := by
    cases v with
    | other u => obtain ⟨s, n⟩ := u; cases s <;> simp [valSort, fixedSort]
    | _ => simp [valSort]
  dom_string v := by
    cases v with
    | other u => obtain ⟨s, n⟩ := u; cases s <;> simp [valSort, fixedSort]
    | _ => simp [valSort]
  dom_bv w v := by
    cases v with
    | other u => obtain ⟨s, n⟩ := u; cases s <;> simp [valSort, fixedSort]
    | bv w' b =>
      simp only [valSort, Option.some.injEq, Srt.bv.injEq, Val.bv.injEq]
      constructor
      · rintro rfl; exact ⟨b, rfl, HEq.rfl⟩
      · rintro ⟨_, h, -⟩; exact h
    | _ => simp [valSort]
  dom_nonempty s := ⟨default s, valSort_default s⟩
  app f vs := match f with
    | .other (.fn _ r, n) => coerce r (F n vs)
    | _ => .bool false
  app_dom ss r f vs h _ := by
    cases f with
    | other u =>
      obtain ⟨s, n⟩ := u
      cases s <;> simp [valSort, fixedSort] at h
      simp [h.2]
    | _ => simp [valSort] at h
  op o vs := match valSorts vs with
    | some ss => match opSort o ss with
      | some r => default r
      | none => .bool false
    | none => .bool false
  op_dom o ss r vs h hvs := by simp [valSorts_of hvs, h]
  pop _ _ _ := .other (.regLan, 0)
  pop_dom _ _ _ _ := rfl
  divZero := dz
  modZero := mz
  realDivZero := rz
  eps s P := if h : ∃ v, valSort v = some s ∧ P v then h.choose else default s
  eps_dom s P := by
    split
    · next h => exact h.choose_spec.1
    · simp
  eps_spec s P v hv hp := by
    rw [dif_pos ⟨v, hv, hp⟩]
    exact (⟨v, hv, hp⟩ : ∃ v, valSort v = some s ∧ P v).choose_spec.2
  lam ss f :=
    if h : ∃ r, ∀ vs, List.Forall₂ (fun s v => valSort v = some s) ss vs → valSort (f vs) = some r then
      .other (.fn ss h.choose, 0)
    else .bool false
  lam_dom ss r f h := by
    have hex : ∃ r, ∀ vs, List.Forall₂ (fun s v => valSort v = some s) ss vs → valSort (f vs) = some r := ⟨r, h⟩
    rw [dif_pos hex]
    obtain ⟨vs, hvs⟩ := exists_tuple ss
    have := hex.choose_spec vs hvs
    rw [h vs hvs] at this
    simp only [valSort, fixedSort, Bool.false_eq_true, if_false, Option.some.injEq, Srt.fn.injEq, true_and]
    exact (Option.some.inj this).symm

/-- Model with chosen variable values and functions. -/
noncomputable def model (E : String → Srt → Val Obj) (F : ℕ → List (Val Obj) → Val Obj := fun _ _ => .bool false)
    (dz mz : ℤ → ℤ := fun _ => 0) (rz : ℝ → ℝ := fun _ => 0) : Model where
  I := interp F dz mz rz
  env x s := coerce s (E x s)
  env_dom x s := valSort_coerce s (E x s)

/-- Value of a variable. -/
theorem val_var (E : String → Srt → Val Obj) (F dz mz rz) (x : String) (s : Srt) :
    (model E F dz mz rz).val (.var x s) = coerce s (E x s) := rfl

/-- The model in which all Boolean variables are true. -/
noncomputable def allTrue : Model := model (fun _ _ => .bool true)

theorem allTrue_var (x : String) : allTrue.Holds (.var x .bool) := by
  simp only [Model.Holds, allTrue, val_var, coerce, valSort, if_true]
  trivial

/-- The model in which all Boolean variables are false. -/
noncomputable def allFalse : Model := model (fun _ _ => .bool false)

theorem allFalse_var (x : String) : ¬ allFalse.Holds (.var x .bool) := by
  simp only [Model.Holds, allFalse, val_var, coerce, valSort, if_true]
  exact fun h => h

end Witness

end Carcara
