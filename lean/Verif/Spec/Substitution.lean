import Verif.Spec.FreeVars

/-!
# Specification: substitution

A substitution is read as an update of the environment: a mapped variable has the value of the term it is mapped to.
-/

namespace Carcara

/-- The term a variable stands for. -/
def substOf (m : List (Term × Term)) (v : String × Srt) : Term :=
  match m.find? fun p => decide (p.1 = .var v.1 v.2) with
  | some p => p.2
  | none => .var v.1 v.2

/-- The environment in which every variable has the value of the term it stands for. -/
noncomputable def Interp.substEnv (I : Interp) (m : List (Term × Term)) (ρ : Env I.U) : Env I.U :=
  fun x s => eval I (substOf m (x, s)) ρ

/-- The substituted term has, in every environment, the value of the original one in the updated environment. -/
def SubstOK (m : List (Term × Term)) (t t' : Term) : Prop :=
  ∀ (I : Interp) (ρ : Env I.U), (∀ x s, I.dom s (ρ x s)) → eval I t' ρ = eval I t (I.substEnv m ρ)

/-- A name without the quotes at its end. -/
def nameRoot (x : String) : List Char := (x.toList.reverse.dropWhile (· == '\'')).reverse

mutual
/-- A variable that differs from a bound variable only in its sort or in the quotes at the end of its name is not used
in the scope of that bound variable, and no two variables of one list differ only in this way. Terms with `let` are
excluded. -/
def Term.quoteSafe : Term → Bool
  | .const _ => true
  | .var _ _ => true
  | .app f as => f.quoteSafe && Term.quoteSafeL as
  | .op _ as => Term.quoteSafeL as
  | .binder _ bs t => decide ((bs.map fun b => nameRoot b.1).Nodup) &&
      (t.fv.all fun v => bs.all fun b => decide (nameRoot v.1 = nameRoot b.1 → v = b)) && t.quoteSafe
  | .let_ _ _ => false
  | .paramOp _ ps as => Term.quoteSafeL ps && Term.quoteSafeL as
/-- The same for lists of terms. -/
def Term.quoteSafeL : List Term → Bool
  | [] => true
  | t :: ts => t.quoteSafe && Term.quoteSafeL ts
end

theorem Term.quoteSafeL_iff {ts : List Term} : Term.quoteSafeL ts = true ↔ ∀ t ∈ ts, t.quoteSafe = true := by
  induction ts with
  | nil => simp [Term.quoteSafeL]
  | cons t ts ih => simp [Term.quoteSafeL, ih]

theorem Term.quoteSafe_binder {b : Binder} {bs : List (String × Srt)} {t : Term} :
    (Term.binder b bs t).quoteSafe = true ↔ (bs.map fun b => nameRoot b.1).Nodup ∧
      (∀ v ∈ t.fv, ∀ b ∈ bs, nameRoot v.1 = nameRoot b.1 → v = b) ∧ t.quoteSafe = true := by
  simp only [Term.quoteSafe, Bool.and_eq_true, decide_eq_true_eq, List.all_eq_true, and_assoc]

theorem Term.noLet_of_quoteSafe (t : Term) : t.quoteSafe = true → t.noLet = true := by
  induction t using Term.ind with
  | const c => intros; rfl
  | var x s => intros; rfl
  | app f as ihf ih =>
    simp only [Term.quoteSafe, Term.noLet, Bool.and_eq_true, Term.quoteSafeL_iff, Term.noLetL_iff]
    exact fun h => ⟨ihf h.1, fun a ha => ih a ha (h.2 a ha)⟩
  | op o as ih =>
    simp only [Term.quoteSafe, Term.noLet, Term.quoteSafeL_iff, Term.noLetL_iff]
    exact fun h a ha => ih a ha (h a ha)
  | binder b bs t ih => exact fun h => ih (Term.quoteSafe_binder.1 h).2.2
  | let_ bs t _ _ => simp [Term.quoteSafe]
  | paramOp o ps as ihp ih =>
    simp only [Term.quoteSafe, Term.noLet, Bool.and_eq_true, Term.quoteSafeL_iff, Term.noLetL_iff]
    exact fun h => ⟨fun a ha => ihp a ha (h.1 a ha), fun a ha => ih a ha (h.2 a ha)⟩

end Carcara
