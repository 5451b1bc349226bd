import Verif.Spec.Semantics
import Verif.Spec.Proof
import Verif.Spec.FreeVars
import Verif.Spec.Substitution

/-!
# Specification: what an anchor means

Inside a subproof the variables of its anchor have new values: any value for a variable argument, the value of the
given term for an assignment. The arguments are read one after the other.
-/

namespace Carcara

/-- The variable an anchor argument declares. -/
def AnchorArg.key : AnchorArg → String × Srt
  | .var x s => (x, s)
  | .assign x s _ => (x, s)

/-- What the parser guarantees: assigned values have the sort of the variable. -/
def AnchorArg.ok : AnchorArg → Bool
  | .var _ _ => true
  | .assign _ s t => decide (sortOf t = some s)

/-- The environments inside an anchor, given the one outside. -/
def Interp.Enters (I : Interp) : List AnchorArg → Env I.U → Env I.U → Prop
  | [], ρ, ρ' => ρ' = ρ
  | .var x s :: as, ρ, ρ' => ∃ v, I.dom s v ∧ I.Enters as (ρ.set x s v) ρ'
  | .assign x s t :: as, ρ, ρ' => I.Enters as (ρ.set x s (eval I t ρ)) ρ'

/-- The environments inside nested anchors (innermost first). -/
def Interp.ReachR (I : Interp) : List (List AnchorArg) → Env I.U → Prop
  | [], ρ => ∀ x s, I.dom s (ρ x s)
  | as :: Γ, ρ => ∃ ρ0, I.ReachR Γ ρ0 ∧ I.Enters as ρ0 ρ

/-- The environments inside nested anchors (outermost first). -/
def Interp.Reach (I : Interp) (Γ : List (List AnchorArg)) (ρ : Env I.U) : Prop := I.ReachR Γ.reverse ρ

/-- A formula is true. -/
def Interp.True (I : Interp) (ρ : Env I.U) (t : Term) : Prop := (eval I t ρ).T

/-- A clause is true. -/
def Interp.SatC (I : Interp) (ρ : Env I.U) (c : List Term) : Prop := ∃ l ∈ c, I.True ρ l

/-- The assumptions among the commands of a subproof. -/
def assumptions (cs : List Command) : List Term :=
  cs.filterMap fun | .assume _ t => some t | _ => none

/-- A step inside the anchors `Γ` is sound: wherever its premises are true, so is its conclusion. -/
def LocalSound (Γ : List (List AnchorArg)) (premises : List (List Term)) (conclusion : List Term) : Prop :=
  ∀ (I : Interp) (ρ : Env I.U), (∀ x s, I.dom s (ρ x s)) → I.Reach Γ ρ → (∀ p ∈ premises, I.SatC ρ p) →
    I.SatC ρ conclusion

/-- A step that closes a subproof with the anchor `as` and the assumptions `ts` inside the anchors `Γ` is sound: if the
last clause of the subproof is true wherever the assumptions are, the conclusion is true outside. The premises may come
from inside or outside. -/
def CloseSound (Γ : List (List AnchorArg)) (as : List AnchorArg) (ts : List Term) (previous : List Term)
    (premises : List (List Term)) (conclusion : List Term) : Prop :=
  ∀ (I : Interp) (ρ0 : Env I.U), (∀ x s, I.dom s (ρ0 x s)) → I.Reach Γ ρ0 →
    (∀ p ∈ premises, I.SatC ρ0 p ∨ ∀ ρ, I.Enters as ρ0 ρ → (∀ t ∈ ts, I.True ρ t) → I.SatC ρ p) →
    (∀ ρ, I.Enters as ρ0 ρ → (∀ t ∈ ts, I.True ρ t) → I.SatC ρ previous) →
    I.SatC ρ0 conclusion

/-- No value assigned so far mentions a variable, apart from an assignment of that variable to itself. -/
def freshFor (A : List AnchorArg) (k : String × Srt) : Bool :=
  A.all fun
    | .var _ _ => true
    | .assign y s t => decide (k ∈ t.fv → t = .var y s)

/-- No assignment changes the value of a variable. -/
def keptVar (A : List AnchorArg) (k : String × Srt) : Bool :=
  A.all fun
    | .var _ _ => true
    | .assign y s t => decide ((y, s) = k → t = .var y s)

/-- An anchor argument does not interfere with the arguments `A` before it: a declared variable is neither assigned
before nor used in an earlier value, an assigned variable is not used in an earlier value nor in its own. Assigning a
variable to itself is always allowed. Values are safe for substitution. -/
def AnchorArg.fresh (A : List AnchorArg) : AnchorArg → Bool
  | .var x s => keptVar A (x, s) && freshFor A (x, s)
  | .assign x s t => decide (sortOf t = some s) && t.quoteSafe &&
      (decide (t = .var x s) || (decide ((x, s) ∉ t.fv) && freshFor A (x, s)))

/-- No argument of nested anchors interferes with the ones before it. -/
def freshArgs : List AnchorArg → List AnchorArg → Bool
  | _, [] => true
  | A, a :: as => a.fresh A && freshArgs (A ++ [a]) as

/-- The same for nested anchors (outermost first). -/
def FreshAnchors (Γ : List (List AnchorArg)) : Prop := freshArgs [] Γ.flatten = true

/-- The premises of a step do not mention variables declared by anchors that are entered between them and the step. -/
def Step.freshPremises (F : Frames) (Γ : List (List AnchorArg)) (s : Step) : Prop :=
  ∀ p ∈ s.premises, ∀ c cl, F.lookup p = some c → c.clause = .ok cl →
    ∀ t ∈ cl, ∀ as ∈ Γ.drop p.1, ∀ a ∈ as, a.key ∉ t.fv

end Carcara
