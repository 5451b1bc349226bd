import Verif.Model.Sorts
import Verif.Model.Collections

/-!
# Free variables as the checker computes them

Model of `ast/pool/mod.rs:385-445 free_vars_with_priorities`. The table that memoises the results is left out: it maps
a term to the result of the same computation. Values of `let` bindings always have a sort in the code; where `sortOf`
is undefined the model removes nothing.
-/

namespace Carcara

/-- `set.extend(other)`. -/
def setExtend {α : Type} [DecidableEq α] (s t : List α) : List α := t.foldl setInsert s

/-- Repeated `swap_remove`. -/
def setRemoveAll {α : Type} [DecidableEq α] (s : List α) (xs : List α) : List α :=
  xs.foldl (fun s x => (setRemove s x).1) s

/-- The variables bound by a `let`, at the sorts of their values (`ast/pool/mod.rs:426-429`). -/
def letBound : List (String × Term) → List (String × Srt)
  | [] => []
  | (x, t) :: bs => match sortOf t with
    | some s => (x, s) :: letBound bs
    | none => letBound bs

mutual
/-- `ast/pool/mod.rs:385-445`. The values of a `let` and the indices of an indexed operator are not visited. -/
def freeVars : Term → List (String × Srt)
  | .app f as => freeVarsL (freeVars f) as
  | .op _ as => freeVarsL [] as
  | .binder _ bs t => setRemoveAll (freeVars t) bs
  | .let_ bs t => setRemoveAll (freeVars t) (letBound bs)
  | .var x s => [(x, s)]
  | .const _ => []
  | .paramOp _ _ as => freeVarsL [] as
/-- The loop over the arguments. -/
def freeVarsL : List (String × Srt) → List Term → List (String × Srt)
  | set, [] => set
  | set, a :: as => freeVarsL (setExtend set (freeVars a)) as
end

end Carcara
