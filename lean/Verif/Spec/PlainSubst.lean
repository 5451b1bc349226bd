import Verif.Spec.Context

/-!
# Specification: replacing variables in terms without binders

For these terms there is nothing to rename, so what a substitution gives is a simultaneous replacement. The anchors around a step say by what.
-/

namespace Carcara

mutual
/-- A term without binders and `let`. -/
def Term.plain : Term → Bool
  | .const _ => true
  | .var _ _ => true
  | .app f as => f.plain && Term.plainL as
  | .op _ as => Term.plainL as
  | .binder _ _ _ => false
  | .let_ _ _ => false
  | .paramOp _ _ as => Term.plainL as
/-- The same for lists of terms. -/
def Term.plainL : List Term → Bool
  | [] => true
  | t :: ts => t.plain && Term.plainL ts
end

mutual
/-- Replace all variables of a term without binders at once. -/
def Term.put (f : String × Srt → Term) : Term → Term
  | .const c => .const c
  | .var x s => f (x, s)
  | .app g as => .app (g.put f) (Term.putL f as)
  | .op o as => .op o (Term.putL f as)
  | .binder b bs t => .binder b bs t
  | .let_ bs t => .let_ bs t
  | .paramOp o ps as => .paramOp o ps (Term.putL f as)
/-- The same for lists of terms. -/
def Term.putL (f : String × Srt → Term) : List Term → List Term
  | [] => []
  | t :: ts => t.put f :: Term.putL f ts
end

/-- What a variable stands for after the anchor arguments `as`, if it stood for `f` before them: a declared variable stands for itself, an assigned
one for the value, in which variables stand for what they stood for before. -/
def anchorValue (f : String × Srt → Term) : List AnchorArg → String × Srt → Term
  | [] => f
  | .var x s :: as => anchorValue (fun v => if v = (x, s) then .var x s else f v) as
  | .assign x s t :: as => anchorValue (fun v => if v = (x, s) then t.put f else f v) as

/-- What a variable stands for inside nested anchors (outermost first). -/
def anchorsValue (Γ : List (List AnchorArg)) : String × Srt → Term := anchorValue (fun v => .var v.1 v.2) Γ.flatten

/-- Values are well-sorted and without binders, and declared variables were not assigned before. -/
def AnchorArg.plainAfter (A : List AnchorArg) : AnchorArg → Bool
  | .var x s => keptVar A (x, s)
  | .assign _ s t => decide (sortOf t = some s) && t.plain

/-- The same for lists of arguments after the arguments `A`. -/
def plainArgs : List AnchorArg → List AnchorArg → Bool
  | _, [] => true
  | A, a :: as => a.plainAfter A && plainArgs (A ++ [a]) as

/-- The same for nested anchors (outermost first). -/
def PlainAnchors (Γ : List (List AnchorArg)) : Prop := plainArgs [] Γ.flatten = true

end Carcara
