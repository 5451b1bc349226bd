import Verif.Spec.Semantics

/-!
# Specification: free variables

The occurrences that are not captured by a binder. A quantifier binds the variables of its list in its body; a `let`
binds its names, at the sorts of their values, in its body but not in the values.
-/

namespace Carcara

mutual
/-- Free variables of a term (with repetitions). -/
def Term.fv : Term → List (String × Srt)
  | .const _ => []
  | .var x s => [(x, s)]
  | .app f as => f.fv ++ Term.fvL as
  | .op _ as => Term.fvL as
  | .binder _ bs t => t.fv.filter fun v => decide (v ∉ bs)
  | .let_ bs t => Term.fvB bs ++ t.fv.filter fun v => !(bs.any fun b => decide (b.1 = v.1 ∧ sortOf b.2 = some v.2))
  | .paramOp _ ps as => Term.fvL ps ++ Term.fvL as
/-- Free variables of a list of terms. -/
def Term.fvL : List Term → List (String × Srt)
  | [] => []
  | t :: ts => t.fv ++ Term.fvL ts
/-- Free variables of the values of a `let` binding list. -/
def Term.fvB : List (String × Term) → List (String × Srt)
  | [] => []
  | (_, t) :: bs => t.fv ++ Term.fvB bs
end

mutual
/-- The term contains no `let`. -/
def Term.noLet : Term → Bool
  | .const _ => true
  | .var _ _ => true
  | .app f as => f.noLet && Term.noLetL as
  | .op _ as => Term.noLetL as
  | .binder _ _ t => t.noLet
  | .let_ _ _ => false
  | .paramOp _ ps as => Term.noLetL ps && Term.noLetL as
/-- The terms contain no `let`. -/
def Term.noLetL : List Term → Bool
  | [] => true
  | t :: ts => t.noLet && Term.noLetL ts
end

mutual
/-- Names of the variables bound by quantifiers, choice and lambda anywhere in the term. -/
def Term.boundNames : Term → List String
  | .const _ => []
  | .var _ _ => []
  | .app f as => f.boundNames ++ Term.boundNamesL as
  | .op _ as => Term.boundNamesL as
  | .binder _ bs t => bs.map (·.1) ++ t.boundNames
  | .let_ bs t => bs.map (·.1) ++ Term.boundNamesB bs ++ t.boundNames
  | .paramOp _ ps as => Term.boundNamesL ps ++ Term.boundNamesL as
/-- Bound names of a list of terms. -/
def Term.boundNamesL : List Term → List String
  | [] => []
  | t :: ts => t.boundNames ++ Term.boundNamesL ts
/-- Bound names of the values of a `let` binding list. -/
def Term.boundNamesB : List (String × Term) → List String
  | [] => []
  | (_, t) :: bs => t.boundNames ++ Term.boundNamesB bs
end

mutual
/-- No binder rebinds a name that is already bound around it or in its own list; `S` are the names bound around the
term. Terms with `let` are excluded. -/
def Term.noShadow (S : List String) : Term → Bool
  | .const _ => true
  | .var _ _ => true
  | .app f as => f.noShadow S && Term.noShadowL S as
  | .op _ as => Term.noShadowL S as
  | .binder _ bs t => decide ((bs.map (·.1)).Nodup) && (bs.all fun b => decide (b.1 ∉ S)) &&
      t.noShadow (bs.map (·.1) ++ S)
  | .let_ _ _ => false
  | .paramOp _ ps as => Term.noShadowL S ps && Term.noShadowL S as
/-- The same for lists of terms. -/
def Term.noShadowL (S : List String) : List Term → Bool
  | [] => true
  | t :: ts => t.noShadow S && Term.noShadowL S ts
end

theorem Term.mem_fvL {v : String × Srt} {ts : List Term} : v ∈ Term.fvL ts ↔ ∃ t ∈ ts, v ∈ t.fv := by
  induction ts with
  | nil => simp [Term.fvL]
  | cons t ts ih => simp [Term.fvL, ih]

theorem Term.mem_fvB {v : String × Srt} {bs : List (String × Term)} : v ∈ Term.fvB bs ↔ ∃ b ∈ bs, v ∈ b.2.fv := by
  induction bs with
  | nil => simp [Term.fvB]
  | cons b bs ih => obtain ⟨x, t⟩ := b; simp [Term.fvB, ih]

theorem Term.noLetL_iff {ts : List Term} : Term.noLetL ts = true ↔ ∀ t ∈ ts, t.noLet = true := by
  induction ts with
  | nil => simp [Term.noLetL]
  | cons t ts ih => simp [Term.noLetL, ih]

theorem Term.mem_boundNamesL {x : String} {ts : List Term} :
    x ∈ Term.boundNamesL ts ↔ ∃ t ∈ ts, x ∈ t.boundNames := by
  induction ts with
  | nil => simp [Term.boundNamesL]
  | cons t ts ih => simp [Term.boundNamesL, ih]

theorem Term.noShadowL_iff {S : List String} {ts : List Term} :
    Term.noShadowL S ts = true ↔ ∀ t ∈ ts, t.noShadow S = true := by
  induction ts with
  | nil => simp [Term.noShadowL]
  | cons t ts ih => simp [Term.noShadowL, ih]

theorem Term.mem_fv_binder {v : String × Srt} {b : Binder} {bs : List (String × Srt)} {t : Term} :
    v ∈ (Term.binder b bs t).fv ↔ v ∈ t.fv ∧ v ∉ bs := by
  simp [Term.fv]

end Carcara
