import Verif.Model.Simplify
import Verif.Model.Sorts

/-!
# `aci_simp`

`checker/rules/simplification.rs:742-885`. The map from terms to results that `apply_aci_simp` keeps is part of
the model: it is created once and used for both sides of the equality, and it is indexed by the term alone although
the result depends on the operator.

`.dedup()` in line 874 is the project's own iterator (`utils.rs:28-65`), which drops every element that has been
seen before, not only neighbours.
-/

namespace Carcara

/-- `simplification.rs:743-757 is_assoc`. -/
def aciAssoc : Op → Bool
  | .and | .or | .add | .mult | .bvAdd | .bvOr | .bvMul | .bvAnd | .bvXor | .bvConcat => true
  | _ => false

/-- The sort of `args[0]` of an application (`simplification.rs:769,777,785,793,803`); indexing an empty vector
panics. -/
def headSort : List Term → Res Srt
  | [] => panic
  | a :: _ => orPanic (sortOf a)

/-- `simplification.rs:759-813 identity_of_op`; the arguments are those of the term that is passed. -/
def aciIdentity (o : Op) (as : List Term) : Res (Option Term) :=
  match o with
  | .or => pure (some .fls)
  | .and => pure (some .tru)
  | .add => do
    match ← headSort as with
    | .int => pure (some (.const (.int 0)))
    | .real => pure (some (.const (.real 0)))
    | _ => panic
  | .mult => do
    match ← headSort as with
    | .int => pure (some (.const (.int 1)))
    | .real => pure (some (.const (.real 1)))
    | _ => panic
  | .bvAdd | .bvOr | .bvXor => do
    match ← headSort as with
    | .bv w => pure (some (.const (.bv 0 w)))
    | _ => panic
  | .bvMul => do
    match ← headSort as with
    | .bv w => pure (some (.const (.bv 1 w)))
    | _ => panic
  | .bvAnd => do
    match ← headSort as with
    | .bv w => pure (some (.const (.bv (2 ^ w - 1) w)))
    | _ => panic
  | _ => pure none

/-- The map from terms to their results. -/
abbrev AciCache := List (Term × Term)

/-- `simplification.rs:874-881`. -/
def aciBuild (o : Op) (e : Option Term) (as : List Term) : Term :=
  match (dedup as).filter (fun t => some t ≠ e) with
  | [a] => a
  | as => .op o as

mutual
/-- `simplification.rs:848-886 apply_aci_simp` for one of the operators of `is_assoc`. -/
def aciTerm (o : Op) (e : Option Term) (cache : AciCache) (t : Term) : AciCache × Term :=
  match mapGet cache t with
  | some u => (cache, u)
  | none =>
    match t with
    | .op o' as =>
      if o' = o then
        let r := aciTermL o e cache as
        let u := aciBuild o e r.2
        (mapInsert r.1 (.op o' as) u, u)
      else (mapInsert cache (.op o' as) (.op o' as), .op o' as)
    | t => (mapInsert cache t t, t)

/-- `simplification.rs:864-873`: the arguments one after the other, each with the map the previous ones left. -/
def aciTermL (o : Op) (e : Option Term) (cache : AciCache) : List Term → AciCache × List Term
  | [] => (cache, [])
  | t :: ts =>
    let r := aciTerm o e cache t
    let rs := aciTermL o e r.1 ts
    (rs.1, argsOrSelf o r.2 ++ rs.2)
end

/-- `simplification.rs:820-825` and `826-832`, with `855-857`: one side of the equality. -/
def aciSide (cache : AciCache) : Term → Res (AciCache × Term)
  | .op o as => do
    let e ← aciIdentity o as
    pure (if aciAssoc o then aciTerm o e cache (.op o as) else (cache, .op o as))
  | t => pure (cache, t)

/-- `simplification.rs:833-845`: the comparison of the two results. -/
def aciCompare : Term → Term → Res Unit
  | .op o as, .op o' bs =>
    if aciAssoc o ∧ o ≠ .bvConcat ∧ o = o' then
      require ((MultiSet.ofList as).eq (MultiSet.ofList bs) = true)
    else assertEq (.op o as) (.op o' bs)
  | l, r => assertEq l r

/-- `simplification.rs:815-846 aci_simp`. -/
def aciSimp : Rule := fun conclusion _ _ => do
  let c0 ← get1 conclusion
  let (l, r) ← match2 .equals c0
  let (cache, l') ← aciSide [] l
  let (_, r') ← aciSide cache r
  aciCompare l' r'

end Carcara
