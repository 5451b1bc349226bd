import Verif.Model.FreeVars
import Verif.Model.Base
import Verif.Model.Polyeq

/-!
# Substitutions

Model of `ast/substitution.rs`. Maps and the memo table are association lists (`IndexMap`). Substitution into sorts
(`Term::Sort`, used for polymorphic definitions only) is left out.

`apply` recurses on a renamed copy of the body of a binder, so the model carries a step counter; running out of it is
an error that `apply` never returns. `c25_substitution_partial` includes that the size of the term is enough.
-/

namespace Carcara

/-- `Term::is_var`. -/
def Term.isVar : Term → Bool
  | .var _ _ => true
  | _ => false

/-- `Term::as_var`. -/
def Term.asVar : Term → Option String
  | .var x _ => some x
  | _ => none

/-- `ast/substitution.rs:38-49`. -/
structure Subst where
  /-- the mappings -/
  map : List (Term × Term)
  /-- names to be renamed when bound; computed on demand -/
  ren : Option (List String)
  /-- memo table -/
  cache : List (Term × Term)
deriving DecidableEq

/-- The names collected in `ast/substitution.rs:172-185`. -/
def namesOf : List (Term × Term) → List String
  | [] => []
  | (x, t) :: m =>
    if x = t then namesOf m
    else (freeVars t).map (·.1) ++ x.asVar.toList ++ namesOf m

namespace Subst

/-- `ast/substitution.rs:53-59`. -/
def empty : Subst := ⟨[], none, []⟩

/-- The checks of `ast/substitution.rs:76-86`. -/
def checkMap : List (Term × Term) → Res Unit
  | [] => .ok ()
  | (k, v) :: m => if k.isVar then (if sortOf k = sortOf v then checkMap m else err) else err

/-- `ast/substitution.rs:72-93`. -/
def new (m : List (Term × Term)) : Res Subst := do
  checkMap m
  .ok ⟨m, none, []⟩

/-- `ast/substitution.rs:102-138`. -/
def insert (σ : Subst) (x t : Term) : Res Subst :=
  match x with
  | .var y s =>
    if sortOf x = sortOf t then
      .ok { map := mapInsert σ.map x t
            ren := σ.ren.map fun l => if x = t then l else setInsert (setExtend l ((freeVars t).map (·.1))) y
            cache := σ.cache.filter fun e => decide ((y, s) ∉ freeVars e.1) }
    else err
  | _ => err

/-- `ast/substitution.rs:144-149`. -/
def remove (σ : Subst) (x : Term) : Subst :=
  if (mapGet σ.map x).isSome then { σ with map := mapRemove σ.map x, ren := none } else σ

/-- `ast/substitution.rs:153-187`. -/
def computeRen (σ : Subst) : Subst :=
  match σ.ren with
  | some _ => σ
  | none => { σ with ren := some (setOf (namesOf σ.map)) }

/-- `ast/substitution.rs:274-295 can_skip_instead_of_renaming`. -/
def canSkip (σ : Subst) (bs : List (String × Srt)) : Res Bool :=
  match σ.map with
  | [(k, _)] => do
    let x ← orPanic k.asVar
    let l ← orPanic σ.ren
    .ok (match bs.filter fun b => decide (b.1 ∈ l) with
      | [b] => decide (b.1 = x)
      | _ => false)
  | _ => .ok false

end Subst

/-- `ast/substitution.rs:363-371`: quotes are appended until the name is new. The counter bounds the number of
quotes. -/
def freshLoop (avoid : List String) : Nat → String → String
  | 0, x => x
  | n + 1, x => if x ∈ avoid then freshLoop avoid n (x.push '\'') else x

/-- The name chosen for a bound variable. -/
def freshName (avoid : List String) (x : String) : String := freshLoop avoid (avoid.length + 1) x

/-- A computation that uses and extends the memo table of a substitution. -/
abbrev Applier := Subst → Term → Res (Term × Subst)

/-- `sequence.iter().map(|a| self.apply(pool, a)).collect()`. -/
def applyList (f : Applier) : Subst → List Term → Res (List Term × Subst)
  | σ, [] => .ok ([], σ)
  | σ, t :: ts => do
    let (t', σ) ← f σ t
    let (ts', σ) ← applyList f σ ts
    .ok (t' :: ts', σ)

/-- `ast/substitution.rs:339-406 rename_binding_list` for a list of sorted variables. `new` is the substitution built
so far, `names` the names introduced so far. -/
def renameVars (avoid : List String) : List (String × Srt) → Subst → List String →
    Res (List (String × Srt) × Subst)
  | [], new, _ => .ok ([], new)
  | (x, s) :: bs, new, names => do
    let y := freshName (names ++ avoid) x
    let new' ← (if y = x then .ok new else new.insert (.var x s) (.var y s) : Res Subst)
    let names' := if y = x then names else names ++ [y]
    let (bs', r) ← renameVars avoid bs new' names'
    .ok ((y, s) :: bs', r)

/-- `ast/substitution.rs:339-406 rename_binding_list` for a list of `let` bindings. The values go through the renaming
built so far, not through the substitution itself. -/
def renameLet (f : Applier) (avoid : List String) : List (String × Term) → Subst → List String →
    Res (List (String × Term) × Subst)
  | [], new, _ => .ok ([], new)
  | (x, t) :: bs, new, names => do
    let s ← orPanic (sortOf t)
    let y := freshName (names ++ avoid) x
    let new' ← (if y = x then .ok new else new.insert (.var x s) (.var y s) : Res Subst)
    let names' := if y = x then names else names ++ [y]
    let (t', new'') ← f new' t
    let (bs', r) ← renameLet f avoid bs new'' names'
    .ok ((y, t') :: bs', r)

/-- The body of a binder: renamed first if necessary (`ast/substitution.rs:209-216`, `325-333`). -/
def applyBody (f : Applier) (σ ren : Subst) (body : Term) : Res (Term × Subst) :=
  if ren.map.isEmpty then f σ body
  else do
    let (renamed, _) ← f ren body
    f σ renamed

/-- `ast/substitution.rs:298-334 apply_to_binder`. -/
def applyBinder (f : Applier) (σ : Subst) (b : Binder) (bs : List (String × Srt)) (body : Term) :
    Res (Term × Subst) := do
  let σ := σ.computeRen
  if ← σ.canSkip bs then .ok (.binder b bs body, σ)
  else do
    let l ← orPanic σ.ren
    let (bs', ren) ← renameVars l bs .empty []
    let (body', σ) ← applyBody f σ ren body
    .ok (.binder b bs' body', σ)

/-- `ast/substitution.rs:206-219`: `should_be_renamed` is not computed here, `unwrap` panics if it is missing. -/
def applyLet (f : Applier) (σ : Subst) (bs : List (String × Term)) (body : Term) : Res (Term × Subst) :=
  match bs with
  | [] => do
    let (body', σ) ← f σ body
    .ok (.let_ [] body', σ)
  | _ => do
    let l ← orPanic σ.ren
    let (bs', ren) ← renameLet f l bs .empty []
    let (body', σ) ← applyBody f σ ren body
    .ok (.let_ bs' body', σ)

/-- The cases of `ast/substitution.rs:202-262`. -/
def applyNode (f : Applier) (σ : Subst) (t : Term) : Res (Term × Subst) :=
  match t with
  | .app g as => do
    let (as', σ) ← applyList f σ as
    let (g', σ) ← f σ g
    .ok (.app g' as', σ)
  | .op o as => do
    let (as', σ) ← applyList f σ as
    .ok (.op o as', σ)
  | .binder b bs body => applyBinder f σ b bs body
  | .let_ bs body => applyLet f σ bs body
  | .paramOp o ps as => do
    let (as', σ) ← applyList f σ as
    .ok (.paramOp o ps as', σ)
  | .const _ => .ok (t, σ)
  | .var _ _ => .ok (t, σ)

/-- `ast/substitution.rs:190-272 apply`. -/
def applyGo : Nat → Applier
  | 0, _, _ => err
  | n + 1, σ, t =>
    match mapGet σ.cache t with
    | some u => .ok (u, σ)
    | none => match mapGet σ.map t with
      | some u => .ok (u, σ)
      | none => do
        let (u, σ) ← applyNode (applyGo n) σ t
        .ok (u, { σ with cache := mapInsert σ.cache t u })

/-- `ast/substitution.rs:190 apply`. -/
def Subst.apply (σ : Subst) (t : Term) : Res (Term × Subst) := applyGo t.size σ t

end Carcara
