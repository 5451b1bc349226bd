import Verif.Model.Substitution
import Verif.Model.Cnf

/-!
# Model of `rare_rewrite` (`rare/mod.rs`, `checker/rules/rare.rs`, `ast/rare_rules.rs`)

A user-supplied rule has parameters, premises and a conclusion. A step gives terms for the parameters; they are put into
the premises and the conclusion, and the result is rewritten by five fixed equations.
-/

namespace Carcara

/-! ## Patterns -/

/-- `ast/rare_rules.rs:102-108 enum RewriteTerm`. -/
inductive MetaTerm where
  | many (o : Op) (x : String)
  | op (o : Op) (ps : List MetaTerm)
  | var (x : String)
  | const (c : Const)

/-- `rare/mod.rs:18-22 enum Trace`. -/
inductive MetaTrace where
  | one (t : Term)
  | many (ts : List Term)
deriving DecidableEq

/-- `rare/mod.rs:131-135`: what takes the place of an argument. -/
def MetaTrace.toList : MetaTrace → List Term
  | .one t => [t]
  | .many ts => ts

mutual
/-- `rare/mod.rs:28-70 match_meta_terms`. -/
def matchMeta : MetaTerm → Term → List (String × MetaTrace) → Option (List (String × MetaTrace))
  | .many o x, .op o' ts, m => if o = o' then some (mapInsert m x (.many ts)) else none
  | .op o ps, .op o' ts, m => if o = o' ∧ ts.length = ps.length then matchMetaL ps ts m else none
  | .var x, t, m => some (mapInsert m x (.one t))
  | .const c, .const c', m => if c = c' then some m else none
  | _, _, _ => none
/-- The loop of `rare/mod.rs:50-57`; the lists have the same length. -/
def matchMetaL : List MetaTerm → List Term → List (String × MetaTrace) → Option (List (String × MetaTrace))
  | p :: ps, t :: ts, m => (matchMeta p t m).bind (matchMetaL ps ts)
  | _, _, m => some m
end

mutual
/-- `rare/mod.rs:73-99 reconstruct_meta_terms`. -/
def rebuildMeta (m : List (String × MetaTrace)) : MetaTerm → Res MetaTrace
  | .many _ _ => panic
  | .op o ps => do
    let ts ← rebuildMetaL m ps
    return .one (.op o ts)
  | .var x => orPanic (mapGet m x)
  | .const c => .ok (.one (.const c))
/-- `rare/mod.rs:82-87`: lists of terms are dropped. -/
def rebuildMetaL (m : List (String × MetaTrace)) : List MetaTerm → Res (List Term)
  | [] => .ok []
  | p :: ps => do
    let k ← rebuildMeta m p
    let ts ← rebuildMetaL m ps
    return (match k with
      | .one t => t :: ts
      | .many _ => ts)
end

/-- `rare/mod.rs:8-16 get_rules`. -/
def metaRules : List (MetaTerm × MetaTerm) :=
  [(.many .rareList "x", .var "x"),
   (.op .or [.op .tru []], .op .tru []),
   (.op .or [], .op .tru []),
   (.op .and [], .op .fls []),
   (.op .and [.op .fls []], .op .fls [])]

/-- `rare/mod.rs:101-114 check_rewrites`. -/
def checkRewrites (t : Term) : List (MetaTerm × MetaTerm) → Res (Option MetaTrace)
  | [] => .ok none
  | (l, r) :: rs => match matchMeta l t [] with
    | some m => do
      let k ← rebuildMeta m r
      return some k
    | none => checkRewrites t rs

/-! ## Rewriting -/

/-- `rare/mod.rs:130-139`, and the same code in lines 156-165 and 178-187: an argument that matches an equation is replaced, the
others are rewritten. -/
def rewriteArgs (f : Term → Res Term) : List Term → Res (List Term)
  | [] => .ok []
  | t :: ts => do
    let k ← checkRewrites t metaRules
    let us ← (match k with
      | some k => .ok k.toList
      | none => (f t).map fun u => [u] : Res (List Term))
    let vs ← rewriteArgs f ts
    return us ++ vs

/-- The loops of `rare/mod.rs:209-216`. -/
def rewriteEach (f : Term → Res Term) : List Term → Res (List Term)
  | [] => .ok []
  | t :: ts => do
    let u ← f t
    let us ← rewriteEach f ts
    return u :: us

/-- The cases of `rare/mod.rs:121-223`. -/
def rewriteNode (f : Term → Res Term) (t : Term) : Res Term :=
  match t with
  | .var _ _ => .ok t
  | .const _ => .ok t
  | .app g as => do
    let g' ← f g
    let as' ← rewriteArgs f as
    if .app g' as' = t then return .app g' as' else f (.app g' as')
  | .op o as => do
    let k ← checkRewrites t metaRules
    match k with
    | some (.one u) => return u
    | some (.many _) => do
      let as' ← rewriteArgs f as
      if .op o as' = t then return .op o as' else f (.op o as')
    | none => do
      let as' ← rewriteArgs f as
      let k' ← checkRewrites (.op o as') metaRules
      if k'.isSome then f (.op o as') else return .op o as'
  | .binder b bs u => do
    let u' ← f u
    return .binder b bs u'
  | .let_ bs u => do
    let u' ← f u
    return .let_ bs u'
  | .paramOp o ps as => do
    let ps' ← rewriteEach f ps
    let as' ← rewriteEach f as
    return .paramOp o ps' as'

/-- `rare/mod.rs:116-224 rewrite_meta_terms`. The function calls itself on terms it has built, so the model carries a step
counter. Running out of steps is an error that the code cannot return; `c56_terminates` shows that `metaSize` steps are
enough. -/
def rewriteGo : Nat → Term → Res Term
  | 0, _ => err
  | n + 1, t => rewriteNode (rewriteGo n) t

mutual
/-- The number of steps provided. -/
def Term.metaSize : Term → Nat
  | .const _ => 1
  | .var _ _ => 1
  | .app f as => f.metaSize + Term.metaSizeL as + 1
  | .op o as => Term.metaSizeL as + (if o = .and ∨ o = .or then 2 else 1)
  | .binder _ _ t => t.metaSize + 1
  | .let_ _ t => t.metaSize + 1
  | .paramOp _ ps as => Term.metaSizeL ps + Term.metaSizeL as + 1
/-- The same for lists of terms. -/
def Term.metaSizeL : List Term → Nat
  | [] => 0
  | t :: ts => t.metaSize + Term.metaSizeL ts
end

/-- `rare/mod.rs:116 rewrite_meta_terms` with the equations of `get_rules`. -/
def rewriteMeta (t : Term) : Res Term := rewriteGo t.metaSize t

/-! ## The rule -/

/-- `ast/rare_rules.rs:16-20 TypeParameter`. The sort variable `@T` is represented by an atomic sort; `poly` says whether
`Sort::is_polymorphic` holds of the sort. The attribute (`:list` or none) is not used by the checker. -/
structure RareParam where
  sort : Srt
  poly : Bool
deriving DecidableEq

/-- `ast/rare_rules.rs:22-30 RuleDefinition`. -/
structure RareRule where
  params : List (String × RareParam)
  args : List String
  premises : List Term
  conclusion : Term

/-- `checker/rules/rare.rs:42-48`: the mapping, built from the last argument to the first. -/
def rareMap (params : List (String × RareParam)) :
    List String → List Term → List (Term × Term) → Res (List (Term × Term))
  | [], _, m => .ok m
  | _ :: _, [], _ => panic
  | x :: xs, t :: ts, m => do
    let p ← orPanic (mapGet params x)
    rareMap params xs ts (mapInsert m (.var x p.sort) t)

/-- `ast/substitution.rs:78`: the sort of the key is polymorphic. -/
def rarePoly (params : List (String × RareParam)) (k : Term) : Bool :=
  match k with
  | .var x _ => ((mapGet params x).map (·.poly)).getD false
  | _ => false

/-- `ast/substitution.rs:76-84`: the sorts of key and value agree, unless the sort of the key is polymorphic. All keys are
variables. -/
def rareSorts (params : List (String × RareParam)) : List (Term × Term) → Res Unit
  | [] => .ok ()
  | (k, v) :: m => do
    require (sortOf k = sortOf v ∨ rarePoly params k = true)
    rareSorts params m

/-- `checker/rules/rare.rs:59-71`. -/
def rarePremises : Subst → List Term → List (List Term) → Res Subst
  | σ, r :: rs, p :: ps => do
    let t ← get1 p
    let (u, σ) ← σ.apply r
    let u' ← rewriteMeta u
    assertEq t u'
    rarePremises σ rs ps
  | σ, _, _ => .ok σ

/-- `checker/rules/rare.rs:74-83`. -/
def rareStable : List (List Term) → Res Unit
  | [] => .ok ()
  | p :: ps => do
    let t ← get1 p
    let t' ← rewriteMeta t
    assertEq t t'
    rareStable ps

/-- `checker/rules/rare.rs:11-97 check_rare`. -/
def checkRare (rules : List (String × RareRule)) (conclusion : List Term) (premises : List (List Term))
    (args : List Term) : Res Unit := do
  match args with
  | .const (.str name) :: _ => do
    let r ← orErr (mapGet rules name)
    require (r.args.length + 1 = args.length)
    let c ← get1 conclusion
    let m ← rareMap r.params r.args.reverse args.reverse []
    require (r.premises.length = premises.length)
    rareSorts r.params m
    let σ ← rarePremises ⟨m, none, []⟩ r.premises premises
    let (got, _) ← σ.apply r.conclusion
    rareStable premises
    let c' ← rewriteMeta got
    assertEq c' c
  | _ => err

end Carcara
