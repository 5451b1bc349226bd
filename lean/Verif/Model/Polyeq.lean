import Verif.Model.Utils

/-!
# Comparison of terms modulo reordering, renaming and n-ary expansion

Model of `ast/polyeq.rs`. Left out: the `is_mod_string_concat` mode and the depth statistics.

The code recurses on pairs of subterms; here the recursion has a step counter, and running out of it is an ordinary
error (`Poly.stuck`), which the code never returns. `polyeq_not_stuck` shows that the counter is large enough.
-/

namespace Carcara

mutual
/-- Number of nodes of a term. -/
def Term.size : Term → Nat
  | .const _ => 1
  | .var _ _ => 1
  | .app f as => f.size + Term.sizeL as + 1
  | .op _ as => Term.sizeL as + 1
  | .binder _ _ t => t.size + 1
  | .let_ bs t => Term.sizeB bs + t.size + 1
  | .paramOp _ ps as => Term.sizeL ps + Term.sizeL as + 1
/-- Number of nodes of a list of terms. -/
def Term.sizeL : List Term → Nat
  | [] => 0
  | t :: ts => t.size + Term.sizeL ts
/-- Number of nodes of a `let` binding list. -/
def Term.sizeB : List (String × Term) → Nat
  | [] => 0
  | (_, t) :: bs => t.size + Term.sizeB bs
end

/-- Model of `ast/term.rs:392-398 enum NaryCase`. -/
inductive NaryCase where
  | chainable | rightAssoc | leftAssoc | pairwise
deriving DecidableEq

/-- Model of `ast/term.rs:400-502 nary_case`. -/
def Op.naryCase : Op → Option NaryCase
  | .implies => some .rightAssoc
  | .and | .or | .xor => some .leftAssoc
  | .equals => some .chainable
  | .distinct => some .pairwise
  | .add | .sub | .mult | .intDiv | .realDiv => some .leftAssoc
  | .lt | .gt | .le | .ge => some .chainable
  | .strConcat | .strLessThan | .strLessEq | .reConcat | .reUnion | .reInter | .reDiff => some .leftAssoc
  | .bvAnd | .bvOr | .bvAdd | .bvMul => some .leftAssoc
  | .cl | .delete => some .leftAssoc
  | _ => none

/-- Model of `ast/polyeq.rs:83-90 struct PolyeqConfig`. -/
structure PolyConfig where
  reorder : Bool := false
  alpha : Bool := false
  nary : Bool := false

/-- Model of `ast/polyeq.rs struct DeBruijnMap`. The HEAD of `counter` is the last element of the `Vec`. -/
structure DeBruijn where
  left : HashMapStack String Nat := .new
  right : HashMapStack String Nat := .new
  counter : List Nat := [0]

namespace DeBruijn

/-- `DeBruijnMap::is_empty`. -/
def isEmpty (d : DeBruijn) : Bool := d.left.isEmpty && d.right.isEmpty

/-- `DeBruijnMap::push`; `*self.counter.last().unwrap()`. -/
def push (d : DeBruijn) : Res DeBruijn := do
  let c ← orPanic d.counter.head?
  .ok { left := d.left.pushScope, right := d.right.pushScope, counter := c :: d.counter }

/-- `DeBruijnMap::pop`. -/
def pop (d : DeBruijn) : Res DeBruijn := do
  let l ← d.left.popScope
  let r ← d.right.popScope
  .ok { left := l, right := r, counter := d.counter.tail }

/-- `DeBruijnMap::insert`. -/
def insert (d : DeBruijn) (a b : String) : Res DeBruijn :=
  match d.counter with
  | [] => panic
  | c :: cs => do
    let l ← d.left.insert a c
    let r ← d.right.insert b c
    .ok { left := l, right := r, counter := (c + 1) :: cs }

/-- `DeBruijnMap::compare`. -/
def compare (d : DeBruijn) (a b : String) : Bool :=
  match d.left.get a, d.right.get b with
  | none, none => a = b
  | some i, some j => i = j
  | _, _ => false

end DeBruijn

/-- The mutable part of `ast/polyeq.rs struct Polyeq`. -/
structure PolyState where
  cache : HashMapStack (Term × Term) Unit := .new
  db : DeBruijn := {}

/-- A comparison: it may use and extend the state. -/
abbrev Poly := PolyState → Res (Bool × PolyState)

namespace Poly

/-- A result that does not depend on the state. -/
def pure (b : Bool) : Poly := fun s => .ok (b, s)
/-- A panic. -/
def panics : Poly := fun _ => panic
/-- The step counter of this model is exhausted. -/
def stuck : Poly := fun _ => err
/-- `p && q`. -/
def and (p q : Poly) : Poly := fun s => do
  let r ← p s
  if r.1 then q r.2 else .ok (false, r.2)
/-- `p || q`. -/
def or (p q : Poly) : Poly := fun s => do
  let r ← p s
  if r.1 then .ok (true, r.2) else q r.2

end Poly

/-- `a.iter().zip(b.iter()).all(…)`. -/
def polyZip {α : Type} (f : α → α → Poly) : List α → List α → Poly
  | a :: as, b :: bs => (f a b).and (polyZip f as bs)
  | _, _ => .pure true

/-- `impl PolyeqComparable for [T]`. -/
def polyList {α : Type} (f : α → α → Poly) (as bs : List α) : Poly :=
  if as.length = bs.length then polyZip f as bs else .pure false

/-- `impl PolyeqComparable for Rc<Term>`, given the comparison of the pointed-to terms. -/
def polyRc (cfg : PolyConfig) (tm : Term → Term → Poly) (a b : Term) : Poly := fun s =>
  if (cfg.alpha && !s.db.isEmpty) = false ∧ a = b then .ok (true, s)
  else if (s.cache.get (a, b)).isSome then .ok (true, s)
  else do
    let r ← tm a b s
    if r.1 then do
      let c ← r.2.cache.insert (a, b) ()
      .ok (true, { r.2 with cache := c })
    else .ok (false, r.2)

/-- The loop over the binding lists in `compare_binder` (`ast/polyeq.rs:207-223`): the lists are zipped. -/
def polyBindings {β : Type} (eq : β → β → Poly) : List (String × β) → List (String × β) → Poly
  | (x, u) :: as, (y, v) :: bs =>
    (eq u v).and fun s => do
      let db ← s.db.insert x y
      polyBindings eq as bs { s with db }
  | _, _ => .pure true

/-- Model of `ast/polyeq.rs:196-233 compare_binder`. -/
def compareBinder {β : Type} (cfg : PolyConfig) (rc : Term → Term → Poly) (eq : β → β → Poly)
    (as bs : List (String × β)) (a b : Term) : Poly :=
  if cfg.alpha then fun s => do
    let db ← s.db.push
    let r ← (polyBindings eq as bs).and (rc a b) { cache := s.cache.pushScope, db }
    let db ← r.2.db.pop
    let cache ← r.2.cache.popScope
    .ok (r.1, { cache, db })
  else
    (polyList (fun p q => if p.1 = q.1 then eq p.2 q.2 else .pure false) as bs).and (rc a b)

/-- `ast/polyeq.rs:287-299`: the arguments of a chainable operator, pairwise, against the conjuncts. -/
def chainGo (rc : Term → Term → Poly) (o : Op) : List Term → List Term → Poly
  | a :: b :: l, c :: cs =>
    (match c with
      | .op o' [x, y] => if o' = o then (rc a x).and (rc b y) else .pure false
      | _ => .pure false).and (chainGo rc o (b :: l) cs)
  | _, _ => .pure true

/-- Model of `ast/polyeq.rs:283-300 compare_chainable`. -/
def compareChainable (rc : Term → Term → Poly) (o : Op) (args chain : List Term) : Poly :=
  if args.length = chain.length + 1 then chainGo rc o args chain else .pure false

/-- `ast/polyeq.rs:303-309 split`: the head (first for right-associative, last for left-associative operators) and
the rest; `unreachable!()` on short lists. -/
def assocSplit (right : Bool) (as : List Term) : Option (Term × List Term) :=
  if as.length < 2 then none
  else if right then match as with
    | x :: l => some (x, l)
    | [] => none
  else match as.getLast? with
    | some x => some (x, as.dropLast)
    | none => none

/-- `ast/polyeq.rs:311-321 flatten_if_singleton(tail, op).unwrap_or(tail)`. -/
def assocFlatten (o : Op) : List Term → List Term
  | [.op o' as] => if o' = o then as else [.op o' as]
  | l => l

/-- Model of `ast/polyeq.rs:302-345 compare_assoc`. -/
def compareAssoc (rc : Term → Term → Poly) (o : Op) : Nat → List Term → List Term → Poly
  | 0, _, _ => .stuck
  | n + 1, l, r =>
    match l, r with
    | [a], [b] => rc a b
    | [_], _ => .pure false
    | _, [_] => .pure false
    | l, r =>
      match assocSplit (o.naryCase = some .rightAssoc) l, assocSplit (o.naryCase = some .rightAssoc) r with
      | some (lh, lt), some (rh, rt) => (rc lh rh).and (compareAssoc rc o n (assocFlatten o lt) (assocFlatten o rt))
      | _, _ => .panics

/-- The n-ary part of `compare_op` (`ast/polyeq.rs:262-277`). -/
def compareNary (rc : Term → Term → Poly) (n : Nat) (o : Op) (as : List Term) (o' : Op) (bs : List Term) : Poly :=
  if o ≠ o' then
    if o.naryCase = some .chainable then
      if o' = .and then compareChainable rc o as bs else .pure false
    else if o'.naryCase = some .chainable then
      if o = .and then compareChainable rc o' bs as else .pure false
    else .pure false
  else if as.length ≠ bs.length then
    if o.naryCase = some .rightAssoc ∨ o.naryCase = some .leftAssoc then compareAssoc rc o n as bs else .pure false
  else polyList rc as bs

/-- Model of `ast/polyeq.rs:235-281 compare_op`. -/
def compareOp (cfg : PolyConfig) (rc : Term → Term → Poly) (n : Nat) (o : Op) (as : List Term) (o' : Op)
    (bs : List Term) : Poly :=
  let general := if cfg.nary then compareNary rc n o as o' bs
    else if o = o' then polyList rc as bs else .pure false
  if cfg.reorder then
    match o, as, o', bs with
    | .equals, [a, a'], .equals, [b, b'] => ((rc a b).and (rc a' b')).or ((rc a b').and (rc a' b))
    | _, _, _, _ => general
  else general

/-- `rug::Rational::from((n, d)) == q`: panics when the denominator is zero. -/
def ratioEq (n d : Int) (q : Rat) : Poly :=
  if d = 0 then .panics else .pure (decide ((n : Rat) / (d : Rat) = q))

/-- Comparison of constants (first arm of `impl PolyeqComparable for Term`). -/
def constEq : Const → Const → Bool
  | .real r, .int i => if r.den = 1 then r.num = i else false
  | .int i, .real r => if r.den = 1 then i = r.num else false
  | c, d => c = d

/-- `args[0]`, `args[1]` of a division: panics on fewer than two arguments. -/
def divArgs (args : List Term) (f : Term → Term → Poly) : Poly :=
  match args with
  | a :: b :: _ => f a b
  | _ => .panics

/-- A quotient of two integer-valued real literals against a rational. -/
def quotientEq (args : List Term) (q : Rat) : Poly :=
  divArgs args fun
    | .const (.real r), .const (.real r') =>
      if r.den = 1 ∧ r'.den = 1 then ratioEq r.num r'.num q else .pure false
    | _, _ => .pure false

/-- `RealDiv` against a real literal (the arm where the division is on the left). -/
def divLiteralEq (args : List Term) (q : Rat) : Poly :=
  divArgs args fun
    | .const (.real r), .const (.real r') =>
      if 0 < q ∧ r.den = 1 ∧ r'.den = 1 then ratioEq r.num r'.num q else .pure false
    | .op .sub [.const (.int i)], .const (.int j) => if q < 0 then ratioEq i j (-q) else .pure false
    | .const (.int j), .op .sub [.const (.int i)] => if q < 0 then ratioEq i j (-q) else .pure false
    | _, _ => .pure false

/-- Unary minus against a negative integer literal (`i.abs()` is `-i`). -/
def negIntEq (args : List Term) (i : Int) : Poly :=
  if i < 0 then match args with
    | [.const (.int j)] => .pure (decide (-i = j))
    | [.const (.real r)] => .pure (decide (-i = r.num))
    | _ => .pure false
  else .pure false

/-- Unary minus against a negative real literal (`r.abs()` is `-r`). -/
def negRealEq (args : List Term) (q : Rat) : Poly :=
  if q < 0 then match args with
    | [.op .realDiv args] => quotientEq args (-q)
    | [.const (.real r)] => .pure (decide (r = -q))
    | _ => .pure false
  else .pure false

/-- The guard of the singleton arm: `(op a)` against `a`, for a left-associative `op`. -/
def singletonEq (cfg : PolyConfig) (tm : Term → Term → Poly) (t other : Term) : Poly :=
  match t with
  | .op o [a] =>
    if cfg.nary ∧ o.naryCase = some .leftAssoc then (if a = other then .pure true else tm a other) else .pure false
  | _ => .pure false

/-- The arms of `impl PolyeqComparable for Term` from `(Term::Op, Term::Op)` on. -/
def polyTail (cfg : PolyConfig) (rc : Term → Term → Poly) (n : Nat) : Term → Term → Poly
  | .op o as, .op o' bs => compareOp cfg rc n o as o' bs
  | .binder q xs a, .binder q' ys b =>
    if q = q' then compareBinder cfg rc (fun s t => .pure (decide (s = t))) xs ys a b else .pure false
  | .let_ xs a, .let_ ys b => compareBinder cfg rc rc xs ys a b
  | .const (.real q), .op .realDiv args => quotientEq args q
  | .op .realDiv args, .const (.real q) => divLiteralEq args q
  | .const (.int i), .op .sub args => negIntEq args i
  | .op .sub args, .const (.int i) => negIntEq args i
  | .op .sub args, .const (.real q) => negRealEq args q
  | .const (.real q), .op .sub args => negRealEq args q
  | _, _ => .pure false

/-- Model of `impl PolyeqComparable for Term` (`ast/polyeq.rs`). The or-pattern of the singleton arm tries both
orders. -/
def polyTerm (cfg : PolyConfig) (rc tm : Term → Term → Poly) (n : Nat) (a b : Term) : Poly :=
  match a, b with
  | .const c, .const d => .pure (constEq c d)
  | .var x s, .var y t =>
    if cfg.alpha then fun st => .ok (st.db.compare x y && decide (s = t), st) else .pure false
  | .app f as, .app g bs => (rc f g).and (polyList rc as bs)
  | .paramOp o ps as, .paramOp o' ps' bs => if o = o' ∧ ps = ps' then polyList rc as bs else .pure false
  | a, b => (singletonEq cfg tm a b).or ((singletonEq cfg tm b a).or (polyTail cfg rc n a b))

/-- The comparison of terms with a step counter. -/
def polyGo (cfg : PolyConfig) : Nat → Term → Term → Poly
  | 0, _, _ => .stuck
  | n + 1, a, b => polyTerm cfg (polyRc cfg (polyGo cfg n)) (polyGo cfg n) n a b

/-- `Polyeq::with_config(cfg).eq(a, b)`. -/
def polyeqWith (cfg : PolyConfig) (a b : Term) : Res Bool := do
  let r ← polyRc cfg (polyGo cfg (a.size + b.size)) a b {}
  .ok r.1

/-- Model of `ast/polyeq.rs:51-53 polyeq`. -/
def polyeq (a b : Term) : Res Bool := polyeqWith { reorder := true } a b

/-- Model of `ast/polyeq.rs:63-68 alpha_equiv`. -/
def alphaEquiv (a b : Term) : Res Bool := polyeqWith { reorder := true, alpha := true } a b

/-- The comparison used for `assume` commands (`checker/shared.rs:54-55`). -/
def assumeEq (a b : Term) : Res Bool := polyeqWith { reorder := true, nary := true } a b

end Carcara
