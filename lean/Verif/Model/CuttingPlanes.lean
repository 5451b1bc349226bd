import Verif.Model.Cnf
import Verif.Model.Numbers
import Verif.Model.Collections

/-!
# Model: the cutting planes rules (`checker/rules/cutting_planes.rs`)

Constraints are hash maps from the printed form of a literal to its coefficient. How terms are printed is a parameter `pr` (`Display for Term`).
Hash maps are association lists; the loops over them accept or reject in every order, and the changes in `reduce_pbsum` are made to distinct keys,
so the order has no influence.
-/

namespace Carcara

/-- `cutting_planes.rs:10 PbHash`. -/
abbrev PbHash := List (String × Int)

/-- `cutting_planes.rs:13-19 split_summation`. -/
def splitSummation : Term → List Term
  | .op .add as => as
  | t => [t]

/-- `match_term!((- 1 l) = t)`; a numeral in a pattern matches integer and real constants (`ast/macros.rs:228-238`). -/
def matchOneMinus : Term → Option Term
  | .op .sub [a, l] => if a.asNumber = some 1 then some l else none
  | _ => none

/-- `match_term!((* a b) = t)`. -/
def matchProd : Term → Option (Term × Term)
  | .op .mult [a, b] => some (a, b)
  | _ => none

/-- `match_term!((* a (- 1 l)) = t)`. -/
def matchNegProd (t : Term) : Option (Term × Term) :=
  match matchProd t with
  | some (c, u) => (matchOneMinus u).map fun l => (c, l)
  | none => none

/-- `ast/term.rs:1047-1051 as_integer_err`. -/
def Term.asIntegerErr (t : Term) : Res Int := orErr t.asInteger

/-- `cutting_planes.rs:38-46`: the coefficient and the key of a literal. -/
def pbKey (pr : Term → String) (t : Term) : Res (Term × String) :=
  match matchNegProd t with
  | some (c, l) => .ok (c, "~" ++ pr l)
  | none => match matchProd t with
    | some (c, l) => .ok (c, pr l)
    | none => err

/-- `cutting_planes.rs:38-48`. -/
def pbEntry (pr : Term → String) (t : Term) : Res (String × Int) := do
  let (c, key) ← pbKey pr t
  let c ← c.asIntegerErr
  .ok (key, c)

/-- `cutting_planes.rs:37-51`. -/
def pbLoop (pr : Term → String) : PbHash → List Term → Res PbHash
  | hm, [] => .ok hm
  | hm, t :: ts => do
    let (key, c) ← pbEntry pr t
    pbLoop pr (mapInsert hm key c) ts

/-- `cutting_planes.rs:21-53 get_pb_hashmap`. -/
def getPbHashmap (pr : Term → String) (pbsum : Term) : Res PbHash :=
  match splitSummation pbsum with
  | [t] => match t.asInteger with
    | some z => if z = 0 then .ok [] else err
    | none => pbLoop pr [] [t]
  | ts => pbLoop pr [] ts

/-- `cutting_planes.rs:55-60 unwrap_pseudoboolean_inequality`. -/
def unwrapPb (pr : Term → String) (clause : Term) : Res (PbHash × Int) := do
  let (pbsum, constant) ← match2 .ge clause
  let constant ← constant.asIntegerErr
  let pbsum ← getPbHashmap pr pbsum
  .ok (pbsum, constant)

/-- `cutting_planes.rs:62-70 add_pbsums`. -/
def addPbsums (a : PbHash) : PbHash → PbHash
  | [] => a
  | (lit, cb) :: b => addPbsums (mapInsert a lit (match mapGet a lit with | some ca => ca + cb | none => cb)) b

/-- `cutting_planes.rs:72-74 is_negated_literal`. -/
def isNegatedLiteral (lit : String) : Bool := lit.toList.head? == some '~'

/-- `cutting_planes.rs:91-118`, the loop over the entries: the changes and the slack. Only the case of a plain literal of `get_opposite` (`80-88`)
is reached. -/
def reduceLoop (hm : PbHash) : PbHash → PbHash × Int
  | [] => ([], 0)
  | (lit, pos) :: es =>
    let (changes, slack) := reduceLoop hm es
    if isNegatedLiteral lit then (changes, slack)
    else match mapGet hm ("~" ++ lit) with
      | none => (changes, slack)
      | some neg =>
        if neg < pos then ((lit, pos - neg) :: ("~" ++ lit, 0) :: changes, min pos neg + slack)
        else ((lit, 0) :: ("~" ++ lit, neg - pos) :: changes, min pos neg + slack)

/-- `cutting_planes.rs:121-123`. -/
def applyChanges (hm : PbHash) : PbHash → PbHash
  | [] => hm
  | (lit, v) :: cs => applyChanges (mapInsert hm lit v) cs

/-- `cutting_planes.rs:91-126 reduce_pbsum`. -/
def reducePbsum (hm : PbHash) : PbHash × Int := (applyChanges hm (reduceLoop hm hm).1, (reduceLoop hm hm).2)

/-- `cutting_planes.rs:130-147 assert_pbsum_subset_keys`. -/
def subsetKeys (a b : PbHash) : Res Unit := require (∀ e ∈ a, e.2 = 0 ∨ (mapGet b e.1).isSome)

/-- `cutting_planes.rs:149-157 assert_pbsum_same_keys`. -/
def sameKeys (a b : PbHash) : Res Unit := do
  subsetKeys a b
  subsetKeys b a

/-- `cutting_planes.rs:159-228 cp_addition`. -/
def cpAddition (pr : Term → String) : Rule := fun conclusion premises args => do
  let (pl, pr') ← get2 premises
  let l ← get1 pl
  let r ← get1 pr'
  require (args.length = 0)
  let c ← get1 conclusion
  let (sumL, kL) ← unwrapPb pr l
  let (sumR, kR) ← unwrapPb pr r
  let (sumC, kC) ← unwrapPb pr c
  let (reduced, slack) := reducePbsum (addPbsums sumL sumR)
  require (kL + kR = kC + slack)
  sameKeys reduced sumC
  require (∀ e ∈ sumC, e.2 = 0 ∨ mapGet reduced e.1 = some e.2)

/-- The last loop of `cp_multiplication` (`cutting_planes.rs:259-268`), `cp_division` (`309-318`) and `cp_saturation` (`349-358`). -/
def checkCoeffs (f : Int → Int) (p c : PbHash) : Res Unit :=
  require (∀ e ∈ p, mapGet c e.1 = none ∨ mapGet c e.1 = some (f e.2))

/-- `cutting_planes.rs:230-270 cp_multiplication`. -/
def cpMultiplication (pr : Term → String) : Rule := fun conclusion premises args => do
  let clause ← get1 premises
  let p ← get1 clause
  let a ← get1 args
  let scalar ← a.asIntegerErr
  let c ← get1 conclusion
  let (sumP, kP) ← unwrapPb pr p
  let (sumC, kC) ← unwrapPb pr c
  require (scalar * kP = kC)
  sameKeys sumP sumC
  checkCoeffs (scalar * ·) sumP sumC

/-- `(x + d - 1) / d` for `rug::Integer`, which rounds towards zero. -/
def ceilDiv (d x : Int) : Int := (x + d - 1).tdiv d

/-- `cutting_planes.rs:272-321 cp_division`. Only the first literal of the premise is looked at. -/
def cpDivision (pr : Term → String) : Rule := fun conclusion premises args => do
  let clause ← get1 premises
  let p ← orPanic clause.head?
  let a ← get1 args
  let divisor ← a.asIntegerErr
  require (0 < divisor)
  let c ← get1 conclusion
  let (sumP, kP) ← unwrapPb pr p
  let (sumC, kC) ← unwrapPb pr c
  require (ceilDiv divisor kP = kC)
  sameKeys sumP sumC
  checkCoeffs (ceilDiv divisor) sumP sumC

/-- `cutting_planes.rs:323-361 cp_saturation`. -/
def cpSaturation (pr : Term → String) : Rule := fun conclusion premises args => do
  let clause ← get1 premises
  require (args.length = 0)
  let p ← orPanic clause.head?
  let c ← get1 conclusion
  let (sumP, kP) ← unwrapPb pr p
  let (sumC, kC) ← unwrapPb pr c
  require (kP = kC)
  sameKeys sumP sumC
  checkCoeffs (min kP) sumP sumC

/-- `match_term!((>= t 0) = u)`. -/
def matchGeZero : Term → Option Term
  | .op .ge [t, z] => if z.asNumber = some 0 then some t else none
  | _ => none

/-- `build_term!(pool, (- 1 {l}))`. -/
def oneMinus (l : Term) : Term := .op .sub [.const (.int 1), l]

/-- `cutting_planes.rs:363-393 cp_literal`. The first two patterns are disjoint from the third one. -/
def cpLiteral : Rule := fun conclusion _ args => do
  let a ← get1 args
  let c ← orPanic conclusion.head?
  match matchGeZero c with
  | none => err
  | some t => match matchNegProd t with
    | some (k, l) => do
      let k ← k.asIntegerErr
      require (k = 1)
      require (oneMinus l = a)
    | none => match matchProd t with
      | some (k, l) => do
        let k ← k.asIntegerErr
        require (k = 1)
        require (l = a)
      | none => match matchOneMinus t with
        | some l => require (oneMinus l = a)
        | none => require (t = a)

/-! ## Normalization -/

/-- `cutting_planes.rs:427-433 CoeffTimesVar`. -/
structure CoeffTimesVar where
  coeff : Int
  var : Term
  negated : Bool := false
deriving DecidableEq

/-- `cutting_planes.rs:459-492`, the equality of `CoeffTimesVar`. -/
def CoeffTimesVar.same (a b : CoeffTimesVar) : Bool :=
  if a.coeff ≠ b.coeff then false
  else if a.var = b.var then a.negated == b.negated
  else if a.negated then matchOneMinus b.var == some a.var
  else if b.negated then matchOneMinus a.var == some b.var
  else false

/-- `cutting_planes.rs:516-520`. -/
def ctvOf (coeff : Int) (v : Term) : CoeffTimesVar :=
  match matchOneMinus v with
  | some inner => ⟨coeff, inner, true⟩
  | none => ⟨coeff, v, false⟩

/-- `cutting_planes.rs:495-521 term_to_ctv`; the error is the product of two constants. -/
def termToCtv (t : Term) : Except Int CoeffTimesVar :=
  match matchProd t with
  | some (l, r) => match l.asInteger, r.asInteger with
    | none, none => .ok (ctvOf 1 t)
    | some l, some r => .error (l * r)
    | none, some k => .ok (ctvOf k l)
    | some k, none => .ok (ctvOf k r)
  | none => .ok (ctvOf 1 t)

/-- `cutting_planes.rs:524-535 collect_addition_list`. -/
def collectAddition (t : Term) : Res (List CoeffTimesVar) :=
  mapRes (fun t => match termToCtv t with | .ok c => .ok c | .error _ => err) (splitSummation t)

/-- `cutting_planes.rs:541-549 negate_ctv, negate_sum`. -/
def negateSum (vs : List CoeffTimesVar) : List CoeffTimesVar := vs.map fun v => { v with coeff := -v.coeff }

mutual
/-- `cutting_planes.rs:566-584 flatten_addition_tree`. -/
def flattenAddition : Term → Res (List CoeffTimesVar × Int)
  | .op .add as => accumulateSum as
  | .op .sub [] => panic
  | .op .sub (a :: as) => do
    let (va, ca) ← flattenAddition a
    let (vb, cb) ← accumulateSum as
    .ok (va ++ negateSum vb, ca - cb)
  | .const (.int k) => .ok ([], k)
  | t => match termToCtv t with
    | .ok c => .ok ([c], 0)
    | .error k => .ok ([], k)
/-- `cutting_planes.rs:551-560 accumulate_sum`. -/
def accumulateSum : List Term → Res (List CoeffTimesVar × Int)
  | [] => .ok ([], 0)
  | a :: as => do
    let (va, ca) ← flattenAddition a
    let (vb, cb) ← accumulateSum as
    .ok (va ++ vb, ca + cb)
end

/-- `cutting_planes.rs:589-598 push_negation`. -/
def pushNegation : List CoeffTimesVar → Int → List CoeffTimesVar × Int
  | [], k => ([], k)
  | v :: vs, k =>
    if 0 ≤ v.coeff then
      let (vs, k) := pushNegation vs k
      (v :: vs, k)
    else
      let (vs, k) := pushNegation vs (k - v.coeff)
      (⟨-v.coeff, v.var, !v.negated⟩ :: vs, k)

/-- `cutting_planes.rs:603-630 check_pb_inequalities`. -/
def checkPbInequalities (vl : List CoeffTimesVar) (kl : Int) (vr : List CoeffTimesVar) (kr : Int) : Res Unit := do
  require (vl.length = vr.length)
  require (∀ p ∈ vl.zip vr, p.1.same p.2)
  require (kl = kr)

/-- `cutting_planes.rs:397-421 match_supported_relation_err`. -/
def matchRelation : Term → Res (Op × Term × Term)
  | .op o as => if o ∈ [Op.equals, .gt, .lt, .ge, .le] then (match as with | [a, b] => .ok (o, a, b) | _ => err) else err
  | _ => err

/-- `cutting_planes.rs:633-711 cp_normalize`. -/
def cpNormalize : Rule := fun conclusion _ _ => do
  let c ← get1 conclusion
  let (general, normalized) ← match2 .equals c
  let (o, a, b) ← matchRelation general
  let (vl, kl) ← flattenAddition a
  let (vr, kr) ← flattenAddition b
  let vars := vl ++ negateSum vr
  let k := kr - kl
  if o = .equals then do
    let (n1, n2) ← match2 .and normalized
    let (s1, k1) ← match2 .ge n1
    let (s2, k2) ← match2 .ge n2
    let (vars, k) := pushNegation vars k
    let s1 ← collectAddition s1
    let k1 ← k1.asIntegerErr
    checkPbInequalities vars k s1 k1
    let (vars, k') := pushNegation (negateSum vars) (-k)
    let s2 ← collectAddition s2
    let k2 ← k2.asIntegerErr
    checkPbInequalities vars k' s2 k2
  else do
    let (s, n) ← match2 .ge normalized
    let (vars, k) : List CoeffTimesVar × Int :=
      if o = .gt then (vars, k + 1)
      else if o = .lt then (negateSum vars, 1 - k)
      else if o = .le then (negateSum vars, -k)
      else (vars, k)
    let (vars, k) := pushNegation vars k
    let s ← collectAddition s
    let n ← n.asIntegerErr
    checkPbInequalities vars k s n

end Carcara
