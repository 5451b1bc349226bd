import Verif.Model.PbBlast
import Verif.Model.Subproof

/-!
# Rules for strings and regular expressions

Model of `checker/rules/strings.rs`. Where a rule first matches the conclusion against a pattern and then compares it with a term that has this
form, the first check is left out.
-/

namespace Carcara

/-- A string constant of one character. -/
def charTerm (c : Char) : Term := .const (.str (String.ofList [c]))

def emptyStr : Term := .const (.str "")

def intTerm (z : Int) : Term := .const (.int z)

def strLenOf (t : Term) : Term := .op .strLen [t]

mutual
/-- `checker/rules/strings.rs:24-39 string_concat_flatten`. -/
def flattenStr : Term → List Term
  | .const (.str s) => s.toList.map charTerm
  | .op .strConcat as => flattenStrL as
  | t => [t]
def flattenStrL : List Term → List Term
  | [] => []
  | t :: ts => flattenStr t ++ flattenStrL ts
end

mutual
/-- `checker/rules/strings.rs:45-59 concat_extract`. -/
def concatExtract : Term → List Term
  | .const (.str s) => if s = "" then [] else [.const (.str s)]
  | .op .strConcat as => concatExtractL as
  | t => [t]
def concatExtractL : List Term → List Term
  | [] => []
  | t :: ts => concatExtract t ++ concatExtractL ts
end

/-- `checker/rules/strings.rs:61-73 is_compatible`. -/
def isCompatible : List Term → List Term → Bool
  | a :: as, b :: bs => if a = b then isCompatible as bs else false
  | _, _ => true

/-- `checker/rules/strings.rs:75-86 overlap`. -/
def overlap : List Term → List Term → Nat
  | [], _ => 0
  | [_], _ => 0
  | a :: b :: as, t => if isCompatible (a :: b :: as) t then 0 else 1 + overlap (b :: as) t

mutual
/-- `checker/rules/strings.rs:96-154 expand_string_constants`. -/
def expandStr : Term → Term
  | .const (.str s) =>
    match s.toList with
    | [] => emptyStr
    | [c] => charTerm c
    | cs => .op .strConcat (cs.map charTerm)
  | .op .strConcat as => .op .strConcat (flattenStrL as)
  | .op o as => .op o (expandStrL as)
  | .app f as => .app f (expandStrL as)
  | .let_ bs t => .let_ bs (expandStr t)
  | .binder b bs t => .binder b bs (expandStr t)
  | .paramOp o ps as => .paramOp o ps (expandStrL as)
  | t => t
def expandStrL : List Term → List Term
  | [] => []
  | t :: ts => expandStr t :: expandStrL ts
end

/-- `checker/rules/strings.rs:165-171 concat`. -/
def concatTerm : List Term → Term
  | [] => emptyStr
  | [t] => t
  | ts => .op .strConcat ts

/-- The loop of `checker/rules/strings.rs:201-203`. -/
def prefixLoop : List Term → List Term → Res Unit
  | [], _ => .ok ()
  | _ :: _, [] => panic
  | p :: ps, t :: ts => do
    assertPolyeq p t
    prefixLoop ps ts

/-- A list, reversed or not. -/
def revIf {α : Type} (rev : Bool) (l : List α) : List α := if rev then l.reverse else l

/-- `checker/rules/strings.rs:181-208 is_prefix_or_suffix`. -/
def isPrefixOrSuffix (term pref : Term) (rev : Bool) : Res (List Term) := do
  let t := revIf rev (flattenStr term)
  let p := revIf rev (flattenStr pref)
  require (p.length ≤ t.length)
  prefixLoop p t
  .ok (flattenStr pref)

/-- The loop of `checker/rules/strings.rs:266-271`: what is left of both. -/
def stripCommon : List Term → List Term → Res (List Term × List Term)
  | s :: ss, t :: ts => do
    let same ← polyeq s t
    if same then stripCommon ss ts else .ok (s :: ss, t :: ts)
  | ss, ts => .ok (ss, ts)

/-- `checker/rules/strings.rs:247-279 strip_prefix_or_suffix`. -/
def stripPrefixOrSuffix (s t : Term) (rev : Bool) : Res (List Term × List Term) := do
  require (flattenStr s ≠ [])
  require (flattenStr t ≠ [])
  let (ss, ts) ← stripCommon (revIf rev (flattenStr s)) (revIf rev (flattenStr t))
  .ok (revIf rev ss, revIf rev ts)

/-- `checker/rules/strings.rs:286-293 string_check_length_one`; the length is the number of bytes. -/
def checkLengthOne : Term → Res Unit
  | .const (.str s) => require (s.utf8ByteSize = 1)
  | _ => err

/-- `checker/rules/strings.rs:295-297`. -/
def skolemPrefix (u n : Term) : Term := .op .substring [u, intTerm 0, n]

/-- `checker/rules/strings.rs:299-301`. -/
def skolemSuffixRem (u n : Term) : Term := .op .substring [u, n, .op .sub [strLenOf u, n]]

/-- `checker/rules/strings.rs:303-305`, and the same term in `325-327`. -/
def skolemSuffix (u n : Term) : Term := .op .substring [u, .op .sub [strLenOf u, n], n]

/-- `checker/rules/strings.rs:307-313`. -/
def skolemUnifyPrefix (t s : Term) : Term :=
  .op .ite [.op .ge [strLenOf t, strLenOf s], skolemSuffixRem t (strLenOf s), skolemSuffixRem s (strLenOf t)]

/-- `checker/rules/strings.rs:315-323`. -/
def skolemUnifySuffix (t s : Term) : Term :=
  .op .ite [.op .ge [strLenOf t, strLenOf s], skolemPrefix t (.op .sub [strLenOf t, strLenOf s]), skolemPrefix s (.op .sub [strLenOf s, strLenOf t])]

/-- `ast/term.rs:842-848 as_bool`. -/
def Term.asBool : Term → Option Bool
  | .op .tru _ => some true
  | .op .fls _ => some false
  | _ => none

/-- `(not (= (strlen t) 0))`. -/
def matchLenNonzero (t : Term) : Res Term := do
  let e ← match1 .not t
  let (l, z) ← match2 .equals e
  let u ← match1 .strLen l
  matchNum 0 z
  .ok u

/-- `(not (= t ""))`. -/
def matchNonempty (t : Term) : Res Term := do
  let e ← match1 .not t
  let (u, z) ← match2 .equals e
  require (z = emptyStr)
  .ok u

/-- `(> (strlen t) 0)`. -/
def matchLenPositive (t : Term) : Res Term := do
  let (l, z) ← match2 .gt t
  let u ← match1 .strLen l
  matchNum 0 z
  .ok u

/-- The term of a premise of one literal. -/
def premTerm (p : List Term) : Res Term := get1 p

/-- `checker/rules/strings.rs:569-600 concat_eq`. -/
def concatEq : Rule := fun conclusion premises args => do
  let p ← get1 premises
  let a ← get1 args
  let c ← get1 conclusion
  let _ ← match2 .equals c
  let term ← premTerm p
  let rev ← orErr a.asBool
  let (s, t) ← match2 .equals term
  let (ss, ts) ← stripPrefixOrSuffix s t rev
  assertEq (.op .equals [concatTerm ss, concatTerm ts]) (expandStr c)

/-- `checker/rules/strings.rs:602-636 concat_unify`. -/
def concatUnify : Rule := fun conclusion premises args => do
  let (p, q) ← get2 premises
  let a ← get1 args
  let c ← get1 conclusion
  let _ ← match2 .equals c
  let term ← premTerm p
  let prefixes ← premTerm q
  let rev ← orErr a.asBool
  let (s, t) ← match2 .equals term
  let (ls, lt) ← match2 .equals prefixes
  let s1 ← match1 .strLen ls
  let t1 ← match1 .strLen lt
  let s1 ← isPrefixOrSuffix s s1 rev
  let t1 ← isPrefixOrSuffix t t1 rev
  assertEq (.op .equals [concatTerm s1, concatTerm t1]) (expandStr c)

/-- `checker/rules/strings.rs:667-680`. -/
def checkConflict : List Term → List Term → Res Unit
  | a :: _, b :: _ => do
    checkLengthOne a
    checkLengthOne b
  | a :: _, [] => checkLengthOne a
  | [], b :: _ => checkLengthOne b
  | [], [] => err

/-- `checker/rules/strings.rs:638-683 concat_conflict`. -/
def concatConflict : Rule := fun conclusion premises args => do
  let p ← get1 premises
  let a ← get1 args
  let c ← get1 conclusion
  let term ← premTerm p
  let rev ← orErr a.asBool
  let b ← orErr c.asBool
  require (b = false)
  let (s, t) ← match2 .equals term
  let (ss, ts) ← stripPrefixOrSuffix s t rev
  checkConflict (revIf rev ss) (revIf rev ts)

/-- `checker/rules/strings.rs:685-731 concat_csplit_prefix`. -/
def concatCsplitPrefix : Rule := fun conclusion premises _ => do
  let (p, q) ← get2 premises
  let c ← get1 conclusion
  let _ ← match2 .equals c
  let terms ← premTerm p
  let length ← premTerm q
  let (t, s) ← match2 .equals terms
  let t1 ← matchLenNonzero length
  require (flattenStr t ≠ [])
  require (flattenStr s ≠ [])
  let _ ← isPrefixOrSuffix t t1 false
  let ch ← orErr (flattenStr s).head?
  checkLengthOne ch
  assertEq (.op .equals [expandStr t1, concatTerm [ch, skolemSuffixRem t1 (intTerm 1)]]) (expandStr c)

/-- `checker/rules/strings.rs:733-779 concat_csplit_suffix`. -/
def concatCsplitSuffix : Rule := fun conclusion premises _ => do
  let (p, q) ← get2 premises
  let c ← get1 conclusion
  let _ ← match2 .equals c
  let terms ← premTerm p
  let length ← premTerm q
  let (t, s) ← match2 .equals terms
  let t2 ← matchLenNonzero length
  require (flattenStr t ≠ [])
  require (flattenStr s ≠ [])
  let _ ← isPrefixOrSuffix t t2 true
  let ch ← orErr (flattenStr s).getLast?
  checkLengthOne ch
  assertEq (.op .equals [expandStr t2, concatTerm [skolemPrefix t2 (.op .sub [strLenOf t2, intTerm 1]), ch]]) (expandStr c)

/-- `(and a (not (= r "")) (> (strlen r) 0))`; the first argument is returned. -/
def matchRemainder (c : Term) : Res Term := do
  let (a, b, d) ← match3 .and c
  let _ ← matchNonempty b
  let _ ← matchLenPositive d
  .ok a

/-- `(and a (not (= r "")) (> (strlen r) 0))`. -/
def remainderTerm (a r : Term) : Term :=
  .op .and [a, .op .not [.op .equals [r, emptyStr]], .op .gt [strLenOf r, intTerm 0]]

/-- `checker/rules/strings.rs:781-847 concat_split_prefix` (`rev` is `false`) and `849-915 concat_split_suffix`. -/
def concatSplit (rev : Bool) : Rule := fun conclusion premises _ => do
  let (p, q) ← get2 premises
  let c ← get1 conclusion
  let a ← matchRemainder c
  let (e, e') ← match2 .or a
  let _ ← match2 .equals e
  let _ ← match2 .equals e'
  let terms ← premTerm p
  let length ← premTerm q
  let (t, s) ← match2 .equals terms
  let l ← match1 .not length
  let (lt, ls) ← match2 .equals l
  let t1 ← match1 .strLen lt
  let s1 ← match1 .strLen ls
  require (flattenStr t ≠ [])
  require (flattenStr s ≠ [])
  let _ ← isPrefixOrSuffix t t1 rev
  let _ ← isPrefixOrSuffix s s1 rev
  let t1 := expandStr t1
  let s1 := expandStr s1
  let r := if rev then skolemUnifySuffix t1 s1 else skolemUnifyPrefix t1 s1
  let or := .op .or [.op .equals [t1, .op .strConcat (if rev then [r, s1] else [s1, r])],
    .op .equals [s1, .op .strConcat (if rev then [r, t1] else [t1, r])]]
  assertEq (expandStr c) (expandStr (remainderTerm or r))

/-- `checker/rules/strings.rs:917-970 concat_lprop_prefix` (`rev` is `false`) and `972-1025 concat_lprop_suffix`. -/
def concatLprop (rev : Bool) : Rule := fun conclusion premises _ => do
  let (p, q) ← get2 premises
  let c ← get1 conclusion
  let a ← matchRemainder c
  let _ ← match2 .equals a
  let terms ← premTerm p
  let length ← premTerm q
  let (t, s) ← match2 .equals terms
  let (lt, ls) ← match2 .gt length
  let t1 ← match1 .strLen lt
  let s1 ← match1 .strLen ls
  require (flattenStr t ≠ [])
  require (flattenStr s ≠ [])
  let _ ← isPrefixOrSuffix t t1 rev
  let _ ← isPrefixOrSuffix s s1 rev
  let t1 := expandStr t1
  let s1 := expandStr s1
  let r := if rev then skolemUnifySuffix t1 s1 else skolemUnifyPrefix t1 s1
  assertEq (expandStr c) (expandStr (remainderTerm (.op .equals [t1, .op .strConcat (if rev then [r, s1] else [s1, r])]) r))

/-- `checker/rules/strings.rs:1043-1052` and `1089-1098`: the parts of the right-hand side. -/
def cpropParts (rev : Bool) : Term → Res (List Term)
  | .const (.str s) => if s = "" then err else .ok (if rev then [emptyStr, .const (.str s)] else [.const (.str s), emptyStr])
  | .op .strConcat as => .ok as
  | _ => err

/-- `v[1..]`. -/
def sliceFromOne {α : Type} : List α → Res (List α)
  | [] => panic
  | _ :: l => .ok l

/-- `checker/rules/strings.rs:1027-1071 concat_cprop_prefix`. -/
def concatCpropPrefix : Rule := fun conclusion premises _ => do
  let (p, q) ← get2 premises
  let c ← get1 conclusion
  let (_, rhs) ← match2 .equals c
  let _ ← match2 .strConcat rhs
  let terms ← premTerm p
  let length ← premTerm q
  let (t, s) ← match2 .equals terms
  let t1 ← matchLenNonzero length
  let (a1, a2, _) ← match3 .strConcat t
  assertEq a1 t1
  let ss ← cpropParts false s
  let s0 ← orPanic ss[0]?
  let tail ← sliceFromOne (flattenStr s0)
  let v := 1 + overlap tail (flattenStr a2)
  let oc := skolemPrefix s0 (intTerm v)
  let r := skolemSuffixRem t1 (strLenOf oc)
  assertEq (expandStr c) (expandStr (.op .equals [t1, .op .strConcat [oc, r]]))

/-- `checker/rules/strings.rs:1073-1119 concat_cprop_suffix`. -/
def concatCpropSuffix : Rule := fun conclusion premises _ => do
  let (p, q) ← get2 premises
  let c ← get1 conclusion
  let (_, rhs) ← match2 .equals c
  let _ ← match2 .strConcat rhs
  let terms ← premTerm p
  let length ← premTerm q
  let (t, s) ← match2 .equals terms
  let t2 ← matchLenNonzero length
  let (_, a2, a3) ← match3 .strConcat t
  assertEq a3 t2
  let ss ← cpropParts true s
  let s1 ← orPanic ss[1]?
  let tail ← sliceFromOne (flattenStr s1).reverse
  let v := 1 + overlap tail (flattenStr a2).reverse
  let oc := skolemSuffix s1 (intTerm v)
  let r := skolemPrefix t2 (.op .sub [strLenOf t2, strLenOf oc])
  assertEq (expandStr c) (expandStr (.op .equals [t2, .op .strConcat [r, oc]]))

/-- `checker/rules/strings.rs:1121-1159 string_decompose`. -/
def stringDecompose : Rule := fun conclusion premises args => do
  let p ← get1 premises
  let a ← get1 args
  let c ← get1 conclusion
  let term ← premTerm p
  let rev ← orErr a.asBool
  let (l, n) ← match2 .ge term
  let t ← match1 .strLen l
  let (e, e') ← match2 .and c
  let _ ← match2 .equals e
  let (l', _) ← match2 .equals e'
  let _ ← match1 .strLen l'
  let w1 := skolemPrefix t n
  let w2 := skolemSuffixRem t n
  assertPolyeq c (.op .and [.op .equals [t, .op .strConcat [w1, w2]], .op .equals [strLenOf (if rev then w2 else w1), n]])

/-- `checker/rules/strings.rs:1161-1181 string_length_pos`. -/
def stringLengthPos : Rule := fun conclusion _ args => do
  let t ← get1 args
  let c ← get1 conclusion
  let (a, g) ← match2 .or c
  let (e, e') ← match2 .and a
  let (l, z) ← match2 .equals e
  let t1 ← match1 .strLen l
  matchNum 0 z
  let (t2, em) ← match2 .equals e'
  require (em = emptyStr)
  let t3 ← matchLenPositive g
  assertPolyeq t1 t
  assertPolyeq t2 t
  assertPolyeq t3 t

/-- `checker/rules/strings.rs:1183-1203 string_length_non_empty`. -/
def stringLengthNonEmpty : Rule := fun conclusion premises _ => do
  let p ← get1 premises
  let c ← get1 conclusion
  let term ← premTerm p
  let t ← matchNonempty term
  let u ← matchLenNonzero c
  assertPolyeq u t

/-- `checker/rules/strings.rs:1205-1227 re_inter`. -/
def reInterRule : Rule := fun conclusion premises _ => do
  let (p, q) ← get2 premises
  let c ← get1 conclusion
  let (x, i) ← match2 .strInRe c
  let (sc, tc) ← match2 .reInter i
  let t1 ← premTerm p
  let t2 ← premTerm q
  let (x1, s) ← match2 .strInRe t1
  let (x2, t) ← match2 .strInRe t2
  assertPolyeq x x1
  assertPolyeq x x2
  assertEq sc s
  assertEq tc t

/-! ## Unfolding of regular expressions -/

def reVar (i : Nat) : Term := .var ("R_" ++ toString i) .regLan

def kVar (i : Nat) : Term := .var ("k_" ++ toString i) .string

/-- `checker/rules/strings.rs:387-445 re_unfold_pos_component`. -/
def unfoldComponent (t : Term) (i : Nat) (ks rs : List Term) : Term :=
  let x : Term := .var "x" .string
  .binder .choice [("x", .string)] (.binder .ex
    ((List.range i).flatMap (fun j => [("k_" ++ toString j, .string), ("R_" ++ toString j, .regLan)]) ++ [("R_" ++ toString i, .regLan)] ++
      (List.range rs.length).map (fun j => ("R_" ++ toString (i + j + 1), .regLan)))
    (.op .and (.op .equals [t, .op .strConcat ((List.range i).map kVar ++ [x] ++ ks)] ::
      (List.range i).map (fun j => .op .strInRe [kVar j, reVar j]) ++ [.op .strInRe [x, reVar i]] ++
      (ks.zip rs).map (fun p => .op .strInRe [p.1, p.2]))))

/-- What `re_unfold_pos_concat_recursive` computes: the two terms it returns, and `previous_ks`, `previous_rs` after it. -/
structure Unfolded where
  c : Term
  m : Term
  ks : List Term
  rs : List Term

/-- `checker/rules/strings.rs:447-502 re_unfold_pos_concat_recursive`, for the arguments of the concatenation. -/
def unfoldPos (t : Term) : Nat → List Term → Res Unfolded
  | _, [] => .ok ⟨emptyStr, .op .tru [], [], []⟩
  | n, r :: rest => do
    let u ← unfoldPos t (n + 1) rest
    match r with
    | .op .strToRe (s :: _) => .ok { u with c := .op .strConcat [s, u.c] }
    | .op .strToRe [] => panic
    | r =>
      let k := unfoldComponent t n u.ks u.rs
      .ok ⟨.op .strConcat [k, u.c], .op .and [.op .strInRe [k, if rest = [] then r else .op .reConcat (r :: rest)], u.m], k :: u.ks, reVar n :: u.rs⟩

/-- `checker/rules/strings.rs:1253-1265`. -/
def andWith (e : Term) : Term → Res Term
  | .op .tru _ => .ok (.op .and [e])
  | .op .and as => .ok (.op .and (e :: as))
  | _ => panic

/-- `checker/rules/strings.rs:1240-1289`: the expected conclusion. -/
def kleeneExpected (t : Term) : Term → Res Term
  | .op .reStar (r1 :: as) => do
    let u ← unfoldPos t 0 [r1, .op .reStar (r1 :: as), r1]
    match concatExtract u.c with
    | [k0, k1, k2] => do
      let simplified ← andWith (.op .equals [t, .op .strConcat [k0, k1, k2]]) u.m
      .ok (.op .or [.op .equals [t, emptyStr], .op .strInRe [t, r1],
        .op .and [simplified, .op .not [.op .equals [k0, emptyStr]], .op .not [.op .equals [k2, emptyStr]]]])
    | _ => err
  | .op .reStar [] => panic
  | _ => err

/-- `checker/rules/strings.rs:1229-1292 re_kleene_star_unfold_pos`. -/
def reKleeneUnfoldPos : Rule := fun conclusion premises _ => do
  let p ← get1 premises
  let c ← get1 conclusion
  let term ← premTerm p
  let (t, r) ← match2 .strInRe term
  let e ← kleeneExpected t r
  assertEq c e

/-- `checker/rules/strings.rs:1311-1324`: the expected conclusion. -/
def concatUnfoldExpected (t : Term) : Term → Res Term
  | .op .reConcat as => do
    let u ← unfoldPos t 0 as
    let teq := .op .equals [t, .op .strConcat (concatExtract u.c)]
    if u.m.asBool = some true then .ok teq else .ok (.op .and [teq, u.m])
  | _ => err

/-- `checker/rules/strings.rs:1294-1330 re_concat_unfold_pos`. -/
def reConcatUnfoldPos : Rule := fun conclusion premises _ => do
  let p ← get1 premises
  let c ← get1 conclusion
  let term ← premTerm p
  let (t, r) ← match2 .strInRe term
  let e ← concatUnfoldExpected t r
  assertEq c e

/-- `checker/rules/strings.rs:355-360 singleton_elim`. -/
def singletonElim : List Term → Term
  | [r] => r
  | rs => .op .reConcat rs

/-- The negation of `t` being in `r`. -/
def notIn (t r : Term) : Term := .op .not [.op .strInRe [t, r]]

/-- `checker/rules/strings.rs:1332-1423 re_unfold_neg`: the expected conclusion. -/
def unfoldNegExpected (t : Term) : Term → Res Term
  | .op .reStar (r1 :: as) =>
    let l : Term := .var "L" .int
    .ok (.op .and [.op .not [.op .equals [t, emptyStr]],
      .binder .all [("L", .int)] (.op .or [.op .le [l, intTerm 0], .op .lt [strLenOf t, l], notIn (skolemPrefix t l) r1,
        notIn (skolemSuffixRem t l) (.op .reStar (r1 :: as))])])
  | .op .reConcat (r1 :: rest) =>
    let l : Term := .var "L" .int
    .ok (.binder .all [("L", .int)] (.op .or [.op .lt [l, intTerm 0], .op .lt [strLenOf t, l], notIn (skolemPrefix t l) r1,
      notIn (skolemSuffixRem t l) (singletonElim rest)]))
  | .op .reStar [] => panic
  | .op .reConcat [] => panic
  | _ => err

/-- `checker/rules/strings.rs:1332-1423 re_unfold_neg`. -/
def reUnfoldNeg : Rule := fun conclusion premises _ => do
  let p ← get1 premises
  let c ← get1 conclusion
  let term ← premTerm p
  let m ← match1 .not term
  let (t, r) ← match2 .strInRe m
  let e ← unfoldNegExpected t r
  assertEq c e

/-- An application of the operator. -/
def Term.isOp (o : Op) : Term → Bool
  | .op o' _ => o' == o
  | _ => false

/-- All lengths are `n`. -/
def allLength (n : Nat) : List (Res Nat) → Res Unit
  | [] => .ok ()
  | x :: xs => do
    let m ← x
    require (m = n)
    allLength n xs

/-- `checker/rules/strings.rs:521-543`: all lengths are the same. -/
def sameLength : List (Res Nat) → Res Nat
  | [] => err
  | x :: xs => do
    let n ← x
    allLength n xs
    .ok n

mutual
/-- `checker/rules/strings.rs:520-567 str_fixed_len_re`; the length of a constant is its number of bytes. -/
def fixedLen : Term → Res Nat
  | .op .reConcat as => do
    let ns ← mapRes id (fixedLenL as)
    .ok ns.sum
  | .op .reAllChar _ => .ok 1
  | .op .reRange _ => .ok 1
  | .op .strToRe as =>
    match as with
    | .const (.str s) :: _ => .ok s.utf8ByteSize
    | [] => panic
    | _ => err
  | .op .reUnion as => sameLength (fixedLenSkip .reNone as)
  | .op .reInter as => sameLength (fixedLenSkip .reAll as)
  | _ => err
def fixedLenL : List Term → List (Res Nat)
  | [] => []
  | t :: ts => fixedLen t :: fixedLenL ts
def fixedLenSkip (o : Op) : List Term → List (Res Nat)
  | [] => []
  | t :: ts => if t.isOp o then fixedLenSkip o ts else fixedLen t :: fixedLenSkip o ts
end

/-- `checker/rules/strings.rs:1425-1461 re_unfold_neg_concat_fixed_prefix` (`rev` is `false`) and `1463-1505
re_unfold_neg_concat_fixed_suffix`: the expected conclusion. -/
def fixedExpected (rev : Bool) (s : Term) : Term → Res Term
  | .op .reConcat as =>
    match revIf rev as with
    | r1 :: rest => do
      let n ← fixedLen r1
      let n := intTerm n
      let first := if rev then skolemSuffix s n else skolemPrefix s n
      let second := if rev then skolemPrefix s (.op .sub [strLenOf s, n]) else skolemSuffixRem s n
      .ok (.op .or [notIn first r1, notIn second (singletonElim (revIf rev rest))])
    | [] => panic
  | _ => err

/-- `checker/rules/strings.rs:1425-1505`. -/
def reUnfoldNegFixed (rev : Bool) : Rule := fun conclusion premises _ => do
  let p ← get1 premises
  let c ← get1 conclusion
  let term ← premTerm p
  let m ← match1 .not term
  let (s, r) ← match2 .strInRe m
  let e ← fixedExpected rev s r
  assertEq c e

end Carcara
