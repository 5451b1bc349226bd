import Verif.Model.Term

/-!
# Sorts of terms

Combines the sort checks the parser performs when it builds a term (`parser/mod.rs:244-525 make_op`,
`549-594 make_app`, `1381-1408 parse_binder`, `1410-1456 parse_let_term`, `1561-1667 make_indexed_op`) with the
sort computation of the pool (`ast/pool/mod.rs:73-356 compute_sort`). `sortOf t = some s` says that every
node of `t` passes the parser's check and that the pool computes the sort `s` for it.

Configuration modelled: the parser's default (`strict = false`, `allow_int_real_subtyping = false`).
Polymorphic sorts (`ParamSort`, sort variables) are not modelled; `(as const …)` arrays neither (their
index is a sort used as a term).
-/

namespace Carcara

/-- All elements equal to `s`. -/
def allSort (s : Srt) (ss : List Srt) : Bool := ss.all (· = s)

/-- All argument sorts equal and equal to some bit-vector sort. -/
def sameBv : List Srt → Option Nat
  | .bv w :: ss => if allSort (.bv w) ss then some w else none
  | _ => none

/-- Total width of a list of bit-vector sorts. -/
def totalWidth : List Srt → Option Nat
  | [] => some 0
  | .bv w :: ss => (totalWidth ss).map (w + ·)
  | _ => none

/-- Sort of an operator application, if it is accepted by `make_op` (`parser/mod.rs:244-525`), as computed by
`compute_sort` (`ast/pool/mod.rs:86-261`). `BvConst` depends on its arguments and is handled in `sortOf`. -/
def opSort (o : Op) (ss : List Srt) : Option Srt :=
  match o with
  | .tru | .fls => if ss = [] then some .bool else none
  | .not => if ss = [.bool] then some .bool else none
  | .implies => if 2 ≤ ss.length ∧ allSort .bool ss then some .bool else none
  | .and | .or | .xor => if 1 ≤ ss.length ∧ allSort .bool ss then some .bool else none
  | .equals | .distinct => match ss with
    | s :: ss => if 1 ≤ ss.length ∧ allSort s ss then some .bool else none
    | [] => none
  | .ite => match ss with
    | [c, s, s'] => if c = .bool ∧ s = s' then some s else none
    | _ => none
  | .add | .mult =>
    if 2 ≤ ss.length ∧ allSort .int ss then some .int
    else if 2 ≤ ss.length ∧ allSort .real ss then some .real else none
  | .sub =>
    if 1 ≤ ss.length ∧ allSort .int ss then some .int
    else if 1 ≤ ss.length ∧ allSort .real ss then some .real else none
  | .intDiv => if 2 ≤ ss.length ∧ allSort .int ss then some .int else none
  | .realDiv => if 2 ≤ ss.length ∧ allSort .real ss then some .real else none
  | .mod => if ss = [.int, .int] then some .int else none
  | .abs => if ss = [.int] then some .int else none
  | .lt | .gt | .le | .ge =>
    if 2 ≤ ss.length ∧ ss.all (fun s => s = .int || s = .real) then some .bool else none
  | .toReal => if ss = [.int] then some .real else none
  | .toInt => if ss = [.real] then some .int else none
  | .isInt => if ss = [.real] then some .bool else none
  | .select => match ss with
    | [.array i e, k] => if k = i then some e else none
    | _ => none
  | .store => match ss with
    | [.array i e, k, v] => if k = i ∧ v = e then some (.array i e) else none
    | _ => none
  | .strConcat => if 2 ≤ ss.length ∧ allSort .string ss then some .string else none
  | .strLen | .strToCode | .strToInt => if ss = [.string] then some .int else none
  | .strIsDigit => if ss = [.string] then some .bool else none
  | .strLessThan | .strLessEq | .prefixOf | .suffixOf | .contains =>
    if ss = [.string, .string] then some .bool else none
  | .reRange => if ss = [.string, .string] then some .regLan else none
  | .charAt => if ss = [.string, .int] then some .string else none
  | .substring => if ss = [.string, .int, .int] then some .string else none
  | .indexOf => if ss = [.string, .string, .int] then some .int else none
  | .replace | .replaceAll => if ss = [.string, .string, .string] then some .string else none
  | .strFromCode | .strFromInt => if ss = [.int] then some .string else none
  | .strToRe => if ss = [.string] then some .regLan else none
  | .strInRe => if ss = [.string, .regLan] then some .bool else none
  | .reNone | .reAll | .reAllChar => if ss = [] then some .regLan else none
  | .reConcat | .reUnion | .reInter | .reDiff =>
    if 2 ≤ ss.length ∧ allSort .regLan ss then some .regLan else none
  | .reStar | .reComp | .rePlus | .reOpt => if ss = [.regLan] then some .regLan else none
  | .replaceRe | .replaceReAll => if ss = [.string, .regLan, .string] then some .string else none
  | .bvNot | .bvNeg => match ss with
    | [.bv w] => some (.bv w)
    | _ => none
  | .bvSize | .ubvToInt | .sbvToInt => match ss with
    | [.bv _] => some .int
    | _ => none
  | .bvBbTerm => if 1 ≤ ss.length ∧ allSort .bool ss then some (.bv ss.length) else none
  | .bvPBbTerm => if 1 ≤ ss.length ∧ allSort .int ss then some (.bv ss.length) else none
  | .bvConst => none
  | .bvConcat => if 2 ≤ ss.length then (totalWidth ss).map .bv else none
  | .cl => some .bool
  | .delete => if ss = [.bool] then some .bool else none
  | .bvAdd | .bvMul | .bvAnd | .bvOr | .bvXor => if 2 ≤ ss.length then (sameBv ss).map .bv else none
  | .bvUDiv | .bvURem | .bvShl | .bvLShr | .bvNAnd | .bvNOr | .bvXNor | .bvSub | .bvSDiv | .bvSRem
  | .bvSMod | .bvAShr => if ss.length = 2 then (sameBv ss).map .bv else none
  | .bvComp => if ss.length = 2 then (sameBv ss).map fun _ => .bv 1 else none
  | .bvULt | .bvULe | .bvUGt | .bvUGe | .bvSLt | .bvSLe | .bvSGt | .bvSGe =>
    if ss.length = 2 then (sameBv ss).map fun _ => .bool else none
  | .pow2 | .log2 => if ss = [.int] then some .int else none
  | .isPow2 => if ss = [.int] then some .bool else none
  | .rareList => match ss with
    | [] => some .rareList
    | s :: ss => if allSort s ss then some .rareList else none

/-- Sort of an indexed operator application (`parser/mod.rs:1561-1667`, `ast/pool/mod.rs:313-350`). -/
def popSort (o : ParamOp) (ps : List Term) (ss : List Srt) : Option Srt :=
  match o, ps, ss with
  | .bvExtract, [.const (.int i), .const (.int j)], [.bv m] =>
    if 0 ≤ j ∧ j ≤ i ∧ i < m then some (.bv (i.toNat - j.toNat + 1)) else none
  | .bvBitOf, [.const (.int i)], [.bv _] => if 0 ≤ i then some .bool else none
  | .bvIntOf, [.const (.int i)], [.bv _] => if 0 ≤ i then some .int else none
  | .zeroExtend, [.const (.int i)], [.bv w] => if 0 ≤ i then some (.bv (i.toNat + w)) else none
  | .signExtend, [.const (.int i)], [.bv w] => if 0 ≤ i then some (.bv (i.toNat + w)) else none
  | .rotateLeft, [.const (.int i)], [.bv w] => if 0 ≤ i then some (.bv w) else none
  | .rotateRight, [.const (.int i)], [.bv w] => if 0 ≤ i then some (.bv w) else none
  | .repeat, [.const (.int i)], [.bv w] => if 0 ≤ i then some (.bv (w * i.toNat)) else none
  | .intToBv, [.const (.int w)], [.int] => if 0 ≤ w then some (.bv w.toNat) else none
  | .rePower, [.const (.int i)], [.regLan] => if 0 ≤ i then some .regLan else none
  | .reLoop, [.const (.int i), .const (.int j)], [.regLan] => if 0 ≤ i ∧ 0 ≤ j then some .regLan else none
  | _, _, _ => none

/-- Sort of a constant (`ast/term.rs:1118-1125`). -/
def Const.sort : Const → Srt
  | .int _ => .int
  | .real _ => .real
  | .str _ => .string
  | .bv _ w => .bv w

mutual
/-- See the module description. -/
def sortOf : Term → Option Srt
  | .const c => some c.sort
  | .var _ s => some s
  | .app f as => match sortOf f, sortOfL as with
    | some (.fn ss r), some ss' => if ss = ss' then some r else none
    | _, _ => none
  | .op .bvConst as => match as, sortOfL as with
    | [_, .const (.int w)], some [.int, .int] => if 0 ≤ w then some (.bv w.toNat) else none
    | _, _ => none
  | .op o as => match sortOfL as with
    | some ss => opSort o ss
    | none => none
  | .binder b bs t => match b, bs, sortOf t with
    | .all, _ :: _, some .bool => some .bool
    | .ex, _ :: _, some .bool => some .bool
    | .choice, [(_, s)], some .bool => some s
    | .lambda, _ :: _, some r => some (.fn (bs.map (·.2)) r)
    | _, _, _ => none
  | .let_ bs t => if sortOfB bs then sortOf t else none
  | .paramOp o ps as => match sortOfL as with
    | some ss => popSort o ps ss
    | none => none
/-- Sorts of a list of terms. -/
def sortOfL : List Term → Option (List Srt)
  | [] => some []
  | t :: ts => match sortOf t, sortOfL ts with
    | some s, some ss => some (s :: ss)
    | _, _ => none
/-- All values of a `let` binding list have a sort. -/
def sortOfB : List (String × Term) → Bool
  | [] => true
  | (_, t) :: bs => (sortOf t).isSome && sortOfB bs
end

/-- A clause as produced by `parse_clause` (`parser/mod.rs:1312-1316`): all literals have sort Bool. -/
def ClauseOK (c : List Term) : Prop := ∀ l ∈ c, sortOf l = some .bool

end Carcara
