import Verif.Model.Lexer
import Verif.Model.Proof

/-!
# The printer

Model of `ast/printer.rs`, without sharing of terms (`use_sharing` is `false`). What is written is a list of characters. Indices of premises
have been looked up.
-/

namespace Carcara

/-- `ast/term.rs:531-644`. -/
def Op.name : Op → String
  | .tru => "true" | .fls => "false" | .not => "not" | .implies => "=>" | .and => "and" | .or => "or" | .xor => "xor" | .equals => "="
  | .distinct => "distinct" | .ite => "ite" | .add => "+" | .sub => "-" | .mult => "*" | .intDiv => "div" | .realDiv => "/" | .mod => "mod"
  | .abs => "abs" | .lt => "<" | .gt => ">" | .le => "<=" | .ge => ">=" | .toReal => "to_real" | .toInt => "to_int" | .isInt => "is_int"
  | .select => "select" | .store => "store" | .strConcat => "str.++" | .strLen => "str.len" | .strLessThan => "str.<"
  | .strLessEq => "str.<=" | .charAt => "str.at" | .substring => "str.substr" | .prefixOf => "str.prefixof" | .suffixOf => "str.suffixof"
  | .contains => "str.contains" | .indexOf => "str.indexof" | .replace => "str.replace" | .replaceAll => "str.replace_all"
  | .replaceRe => "str.replace_re" | .replaceReAll => "str.replace_re_all" | .strIsDigit => "str.is_digit" | .strToCode => "str.to_code"
  | .strFromCode => "str.from_code" | .strToInt => "str.to_int" | .strFromInt => "str.from_int" | .strToRe => "str.to_re"
  | .strInRe => "str.in_re" | .reNone => "re.none" | .reAll => "re.all" | .reAllChar => "re.allchar" | .reConcat => "re.++"
  | .reUnion => "re.union" | .reInter => "re.inter" | .reStar => "re.*" | .reComp => "re.comp" | .reDiff => "re.diff" | .rePlus => "re.+"
  | .reOpt => "re.opt" | .reRange => "re.range" | .bvNot => "bvnot" | .bvNeg => "bvneg" | .bvAnd => "bvand" | .bvOr => "bvor"
  | .bvAdd => "bvadd" | .bvMul => "bvmul" | .bvUDiv => "bvudiv" | .bvURem => "bvurem" | .bvShl => "bvshl" | .bvLShr => "bvlshr"
  | .bvULt => "bvult" | .bvConcat => "concat" | .bvNAnd => "bvnand" | .bvNOr => "bvnor" | .bvXor => "bvxor" | .bvXNor => "bvxnor"
  | .bvComp => "bvcomp" | .bvSub => "bvsub" | .bvSDiv => "bvsdiv" | .bvSRem => "bvsrem" | .bvSMod => "bvsmod" | .bvAShr => "bvashr"
  | .bvULe => "bvule" | .bvUGt => "bvugt" | .bvUGe => "bvuge" | .bvSLt => "bvslt" | .bvSLe => "bvsle" | .bvSGt => "bvsgt"
  | .bvSGe => "bvsge" | .ubvToInt => "ubv_to_int" | .sbvToInt => "sbv_to_int" | .bvPBbTerm => "@pbbterm" | .bvBbTerm => "@bbterm"
  | .bvConst => "@bv" | .bvSize => "@bvsize" | .pow2 => "int.pow2" | .isPow2 => "int.ispow2" | .log2 => "int.log2"
  | .rareList => "rare-list" | .cl => "cl" | .delete => "@d"

/-- `ast/term.rs:646-663`. -/
def ParamOp.name : ParamOp → String
  | .bvExtract => "extract" | .bvBitOf => "@bit_of" | .bvIntOf => "@int_of" | .zeroExtend => "zero_extend" | .signExtend => "sign_extend"
  | .rotateLeft => "rotate_left" | .rotateRight => "rotate_right" | .«repeat» => "repeat" | .bvConst => "bv" | .intToBv => "int_to_bv"
  | .rePower => "re.^" | .reLoop => "re.loop" | .arrayConst => "const"

/-- `ast/printer.rs:517-525`. -/
def Binder.name : Binder → String
  | .all => "forall" | .ex => "exists" | .choice => "choice" | .lambda => "lambda"

/-- `ast/printer.rs:438-459 quote_symbol`. -/
def quoteSymbol (s : String) : Res (List Char) :=
  if s.toList.any (· == '|') then panic
  else if s.toList.isEmpty || s.toList.head?.any (·.isDigit) || (Reserved.ofChars s.toList).isSome || s.toList.any (!isSymbolChar ·) then
    .ok ('|' :: s.toList ++ ['|'])
  else .ok s.toList

/-- `ast/printer.rs:461-467 escape_string`. -/
def escapeString (cs : List Char) : List Char := cs.flatMap fun c => if c = '"' then ['"', '"'] else [c]

/-- Natural numbers are printed in base ten. -/
def natChars (n : Nat) : List Char := Nat.toDigits 10 n

/-- `Display` of `rug::Integer`. -/
def intChars (z : Int) : List Char := if z < 0 then '-' :: natChars z.natAbs else natChars z.natAbs

/-- `ast/printer.rs:499-514 Display` of constants. -/
def constChars : Const → List Char
  | .int z => intChars z
  | .real q => if q.den = 1 ∧ 0 ≤ q.num then intChars q.num ++ ".0".toList else intChars q.num ++ '/' :: natChars q.den
  | .str s => '"' :: escapeString s.toList ++ ['"']
  | .bv v w => "(_ bv".toList ++ intChars v ++ ' ' :: natChars w ++ [')']

/-- `ast/printer.rs:300-332`, constants with the flag `smt_lib_strict`. -/
def strictConstChars : Const → List Char
  | .int z => if z < 0 then "(- ".toList ++ natChars z.natAbs ++ [')'] else intChars z
  | .real q =>
    let abs := if q.den = 1 then natChars q.num.natAbs ++ ".0".toList
      else "(/ ".toList ++ natChars q.num.natAbs ++ ".0 ".toList ++ natChars q.den ++ ".0)".toList
    if q < 0 then "(- ".toList ++ abs ++ [')'] else abs
  | c => constChars c

/-- Tails of S-expressions, `ast/printer.rs:290-296`. -/
def tailChars : List (List Char) → List Char
  | [] => [')']
  | t :: ts => ' ' :: t ++ tailChars ts

mutual
/-- `ast/printer.rs:544-566 Display` of sorts. -/
def Srt.chars : Srt → Res (List Char)
  | .bool => .ok "Bool".toList
  | .int => .ok "Int".toList
  | .real => .ok "Real".toList
  | .string => .ok "String".toList
  | .regLan => .ok "RegLan".toList
  | .rareList => .ok "rare-list".toList
  | .bv w => .ok ("(_ BitVec ".toList ++ natChars w ++ [')'])
  | .array i e => do
    let i ← i.chars
    let e ← e.chars
    .ok ("(Array".toList ++ tailChars [i, e])
  | .fn as r => do
    let as ← Srt.charsL as
    let r ← r.chars
    .ok ("(Func".toList ++ tailChars (as ++ [r]))
  | .atom n [] => quoteSymbol n
  | .atom n (a :: as) => do
    let n ← quoteSymbol n
    let a ← a.chars
    let as ← Srt.charsL as
    .ok ('(' :: n ++ tailChars (a :: as))
def Srt.charsL : List Srt → Res (List (List Char))
  | [] => .ok []
  | s :: ss => do
    let s ← s.chars
    let ss ← Srt.charsL ss
    .ok (s :: ss)
end

/-- `ast/printer.rs:144-149`: a variable and its sort or value. -/
def bindingChars (x : String) (v : List Char) : Res (List Char) := do
  let x ← quoteSymbol x
  .ok ('(' :: x ++ ' ' :: v ++ [')'])

/-- `ast/printer.rs:153-158`: `write_s_expr` of the first binding and the others. -/
def bindingListChars : List (List Char) → List Char
  | [] => "()".toList
  | b :: bs => '(' :: b ++ tailChars bs

def sortBindings : List (String × Srt) → Res (List (List Char))
  | [] => .ok []
  | (x, s) :: bs => do
    let s ← s.chars
    let b ← bindingChars x s
    let bs ← sortBindings bs
    .ok (b :: bs)

/-- `ast/printer.rs:104-106`: a defined constant is printed by its name. -/
def orDefined (defs : List (Term × String)) (t : Term) (raw : Res (List Char)) : Res (List Char) :=
  match defs.lookup t with
  | some name => quoteSymbol name
  | none => raw

mutual
/-- `ast/printer.rs:103-140 print_with_sharing`, without sharing, and `298-369 write_raw_term`; `defs` are the defined constants. -/
def printTerm (strict : Bool) (defs : List (Term × String)) : Term → Res (List Char)
  | .const c => orDefined defs (.const c) (.ok (if strict then strictConstChars c else constChars c))
  | .var n s => orDefined defs (.var n s) (quoteSymbol n)
  | .app f as => orDefined defs (.app f as) do
    let f ← printTerm strict defs f
    let as ← printTerms strict defs as
    .ok ('(' :: f ++ tailChars as)
  | .op o as => orDefined defs (.op o as) do
    let as ← printTerms strict defs as
    if as = [] then .ok o.name.toList else .ok ('(' :: o.name.toList ++ tailChars as)
  | .binder b bs t => orDefined defs (.binder b bs t) do
    let bs ← sortBindings bs
    let t ← printTerm strict defs t
    .ok ('(' :: b.name.toList ++ ' ' :: bindingListChars bs ++ ' ' :: t ++ [')'])
  | .let_ bs t => orDefined defs (.let_ bs t) do
    let bs ← printBindings strict defs bs
    let t ← printTerm strict defs t
    .ok ("(let ".toList ++ bindingListChars bs ++ ' ' :: t ++ [')'])
  | .paramOp o ps as => orDefined defs (.paramOp o ps as) do
    let ps ← printTerms strict defs ps
    let as ← printTerms strict defs as
    if as = [] then .ok ("(_ ".toList ++ o.name.toList ++ tailChars ps)
    else .ok ("((_ ".toList ++ o.name.toList ++ tailChars ps ++ tailChars as)
def printTerms (strict : Bool) (defs : List (Term × String)) : List Term → Res (List (List Char))
  | [] => .ok []
  | t :: ts => do
    let t ← printTerm strict defs t
    let ts ← printTerms strict defs ts
    .ok (t :: ts)
def printBindings (strict : Bool) (defs : List (Term × String)) : List (String × Term) → Res (List (List Char))
  | [] => .ok []
  | (x, v) :: bs => do
    let v ← printTerm strict defs v
    let b ← bindingChars x v
    let bs ← printBindings strict defs bs
    .ok (b :: bs)
end

/-- `(a₁ … aₙ)`, `ast/printer.rs:381-389`. -/
def listChars : List (List Char) → List Char
  | [] => "()".toList
  | t :: ts => '(' :: t ++ tailChars ts

/-- An attribute of a step, which is left out if it is empty. -/
def stepAttribute (key : String) (ts : List (List Char)) : List Char := if ts = [] then [] else ' ' :: ':' :: key.toList ++ ' ' :: listChars ts

/-- `ast/printer.rs:402-410`: the first identifier is written as it is. -/
def dischargeChars : List String → Res (List (List Char))
  | [] => .ok []
  | d :: ds => do
    let ds ← mapRes quoteSymbol ds
    .ok (d.toList :: ds)

/-- `ast/printer.rs:371-414 write_step`; `premises` and `discharge` are the identifiers. The name of the rule is written as it is. -/
def printStep (strict : Bool) (defs : List (Term × String)) (id : String) (clause : List Term) (rule : String) (premises : List String)
    (args : List Term) (discharge : List String) : Res (List Char) := do
  let id ← quoteSymbol id
  let clause ← printTerms strict defs clause
  let premises ← mapRes quoteSymbol premises
  let args ← printTerms strict defs args
  let discharge ← dischargeChars discharge
  .ok ("(step ".toList ++ id ++ " (cl".toList ++ tailChars clause ++ " :rule ".toList ++ rule.toList ++ stepAttribute "premises" premises ++
    stepAttribute "args" args ++ stepAttribute "discharge" discharge ++ [')'])

/-- `ast/printer.rs:208-212`. -/
def printAssume (strict : Bool) (defs : List (Term × String)) (id : String) (t : Term) : Res (List Char) := do
  let id ← quoteSymbol id
  let t ← printTerm strict defs t
  .ok ("(assume ".toList ++ id ++ ' ' :: t ++ [')'])

end Carcara
