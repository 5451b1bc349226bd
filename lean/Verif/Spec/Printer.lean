import Verif.Spec.Lexer
import Verif.Model.Printer
import Mathlib.Algebra.Order.Ring.Rat

/-!
# The tokens of a term

What the text of a term consists of, and which names and strings can be written so that they read back.
-/

namespace Carcara

/-- A name that is written so that it reads back. -/
def Readable (s : String) : Prop := (∀ c ∈ s.toList, c ≠ '|' ∧ c ≠ '\\') ∧ ¬ LooksNegative s.toList

/-- `(t₁ … tₙ)`. -/
def parens (ts : List (List Token)) : List Token := .openParen :: ts.flatten ++ [.closeParen]

/-- The tokens of constants. -/
def Const.tokens : Const → List Token
  | .int z => [.numeral z]
  | .real q => [.decimal q]
  | .str s => [.str s]
  | .bv v w => parens [[.reserved .underscore], [.symbol (String.ofList ("bv".toList ++ intChars v))], [.numeral w]]

/-- The tokens of constants in standard SMT-LIB, which has neither negative numerals nor fractions. -/
def Const.strictTokens : Const → List Token
  | .int z => if z < 0 then parens [[.symbol "-"], [.numeral (-z)]] else [.numeral z]
  | .real q =>
    let pos := if q.den = 1 then [.decimal |q|] else parens [[.symbol "/"], [.decimal |q.num|], [.decimal q.den]]
    if q < 0 then parens [[.symbol "-"], pos] else pos
  | c => c.tokens

/-- The only operator whose name is a reserved word is `cl`. -/
def Op.token : Op → Token
  | .cl => .reserved .cl
  | o => .symbol o.name

def Binder.token : Binder → Token
  | .all => .reserved .forall
  | .ex => .reserved .exists
  | .choice => .reserved .choice
  | .lambda => .reserved .lambda

mutual
def Srt.tokens : Srt → List Token
  | .bool => [.symbol "Bool"]
  | .int => [.symbol "Int"]
  | .real => [.symbol "Real"]
  | .string => [.symbol "String"]
  | .regLan => [.symbol "RegLan"]
  | .rareList => [.symbol "rare-list"]
  | .bv w => parens [[.reserved .underscore], [.symbol "BitVec"], [.numeral w]]
  | .array i e => parens [[.symbol "Array"], i.tokens, e.tokens]
  | .fn as r => parens ([.symbol "Func"] :: (Srt.tokensL as ++ [r.tokens]))
  | .atom n [] => [.symbol n]
  | .atom n (a :: as) => parens ([.symbol n] :: a.tokens :: Srt.tokensL as)
def Srt.tokensL : List Srt → List (List Token)
  | [] => []
  | s :: ss => s.tokens :: Srt.tokensL ss
end

mutual
/-- All names in a sort can be written. -/
def Srt.Readable : Srt → Prop
  | .array i e => i.Readable ∧ e.Readable
  | .fn as r => Srt.ReadableL as ∧ r.Readable
  | .atom n as => Carcara.Readable n ∧ Srt.ReadableL as
  | _ => True
def Srt.ReadableL : List Srt → Prop
  | [] => True
  | s :: ss => s.Readable ∧ Srt.ReadableL ss
end

/-- A defined constant is its name. -/
def named (defs : List (Term × String)) (t : Term) (ts : List Token) : List Token :=
  match defs.lookup t with
  | some n => [.symbol n]
  | none => ts

mutual
/-- The tokens of a term, in which defined constants are named. -/
def Term.tokens (strict : Bool) (defs : List (Term × String)) : Term → List Token
  | .const c => named defs (.const c) (if strict then c.strictTokens else c.tokens)
  | .var n s => named defs (.var n s) [.symbol n]
  | .app f as => named defs (.app f as) (parens (f.tokens strict defs :: Term.tokensL strict defs as))
  | .op o as => named defs (.op o as) (if as.isEmpty then [o.token] else parens ([o.token] :: Term.tokensL strict defs as))
  | .binder b bs t => named defs (.binder b bs t)
      (parens [[b.token], parens (bs.map fun p => parens [[.symbol p.1], p.2.tokens]), t.tokens strict defs])
  | .let_ bs t => named defs (.let_ bs t) (parens [[.reserved .let], parens (Term.tokensB strict defs bs), t.tokens strict defs])
  | .paramOp o ps as => named defs (.paramOp o ps as)
      (let head := parens ([.reserved .underscore] :: [.symbol o.name] :: Term.tokensL strict defs ps)
      if as.isEmpty then head else parens (head :: Term.tokensL strict defs as))
def Term.tokensL (strict : Bool) (defs : List (Term × String)) : List Term → List (List Token)
  | [] => []
  | t :: ts => t.tokens strict defs :: Term.tokensL strict defs ts
def Term.tokensB (strict : Bool) (defs : List (Term × String)) : List (String × Term) → List (List Token)
  | [] => []
  | (x, v) :: bs => parens [[.symbol x], v.tokens strict defs] :: Term.tokensB strict defs bs
end

/-- A constant that can be written. -/
def Const.Readable : Const → Prop
  | .str s => ¬ HasEscape s.toList
  | _ => True

/-- Of a defined constant, only the name is written. -/
def unnamed (defs : List (Term × String)) (t : Term) (p : Prop) : Prop :=
  match defs.lookup t with
  | some n => Carcara.Readable n
  | none => p

mutual
/-- All names and strings in a term can be written. -/
def Term.Readable (defs : List (Term × String)) : Term → Prop
  | .const c => unnamed defs (.const c) c.Readable
  | .var n s => unnamed defs (.var n s) (Carcara.Readable n)
  | .app f as => unnamed defs (.app f as) (f.Readable defs ∧ Term.ReadableL defs as)
  | .op o as => unnamed defs (.op o as) (Term.ReadableL defs as)
  | .binder b bs t => unnamed defs (.binder b bs t) ((∀ p ∈ bs, Carcara.Readable p.1 ∧ p.2.Readable) ∧ t.Readable defs)
  | .let_ bs t => unnamed defs (.let_ bs t) (Term.ReadableB defs bs ∧ t.Readable defs)
  | .paramOp o ps as => unnamed defs (.paramOp o ps as) (Term.ReadableL defs ps ∧ Term.ReadableL defs as)
def Term.ReadableL (defs : List (Term × String)) : List Term → Prop
  | [] => True
  | t :: ts => t.Readable defs ∧ Term.ReadableL defs ts
def Term.ReadableB (defs : List (Term × String)) : List (String × Term) → Prop
  | [] => True
  | (x, v) :: bs => Carcara.Readable x ∧ v.Readable defs ∧ Term.ReadableB defs bs
end

/-- An attribute of a step, which is left out if it is empty. -/
def attributeTokens (key : String) (ts : List (List Token)) : List (List Token) := if ts = [] then [] else [[.keyword key], parens ts]

/-- The tokens of a step. -/
def stepTokens (strict : Bool) (defs : List (Term × String)) (id : String) (clause : List Term) (rule : String) (premises : List String)
    (args : List Term) (discharge : List String) : List Token :=
  parens ([[.reserved .step], [.symbol id], parens ([.reserved .cl] :: Term.tokensL strict defs clause), [.keyword "rule"], [.symbol rule]] ++
    attributeTokens "premises" (premises.map fun i => [.symbol i]) ++ attributeTokens "args" (Term.tokensL strict defs args) ++
    attributeTokens "discharge" (discharge.map fun i => [.symbol i]))

/-- A name that is written without bars. -/
def PlainName (s : String) : Prop :=
  s ≠ "" ∧ (∀ c ∈ s.toList, isSymbolChar c = true) ∧ (∀ c ∈ s.toList.head?, c.isDigit = false) ∧ ¬ LooksNegative s.toList ∧ ∀ r : Reserved, s ≠ r.name

end Carcara
