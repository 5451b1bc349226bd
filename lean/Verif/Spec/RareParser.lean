import Verif.Model.RareParser
import Verif.Spec.TermParser

/-!
# How rewrite rules are written
-/

namespace Carcara

/-- The tokens of a parameter. -/
def RareParamDecl.tokens (p : RareParamDecl) : List Token :=
  .openParen :: .symbol p.name :: (p.sort.tokens ++ ((if p.list then [.keyword "list"] else []) ++ [.closeParen]))

/-- The tokens of a rule, in the order of `ast/rare_rules.rs:32-57`. -/
def RareDecl.tokens (r : RareDecl) : List Token :=
  .openParen :: .reserved .declareRareRule :: .symbol r.name :: .openParen :: ((r.params.map RareParamDecl.tokens).flatten ++ .closeParen ::
    .keyword "args" :: .openParen :: (r.args.map Token.symbol ++ .closeParen ::
    .keyword "premises" :: .openParen :: ((Term.tokensL false [] r.premises).flatten ++ .closeParen ::
    .keyword "conclusion" :: (r.conclusion.tokens false [] ++ [.closeParen]))))

/-- A sort without arguments, or of bit vectors. -/
def Srt.flat : Srt → Bool
  | .array _ _ | .fn _ _ | .rareList => false
  | .atom _ as => as.isEmpty
  | _ => true

/-- What the parameters of a rule declare. -/
def PEnv.declareParams (E : PEnv) : List RareParamDecl → PEnv
  | [] => E
  | p :: ps => (E.declareParam p.name p.sort).declareParams ps

/-- The sorts of the parameters can be written where they are written. -/
def KnownParams : PEnv → List RareParamDecl → Prop
  | _, [] => True
  | E, p :: ps => p.sort.Known E ∧ p.sort.flat = true ∧ KnownParams (E.declareParam p.name p.sort) ps

end Carcara
