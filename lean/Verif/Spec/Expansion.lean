import Verif.Spec.FileParser
import Verif.Lemmas.TermParserPrint

/-!
# Specification: problems with definitions of constants

A problem as a list of declarations, definitions of constants, and assertions, in terms of which defined names are variables. This is how SMT-LIB
explains `define-fun`: as a declaration, and an assertion that the name is equal to its body.
-/

namespace Carcara

/-- A command of a problem. -/
inductive ProblemLine where
  | declare (x : String) (s : Srt)
  | define (x : String) (s : Srt) (t : Term)
  | assert (t : Term)

/-- Its text. -/
def ProblemLine.tokens : ProblemLine → List Token
  | .declare x s => parens [[.reserved .declareConst], [.symbol x], s.tokens]
  | .define x s t => definitionTokens x s t
  | .assert t => parens [[.reserved .assert], t.tokens false []]

/-- The text of a problem. -/
def linesTokens (ls : List ProblemLine) : List Token := (ls.map ProblemLine.tokens).flatten

/-- What a problem says. -/
def ProblemLine.formulas : ProblemLine → List Term
  | .declare _ _ => []
  | .define x s t => [.op .equals [.var x s, t]]
  | .assert t => [t]

mutual
/-- Terms without `let` and without indexed operators, in which only variables are applied. -/
def Term.simple : Term → Bool
  | .const _ | .var _ _ => true
  | .app (.var _ _) as => Term.simpleL as
  | .app _ _ => false
  | .op _ as => Term.simpleL as
  | .binder _ _ t => t.simple
  | .let_ _ _ | .paramOp _ _ _ => false
def Term.simpleL : List Term → Bool
  | [] => true
  | t :: ts => t.simple && Term.simpleL ts
end

/-- Nothing is captured in a term: no variable is bound in it whose name is declared or defined. -/
def Term.Fresh (E : PEnv) (t : Term) : Prop := ∀ x ∈ t.boundNames, E.vars.lookup x = none

/-- The commands make sense one after the other: sorts and variables are declared before they are used, terms have sorts, names are declared or defined
only once; and nothing is captured. -/
def LinesOK : PEnv → List ProblemLine → Prop
  | _, [] => True
  | E, .declare x s :: ls => s.Known E ∧ E.vars.lookup x = none ∧ LinesOK (E.bind [(x, s)]) ls
  | E, .define x s t :: ls => s.Known E ∧ E.vars.lookup x = none ∧ Op.ofName x = none ∧ sortOf t = some s ∧ Writable [] [] E t ∧ t.simple = true ∧
      t.Fresh E ∧ LinesOK (E.bind [(x, s)]) ls
  | E, .assert t :: ls => Writable [] [] E t ∧ t.simple = true ∧ t.Fresh E ∧ LinesOK E ls

mutual
/-- A term in which defined constants are replaced by their bodies. -/
def Term.expanded (F : List (String × FunDef)) : Term → Term
  | .const c => .const c
  | .var x s => match F.lookup x with
    | some f => f.body
    | none => .var x s
  | .app f as => .app (f.expanded F) (Term.expandedL F as)
  | .op o as => .op o (Term.expandedL F as)
  | .binder b bs t => .binder b bs (t.expanded F)
  | .let_ bs t => .let_ bs t
  | .paramOp o ps as => .paramOp o ps as
def Term.expandedL (F : List (String × FunDef)) : List Term → List Term
  | [] => []
  | t :: ts => t.expanded F :: Term.expandedL F ts
end

end Carcara
