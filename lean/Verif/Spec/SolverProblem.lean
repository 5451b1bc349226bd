import Verif.Spec.Printer
import Verif.Spec.TermParser
import Verif.Spec.Semantics

/-!
# Specification: the problem for a clause
-/

namespace Carcara

/-- A fraction that is not negative, with the operators of standard SMT-LIB. -/
def standardFraction (q : Rat) : Term := if q.den = 1 then .const (.real q) else .op .realDiv [.const (.real q.num), .const (.real q.den)]

/-- A number, with the operators of standard SMT-LIB: it has neither negative numbers nor fractions. -/
def Const.standard : Const → Term
  | .int z => if z < 0 then .op .sub [.const (.int (-z))] else .const (.int z)
  | .real q => if q < 0 then .op .sub [standardFraction (-q)] else standardFraction q
  | c => .const c

mutual
/-- A term in which numbers are written with these operators. Indices remain as they are. -/
def Term.standard : Term → Term
  | .const c => c.standard
  | .var x s => .var x s
  | .app f as => .app f.standard (Term.standardL as)
  | .op o as => .op o (Term.standardL as)
  | .binder b bs t => .binder b bs t.standard
  | .let_ bs t => .let_ (Term.standardB bs) t.standard
  | .paramOp o ps as => .paramOp o ps (Term.standardL as)
def Term.standardL : List Term → List Term
  | [] => []
  | t :: ts => t.standard :: Term.standardL ts
def Term.standardB : List (String × Term) → List (String × Term)
  | [] => []
  | (x, t) :: bs => (x, t.standard) :: Term.standardB bs
end

/-- The declarations as the parser knows them. -/
def PEnv.declaring (E : PEnv) (sorts : List (String × Nat)) (functions : List (String × Srt)) : PEnv :=
  { E with sortDecls := sorts.reverse ++ E.sortDecls, vars := functions.reverse ++ E.vars }

/-- A sort of a function or of a constant that can be declared. -/
def Srt.Declarable (E : PEnv) : Srt → Prop
  | .fn as r => as ≠ [] ∧ (∀ a ∈ as, a.Known E ∧ a.Readable) ∧ r.Known E ∧ r.Readable
  | s => s.Known E ∧ s.Readable

/-- A clause is valid: one of its literals is true in every model. -/
def ValidClause (clause : List Term) : Prop := ∀ M : Model, ∃ l ∈ clause, M.Holds l

end Carcara
