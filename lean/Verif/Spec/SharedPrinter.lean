import Verif.Model.SharedPrinter
import Verif.Spec.Printer
import Verif.Spec.TermParser
import Verif.Spec.Expansion
import Verif.Spec.SolverProblem

/-!
# Specification: terms with names for what they share
-/

namespace Carcara

/-- The name of the term with number `i`. -/
def Sharing.name (S : Sharing) (i : Nat) : String := String.ofList (S.nameChars i)

/-- The tokens of a term that may be shared. -/
def Sharing.tokens (S : Sharing) (L : List Term) (t : Term) (raw : List Term → List Token × List Term) : List Token × List Term :=
  if S.share L t then
    match L.idxOf? t with
    | some i => ([.symbol (S.name i)], L)
    | none => (parens [[.reserved .bang], (raw (L ++ [t])).1, [.keyword "named"], [.symbol (S.name L.length)]], (raw (L ++ [t])).2)
  else raw L

mutual
/-- The tokens of a term with sharing, and the terms that have names afterwards. -/
def Term.sharedTokens (S : Sharing) (strict : Bool) : Term → List Term → List Token × List Term
  | .const c, L => (if strict then c.strictTokens else c.tokens, L)
  | .var n _, L => ([.symbol n], L)
  | .app f as, L => S.tokens L (.app f as) fun L =>
      (parens ((f.sharedTokens S strict L).1 :: (Term.sharedTokensL S strict as (f.sharedTokens S strict L).2).1), (Term.sharedTokensL S strict as (f.sharedTokens S strict L).2).2)
  | .op o as, L => S.tokens L (.op o as) fun L =>
      (if as.isEmpty then [o.token] else parens ([o.token] :: (Term.sharedTokensL S strict as L).1), (Term.sharedTokensL S strict as L).2)
  | .binder b bs t, L => S.tokens L (.binder b bs t) fun L =>
      (parens [[b.token], parens (bs.map fun p => parens [[.symbol p.1], p.2.tokens]), (t.sharedTokens S strict L).1], (t.sharedTokens S strict L).2)
  | .let_ bs t, L => S.tokens L (.let_ bs t) fun L =>
      (parens [[.reserved .let], parens (Term.sharedTokensB S strict bs L).1, (t.sharedTokens S strict (Term.sharedTokensB S strict bs L).2).1],
        (t.sharedTokens S strict (Term.sharedTokensB S strict bs L).2).2)
  | .paramOp o ps as, L => S.tokens L (.paramOp o ps as) fun L =>
      (let head := parens ([.reserved .underscore] :: [.symbol o.name] :: (Term.sharedTokensL S strict ps L).1)
        if as.isEmpty then head else parens (head :: (Term.sharedTokensL S strict as (Term.sharedTokensL S strict ps L).2).1),
        (Term.sharedTokensL S strict as (Term.sharedTokensL S strict ps L).2).2)
def Term.sharedTokensL (S : Sharing) (strict : Bool) : List Term → List Term → List (List Token) × List Term
  | [], L => ([], L)
  | t :: ts, L => ((t.sharedTokens S strict L).1 :: (Term.sharedTokensL S strict ts (t.sharedTokens S strict L).2).1, (Term.sharedTokensL S strict ts (t.sharedTokens S strict L).2).2)
def Term.sharedTokensB (S : Sharing) (strict : Bool) : List (String × Term) → List Term → List (List Token) × List Term
  | [], L => ([], L)
  | (x, v) :: bs, L => (parens [[.symbol x], (v.sharedTokens S strict L).1] :: (Term.sharedTokensB S strict bs (v.sharedTokens S strict L).2).1,
      (Term.sharedTokensB S strict bs (v.sharedTokens S strict L).2).2)
end

/-- The term that is read after the one that was printed: in the strict mode, numbers are written with the operators of SMT-LIB. -/
def Term.asRead : Bool → Term → Term
  | false, t => t
  | true, t => t.standard

mutual
/-- Only variables are applied. -/
def Term.varHeads : Term → Bool
  | .const _ | .var _ _ => true
  | .app (.var _ _) as => Term.varHeadsL as
  | .app _ _ => false
  | .op _ as => Term.varHeadsL as
  | .binder _ _ t => t.varHeads
  | .let_ bs t => Term.varHeadsB bs && t.varHeads
  | .paramOp _ ps as => Term.varHeadsL ps && Term.varHeadsL as
def Term.varHeadsL : List Term → Bool
  | [] => true
  | t :: ts => t.varHeads && Term.varHeadsL ts
def Term.varHeadsB : List (String × Term) → Bool
  | [] => true
  | (_, t) :: bs => t.varHeads && Term.varHeadsB bs
end

/-- The names for shared terms are symbols that are not operators. -/
structure Sharing.OK (S : Sharing) : Prop where
  plain : ∀ i, PlainName (S.name i)
  ops : ∀ (o : Op) i, o.name ≠ S.name i

/-- No variable has such a name. -/
structure Sharing.Apart (S : Sharing) (E : PEnv) (t : Term) : Prop where
  free : ∀ i, E.vars.lookup (S.name i) = none
  bound : ∀ x ∈ t.boundNames, ∀ i, x ≠ S.name i

end Carcara
