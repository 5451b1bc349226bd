import Verif.Spec.Polyeq
import Verif.Model.TermParser
import Verif.Spec.Printer

/-!
# Specification: terms that the parser gives a sort to, and terms that can be written so that they are read back
-/

namespace Carcara

/-- The width that is written in this node, if there is one, is a natural number. This says something about `@bv`, whose width can be any term of
sort `Int`, and about `int_to_bv`, whose index can be negative. -/
def Term.plainWidth : Term → Prop
  | .op .bvConst as => ∃ (a : Term) (w : Nat), as = [a, .const (.int w)]
  | .paramOp .intToBv ps _ => ∃ w : Nat, ps = [.const (.int w)]
  | _ => True

/-- All widths that are written in a term are natural numbers. -/
def Term.plainWidths (t : Term) : Prop := ∀ u ∈ t.subterms, u.plainWidth

/-- All bit vectors in a term are shorter than `2 ^ 64`. -/
def Term.smallWidths (t : Term) : Prop := ∀ u ∈ t.subterms, ∀ w, sortOf u = some (.bv w) → w < 2 ^ 64

/-- The names of sorts that have a fixed meaning. -/
def builtinSorts : List String := ["Bool", "Int", "Real", "String", "RegLan", "Type", "Array"]

mutual
/-- A sort that can be written: it contains no sort of functions, and its sorts are declared with these arities. -/
def Srt.Known (E : PEnv) : Srt → Prop
  | .bv w => w < 2 ^ 64
  | .array i e => i.Known E ∧ e.Known E
  | .atom n as => n ∉ builtinSorts ∧ E.sortDefs.lookup n = none ∧ E.sortDecls.lookup n = some as.length ∧ Srt.KnownL E as
  | .fn _ _ | .rareList => False
  | _ => True
def Srt.KnownL (E : PEnv) : List Srt → Prop
  | [] => True
  | s :: ss => s.Known E ∧ Srt.KnownL E ss
end

/-- A bit-vector constant needs a value that is not negative and a width from 1 to `2 ^ 64 - 1`. -/
def Const.Known : Const → Prop
  | .bv v w => 0 ≤ v ∧ 1 ≤ w ∧ w < 2 ^ 64
  | _ => True

/-- A constant that the printer names is defined, under that name, for the parser. -/
def knownName (D : List (Term × String)) (F : List (String × FunDef)) (t : Term) (p : Prop) : Prop :=
  match D.lookup t with
  | some n => F.lookup n = some ⟨[], t⟩
  | none => p

/-- What can be written at the head of an application. -/
def headKnown (D : List (Term × String)) (f : Term) : Prop := D.lookup f = none ∧ ∀ s, f ≠ .var "eo" s

/-- The variables of a `let` have the sorts of their values. -/
def letSorts (bs : List (String × Term)) : List (String × Srt) := bs.filterMap fun b => (sortOf b.2).map fun s => (b.1, s)

mutual
/-- The names in a term mean to the parser what they mean in the term: variables are declared and not defined, and have no names of operators;
sorts are declared; `let` is not expanded; and the constants that the printer names (`D`) are defined under these names (`F`). -/
def Term.Known (D : List (Term × String)) (F : List (String × FunDef)) (E : PEnv) : Term → Prop
  | .const c => knownName D F (.const c) c.Known
  | .var n s => knownName D F (.var n s) (F.lookup n = none ∧ Op.ofName n = none ∧ E.vars.lookup n = some s)
  | .app f as => knownName D F (.app f as) (headKnown D f ∧ f.Known D F E ∧ as ≠ [] ∧ Term.KnownL D F E as)
  | .op o as => knownName D F (.op o as) ((as = [] → o ≠ .cl ∧ F.lookup o.name = none) ∧ Term.KnownL D F E as)
  | .binder b bs t => knownName D F (.binder b bs t) ((∀ v ∈ bs, v.2.Known E) ∧ t.Known D F (E.bind bs))
  | .let_ bs t => knownName D F (.let_ bs t) (E.expandLets = false ∧ bs ≠ [] ∧ Term.KnownB D F E bs ∧ t.Known D F (E.bind (letSorts bs)))
  | .paramOp o ps as => knownName D F (.paramOp o ps as) (Term.KnownL D F E ps ∧ Term.KnownL D F E as)
def Term.KnownL (D : List (Term × String)) (F : List (String × FunDef)) (E : PEnv) : List Term → Prop
  | [] => True
  | t :: ts => t.Known D F E ∧ Term.KnownL D F E ts
def Term.KnownB (D : List (Term × String)) (F : List (String × FunDef)) (E : PEnv) : List (String × Term) → Prop
  | [] => True
  | (_, t) :: bs => t.Known D F E ∧ Term.KnownB D F E bs
end

end Carcara
