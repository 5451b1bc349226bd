import Verif.Model.Printer

/-!
# Printing with sharing

Model of `ast/printer.rs:103-142 print_with_sharing` and `298-369 write_raw_term` with the option `use_sharing`: a term that is used more than once is
written as `(! t :named @p_i)` the first time, and as `@p_i` afterwards. Which terms are used more than once is found out with `Rc::strong_count`, which
is not modelled: `share` stands for this test and the test whether the term is closed (`printer.rs:109-125`), and may depend on the terms that have names
already. Constants that a proof defines (`define-fun`) are left out.
-/

namespace Carcara

/-- `term_sharing_variable_prefix`, and the terms that may be shared. -/
structure Sharing where
  pre : String
  share : List Term → Term → Bool

/-- `{prefix}{i}`. -/
def Sharing.nameChars (S : Sharing) (i : Nat) : List Char := S.pre.toList ++ natChars i

/-- `ast/printer.rs:127-139`: `L` are the terms that have names, in the order of their names. -/
def Sharing.chars (S : Sharing) (L : List Term) (t : Term) (raw : List Term → Res (List Char × List Term)) : Res (List Char × List Term) :=
  if S.share L t then
    match L.idxOf? t with
    | some i => .ok (S.nameChars i, L)
    | none => do
      let (cs, L') ← raw (L ++ [t])
      .ok ("(! ".toList ++ cs ++ " :named ".toList ++ S.nameChars L.length ++ [')'], L')
  else raw L

mutual
/-- `ast/printer.rs:103-142 print_with_sharing`, `298-369 write_raw_term`. Constants and variables are not shared (`printer.rs:112`). -/
def printShared (S : Sharing) (strict : Bool) : Term → List Term → Res (List Char × List Term)
  | .const c, L => .ok (if strict then strictConstChars c else constChars c, L)
  | .var n _, L => do
    let n ← quoteSymbol n
    .ok (n, L)
  | .app f as, L => S.chars L (.app f as) fun L => do
    let (f, L) ← printShared S strict f L
    let (as, L) ← printSharedL S strict as L
    .ok ('(' :: f ++ tailChars as, L)
  | .op o as, L => S.chars L (.op o as) fun L => do
    let (as, L) ← printSharedL S strict as L
    if as = [] then .ok (o.name.toList, L) else .ok ('(' :: o.name.toList ++ tailChars as, L)
  | .binder b bs t, L => S.chars L (.binder b bs t) fun L => do
    let bs ← sortBindings bs
    let (t, L) ← printShared S strict t L
    .ok ('(' :: b.name.toList ++ ' ' :: bindingListChars bs ++ ' ' :: t ++ [')'], L)
  | .let_ bs t, L => S.chars L (.let_ bs t) fun L => do
    let (bs, L) ← printSharedB S strict bs L
    let (t, L) ← printShared S strict t L
    .ok ("(let ".toList ++ bindingListChars bs ++ ' ' :: t ++ [')'], L)
  | .paramOp o ps as, L => S.chars L (.paramOp o ps as) fun L => do
    let (ps, L) ← printSharedL S strict ps L
    let (as, L) ← printSharedL S strict as L
    if as = [] then .ok ("(_ ".toList ++ o.name.toList ++ tailChars ps, L)
    else .ok ("((_ ".toList ++ o.name.toList ++ tailChars ps ++ tailChars as, L)
def printSharedL (S : Sharing) (strict : Bool) : List Term → List Term → Res (List (List Char) × List Term)
  | [], L => .ok ([], L)
  | t :: ts, L => do
    let (t, L) ← printShared S strict t L
    let (ts, L) ← printSharedL S strict ts L
    .ok (t :: ts, L)
def printSharedB (S : Sharing) (strict : Bool) : List (String × Term) → List Term → Res (List (List Char) × List Term)
  | [], L => .ok ([], L)
  | (x, v) :: bs, L => do
    let (v, L) ← printShared S strict v L
    let b ← bindingChars x v
    let (bs, L) ← printSharedB S strict bs L
    .ok (b :: bs, L)
end

end Carcara
