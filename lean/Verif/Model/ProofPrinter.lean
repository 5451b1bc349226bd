import Verif.Model.Printer
import Verif.Model.FileParser

/-!
# Writing proofs and problems

Model of `write_proof` and of what is written for problems, without sharing of terms (`use_sharing` is `false`). Lines are written one after the other.
-/

namespace Carcara

/-- `ast/printer.rs:384-389` and `402-409`: `iter.get_premise(p).id()` for each reference. -/
def writtenIds (it : Iter) (ps : List (Nat × Nat)) : Res (List String) := mapRes (fun p => do
  let c ← it.getPremise p
  c.id) ps

/-- `ast/printer.rs:219-235`: an argument of an anchor. -/
def printAnchorArg (defs : List (Term × String)) : AnchorArg → Res (List Char)
  | .var x s => do
    let s ← s.chars
    bindingChars x s
  | .assign x s v => do
    let s ← s.chars
    let b ← bindingChars x s
    let v ← printTerm false defs v
    .ok ("(:= ".toList ++ b ++ ' ' :: v ++ [')'])

/-- `ast/printer.rs:214-243`. -/
def printAnchor (defs : List (Term × String)) (id : String) (as : List AnchorArg) : Res (List Char) := do
  let id ← quoteSymbol id
  let as ← mapRes (printAnchorArg defs) as
  .ok ("(anchor :step ".toList ++ id ++ stepAttribute "args" as ++ [')'])

/-- The body of the loop, `ast/printer.rs:207-245`, without the end of the line. -/
def printCommand (defs : List (Term × String)) (it : Iter) : Command → Res (List Char)
  | .assume id t => printAssume false defs id t
  | .step s => do
    let ps ← writtenIds it s.premises
    let ds ← writtenIds it s.discharge
    printStep false defs s.id s.clause s.rule ps s.args ds
  | .subproof cs as _ => do
    let id ← Command.idLast cs
    printAnchor defs id as

/-- The loop `ast/printer.rs:205-247`. -/
def printLoop (defs : List (Term × String)) (it : Iter) : Res (List Char) :=
  match h : it.next with
  | none => .ok []
  | some (c, it') => do
    let line ← printCommand defs it' c
    let rest ← printLoop defs it'
    .ok (line ++ '\n' :: rest)
termination_by it.remaining
decreasing_by exact Iter.next_remaining _ _ _ h

/-- `self.pool.sort(value)`. -/
def sortToPrint (t : Term) : Res Srt :=
  match poolSort t with
  | .ok (.known s) => .ok s
  | _ => panic

/-- `ast/printer.rs:191-197`: the definition of a constant. -/
def printDefinition (x : String) (t : Term) : Res (List Char) := do
  let x ← quoteSymbol x
  let s ← sortToPrint t
  let s ← s.chars
  let t ← printTerm false [] t
  .ok ("(define-fun ".toList ++ x ++ " () ".toList ++ s ++ ' ' :: t ++ [')'])

/-- `ast/printer.rs:198-203`: the name for a term is the one defined last. -/
def definedNames (consts : List (String × Term)) : List (Term × String) := (consts.map fun d => (d.2, d.1)).reverse

/-- `ast/printer.rs:190-250 write_proof`. -/
def writeProof (P : ParsedProof) : Res (List Char) := do
  let ds ← mapRes (fun d : String × Term => printDefinition d.1 d.2) P.consts
  let cs ← printLoop (definedNames P.consts) (Iter.start P.commands)
  .ok (ds.flatMap (· ++ ['\n']) ++ cs)

end Carcara
