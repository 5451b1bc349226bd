import Verif.Spec.Printer
import Verif.Spec.TermParser
import Verif.Spec.ProofParser

/-!
# The tokens of a proof
-/

namespace Carcara

/-- The tokens of an argument of an anchor. -/
def AnchorArg.tokens (defs : List (Term × String)) : AnchorArg → List Token
  | .var x s => parens [[.symbol x], s.tokens]
  | .assign x s v => parens [[.keyword "="], parens [[.symbol x], s.tokens], v.tokens false defs]

/-- The tokens of a command of a proof. -/
def RawCommand.tokens (defs : List (Term × String)) : RawCommand → List Token
  | .assume id t => parens [[.reserved .assume], [.symbol id], t.tokens false defs]
  | .step r => stepTokens false defs r.id r.clause r.rule r.premises r.args r.discharge
  | .anchor e as => parens ([[.reserved .anchor], [.keyword "step"], [.symbol e]] ++ attributeTokens "args" (as.map (AnchorArg.tokens defs)))

/-- The tokens of a definition of a constant. -/
def definitionTokens (x : String) (s : Srt) (t : Term) : List Token := parens [[.reserved .defineFun], [.symbol x], parens [], s.tokens, t.tokens false []]

/-- An argument of an anchor that can be written. -/
def AnchorArg.Readable (defs : List (Term × String)) : AnchorArg → Prop
  | .var x s => Carcara.Readable x ∧ s.Readable
  | .assign x s v => Carcara.Readable x ∧ s.Readable ∧ v.Readable defs

/-- A command whose names and strings can be written. The names of rules are not quoted. -/
def Command.Readable (defs : List (Term × String)) : Command → Prop
  | .assume id t => Carcara.Readable id ∧ t.Readable defs
  | .step s => Carcara.Readable s.id ∧ Term.ReadableL defs s.clause ∧ PlainName s.rule ∧ Term.ReadableL defs s.args
  | .subproof _ as _ => ∀ a ∈ as, a.Readable defs

/-- The names by which references are written are not read as something else: no visible command is called like a discharged one with the identifier
of the step before it. -/
def Step.unshadowed (F : Frames) (s : Step) : Prop :=
  ∀ p ∈ s.discharge, ∀ c k, F.lookup p = some c → c.id = .ok k → FreshId F.visible (s.id ++ "." ++ k)

/-- The first discharged command is written without bars. -/
def Step.firstPlain (F : Frames) (s : Step) : Prop := ∀ p ∈ s.discharge.head?, ∀ c k, F.lookup p = some c → c.id = .ok k → PlainName k

end Carcara
