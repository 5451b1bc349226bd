import Verif.Model.FileParser
import Verif.Model.Rare

/-!
# Parsing files of rewrite rules

Model of `parser/rare/mod.rs`, from tokens. The parser that has read the problem and the proof goes on with the file of rules
(`parser/mod.rs:91-98`), so that everything they declare and define is known. Sorts with type variables are not modelled
(a fault of its own, `unmodelled`): the sort `Type`, names that begin with `@`, and sorts with arguments in parentheses.
-/

namespace Carcara
open PRes Reader

/-- `ast/rare_rules.rs:16-30`: a rule as it is read, `list` is the attribute `:list` of a parameter. -/
structure RareParamDecl where
  name : String
  sort : Srt
  list : Bool := false
deriving DecidableEq

/-- `parser/rare/mod.rs:134-141`: the parameters in the order of the file, before they are collected in a map. -/
structure RareDecl where
  name : String
  params : List RareParamDecl := []
  args : List String := []
  premises : List Term := []
  conclusion : Term
deriving DecidableEq

/-- `parser/mod.rs:1914-1954 parse_sort(true)`. -/
def readRareSort (n : Nat) (E : PEnv) : Reader Srt := do
  match ← next with
  | .symbol s =>
    if s.toList.head? = some '@' ∧ (E.sortDefs.lookup s).isSome then fail .unmodelled else lift (makeSort E s [])
  | .openParen => do
    if (← current) = .reserved .underscore then do
      let _ ← next
      let name ← expectSymbol
      let args ← parseTerms n E
      let args ← nonEmpty args
      lift (makeIndexedSort name args)
    else fail .unmodelled
  | _ => fail .err

/-- `parser/rare/mod.rs:26-33`: a parameter is a symbol, and its name is also defined as a sort. -/
def PEnv.declareParam (E : PEnv) (x : String) (s : Srt) : PEnv := { E.bind [(x, s)] with sortDefs := (x, ⟨[], s⟩) :: E.sortDefs }

/-- `parser/rare/mod.rs:35-68`: the attribute of a parameter. -/
def readRareAttribute : Reader Bool := do
  match ← current with
  | .closeParen => do
    expect .closeParen
    pure false
  | .keyword _ => do
    let k ← expectKeyword
    expect .closeParen
    if k = "list" then pure true else fail .err
  | _ => fail .err

/-- `parser/rare/mod.rs:21-69 parse_parameters`. -/
def readRareParam (n : Nat) (E : PEnv) : Reader RareParamDecl := do
  expect .openParen
  let name ← expectSymbol
  let sort ← readRareSort n E
  let list ← readRareAttribute
  pure { name, sort, list }

/-- `parse_sequence` of parameters, `parser/rare/mod.rs:109`. -/
def readRareParams : Nat → PEnv → Reader (List RareParamDecl × PEnv)
  | 0, _ => fail .fuel
  | n + 1, E => do
    if (← current) = .closeParen then do
      let _ ← next
      pure ([], E)
    else do
      let p ← readRareParam n E
      let (ps, E) ← readRareParams n (E.declareParam p.name p.sort)
      pure (p :: ps, E)

/-- `parser/rare/mod.rs:8-12 enum Body`. -/
inductive RareBody where
  | conclusion (t : Term)
  | premises (ts : List Term)
  | args (xs : List String)

/-- `parser/rare/mod.rs:71-102 parse_body`. -/
def readRareBody (n : Nat) (E : PEnv) : Reader RareBody := do
  let k ← expectKeyword
  if k = "conclusion" then do
    let t ← parseTerm n E
    pure (.conclusion t)
  else if k = "args" then do
    expect .openParen
    let xs ← readSymbols n
    pure (.args xs)
  else if k = "premises" then do
    expect .openParen
    let ts ← parseTerms n E
    pure (.premises ts)
  else fail .err

/-- `parse_sequence` of attributes, `parser/rare/mod.rs:117`. -/
def readRareBodies : Nat → PEnv → Reader (List RareBody)
  | 0, _ => fail .fuel
  | n + 1, E => do
    if (← current) = .closeParen then do
      let _ ← next
      pure []
    else do
      let b ← readRareBody n E
      let bs ← readRareBodies n E
      pure (b :: bs)

/-- `parser/rare/mod.rs:14-18 struct BodyDefinition`. -/
structure RareParts where
  args : List String := []
  premises : List Term := []
  conclusion : Option Term := none

/-- `parser/rare/mod.rs:118-125`: of attributes with the same name, the last counts. -/
def RareParts.add (P : RareParts) : RareBody → RareParts
  | .conclusion t => { P with conclusion := some t }
  | .premises ts => { P with premises := ts }
  | .args xs => { P with args := xs }

/-- `parser/rare/mod.rs:104-142 parse_rule`. What the parameters declare stays declared. -/
def readRareRule (n : Nat) (E : PEnv) : Reader (RareDecl × PEnv) := do
  expect .openParen
  expect (.reserved .declareRareRule)
  let name ← expectSymbol
  expect .openParen
  let (params, E) ← readRareParams n E
  let bodies ← readRareBodies n E
  let P := bodies.foldl RareParts.add {}
  match P.conclusion with
  | none => fail .err
  | some conclusion => pure ({ name, params, args := P.args, premises := P.premises, conclusion }, E)

/-- The loop of `parser/rare/mod.rs:144-156 parse_rare`. -/
def readRareRules : Nat → PEnv → Reader (List RareDecl)
  | 0, _ => fail .fuel
  | n + 1, E => do
    if (← current) = .eof then pure []
    else do
      let (r, E) ← readRareRule n E
      let rs ← readRareRules n E
      pure (r :: rs)

/-- `parser/rare/mod.rs:136`: the parameters are collected in a map. -/
def RareDecl.toRule (r : RareDecl) : RareRule where
  params := r.params.foldl (fun m p => mapInsert m p.name ⟨p.sort, false⟩) []
  args := r.args
  premises := r.premises
  conclusion := r.conclusion

/-- `parser/rare/mod.rs:150-155`: and so are the rules. -/
def rareRules (rs : List RareDecl) : List (String × RareRule) := rs.foldl (fun m r => mapInsert m r.name r.toRule) []

/-- `parser/rare/mod.rs:144-156 parse_rare`. -/
def readRare (n : Nat) (E : PEnv) : Reader (List (String × RareRule)) := do
  let rs ← readRareRules n E
  pure (rareRules rs)

end Carcara
