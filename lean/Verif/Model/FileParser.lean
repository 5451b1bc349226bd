import Verif.Model.TermParser
import Verif.Model.ProofParser

/-!
# Parsing problems and proofs

Model of the functions of `parser/mod.rs` that read commands: `parse_problem` and `parse_proof`, from tokens. What `parse_proof` does with identifiers
and subproofs is `Model/ProofParser.lean`. Symbol tables are association lists, innermost declaration first; a scope that is left is replaced by the
table that was there before.
-/

namespace Carcara
open PRes Reader

/-! ## Commands of proofs -/

/-- `parser/mod.rs:682-713 ignore_remaining_attributes`. -/
def ignoreAttributes : Nat → Reader Unit
  | 0 => fail .fuel
  | n + 1 => do
    match ← current with
    | .keyword _ => do
      let _ ← next
      match ← current with
      | .closeParen | .eof => pure ()
      | .keyword _ => ignoreAttributes n
      | .openParen => do
        let _ ← next
        ignoreUntilClose
        ignoreAttributes n
      | _ => do
        let _ ← next
        ignoreAttributes n
    | _ => pure ()

/-- `parse_sequence` of names that are looked up, `parser/mod.rs:1058-1066` and `1074-1088`. -/
def readReferences (resolve : String → Res (Nat × Nat)) : Nat → Reader (List (Nat × Nat))
  | 0 => fail .fuel
  | n + 1 => do
    if (← current) = .closeParen then do
      let _ ← next
      pure []
    else do
      let s ← expectSymbol
      let p ← lift (ofRes (resolve s))
      let ps ← readReferences resolve n
      pure (p :: ps)

/-- An attribute of a step whose value is a list, which may be left out. -/
def optional {α : Type} (key : String) (r : Reader (List α)) : Reader (List α) := do
  if (← current) = .keyword key then do
    let _ ← next
    expect .openParen
    r
  else pure []

/-- The name of a rule, `parser/mod.rs:1000-1006`. -/
def readRule : Reader String := do
  match ← next with
  | .symbol s => pure s
  | .reserved r => pure r.name
  | _ => fail .err

/-- `parser/mod.rs:996-1054 parse_step_command`; `holeArgs` is the option `parse_hole_args`. -/
def readStep (n : Nat) (holeArgs : Bool) (E : PEnv) (ids : HashMapStack String Nat) : Reader Step := do
  let id ← expectSymbol
  let clause ← parseClause n E
  expect (.keyword "rule")
  let rule ← readRule
  let premises ← optional "premises" do
    let ps ← readReferences (parsePremise ids) n
    nonEmpty ps
  let args ← optional "args" (if rule = "hole" ∧ holeArgs = false then do
      ignoreUntilClose
      pure []
    else do
      let as ← parseTerms n E
      nonEmpty as)
  let discharge ← optional "discharge" do
    let ps ← readReferences (parseDischarge ids id) n
    nonEmpty ps
  ignoreAttributes n
  expect .closeParen
  pure { id, clause, rule, premises, args, discharge }

/-- `parser/mod.rs:986-992 parse_assume_command`. -/
def readAssume (n : Nat) (E : PEnv) : Reader (String × Term) := do
  let id ← expectSymbol
  let t ← parseSorted n E .bool
  ignoreAttributes n
  expect .closeParen
  pure (id, t)

/-- The variable and the value of an argument that assigns, `parser/mod.rs:1118-1137`. -/
def readAssignment (n : Nat) (E : PEnv) : Reader (String × Term × Srt) := do
  match E.strict, ← current with
  | false, .symbol _ => do
    let x ← expectSymbol
    let v ← parseTerm n E
    match ← lift (poolSort v) with
    | .known s => pure (x, v, s)
    | .param => fail .unmodelled
  | _, _ => do
    let (x, s) ← parseSortedVar n E
    let v ← parseSorted n E s
    pure (x, v, s)

/-- `parser/mod.rs:1115-1146 parse_anchor_argument`. -/
def readAnchorArg (n : Nat) (E : PEnv) : Reader AnchorArg := do
  expect .openParen
  if (← current) = .keyword "=" then do
    let _ ← next
    let (x, v, s) ← readAssignment n E
    expect .closeParen
    pure (.assign x s v)
  else do
    let x ← expectSymbol
    let s ← parseSort n E
    expect .closeParen
    pure (.var x s)

/-- The variable that an argument of an anchor introduces. -/
def AnchorArg.sortedVar : AnchorArg → String × Srt
  | .var x s => (x, s)
  | .assign x s _ => (x, s)

/-- `parse_sequence` of arguments of an anchor; each of them is known to the next. -/
def readAnchorArgs : Nat → PEnv → Reader (List AnchorArg)
  | 0, _ => fail .fuel
  | n + 1, E => do
    if (← current) = .closeParen then do
      let _ ← next
      pure []
    else do
      let a ← readAnchorArg n E
      let as ← readAnchorArgs n (E.bind [a.sortedVar])
      pure (a :: as)

/-- `parser/mod.rs:1093-1111 parse_anchor_command`. -/
def readAnchor (n : Nat) (E : PEnv) : Reader (String × List AnchorArg) := do
  expect (.keyword "step")
  let e ← expectSymbol
  let as ← optional "args" do
    let as ← readAnchorArgs n E
    nonEmpty as
  ignoreAttributes n
  expect .closeParen
  pure (e, as)

/-- `parse_sequence` of sorted variables that do not know each other, `parser/mod.rs:1191`. -/
def readParams : Nat → PEnv → Reader (List (String × Srt))
  | 0, _ => fail .fuel
  | n + 1, E => do
    if (← current) = .closeParen then do
      let _ ← next
      pure []
    else do
      let v ← parseSortedVar n E
      let vs ← readParams n E
      pure (v :: vs)

/-- `parser/mod.rs:1182-1197 parse_function_dec`, without the parentheses around it. -/
def readFunctionDec (n : Nat) (E : PEnv) : Reader (String × List (String × Srt) × Srt) := do
  let name ← expectSymbol
  expect .openParen
  let params ← readParams n E
  let s ← parseSort n E
  pure (name, params, s)

/-- `parser/mod.rs:1201-1216 parse_define_fun`. -/
def readDefineFun (n : Nat) (E : PEnv) : Reader (String × FunDef) := do
  let (name, params, s) ← readFunctionDec n E
  let body ← parseSorted n (E.bind params) s
  expect .closeParen
  pure (name, ⟨params, body⟩)

/-! ## Proofs -/

/-- The state of `parse_proof`: the frames and the identifiers, the variables of the open scopes (innermost scope first), and the constants that the
proof defines. -/
structure Progress where
  proof : PState := { stack := [{}], ids := HashMapStack.new, nextId := 0 }
  scopes : List (List (String × Srt))
  consts : List (String × Term) := []

/-- `parser/mod.rs:923-925`: the command closes a subproof. -/
def PState.closes (st : PState) (id : String) : Bool := st.stack.head?.map (·.endStep) = some id

/-- `parser/mod.rs:912-957`: a command is added, and if it closes a subproof the scope of its variables is left. -/
def Progress.add (P : Progress) (id : String) (c : Command) : Res Progress := do
  let st ← addCommand P.proof id c
  .ok { P with proof := st, scopes := if P.proof.closes id then P.scopes.tail else P.scopes }

/-- The body of the loop, `parser/mod.rs:863-957`, after the parenthesis. -/
def readCommand (n : Nat) (holeArgs : Bool) (E : PEnv) (P : Progress) : Reader Progress := do
  let E := { E with vars := P.scopes.headD [] }
  match ← next with
  | .reserved .assume => do
    let (id, t) ← readAssume n E
    match P.proof.stack with
    | [] => fail .panic
    | top :: outer => do
      if top.sawStep ∧ outer ≠ [] then fail .err
      else lift (ofRes (P.add id (.assume id t)))
  | .reserved .step => do
    match P.proof.stack with
    | [] => fail .panic
    | top :: outer => do
      let s ← readStep n holeArgs E P.proof.ids
      lift (ofRes ({ P with proof := { P.proof with stack := { top with sawStep := true } :: outer } }.add s.id (.step s)))
  | .reserved .defineFun => do
    let (name, f) ← readDefineFun n E
    define name f
    pure (if f.params.isEmpty then { P with consts := P.consts ++ [(name, f.body)] } else P)
  | .reserved .anchor => do
    let (e, as) ← readAnchor n E
    let frame : PFrame := { args := as, contextId := P.proof.nextId, endStep := e }
    let st : PState := { stack := frame :: P.proof.stack, ids := P.proof.ids.pushScope, nextId := P.proof.nextId + 1 }
    pure { P with proof := st, scopes := (E.bind (as.map AnchorArg.sortedVar)).vars :: P.scopes }
  | _ => fail .err

/-- The loop `parser/mod.rs:853-958`; `first` tells whether no token has been read, the result whether there are parentheses around the proof. -/
def readCommands (holeArgs : Bool) (E : PEnv) : Nat → Bool → Bool → Progress → Reader (Bool × Progress)
  | 0, _, _, _ => fail .fuel
  | n + 1, first, extra, P => do
    match ← current with
    | .eof | .closeParen => pure (extra, P)
    | _ => do
      expect .openParen
      let t ← current
      if first ∧ t = .openParen ∨ t = .closeParen then readCommands holeArgs E n false true P
      else do
        let P ← readCommand n holeArgs E P
        readCommands holeArgs E n false extra P

/-- A proof as the parser returns it, `ast/proof.rs:11-14`. -/
structure ParsedProof where
  consts : List (String × Term)
  commands : List Command
deriving DecidableEq

/-- A proof may begin with `unsat`, `parser/mod.rs:844-848`. -/
def skipUnsat : Reader Unit := do
  if (← current) = .symbol "unsat" then do
    let _ ← next
    pure ()
  else pure ()

/-- A parenthesis that is expected only sometimes. -/
def expectIf (b : Bool) (t : Token) : Reader Unit := if b then expect t else pure ()

/-- `parser/mod.rs:826-983 parse_proof`. -/
def readProof (n : Nat) (holeArgs : Bool) (E : PEnv) : Reader ParsedProof := do
  skipUnsat
  let (extra, P) ← readCommands holeArgs E n true false { scopes := [E.vars] }
  expectIf extra .closeParen
  expect .eof
  match P.proof.stack with
  | [root] => pure ⟨P.consts, root.commands⟩
  | _ => fail .err

/-! ## Problems -/

/-- `ast/problem.rs`: what the parser returns for a problem. -/
structure Problem where
  logic : Option String := none
  sorts : List (String × Nat) := []
  functions : List (String × Srt) := []
  premises : List Term := []
deriving DecidableEq

/-- `self.premises().insert(t)`. -/
def Problem.assert (Q : Problem) (t : Term) : Problem := { Q with premises := if t ∈ Q.premises then Q.premises else Q.premises ++ [t] }

/-- `insert_sorted_var` and `function_declarations.push`. -/
def Problem.declare (Q : Problem) (x : String) (s : Srt) : Problem := { Q with functions := Q.functions ++ [(x, s)] }

/-- The sort of a function, `parser/mod.rs:1154-1160`. -/
def functionSort (as : List Srt) (r : Srt) : Srt := if as.isEmpty then r else .fn as r

/-- `parser/mod.rs:1150-1164 parse_declare_fun`. -/
def readDeclareFun (n : Nat) (E : PEnv) : Reader (String × Srt) := do
  let name ← expectSymbol
  expect .openParen
  let as ← parseSorts n E
  let r ← parseSort n E
  expect .closeParen
  pure (name, functionSort as r)

/-- `parser/mod.rs:1168-1178 parse_declare_sort`. -/
def readDeclareSort : Reader (String × Nat) := do
  let name ← expectSymbol
  match ← next with
  | .numeral z => do
    expect .closeParen
    if 0 ≤ z ∧ z < 2 ^ 64 then pure (name, z.toNat) else fail .err
  | _ => fail .err

/-- `parse_sequence` of symbols, `parser/mod.rs:1295`. -/
def readSymbols : Nat → Reader (List String)
  | 0 => fail .fuel
  | n + 1 => do
    if (← current) = .closeParen then do
      let _ ← next
      pure []
    else do
      let s ← expectSymbol
      let ss ← readSymbols n
      pure (s :: ss)

/-- `parser/mod.rs:1292-1309 parse_define_sort`. -/
def readDefineSort (n : Nat) (E : PEnv) : Reader (String × SortDef) := do
  let name ← expectSymbol
  expect .openParen
  let params ← readSymbols n
  let body ← parseSort n { E with sortDecls := (params.map fun p => (p, 0)).reverse ++ E.sortDecls }
  expect .closeParen
  pure (name, ⟨params, body⟩)

/-- `parser/mod.rs:1219-1244 add_define_fun_rec_premise`, for a function of sort `s`. -/
def recPremise (name : String) (s : Srt) (params : List (String × Srt)) (body : Term) : Term :=
  if params.isEmpty then .op .equals [.var name s, body]
  else .binder .all params (.op .equals [.app (.var name s) (params.map fun v => .var v.1 v.2), body])

/-- `parse_sequence` of function declarations in parentheses, `parser/mod.rs:1252`. -/
def readFunctionDecs : Nat → PEnv → Reader (List (String × List (String × Srt) × Srt))
  | 0, _ => fail .fuel
  | n + 1, E => do
    if (← current) = .closeParen then do
      let _ ← next
      pure []
    else do
      expect .openParen
      let d ← readFunctionDec n E
      expect .closeParen
      let ds ← readFunctionDecs n E
      pure (d :: ds)

/-- The bodies of recursive functions, `parser/mod.rs:1273-1282`. The sort of the function is looked up in the table, so of two functions with the
same name the second counts. -/
def readBodies (n : Nat) (E : PEnv) : List (String × List (String × Srt) × Srt) → Problem → Reader Problem
  | [], Q => pure Q
  | (name, params, s) :: ds, Q => do
    let body ← parseSorted n (E.bind params) s
    let fs ← lift (getPanic (E.vars.lookup name))
    readBodies n E ds (Q.assert (recPremise name fs params body))

/-- `parser/mod.rs:1249-1288 parse_define_fun_rec`. -/
def readDefineFunRec (n : Nat) (multiple : Bool) (E : PEnv) (Q : Problem) : Reader (PEnv × Problem) := do
  let ds ← (if multiple then do
      expect .openParen
      let ds ← readFunctionDecs n E
      nonEmpty ds
    else do
      let d ← readFunctionDec n E
      pure [d])
  let E := E.bind (ds.map fun d => (d.1, functionSort (d.2.1.map (·.2)) d.2.2))
  expectIf multiple .openParen
  let Q ← readBodies n E ds Q
  expectIf multiple .closeParen
  expect .closeParen
  pure (E, Q)

/-- `parser/mod.rs:800-810`: a logic with reals and without integers. -/
def realOnlyLogic (l : String) : Bool :=
  ("LRA".toList <:+: l.toList || "NRA".toList <:+: l.toList || "RDL".toList <:+: l.toList) && !l.toList.contains 'I'

/-- A function that is not expanded, `parser/mod.rs:757-777`: the variable, and the premise that defines it. -/
def definingPremise (name : String) (f : FunDef) : PRes ((String × Srt) × Term) := do
  let t := if f.params.isEmpty then f.body else .binder .lambda f.params f.body
  match ← poolSort t with
  | .known s => .ok ((name, s), .op .equals [.var name s, t])
  | .param => .error .unmodelled

/-- The body of the loop, `parser/mod.rs:734-817`, after the parenthesis; `apply` is the option `apply_function_defs`. -/
def readProblemCommand (n : Nat) (apply : Bool) (E : PEnv) (Q : Problem) : Reader (PEnv × Problem) := do
  match ← next with
  | .reserved .declareFun => do
    let (name, s) ← readDeclareFun n E
    pure (E.bind [(name, s)], Q.declare name s)
  | .reserved .declareConst => do
    let name ← expectSymbol
    let s ← parseSort n E
    expect .closeParen
    pure (E.bind [(name, s)], Q.declare name s)
  | .reserved .declareSort => do
    let (name, k) ← readDeclareSort
    pure ({ E with sortDecls := (name, k) :: E.sortDecls }, { Q with sorts := Q.sorts ++ [(name, k)] })
  | .reserved .defineFun => do
    let (name, f) ← readDefineFun n E
    if apply then do
      define name f
      pure (E, Q)
    else do
      let (v, t) ← lift (definingPremise name f)
      pure (E.bind [v], Q.assert t)
  | .reserved .defineFunRec => readDefineFunRec n false E Q
  | .reserved .defineFunsRec => readDefineFunRec n true E Q
  | .reserved .defineSort => do
    let (name, d) ← readDefineSort n E
    pure ({ E with sortDefs := mapInsert E.sortDefs name d }, Q)
  | .reserved .assert => do
    let t ← parseTerm n E
    expect .closeParen
    pure (E, Q.assert t)
  | .reserved .checkSatAssuming => do
    expect .openParen
    let ts ← parseTerms n E
    let ts ← nonEmpty ts
    expect .closeParen
    pure (E, ts.foldl Problem.assert Q)
  | .reserved .setLogic => do
    let l ← expectSymbol
    expect .closeParen
    pure ({ E with intsAsReals := realOnlyLogic l }, { Q with logic := some l })
  | _ => do
    ignoreUntilClose
    pure (E, Q)

/-- The loop `parser/mod.rs:732-818`. -/
def readProblemCommands (apply : Bool) : Nat → PEnv → Problem → Reader (PEnv × Problem)
  | 0, _, _ => fail .fuel
  | n + 1, E, Q => do
    if (← current) = .eof then pure (E, Q)
    else do
      expect .openParen
      let (E, Q) ← readProblemCommand n apply E Q
      readProblemCommands apply n E Q

/-- `parser/mod.rs:729-820 parse_problem`, and `80-103 parse_instance_with_pool` without rewrite rules: the proof is read with the declarations of the
problem, and integers are integers in it. -/
def readInstance (n : Nat) (apply holeArgs : Bool) (E : PEnv) (problem proof : List Token) : PRes (Problem × ParsedProof) := do
  let ((E', Q), st) ← readProblemCommands apply n { E with intsAsReals := false } {} ⟨problem, []⟩
  let (P, _) ← readProof n holeArgs { E' with intsAsReals := false } ⟨proof, st.defs⟩
  .ok (Q, P)

end Carcara
