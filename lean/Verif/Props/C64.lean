import Verif.Lemmas.SolverProblemText
import Verif.Props.C52
import Verif.Props.C63

/-!
# C64: the problem given to a solver says the negation of the clause

For a step that is to be elaborated with a solver, `elaborator/hole.rs:39-71` writes a problem: the declarations of the original problem, and the negation
of each literal of the clause. The solver's proof is then read and checked against this text (`hole.rs:142-161`), and put in the place of the step. "The
text is read again, and it has a model exactly if the clause is not valid."
-/

namespace Carcara
open PRes Reader

/-- The text for a clause is read, and it has a model exactly if the clause is not valid. -/
def SaysNegation (E : PEnv) (Q : Problem) (clause : List Term) : Prop :=
  ∃ text ts, holeProblem Q clause = .ok text ∧ AllTokens text ts ∧ ∀ m, 3 * ts.length + 1 ≤ m →
    ∃ E' Q' F', readProblemCommands false m E {} ⟨ts, []⟩ = .ok ((E', Q'), ⟨[], F'⟩) ∧
      ((∃ M : Model, ∀ t ∈ Q'.premises, M.Holds t) ↔ ¬ ValidClause clause)

/-- The options with which the text is read, `elaborator/hole.rs:147-153`. -/
def solverEnv : PEnv := { expandLets := true, subtyping := true }

/-- The claim: this is so for every step of a proof that is read. -/
def C64Full : Prop := ∀ (n : Nat) (apply holeArgs : Bool) (E : PEnv) (problem proof : List Token) (Q : Problem) (P : ParsedProof), PlainEnv E →
  readInstance n apply holeArgs E problem proof = .ok (Q, P) → ∀ F Γ s, Occ P.commands F Γ (.step s) → SaysNegation solverEnv Q s.clause

/-- When the declarations can be written and read. -/
structure PreludeOK (E : PEnv) (Q : Problem) : Prop where
  logic : ∀ l ∈ Q.logic, PlainName l
  reals : ∀ l ∈ Q.logic, realOnlyLogic l = false
  sorts : ∀ d ∈ Q.sorts, Readable d.1 ∧ d.2 < 2 ^ 64
  functions : ∀ d ∈ Q.functions, Readable d.1 ∧ d.2.Declarable (E.declaring Q.sorts [])

theorem holePrelude_logic {Q : Problem} {l : String} (h : l ∈ (holePrelude Q).logic) : l ∈ Q.logic ∨ l = "QF_LIRA" := by
  rw [holePrelude] at h
  split at h
  · exact .inr (Option.some.inj h).symm
  · exact .inl h

theorem holePrelude_sorts {Q : Problem} : (holePrelude Q).sorts = Q.sorts := by
  rw [holePrelude]
  split <;> rfl

theorem holePrelude_functions {Q : Problem} : (holePrelude Q).functions = Q.functions := by
  rw [holePrelude]
  split <;> rfl

theorem plainName_of {s : String} (h : s ≠ "" ∧ (∀ c ∈ s.toList, isSymbolChar c = true) ∧ (∀ c ∈ s.toList.head?, c.isDigit = false) ∧
    negativeCheck s = false ∧ ∀ r ∈ Reserved.all, s ≠ r.name) : PlainName s :=
  ⟨h.1, h.2.1, h.2.2.1, (fun e => by rw [looksNegative_iff, h.2.2.2.1] at e; cases e), fun r => h.2.2.2.2 r (by cases r <;> decide)⟩

/-- What is read: the same declarations, and the negation of each literal, in which numbers are written with the operators of SMT-LIB. -/
theorem c64_read (E : PEnv) (Q : Problem) (clause : List Term) (hE : PlainEnv E) (hQ : PreludeOK E Q) (hr : ∀ l ∈ clause, l.Readable [])
    (hw : ∀ l ∈ clause, Writable [] [] (E.declaring Q.sorts Q.functions) l ∧ sortOf l = some .bool) :
    ∃ text ts, holeProblem Q clause = .ok text ∧ AllTokens text ts ∧ ∀ m, 3 * ts.length + 1 ≤ m →
      ∃ E' Q', readProblemCommands false m E {} ⟨ts, []⟩ = .ok ((E', Q'), ⟨[], []⟩) ∧ Q'.sorts = Q.sorts ∧ Q'.functions = Q.functions ∧
        ∀ u, u ∈ Q'.premises ↔ ∃ l ∈ clause, u = .op .not [l.standard] := by
  obtain ⟨text, h1, rest, h2, h3⟩ := text_problem (E := E.declaring Q.sorts []) (Q := holePrelude Q) (clause := clause)
    (fun l hl => by
      rcases holePrelude_logic hl with h | rfl
      · exact hQ.logic l h
      · exact plainName_of (by decide +kernel))
    (fun d hd => (hQ.sorts d (holePrelude_sorts ▸ hd)).1) (fun d hd => hQ.functions d (holePrelude_functions ▸ hd)) hr
  refine ⟨text, _, h1, ⟨rest, h2, h3⟩, fun m hm => ?_⟩
  have hl : realOnlyLogic ((holePrelude Q).logic.getD "ALL") = false := by
    cases hq : (holePrelude Q).logic with
    | none => decide +kernel
    | some l =>
      rcases holePrelude_logic (Q := Q) (l := l) (by rw [hq]; rfl) with h | rfl
      · exact hQ.reals l h
      · decide +kernel
  obtain ⟨E', ps, k1, k2⟩ := readProblem64 (apply := false) (Q := holePrelude Q) (clause := clause) hE hl
    (fun d hd => (hQ.sorts d (holePrelude_sorts ▸ hd)).2)
    (fun d hd => by rw [holePrelude_sorts]; exact (hQ.functions d (holePrelude_functions ▸ hd)).2)
    (fun l hl => by rw [holePrelude_sorts, holePrelude_functions]; exact hw l hl) hm
  exact ⟨E', _, k1, holePrelude_sorts, holePrelude_functions, k2⟩

/-- Negating each literal, with numbers written in the standard way, negates the clause. -/
theorem c64_negation (clause : List Term) (ps : List Term) (h : ∀ u, u ∈ ps ↔ ∃ l ∈ clause, u = .op .not [l.standard]) :
    (∃ M : Model, ∀ t ∈ ps, M.Holds t) ↔ ¬ ValidClause clause := by
  have hs : ∀ (M : Model) (l : Term), M.Holds l.standard ↔ M.Holds l := fun M l => by rw [Model.Holds, Model.Holds, Model.val, Model.val, eval_standard]
  constructor
  · rintro ⟨M, hM⟩ hv
    obtain ⟨l, hl, ht⟩ := hv M
    exact (M.holds_not _).1 (hM _ ((h _).2 ⟨l, hl, rfl⟩)) ((hs M l).2 ht)
  · intro hv
    simp only [ValidClause, not_forall, not_exists, not_and] at hv
    obtain ⟨M, hM⟩ := hv
    refine ⟨M, fun t ht => ?_⟩
    obtain ⟨l, hl, rfl⟩ := (h t).1 ht
    exact (M.holds_not _).2 fun k => hM l hl ((hs M l).1 k)

/-- Partial: it is true if the names and sorts can be written and read, the logic is written without bars and does not read integers as reals, and each
literal is a formula over the declared functions. Missing: logics in which integers are read as reals; and literals with names that are not declared by
the problem, or declared twice, for which it is false. -/
theorem c64_text_partial (E : PEnv) (Q : Problem) (clause : List Term) (hE : PlainEnv E) (hQ : PreludeOK E Q) (hr : ∀ l ∈ clause, l.Readable [])
    (hw : ∀ l ∈ clause, Writable [] [] (E.declaring Q.sorts Q.functions) l ∧ sortOf l = some .bool) : SaysNegation E Q clause := by
  obtain ⟨text, ts, h1, h2, h3⟩ := c64_read E Q clause hE hQ hr hw
  refine ⟨text, ts, h1, h2, fun m hm => ?_⟩
  obtain ⟨E', Q', k1, -, -, k2⟩ := h3 m hm
  exact ⟨E', Q', [], k1, c64_negation clause Q'.premises k2⟩

/-- Partial: if the solver answers with a proof that is read together with this text, and accepted in the elaborated mode with sound rules, then the
clause is valid. Missing, besides the above: `hole.rs` also allows integers in the place of reals. -/
theorem c64_sound_partial (T : TableEnv) (cfg : Config) (m : Nat) (holeArgs : Bool) (E : PEnv) (Q : Problem) (clause : List Term) (text : List Char)
    (ts proof : List Token) (Q' : Problem) (P : ParsedProof) (hE : PlainEnv E) (hE' : E.subtyping = false) (hQ : PreludeOK E Q)
    (hr : ∀ l ∈ clause, l.Readable []) (hw : ∀ l ∈ clause, Writable [] [] (E.declaring Q.sorts Q.functions) l ∧ sortOf l = some .bool)
    (ht : holeProblem Q clause = .ok text) (hts : AllTokens text ts) (hm : 3 * ts.length + 1 ≤ m)
    (hi : readInstance m false holeArgs E ts proof = .ok (Q', P)) (he : cfg.elaborated = true)
    (hp : ∀ F Γ c cl, Occ P.commands F Γ c → c.clause = .ok cl → ∀ l ∈ cl, l.plainWidths)
    (hanchors : ∀ F Γ c, Occ P.commands F Γ c → ∀ as ∈ Γ, as = [])
    (hrules : ∀ F Γ s, Occ P.commands F Γ (.step s) → s.rule ∈ "resolution" :: "th_resolution" :: soundNames)
    (h : check (T.params cfg) cfg Q'.premises P.commands = .ok false) : ValidClause clause := by
  obtain ⟨text', ts', h1, h2, h3⟩ := c64_text_partial E Q clause hE hQ hr hw
  rw [ht] at h1
  cases h1
  cases h2.unique hts
  obtain ⟨E1, Q1, F, e1, h4⟩ := h3 m hm
  have hu := c01_text_partial T cfg m false holeArgs E ts proof Q' P hE' hi he hp hanchors hrules h
  have hEq : { E with intsAsReals := false } = E := by
    have := hE.ints
    cases E
    cases this
    rfl
  obtain ⟨⟨⟨E2, Q2⟩, st⟩, k1, k⟩ := pbind_ok.1 hi
  obtain ⟨⟨P', st'⟩, -, k⟩ := pbind_ok.1 k
  cases k
  rw [hEq, e1] at k1
  cases k1
  exact Classical.byContradiction fun hv => hu (h4.2 hv)

/-! ## Examples -/

section Examples

private abbrev x : Term := .var "x" .int
private abbrev p : Term := .var "p" .bool
private abbrev num (z : Int) : Term := .const (.int z)
private abbrev g : Srt := .fn [.int, .bool] (.atom "U" [])
private abbrev gx : Term := .app (.var "g" g) [x, p]

/-- `(set-logic QF_LIA) (declare-sort U 0) (declare-fun x () Int) (declare-fun p () Bool) (declare-fun g (Int Bool) U)`. -/
private def Q0 : Problem := { logic := some "QF_LIA", sorts := [("U", 0)], functions := [("x", .int), ("p", .bool), ("g", g)] }

/-- The clause `p`, `(< x (- 1))`, `(= (g x p) (g x p))`, with a literal that is repeated. -/
private def clause0 : List Term := [p, p, .op .lt [x, num (-1)], .op .equals [gx, gx]]

/-- What is written: the literal is negated once, the logic is another one, and the negative number is written with `-`. -/
example : holeProblem Q0 clause0 = .ok ("(set-option :produce-proofs true)\n(set-logic QF_LIRA)\n(declare-sort U 0)\n(declare-fun x () Int)\n\
(declare-fun p () Bool)\n(declare-fun g (Int Bool) U)\n(assert (not p))\n(assert (not (< x (- 1))))\n(assert (not (= (g x p) (g x p))))\n\
(check-sat)\n(get-proof)\n(exit)\n").toList := by decide +kernel

private def notBv64 : Option Srt → Bool
  | some (.bv _) => false
  | _ => true

private theorem small64 (t : Term) (h : ∀ u ∈ t.subterms, notBv64 (sortOf u) = true) : t.smallWidths := fun u hu w e => by
  have := h u hu
  rw [e] at this
  cases this

/-- The hypotheses of `c64_text_partial`. -/
example : PlainEnv solverEnv ∧ PreludeOK solverEnv Q0 ∧ (∀ l ∈ clause0, l.Readable []) ∧
    ∀ l ∈ clause0, Writable [] [] (solverEnv.declaring Q0.sorts Q0.functions) l ∧ sortOf l = some .bool := by
  refine ⟨⟨rfl, rfl⟩, ⟨?_, ?_, ?_, ?_⟩, ?_, ?_⟩
  · intro l hl
    cases hl
    exact plainName_of (by decide +kernel)
  · intro l hl
    cases hl
    decide +kernel
  · simp only [Q0, List.mem_singleton, forall_eq]
    exact ⟨readable_of (by decide +kernel), by decide⟩
  · simp [Q0, Srt.Declarable, Srt.Known, Srt.Readable, solverEnv, PEnv.declaring]
    exact ⟨readable_of (by decide +kernel), readable_of (by decide +kernel), readable_of (by decide +kernel), ⟨by decide +kernel, trivial⟩,
      readable_of (by decide +kernel), trivial⟩
  · simp [clause0, Term.Readable, Term.ReadableL, unnamed, List.lookup, Const.Readable]
    exact ⟨readable_of (by decide +kernel), readable_of (by decide +kernel), readable_of (by decide +kernel), readable_of (by decide +kernel),
      readable_of (by decide +kernel)⟩
  · simp only [clause0, List.mem_cons, List.not_mem_nil, or_false, forall_eq_or_imp, forall_eq]
    refine ⟨⟨⟨by decide +kernel, small64 _ (by decide +kernel), ?_⟩, by decide +kernel⟩, ⟨⟨by decide +kernel, small64 _ (by decide +kernel), ?_⟩, by decide +kernel⟩,
      ⟨⟨by decide +kernel, small64 _ (by decide +kernel), ?_⟩, by decide +kernel⟩, ⟨by decide +kernel, small64 _ (by decide +kernel), ?_⟩, by decide +kernel⟩
    all_goals
      simp [Term.Known, Term.KnownL, knownName, headKnown, List.lookup, BEq.beq, PEnv.declaring, Q0, solverEnv, Const.Known]
      try decide +kernel

private def Q1 : Problem := { functions := [("p", .bool)] }
private def T0 : TableEnv := ⟨fun _ => 0, fun _ db => db, fun _ => 0, fun _ _ => err⟩
private def text1 : List Char :=
  ("(set-option :produce-proofs true)\n(set-logic ALL)\n(declare-fun p () Bool)\n(assert (not p))\n(assert (not (not p)))\n(check-sat)\n(get-proof)\n\
(exit)\n").toList
private def proofText1 : List Char :=
  "(assume h1 (not p)) (assume h2 (not (not p))) (step t (cl) :rule resolution :premises (h1 h2) :args ((not p) true))".toList
private abbrev proof1 : List Command :=
  [.assume "h1" (.op .not [p]), .assume "h2" (.op .not [.op .not [p]]), .step ⟨"t", [], "resolution", [(0, 0), (0, 1)], [.op .not [p], .tru], []⟩]

/-- The tokens of a text, for examples. -/
private def tok : Nat → List Char → List Token
  | 0, _ => []
  | n + 1, cs =>
    match nextToken cs with
    | .ok (.eof, _) => []
    | .ok (t, cs) => t :: tok n cs
    | .error _ => []

/-- The hypotheses of `c64_sound_partial`: the clause `p`, `(not p)`, and what a solver may answer. -/
example : PlainEnv {} ∧ PreludeOK {} Q1 ∧ (∀ l ∈ [p, .op .not [p]], l.Readable []) ∧
    (∀ l ∈ [p, .op .not [p]], Writable [] [] (PEnv.declaring {} Q1.sorts Q1.functions) l ∧ sortOf l = some .bool) ∧
    holeProblem Q1 [p, .op .not [p]] = .ok text1 ∧ AllTokens text1 (tok 100 text1) ∧
    readInstance 200 false false {} (tok 100 text1) (tok 100 proofText1) =
      .ok ({ logic := some "ALL", functions := [("p", .bool)], premises := [.op .not [p], .op .not [.op .not [p]]] }, ⟨[], proof1⟩) ∧
    (∀ F Γ s, Occ proof1 F Γ (.step s) → s.rule ∈ "resolution" :: "th_resolution" :: soundNames) ∧
    check (T0.params { elaborated := true }) { elaborated := true } [.op .not [p], .op .not [.op .not [p]]] proof1 = .ok false := by
  refine ⟨⟨rfl, rfl⟩, ⟨fun l hl => (nomatch hl), fun l hl => (nomatch hl), fun d hd => (nomatch hd), ?_⟩, ?_, ?_, by decide +kernel,
    ⟨['\n'], lexN_sound (n := (tok 100 text1).length) (by decide +kernel), by decide +kernel⟩, by decide +kernel, ?_,
    by rw [check, checkLoop_start]; decide +kernel⟩
  · simp only [Q1, List.mem_singleton, forall_eq]
    exact ⟨readable_of (by decide +kernel), trivial, trivial⟩
  · simp [Term.Readable, Term.ReadableL, unnamed, List.lookup]
    exact readable_of (by decide +kernel)
  · simp only [List.mem_cons, List.not_mem_nil, or_false, forall_eq_or_imp, forall_eq]
    refine ⟨⟨⟨by decide +kernel, small64 _ (by decide +kernel), ?_⟩, by decide +kernel⟩, ⟨by decide +kernel, small64 _ (by decide +kernel), ?_⟩, by decide +kernel⟩
    all_goals
      simp [Term.Known, Term.KnownL, knownName, List.lookup, PEnv.declaring, Q1]
      try decide +kernel
  · have : ∀ o ∈ allPositions proof1, ∀ s, o.cmd = .step s → s.rule ∈ "resolution" :: "th_resolution" :: soundNames := by
      intro o ho s hs
      simp [allPositions, positionsL, positions] at ho
      rcases ho with rfl | rfl | rfl <;> simp at hs
      subst hs
      simp
    exact fun F Γ s ho => this ⟨F, Γ, .step s⟩ (allPositions_iff.2 ho) s rfl

end Examples

/-! ## What fails -/

private def tokens64 (s : String) : List Token := tok 200 s.toList

/-- How the claim is refuted: the text of a step is written, and cannot be read. -/
private def unreadable (k m : Nat) (Q : Problem) (clause : List Term) : Bool :=
  match holeProblem Q clause with
  | .error _ => true
  | .ok text =>
    match lexN (tok k text).length text with
    | none => false
    | some (ts, rest) => decide (nextToken rest = .ok (.eof, [])) && decide (3 * ts.length + 1 ≤ m) &&
      match readProblemCommands false m solverEnv {} ⟨ts, []⟩ with
      | .error _ => true
      | .ok _ => false

private theorem unreadable_sound {k m : Nat} {Q : Problem} {clause : List Term} (h : unreadable k m Q clause = true) : ¬ SaysNegation solverEnv Q clause := by
  rintro ⟨text, ts, h1, h2, h3⟩
  rw [unreadable, h1] at h
  simp only at h
  split at h
  · cases h
  · next us rest hx =>
    simp only [Bool.and_eq_true, decide_eq_true_eq] at h
    cases h2.unique ⟨rest, lexN_sound hx, h.1.1⟩
    obtain ⟨E', Q', F', e, -⟩ := h3 m h.1.2
    rw [e] at h
    simp at h

/-- The first step of a proof that is read, if its text cannot be read. -/
private def refutes64 (n k m : Nat) (apply : Bool) (problem proof : List Token) : Bool :=
  match readInstance n apply false {} problem proof with
  | .error _ => false
  | .ok (Q, P) => (allPositions P.commands).any fun o =>
    match o.cmd with
    | .step s => unreadable k m Q s.clause
    | _ => false

private theorem refutes64_sound {n k m : Nat} {apply : Bool} {problem proof : List Token} (h : refutes64 n k m apply problem proof = true) : ¬ C64Full := by
  intro full
  rw [refutes64] at h
  split at h
  · cases h
  · next Q P e =>
    obtain ⟨o, ho, h⟩ := List.any_eq_true.1 h
    split at h
    · next s hs =>
      have : Occ P.commands o.frames o.ctx (.step s) := hs ▸ allPositions_iff.1 ho
      exact unreadable_sound h (full n apply false {} problem proof Q P ⟨rfl, rfl⟩ e _ _ s this)
    · cases h

/-- **C64 fails**: a name that is defined, and not expanded, is a constant for the checker, but it is not among the declarations that are written. -/
theorem c64_defined_fails : ¬ C64Full :=
  refutes64_sound (n := 200) (k := 200) (m := 400) (apply := false)
    (problem := tokens64 "(declare-const p Bool) (define-fun q () Bool (not p)) (assert q)")
    (proof := tokens64 "(assume h q) (step t (cl (or q (not q))) :rule hole)") (by decide +kernel)

/-- **C64 fails**: the variables of an anchor are not declared in the text for a step of the subproof. -/
theorem c64_anchor_fails : ¬ C64Full :=
  refutes64_sound (n := 200) (k := 200) (m := 400) (apply := false) (problem := tokens64 "(declare-const p Bool) (assert p)")
    (proof := tokens64 "(anchor :step t1 :args ((x Int))) (step t1.t1 (cl (= (+ x 0) x)) :rule all_simplify) \
(step t1 (cl (= (forall ((x Int)) (= (+ x 0) 0)) (forall ((x Int)) (= x 0)))) :rule bind)") (by decide +kernel)

/-- **C64 fails**: the name of the logic is written without bars. -/
theorem c64_logic_fails : ¬ C64Full :=
  refutes64_sound (n := 200) (k := 200) (m := 400) (apply := false) (problem := tokens64 "(set-logic |my logic|) (declare-const p Bool) (assert p)")
    (proof := tokens64 "(assume h p) (step t (cl p (not p)) :rule hole)") (by decide +kernel)

private abbrev v (s : Srt) (x : String) : Term := .var x s
private abbrev pigeon (s : Srt) : Term := .op .or [.op .equals [v s "x", v s "a"], .op .equals [v s "x", v s "b"], .op .equals [v s "a", v s "b"]]

/-- The text of a problem in which three integers are declared, `d` says that two of them are equal, and then the names are declared again. -/
private def redeclared : List Token := tokens64 "(declare-const x Int) (declare-const a Int) (declare-const b Int) \
(define-fun d () Bool (or (= x a) (= x b) (= a b))) (declare-const x Bool) (declare-const a Bool) (declare-const b Bool) (assert (not d))"

private def redeclaredFunctions : List (String × Srt) := [("x", .int), ("a", .int), ("b", .int), ("x", .bool), ("a", .bool), ("b", .bool)]

private def redeclaredText : List Char := "(set-option :produce-proofs true)\n(set-logic ALL)\n(declare-fun x () Int)\n(declare-fun a () Int)\n\
(declare-fun b () Int)\n(declare-fun x () Bool)\n(declare-fun a () Bool)\n(declare-fun b () Bool)\n(assert (not (or (= x a) (= x b) (= a b))))\n\
(check-sat)\n(get-proof)\n(exit)\n".toList

private noncomputable def three : Model := Witness.model fun x _ => .int (if x = "x" then 0 else if x = "a" then 1 else 2)

private theorem three_int (x : String) : three.env x .int = .int (if x = "x" then 0 else if x = "a" then 1 else 2) := by
  simp [three, Witness.model, Witness.coerce, Witness.valSort]
  rfl

/-- **C64 fails**, and is unsound: a name that is declared twice has only its second sort in the text. Of three integers no two need be equal, but the
text says that no two of three truth values are equal, which is refuted. -/
theorem c64_redeclared_fails : ∃ (n : Nat) (problem proof : List Token) (Q : Problem) (P : ParsedProof) (F : Frames) (Γ : List (List AnchorArg)) (s : Step)
    (text : List Char) (ts : List Token) (E' : PEnv) (Q' : Problem) (st : ReadState),
    readInstance n true false {} problem proof = .ok (Q, P) ∧ Occ P.commands F Γ (.step s) ∧ holeProblem Q s.clause = .ok text ∧ AllTokens text ts ∧
    readProblemCommands false n solverEnv {} ⟨ts, []⟩ = .ok ((E', Q'), st) ∧ (¬ ∃ M : Model, ∀ t ∈ Q'.premises, M.Holds t) ∧ ¬ ValidClause s.clause := by
  refine ⟨400, redeclared, tokens64 "(step t (cl d) :rule hole)", { functions := redeclaredFunctions, premises := [.op .not [pigeon .int]] },
    ⟨[], [.step ⟨"t", [pigeon .int], "hole", [], [], []⟩]⟩, _, _, ⟨"t", [pigeon .int], "hole", [], [], []⟩, redeclaredText, tok 300 redeclaredText,
    { solverEnv with vars := redeclaredFunctions.reverse },
    { logic := some "ALL", functions := redeclaredFunctions, premises := [.op .not [pigeon .bool]] }, ⟨[], []⟩,
    by decide +kernel, .top (i := 0) rfl, by decide +kernel,
    ⟨['\n'], lexN_sound (n := (tok 300 redeclaredText).length) (by decide +kernel), by decide +kernel⟩, by decide +kernel, ?_, ?_⟩
  · rintro ⟨M, hM⟩
    have := hM _ (List.mem_singleton_self _)
    rw [Model.holds_not, Model.holds_or] at this
    have k : ∀ y z : String, .op .equals [v .bool y, v .bool z] ∈ [Term.op .equals [v .bool "x", v .bool "a"], .op .equals [v .bool "x", v .bool "b"],
        .op .equals [v .bool "a", v .bool "b"]] → M.env y .bool ≠ M.env z .bool := fun y z hm e => this ⟨_, hm, (M.holds_eq _ _).2 e⟩
    have h1 := k "x" "a" (by simp)
    have h2 := k "x" "b" (by simp)
    have h3 := k "a" "b" (by simp)
    obtain ⟨b1, e1⟩ := (M.I.dom_bool _).1 (M.env_dom "x" .bool)
    obtain ⟨b2, e2⟩ := (M.I.dom_bool _).1 (M.env_dom "a" .bool)
    obtain ⟨b3, e3⟩ := (M.I.dom_bool _).1 (M.env_dom "b" .bool)
    rw [e1, e2] at h1
    rw [e1, e3] at h2
    rw [e2, e3] at h3
    cases b1 <;> cases b2 <;> cases b3 <;> simp at h1 h2 h3
  · intro hv
    obtain ⟨l, hl, h⟩ := hv three
    cases List.mem_singleton.1 hl
    obtain ⟨t, ht, h⟩ := (three.holds_or _).1 h
    simp only [List.mem_cons, List.not_mem_nil, or_false] at ht
    rcases ht with rfl | rfl | rfl
    all_goals
      have e := (three.holds_eq _ _).1 h
      simp only [Model.val, eval, three_int] at e
      simp at e

end Carcara
