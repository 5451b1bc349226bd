import Verif.Lemmas.ExpansionProblem
import Verif.Props.C51
import Verif.Lemmas.Cnf
import Verif.Props.C15

/-!
# C63: expanding definitions does not change what a problem means

With the option `apply_function_defs` the parser replaces a defined name by its body when it reads it (`parser/mod.rs:757-777, 1337, 1783-1787`). Without
the option it declares the name, and asserts that it is equal to its body; this is what SMT-LIB says that a definition means. "Both ways give problems
that are satisfiable or not together", so that it does not matter for a refutation which of them is chosen.
-/

namespace Carcara
open PRes Reader

/-- The claim. -/
def C63Full : Prop := ∀ (n : Nat) (E E1 E2 : PEnv) (problem : List Token) (Q Q' : Problem) (st st' : ReadState), PlainEnv E →
  readProblemCommands true n E {} ⟨problem, []⟩ = .ok ((E1, Q), st) → readProblemCommands false n E {} ⟨problem, []⟩ = .ok ((E2, Q'), st') →
  ((∃ M : Model, ∀ t ∈ Q.premises, M.Holds t) ↔ ∃ M : Model, ∀ t ∈ Q'.premises, M.Holds t)

theorem Defining.start {E : PEnv} (h : PlainEnv E) : Defining E.Knows [] E E := ⟨h, rfl, rfl, fun _ _ e => (nomatch e), fun _ _ => rfl⟩

/-- Partial: it is true of problems that consist of declarations, definitions of constants, and assertions, if no variable is bound whose name is
declared or defined before. Both readings succeed; the one without expansion gives what the text says; and the problems are satisfiable together.
Missing: definitions with parameters, `let`, indexed operators; and the case that such a variable is bound, for which it is false. -/
theorem c63_problem_partial (E : PEnv) (ls : List ProblemLine) (n : Nat) (hE : PlainEnv E) (h : LinesOK E ls) (hn : 2 * (linesTokens ls).length + 1 ≤ n) :
    ∃ E1 E2 Q Q' F, readProblemCommands true n E {} ⟨linesTokens ls, []⟩ = .ok ((E1, Q), ⟨[], F⟩) ∧
      readProblemCommands false n E {} ⟨linesTokens ls, []⟩ = .ok ((E2, Q'), ⟨[], []⟩) ∧
      (∀ t, t ∈ Q'.premises ↔ t ∈ ls.flatMap ProblemLine.formulas) ∧
      ((∃ M : Model, ∀ t ∈ Q.premises, M.Holds t) ↔ ∃ M : Model, ∀ t ∈ Q'.premises, M.Holds t) := by
  have hD := Defining.start hE
  obtain ⟨E2, Q', e2, h2⟩ := readLines_plain ls {} hE h hn
  obtain ⟨E1, Q, F, e1, h1⟩ := readLines_expanded ls {} hD h hn
  have h2' : ∀ t, t ∈ Q'.premises ↔ t ∈ ls.flatMap ProblemLine.formulas := fun t => by simpa using h2 t
  have h1' : ∀ t, t ∈ Q.premises ↔ t ∈ expandedFormulas [] ls := fun t => by simpa using h1 t
  refine ⟨E1, E2, Q, Q', F, e1, e2, h2', ?_, ?_⟩
  · rintro ⟨M, hM⟩
    obtain ⟨ρ, k1, -, k3⟩ := lines_of_expanded ls hD h M.env_dom (fun _ _ _ e => nomatch e) fun t ht => hM t ((h1' t).2 ht)
    exact ⟨⟨M.I, ρ, k1⟩, fun t ht => k3 t ((h2' t).1 ht)⟩
  · rintro ⟨M, hM⟩
    exact ⟨M, fun t ht => expanded_of_lines M ls hD h (fun _ _ _ e => nomatch e) (fun u hu => hM u ((h2' u).2 hu)) t ((h1' t).1 ht)⟩

/-- Partial: the text of a formula in which constants are defined is read as the formula in which they are expanded, and both have the same value
whenever the constants have the values of their bodies. -/
theorem c63_term_partial (F : List (String × FunDef)) (Ed Ef : PEnv) (t : Term) (n : Nat) (rest : List Token) (hD : Defining Ef.Knows F Ed Ef)
    (hw : Writable [] [] Ef t) (hs : t.simple = true) (hf : t.Fresh Ef) (hn : 2 * (t.tokens false []).length ≤ n) :
    ∃ t', parseTerm n Ed ⟨t.tokens false [] ++ rest, F⟩ = .ok (t', ⟨rest, F⟩) ∧ sortOf t' = sortOf t ∧
      ∀ M : Model, (∀ x d s, F.lookup x = some ⟨[], d⟩ → sortOf d = some s → M.env x s = M.val d) → M.val t' = M.val t :=
  have h := expandsTo t hD hw hs hf.not_knows
  ⟨_, h.reads n rest hn, h.sort, fun M hc => eval_expanded t hD hw hs hf.not_knows M.env_dom hc⟩

/-- **C01**, partial, for texts of this form: if the problem is read with expansion, and the proof is accepted in the elaborated mode with sound rules,
then what the text says is unsatisfiable. -/
theorem c63_sound_partial (T : TableEnv) (cfg : Config) (n : Nat) (holeArgs : Bool) (E : PEnv) (ls : List ProblemLine) (proof : List Token) (Q : Problem)
    (P : ParsedProof) (hE : PlainEnv E) (hE' : E.subtyping = false) (hl : LinesOK E ls) (hn : 2 * (linesTokens ls).length + 1 ≤ n)
    (hr : readInstance n true holeArgs E (linesTokens ls) proof = .ok (Q, P)) (he : cfg.elaborated = true)
    (hw : ∀ F Γ c cl, Occ P.commands F Γ c → c.clause = .ok cl → ∀ l ∈ cl, l.plainWidths)
    (hanchors : ∀ F Γ c, Occ P.commands F Γ c → ∀ as ∈ Γ, as = [])
    (hrules : ∀ F Γ s, Occ P.commands F Γ (.step s) → s.rule ∈ "resolution" :: "th_resolution" :: soundNames)
    (h : check (T.params cfg) cfg Q.premises P.commands = .ok false) : ¬ ∃ M : Model, ∀ t ∈ ls.flatMap ProblemLine.formulas, M.Holds t := by
  obtain ⟨E1, E2, Q1, Q2, F, e1, -, h2, h3⟩ := c63_problem_partial E ls n hE hl hn
  have : { E with intsAsReals := false } = E := by
    have := hE.ints
    cases E
    cases this
    rfl
  have hu := c01_text_partial T cfg n true holeArgs E (linesTokens ls) proof Q P hE' hr he hw hanchors hrules h
  obtain ⟨⟨⟨E', Q'⟩, st⟩, k1, k⟩ := pbind_ok.1 hr
  obtain ⟨⟨P', st'⟩, -, k⟩ := pbind_ok.1 k
  cases k
  rw [this, e1] at k1
  cases k1
  rintro ⟨M, hM⟩
  exact hu (h3.2 ⟨M, fun t ht => hM t ((h2 t).1 ht)⟩)

/-! ## Examples -/

section Examples

private def E0 : PEnv := { vars := [("f", .fn [.int] .int)] }
private abbrev a : Term := .var "a" .int
private abbrev c : Term := .var "c" .int
private abbrev y : Term := .var "y" .int
private abbrev p : Term := .var "p" .bool
private abbrev d : Term := .var "d" .bool
private abbrev num (z : Int) : Term := .const (.int z)
private abbrev f (t : Term) : Term := .app (.var "f" (.fn [.int] .int)) [t]
private abbrev fls : Term := .op .fls []

/-- `(declare-const a Int) (define-fun c () Int (+ a 1)) (define-fun d () Bool (forall ((y Int)) (= (f y) c))) (assert d) (assert (not (= (f a) c)))`. -/
private def lines0 : List ProblemLine :=
  [.declare "a" .int, .define "c" .int (.op .add [a, num 1]), .define "d" .bool (.binder .all [("y", .int)] (.op .equals [f y, c])), .assert d,
   .assert (.op .not [.op .equals [f a, c]])]

private def notBv63 : Option Srt → Bool
  | some (.bv _) => false
  | _ => true

private theorem small63 (t : Term) (h : ∀ u ∈ t.subterms, notBv63 (sortOf u) = true) : t.smallWidths := fun u hu w e => by
  have := h u hu
  rw [e] at this
  cases this

/-- The hypotheses of `c63_problem_partial`: one definition uses another, and below a quantifier. -/
example : PlainEnv E0 ∧ LinesOK E0 lines0 := by
  refine ⟨⟨rfl, rfl⟩, ?_⟩
  simp only [lines0, LinesOK, and_true]
  refine ⟨trivial, by decide +kernel, trivial, by decide +kernel, by decide +kernel, by decide +kernel,
    ⟨by decide +kernel, small63 _ (by decide +kernel), ?_⟩, by decide +kernel, ?_, trivial, by decide +kernel, by decide +kernel, by decide +kernel,
    ⟨by decide +kernel, small63 _ (by decide +kernel), ?_⟩, by decide +kernel, ?_, ⟨by decide +kernel, small63 _ (by decide +kernel), ?_⟩,
    by decide +kernel, ?_, ⟨by decide +kernel, small63 _ (by decide +kernel), ?_⟩, by decide +kernel, ?_⟩
  all_goals
    try simp [Term.Fresh, Term.boundNames, Term.boundNamesL, E0, PEnv.bind, List.lookup, BEq.beq]
    try simp [Term.Known, Term.KnownL, knownName, headKnown, List.lookup, E0, f, BEq.beq, PEnv.bind, Const.Known, Srt.Known]
    try decide +kernel

/-- What is read: the premises with `c` and `d` expanded, or with two more premises. -/
example : (match readProblemCommands true 200 E0 {} ⟨linesTokens lines0, []⟩ with
      | .ok ((_, Q), _) => Q.premises
      | _ => []) =
    [.binder .all [("y", .int)] (.op .equals [f y, .op .add [a, num 1]]), .op .not [.op .equals [f a, .op .add [a, num 1]]]] ∧
    (match readProblemCommands false 200 E0 {} ⟨linesTokens lines0, []⟩ with
      | .ok ((_, Q), _) => Q.premises
      | _ => []) =
    [.op .equals [c, .op .add [a, num 1]], .op .equals [d, .binder .all [("y", .int)] (.op .equals [f y, c])], d, .op .not [.op .equals [f a, c]]] := by
  decide +kernel

/-- The hypotheses of `c63_term_partial`: `c` is defined as `(+ a 1)`. -/
example : Defining (PEnv.bind { vars := [("a", .int)] } [("c", .int)]).Knows [("c", ⟨[], .op .add [a, num 1]⟩)] { vars := [("a", .int)] }
    (PEnv.bind { vars := [("a", .int)] } [("c", .int)]) := by
  have h := Defining.start (E := { vars := [("a", .int)] }) ⟨rfl, rfl⟩
  have hw : Writable [] [] { vars := [("a", .int)] } (.op .add [a, num 1]) := by
    refine ⟨by decide +kernel, small63 _ (by decide +kernel), ?_⟩
    simp [Term.Known, Term.KnownL, knownName, List.lookup, BEq.beq, Const.Known]
    try decide +kernel
  exact h.define (t := .op .add [a, num 1]) trivial (by decide +kernel) (by decide +kernel) (by decide +kernel)
    (expandsTo _ h hw (by decide +kernel) (by simp [Term.boundNames, Term.boundNamesL]))

private abbrev q : Term := .var "q" .bool
private def T0 : TableEnv := ⟨fun _ => 0, fun _ db => db, fun _ => 0, fun _ _ => err⟩
private def lines1 : List ProblemLine := [.declare "p" .bool, .define "q" .bool (.op .not [p]), .assert p, .assert q]
private abbrev rs0 : List RawCommand := [.assume "h1" p, .assume "h2" (.op .not [p]), .step ⟨"t", [], "resolution", ["h1", "h2"], [p, .tru], []⟩]
private abbrev proof0 : List Command :=
  [.assume "h1" p, .assume "h2" (.op .not [p]), .step ⟨"t", [], "resolution", [(0, 0), (0, 1)], [p, .tru], []⟩]

/-- The hypotheses of `c63_sound_partial`: `q` is defined as `(not p)`, and `p` and `q` are refuted. -/
example : PlainEnv {} ∧ LinesOK {} lines1 ∧ readInstance 200 true true {} (linesTokens lines1) (proofTokens [] false false [] rs0) =
      .ok ({ functions := [("p", .bool)], premises := [p, .op .not [p]] }, ⟨[], proof0⟩) ∧
    (∀ F Γ s, Occ proof0 F Γ (.step s) → s.rule ∈ "resolution" :: "th_resolution" :: soundNames) ∧
    check (T0.params { elaborated := true }) { elaborated := true } [p, .op .not [p]] proof0 = .ok false := by
  refine ⟨⟨rfl, rfl⟩, ?_, by decide +kernel, ?_, by rw [check, checkLoop_start]; decide +kernel⟩
  · simp only [lines1, LinesOK, and_true]
    refine ⟨trivial, by decide +kernel, trivial, by decide +kernel, by decide +kernel, by decide +kernel,
      ⟨by decide +kernel, small63 _ (by decide +kernel), ?_⟩, by decide +kernel, ?_, ⟨by decide +kernel, small63 _ (by decide +kernel), ?_⟩,
      by decide +kernel, ?_, ⟨by decide +kernel, small63 _ (by decide +kernel), ?_⟩, by decide +kernel, ?_⟩
    all_goals
      try simp [Term.Fresh, Term.boundNames, Term.boundNamesL]
      try simp [Term.Known, Term.KnownL, knownName, List.lookup, BEq.beq, PEnv.bind]
      try decide +kernel
  · have : ∀ o ∈ allPositions proof0, ∀ s, o.cmd = .step s → s.rule ∈ "resolution" :: "th_resolution" :: soundNames := by
      intro o ho s hs
      simp [allPositions, positionsL, positions] at ho
      rcases ho with rfl | rfl | rfl <;> simp at hs
      subst hs
      simp
    exact fun F Γ s ho => this ⟨F, Γ, .step s⟩ (allPositions_iff.2 ho) s rfl

end Examples

/-! ## What fails -/

/-- `(declare-const a Int) (define-fun c () Int a) (assert (not (forall ((a Int)) (= c a))))`. -/
private def captureLines : List ProblemLine :=
  [.declare "a" .int, .define "c" .int a, .assert (.op .not [.binder .all [("a", .int)] (.op .equals [c, a])])]

/-- `(define-fun p () Bool false) (assert (exists ((p Bool)) p))`. -/
private def shadowLines : List ProblemLine := [.define "p" .bool fls, .assert (.binder .ex [("p", .bool)] p)]

private noncomputable def zero : Model := Witness.model fun _ s => if s = .int then .int 0 else .bool false

private theorem zero_int (x : String) : zero.env x .int = .int 0 := by simp [zero, Witness.model, Witness.coerce, Witness.valSort]; rfl
private theorem zero_bool (x : String) : zero.env x .bool = .bool false := by simp [zero, Witness.model, Witness.coerce, Witness.valSort]; rfl

/-- **C63 fails**: a name in the body of a definition is captured by a binder where the definition is used. Here "`c` is `a`, and not every integer is
`c`", which is satisfiable, is read as "not every integer is itself". -/
theorem c63_capture_fails : ¬ C63Full := by
  intro h
  have e1 : readProblemCommands true 80 {} {} ⟨linesTokens captureLines, []⟩ = .ok (({ vars := [("a", .int)] },
      { functions := [("a", .int)], premises := [.op .not [.binder .all [("a", .int)] (.op .equals [a, a])]] }), ⟨[], [("c", ⟨[], a⟩)]⟩) := by
    decide +kernel
  have e2 : readProblemCommands false 80 {} {} ⟨linesTokens captureLines, []⟩ = .ok (({ vars := [("c", .int), ("a", .int)] },
      { functions := [("a", .int)], premises := [.op .equals [c, a], .op .not [.binder .all [("a", .int)] (.op .equals [c, a])]] }), ⟨[], []⟩) := by
    decide +kernel
  obtain ⟨M, hM⟩ := (h 80 {} _ _ _ _ _ _ _ ⟨rfl, rfl⟩ e1 e2).2 ⟨zero, by
    simp only [List.mem_cons, List.not_mem_nil, or_false, forall_eq_or_imp, forall_eq]
    refine ⟨(zero.holds_eq _ _).2 ?_, ?_⟩
    · rw [Model.val, Model.val, eval, eval, zero_int, zero_int]
    · rw [Model.holds_not, Model.holds_all]
      intro hall
      have := hall [.int 1] (.cons rfl .nil)
      have e := (Model.holds_eq ⟨zero.I, zero.env.setMany [("a", .int)] [.int 1], Interp.EnvOK.setMany zero.env_dom (.cons rfl .nil)⟩ c a).1 this
      simp only [Model.val, eval, Env.setMany, Env.set] at e
      simp [zero_int] at e⟩
  have := hM _ (List.mem_singleton_self _)
  rw [Model.holds_not, Model.holds_all] at this
  refine this fun vs hv => ?_
  exact (Model.holds_eq ⟨M.I, M.env.setMany [("a", .int)] vs, Interp.EnvOK.setMany M.env_dom hv⟩ a a).2 rfl

private theorem shadow_sat : ∃ M : Model, ∀ t ∈ shadowLines.flatMap ProblemLine.formulas, M.Holds t := by
  refine ⟨zero, ?_⟩
  simp only [shadowLines, List.flatMap_cons, List.flatMap_nil, ProblemLine.formulas, List.append_nil, List.cons_append, List.nil_append, List.mem_cons,
    List.not_mem_nil, or_false, forall_eq_or_imp, forall_eq]
  refine ⟨(zero.holds_eq _ _).2 ?_, (zero.holds_ex _ _).2 ⟨[.bool true], .cons rfl .nil, ?_⟩⟩
  · rw [Model.val, Model.val, eval, zero_bool]
    simp [eval, evalL, evalOp, stdOp]
  · simp [eval, Env.setMany, Env.set, Val.T]

/-- **C63 fails**: a definition hides a bound variable of the same name. Here "some truth value is true" is read as "some truth value is such that
falsity". -/
theorem c63_shadow_fails : ¬ C63Full := by
  intro h
  have e1 : readProblemCommands true 80 {} {} ⟨linesTokens shadowLines, []⟩ = .ok (({},
      { premises := [.binder .ex [("p", .bool)] fls] }), ⟨[], [("p", ⟨[], fls⟩)]⟩) := by decide +kernel
  have e2 : readProblemCommands false 80 {} {} ⟨linesTokens shadowLines, []⟩ = .ok (({ vars := [("p", .bool)] },
      { premises := shadowLines.flatMap ProblemLine.formulas }), ⟨[], []⟩) := by decide +kernel
  obtain ⟨M, hM⟩ := (h 80 {} _ _ _ _ _ _ _ ⟨rfl, rfl⟩ e1 e2).2 shadow_sat
  have := hM _ (List.mem_singleton_self _)
  rw [Model.holds_ex] at this
  obtain ⟨vs, -, h2⟩ := this
  simp [eval, evalL, evalOp, stdOp, Val.T] at h2

private abbrev exf : Term := .binder .ex [("p", .bool)] fls
private abbrev rs1 : List RawCommand :=
  [.assume "h" exf, .step ⟨"t1", [.op .equals [exf, fls]], "qnt_rm_unused", [], [], []⟩, .step ⟨"t2", [.op .not [exf], fls], "equiv1", ["t1"], [], []⟩,
   .step ⟨"t3", [.op .not [fls]], "false", [], [], []⟩, .step ⟨"t4", [], "resolution", ["h", "t2", "t3"], [exf, .tru, fls, .tru], []⟩]
private abbrev proof1 : List Command :=
  [.assume "h" exf, .step ⟨"t1", [.op .equals [exf, fls]], "qnt_rm_unused", [], [], []⟩, .step ⟨"t2", [.op .not [exf], fls], "equiv1", [(0, 1)], [], []⟩,
   .step ⟨"t3", [.op .not [fls]], "false", [], [], []⟩, .step ⟨"t4", [], "resolution", [(0, 0), (0, 2), (0, 3)], [exf, .tru, fls, .tru], []⟩]
/-- **C63 fails**: therefore a problem that is satisfiable is refuted. The text `(define-fun p () Bool false) (assert (exists ((p Bool)) p))` has a model,
and there is a proof that is accepted for it, without holes and in the elaborated mode. -/
theorem c63_refuted_fails : ∃ (problem proof : List Token) (Q : Problem) (P : ParsedProof) (E2 : PEnv) (Q' : Problem) (st : ReadState),
    readInstance 200 true true {} problem proof = .ok (Q, P) ∧ check (T0.params { elaborated := true }) { elaborated := true } Q.premises P.commands = .ok false ∧
    readProblemCommands false 200 {} {} ⟨problem, []⟩ = .ok ((E2, Q'), st) ∧ ∃ M : Model, ∀ t ∈ Q'.premises, M.Holds t := by
  refine ⟨linesTokens shadowLines, proofTokens [] false false [] rs1, { premises := [exf] }, ⟨[], proof1⟩, { vars := [("p", .bool)] },
    { premises := shadowLines.flatMap ProblemLine.formulas }, ⟨[], []⟩, by decide +kernel, ?_, by decide +kernel, shadow_sat⟩
  rw [check, checkLoop_start]
  decide +kernel

end Carcara
