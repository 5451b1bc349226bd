import Verif.Lemmas.LiaProblem
import Verif.Props.C65

/-!
# C66: the problem given to a solver for `lia_generic`, with sharing, says the negation of the clause

For a step with the rule `lia_generic`, `elaborator/lia_generic.rs:39-59` writes a problem like that for a hole (C64), but a term that is used more than
once is written with a name, `(! t :named p_0)`, and then called by that name, also in the assertions that follow. The solver's proof is read and checked
against this text (`lia_generic.rs:128-147`). "The text is read again, and it has a model exactly if the clause is not valid."
-/

namespace Carcara
open PRes Reader

/-- The text for a clause is read, and it has a model exactly if the clause is not valid. -/
def SaysNegationShared (share : List Term → Term → Bool) (E : PEnv) (Q : Problem) (clause : List Term) : Prop :=
  ∃ text ts, liaProblem share Q clause = .ok text ∧ AllTokens text ts ∧ ∀ m, 3 * ts.length + 1 ≤ m →
    ∃ E' Q' F', readProblemCommands false m E {} ⟨ts, []⟩ = .ok ((E', Q'), ⟨[], F'⟩) ∧
      ((∃ M : Model, ∀ t ∈ Q'.premises, M.Holds t) ↔ ¬ ValidClause clause)

/-- The claim: this is so for every step of a proof that is read, whatever terms are shared. The options are the same as for a hole,
`elaborator/lia_generic.rs:133-139`. -/
def C66Full : Prop := ∀ (share : List Term → Term → Bool) (n : Nat) (apply holeArgs : Bool) (E : PEnv) (problem proof : List Token) (Q : Problem)
  (P : ParsedProof), PlainEnv E → readInstance n apply holeArgs E problem proof = .ok (Q, P) → ∀ F Γ s, Occ P.commands F Γ (.step s) →
  SaysNegationShared share solverEnv Q s.clause

/-- When the literals can be written and read with sharing. -/
structure LiteralOK (E : PEnv) (l : Term) : Prop where
  readable : l.Readable []
  writable : Writable [] [] E l
  bool : sortOf l = some .bool
  heads : l.varHeads = true
  bound : ∀ x ∈ l.boundNames, ∀ i, x ≠ Sharing.name ⟨"p_", fun _ _ => false⟩ i

/-- What is read: the same declarations, and the negation of each literal, in which numbers are written with the operators of SMT-LIB. -/
theorem c66_read (share : List Term → Term → Bool) (E : PEnv) (Q : Problem) (clause : List Term) (hE : PlainEnv E) (hQ : PreludeOK E Q)
    (hn : ∀ i, (E.declaring Q.sorts Q.functions).vars.lookup (Sharing.name ⟨"p_", fun _ _ => false⟩ i) = none)
    (hc : ∀ l ∈ clause, LiteralOK (E.declaring Q.sorts Q.functions) l) :
    ∃ text ts, liaProblem share Q clause = .ok text ∧ AllTokens text ts ∧ ∀ m, 3 * ts.length + 1 ≤ m →
      ∃ E' Q' F', readProblemCommands false m E {} ⟨ts, []⟩ = .ok ((E', Q'), ⟨[], F'⟩) ∧ Q'.logic = some (Q.logic.getD "ALL") ∧ Q'.sorts = Q.sorts ∧
        Q'.functions = Q.functions ∧ ∀ u, u ∈ Q'.premises ↔ ∃ l ∈ clause, u = .op .not [l.standard] := by
  have hS := c65_problem_names share
  obtain ⟨text, h1, rest, h2, h3⟩ := text_lia hS (E := E.declaring Q.sorts []) (Q := Q) (clause := clause) hQ.logic (fun d hd => (hQ.sorts d hd).1)
    hQ.functions fun l hl => (hc l hl).readable
  refine ⟨text, _, h1, ⟨rest, h2, h3⟩, fun m hm => ?_⟩
  have hl : realOnlyLogic (Q.logic.getD "ALL") = false := by
    cases hq : Q.logic with
    | none => decide +kernel
    | some l => exact hQ.reals l hq
  have hE2 : PlainEnv (E.declaring Q.sorts Q.functions) := ⟨hE.strict, hE.ints⟩
  obtain ⟨E', ps, F', k1, k2⟩ := readLia (apply := false) (S := ⟨"p_", share⟩) (Q := Q) (clause := clause) hE hl (fun d hd => (hQ.sorts d hd).2)
    (fun d hd => (hQ.functions d hd).2)
    (fun l hl => ⟨readsShared hS l hE2 (hc l hl).writable (hc l hl).heads ⟨hn, (hc l hl).bound⟩, (hc l hl).bool, (hc l hl).writable.small⟩) hm
  exact ⟨E', _, F', k1, rfl, rfl, rfl, k2⟩

/-- Partial: it is true of every choice of shared terms if the declarations are as in C64, no function and no bound variable is called `p_0`, `p_1`, …,
and each literal is a formula over the declared functions in which only variables are applied. Missing: logics in which integers are read as reals, and
the rest, for which it is false. -/
theorem c66_text_partial (share : List Term → Term → Bool) (E : PEnv) (Q : Problem) (clause : List Term) (hE : PlainEnv E) (hQ : PreludeOK E Q)
    (hn : ∀ i, (E.declaring Q.sorts Q.functions).vars.lookup (Sharing.name ⟨"p_", fun _ _ => false⟩ i) = none)
    (hc : ∀ l ∈ clause, LiteralOK (E.declaring Q.sorts Q.functions) l) : SaysNegationShared share E Q clause := by
  obtain ⟨text, ts, h1, h2, h3⟩ := c66_read share E Q clause hE hQ hn hc
  refine ⟨text, ts, h1, h2, fun m hm => ?_⟩
  obtain ⟨E', Q', F', k1, -, -, -, k2⟩ := h3 m hm
  exact ⟨E', Q', F', k1, c64_negation clause Q'.premises k2⟩

/-- Partial: if the solver answers with a proof that is read together with this text, and accepted in the elaborated mode with sound rules, then the
clause is valid. Missing, besides the above: `lia_generic.rs` also allows integers in the place of reals. -/
theorem c66_sound_partial (T : TableEnv) (cfg : Config) (m : Nat) (holeArgs : Bool) (share : List Term → Term → Bool) (E : PEnv) (Q : Problem)
    (clause : List Term) (text : List Char) (ts proof : List Token) (Q' : Problem) (P : ParsedProof) (hE : PlainEnv E) (hE' : E.subtyping = false)
    (hQ : PreludeOK E Q) (hn : ∀ i, (E.declaring Q.sorts Q.functions).vars.lookup (Sharing.name ⟨"p_", fun _ _ => false⟩ i) = none)
    (hc : ∀ l ∈ clause, LiteralOK (E.declaring Q.sorts Q.functions) l)
    (ht : liaProblem share Q clause = .ok text) (hts : AllTokens text ts) (hm : 3 * ts.length + 1 ≤ m)
    (hi : readInstance m false holeArgs E ts proof = .ok (Q', P)) (he : cfg.elaborated = true)
    (hp : ∀ F Γ c cl, Occ P.commands F Γ c → c.clause = .ok cl → ∀ l ∈ cl, l.plainWidths)
    (hanchors : ∀ F Γ c, Occ P.commands F Γ c → ∀ as ∈ Γ, as = [])
    (hrules : ∀ F Γ s, Occ P.commands F Γ (.step s) → s.rule ∈ "resolution" :: "th_resolution" :: soundNames)
    (h : check (T.params cfg) cfg Q'.premises P.commands = .ok false) : ValidClause clause := by
  obtain ⟨text', ts', h1, h2, h3⟩ := c66_text_partial share E Q clause hE hQ hn hc
  rw [ht] at h1
  cases h1
  cases h2.unique hts
  obtain ⟨E1, Q1, F, e1, h4⟩ := h3 m hm
  have hu := c01_text_partial T cfg m false holeArgs E ts proof Q' P hE' hi he hp hanchors hrules h
  have hEq : { E with intsAsReals := false } = E := by
    have := hE.ints
    cases E
    cases this
    rfl
  obtain ⟨⟨⟨E2, Q2⟩, st⟩, k1, k⟩ := pbind_ok.1 hi
  obtain ⟨⟨P', st'⟩, -, k⟩ := pbind_ok.1 k
  cases k
  rw [hEq, e1] at k1
  cases k1
  exact Classical.byContradiction fun hv => hu (h4.2 hv)

/-! ## Examples -/

private def tok66 : Nat → List Char → List Token
  | 0, _ => []
  | n + 1, cs =>
    match nextToken cs with
    | .ok (.eof, _) => []
    | .ok (t, cs) => t :: tok66 n cs
    | .error _ => []

private theorem small66 (t : Term) (h : t.subterms.all (fun u => match sortOf u with | some (.bv _) => false | _ => true) = true) : t.smallWidths := by
  intro u hu w hw
  have := List.all_eq_true.1 h u hu
  rw [hw] at this
  cases this

private abbrev x : Term := .var "x" .int
private abbrev y : Term := .var "y" .int
private abbrev xy : Term := .op .add [x, y]
private abbrev num (z : Int) : Term := .const (.int z)
private def Q0 : Problem := { logic := some "QF_LIA", functions := [("x", .int), ("y", .int)] }
private def clause0 : List Term := [.op .lt [xy, num (-1)], .op .gt [xy, num (-2)]]
private abbrev share0 : List Term → Term → Bool := fun _ t => t == xy

/-- What is written for the clause `(< (+ x y) (- 1))`, `(> (+ x y) (- 2))`, when `(+ x y)` is shared, and that the clause meets the conditions. -/
example : liaProblem share0 Q0 clause0 = .ok ("(set-option :produce-proofs true)\n(set-logic QF_LIA)\n(declare-fun x () Int)\n(declare-fun y () Int)\n\
(assert (not (< (! (+ x y) :named p_0) (- 1))))\n(assert (not (> p_0 (- 2))))\n(check-sat)\n(get-proof)\n(exit)\n").toList ∧
    PlainEnv solverEnv ∧ PreludeOK solverEnv Q0 ∧
    (∀ i, (solverEnv.declaring Q0.sorts Q0.functions).vars.lookup (Sharing.name ⟨"p_", fun _ _ => false⟩ i) = none) ∧
    ∀ l ∈ clause0, LiteralOK (solverEnv.declaring Q0.sorts Q0.functions) l := by
  have hn : ∀ (x : String) (i : Nat), x.toList.head? ≠ some 'p' → x ≠ Sharing.name ⟨"p_", fun _ _ => false⟩ i := by
    rintro x i h rfl
    rw [Sharing.name, String.toList_ofList, Sharing.nameChars] at h
    exact h rfl
  have rx : Readable "x" := readable_of (by decide +kernel)
  have ry : Readable "y" := readable_of (by decide +kernel)
  refine ⟨by decide +kernel, ⟨rfl, rfl⟩, ⟨?_, ?_, fun d hd => (nomatch hd), ?_⟩, ?_, ?_⟩
  · intro l hl
    cases hl
    exact plainName_of (by decide +kernel)
  · intro l hl
    cases hl
    decide +kernel
  · simp only [Q0, List.forall_mem_cons, List.not_mem_nil, false_implies, implies_true, and_true]
    exact ⟨⟨rx, trivial, trivial⟩, ry, trivial, trivial⟩
  · intro i
    have h1 := hn "x" i (by decide +kernel)
    have h2 := hn "y" i (by decide +kernel)
    simp only [PEnv.declaring, Q0, solverEnv, List.reverse_cons, List.reverse_nil, List.nil_append, List.append_nil, List.cons_append, List.lookup]
    rw [beq_false_of_ne h1.symm, beq_false_of_ne h2.symm]
  · simp only [clause0, List.forall_mem_cons, List.not_mem_nil, false_implies, implies_true, and_true]
    constructor
    all_goals
      refine ⟨?_, ⟨by decide +kernel, small66 _ (by decide +kernel), ?_⟩, by decide +kernel, by decide +kernel, ?_⟩
      · simp [Term.Readable, Term.ReadableL, unnamed, Const.Readable, List.lookup, rx, ry]
      · simp [Term.Known, Term.KnownL, knownName, List.lookup, PEnv.declaring, Q0, solverEnv, Const.Known]
        decide +kernel
      · simp [Term.boundNames, Term.boundNamesL]

private abbrev a : Term := .var "a" .bool
private abbrev b : Term := .var "b" .bool
private abbrev ab : Term := .op .or [a, b]
private def Q1 : Problem := { functions := [("a", .bool), ("b", .bool)] }
private def clause1 : List Term := [ab, .op .not [ab]]
private def T0 : TableEnv := ⟨fun _ => 0, fun _ db => db, fun _ => 0, fun _ _ => err⟩
private def text1 : List Char := ("(set-option :produce-proofs true)\n(set-logic ALL)\n(declare-fun a () Bool)\n(declare-fun b () Bool)\n\
(assert (not (! (or a b) :named p_0)))\n(assert (not (not p_0)))\n(check-sat)\n(get-proof)\n(exit)\n").toList
private def proofText1 : List Char :=
  "(assume h1 (not p_0)) (assume h2 (not (not p_0))) (step t (cl) :rule resolution :premises (h1 h2) :args ((not (or a b)) true))".toList
private abbrev proof1 : List Command :=
  [.assume "h1" (.op .not [ab]), .assume "h2" (.op .not [.op .not [ab]]), .step ⟨"t", [], "resolution", [(0, 0), (0, 1)], [.op .not [ab], .tru], []⟩]

/-- The hypotheses of `c66_sound_partial`: the clause `(or a b)`, `(not (or a b))`, and what a solver may answer; it uses the name of the shared term. -/
example : PlainEnv {} ∧ PreludeOK {} Q1 ∧
    (∀ i, (PEnv.declaring {} Q1.sorts Q1.functions).vars.lookup (Sharing.name ⟨"p_", fun _ _ => false⟩ i) = none) ∧
    (∀ l ∈ clause1, LiteralOK (PEnv.declaring {} Q1.sorts Q1.functions) l) ∧
    liaProblem (fun _ t => t == ab) Q1 clause1 = .ok text1 ∧ AllTokens text1 (tok66 100 text1) ∧
    readInstance 200 false false {} (tok66 100 text1) (tok66 100 proofText1) =
      .ok ({ logic := some "ALL", functions := [("a", .bool), ("b", .bool)], premises := [.op .not [ab], .op .not [.op .not [ab]]] }, ⟨[], proof1⟩) ∧
    (∀ F Γ s, Occ proof1 F Γ (.step s) → s.rule ∈ "resolution" :: "th_resolution" :: soundNames) ∧
    check (T0.params { elaborated := true }) { elaborated := true } [.op .not [ab], .op .not [.op .not [ab]]] proof1 = .ok false := by
  have hn : ∀ (x : String) (i : Nat), x.toList.head? ≠ some 'p' → x ≠ Sharing.name ⟨"p_", fun _ _ => false⟩ i := by
    rintro x i h rfl
    rw [Sharing.name, String.toList_ofList, Sharing.nameChars] at h
    exact h rfl
  have ra : Readable "a" := readable_of (by decide +kernel)
  have rb : Readable "b" := readable_of (by decide +kernel)
  refine ⟨⟨rfl, rfl⟩, ⟨fun l hl => (nomatch hl), fun l hl => (nomatch hl), fun d hd => (nomatch hd), ?_⟩, ?_, ?_, by decide +kernel,
    ⟨['\n'], lexN_sound (n := (tok66 100 text1).length) (by decide +kernel), by decide +kernel⟩, by decide +kernel, ?_,
    by rw [check, checkLoop_start]; decide +kernel⟩
  · simp only [Q1, List.forall_mem_cons, List.not_mem_nil, false_implies, implies_true, and_true]
    exact ⟨⟨ra, trivial, trivial⟩, rb, trivial, trivial⟩
  · intro i
    have h1 := hn "a" i (by decide +kernel)
    have h2 := hn "b" i (by decide +kernel)
    simp only [PEnv.declaring, Q1, List.reverse_cons, List.reverse_nil, List.nil_append, List.append_nil, List.cons_append, List.lookup]
    rw [beq_false_of_ne h1.symm, beq_false_of_ne h2.symm]
  · simp only [clause1, List.forall_mem_cons, List.not_mem_nil, false_implies, implies_true, and_true]
    constructor
    all_goals
      refine ⟨?_, ⟨by decide +kernel, small66 _ (by decide +kernel), ?_⟩, by decide +kernel, by decide +kernel, ?_⟩
      · simp [Term.Readable, Term.ReadableL, unnamed, List.lookup, ra, rb]
      · simp [Term.Known, Term.KnownL, knownName, List.lookup, PEnv.declaring, Q1]
        decide +kernel
      · simp [Term.boundNames, Term.boundNamesL]
  · have : ∀ o ∈ allPositions proof1, ∀ s, o.cmd = .step s → s.rule ∈ "resolution" :: "th_resolution" :: soundNames := by
      intro o ho s hs
      simp [allPositions, positionsL, positions] at ho
      rcases ho with rfl | rfl | rfl <;> simp at hs
      subst hs
      simp
    exact fun F Γ s ho => this ⟨F, Γ, .step s⟩ (allPositions_iff.2 ho) s rfl

/-! ## What fails -/

private abbrev u0 : Term := .var "p_0" .bool
private def clashText : List Char := "(set-option :produce-proofs true)\n(set-logic ALL)\n(declare-fun a () Bool)\n(declare-fun b () Bool)\n\
(declare-fun p_0 () Bool)\n(assert (not (! (or a b) :named p_0)))\n(assert (not (not p_0)))\n(check-sat)\n(get-proof)\n(exit)\n".toList
private def functions1 : List (String × Srt) := [("a", .bool), ("b", .bool), ("p_0", .bool)]

/-- **C66 fails**, and is unsound: a symbol `p_0` of the problem is read as the shared term of that name. The clause `(or a b)`, `(not p_0)` is not valid,
but the text says `(not (or a b))` and `(not (not (or a b)))`, which is refuted. -/
theorem c66_clash_fails : ∃ (share : List Term → Term → Bool) (n : Nat) (problem proof : List Token) (Q : Problem) (P : ParsedProof) (F : Frames)
    (Γ : List (List AnchorArg)) (s : Step) (text : List Char) (ts : List Token) (E' : PEnv) (Q' : Problem) (st : ReadState),
    readInstance n true false {} problem proof = .ok (Q, P) ∧ Occ P.commands F Γ (.step s) ∧ liaProblem share Q s.clause = .ok text ∧ AllTokens text ts ∧
    3 * ts.length + 1 ≤ n ∧ readProblemCommands false n solverEnv {} ⟨ts, []⟩ = .ok ((E', Q'), st) ∧ (¬ ∃ M : Model, ∀ t ∈ Q'.premises, M.Holds t) ∧ ¬ ValidClause s.clause := by
  refine ⟨fun _ t => t == ab, 400, tok66 200 "(declare-const a Bool) (declare-const b Bool) (declare-const p_0 Bool) (assert (or a b))".toList,
    tok66 200 "(assume h (or a b)) (step t (cl (or a b) (not p_0)) :rule lia_generic)".toList, { functions := functions1, premises := [ab] },
    ⟨[], [.assume "h" ab, .step ⟨"t", [ab, .op .not [u0]], "lia_generic", [], [], []⟩]⟩, _, _, ⟨"t", [ab, .op .not [u0]], "lia_generic", [], [], []⟩,
    clashText, tok66 300 clashText, { solverEnv with vars := functions1.reverse },
    { logic := some "ALL", functions := functions1, premises := [.op .not [ab], .op .not [.op .not [ab]]] }, ⟨[], [("p_0", ⟨[], ab⟩)]⟩,
    by decide +kernel, .top (i := 1) rfl, by decide +kernel,
    ⟨['\n'], lexN_sound (n := (tok66 300 clashText).length) (by decide +kernel), by decide +kernel⟩, by decide +kernel, by decide +kernel, ?_, ?_⟩
  · rintro ⟨M, hM⟩
    exact (M.holds_not _).1 (hM (.op .not [.op .not [ab]]) (by simp)) (hM (.op .not [ab]) (by simp))
  · intro hv
    have k : ∀ x, (Witness.model fun x _ => .bool (x = "p_0")).Holds (.var x .bool) ↔ x = "p_0" := by
      intro x
      simp [Model.Holds, Model.val, eval, Witness.model, Witness.coerce, Witness.valSort]
      by_cases h : x = "p_0" <;> simp [h, Val.T]
    obtain ⟨l, hl, h⟩ := hv (Witness.model fun x _ => .bool (x = "p_0"))
    simp only [List.mem_cons, List.not_mem_nil, or_false] at hl
    rcases hl with rfl | rfl
    · obtain ⟨t, ht, h⟩ := (Model.holds_or _ _).1 h
      simp only [List.mem_cons, List.not_mem_nil, or_false] at ht
      rcases ht with rfl | rfl <;> simp [k] at h
    · simp [k] at h

/-- So the claim is false. -/
theorem c66_full_fails : ¬ C66Full := by
  intro full
  obtain ⟨share, n, problem, proof, Q, P, F, Γ, s, text, ts, E', Q', st, h1, h2, h3, h4, hm, h5, h6, h7⟩ := c66_clash_fails
  obtain ⟨text', ts', k1, k2, k3⟩ := full share n true false {} problem proof Q P ⟨rfl, rfl⟩ h1 F Γ s h2
  rw [h3] at k1
  cases k1
  cases k2.unique h4
  obtain ⟨E1, Q1, F1, e, k⟩ := k3 n hm
  rw [h5] at e
  cases e
  exact h6 (k.2 h7)

end Carcara
