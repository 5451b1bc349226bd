import Verif.Lemmas.LiaInstances
import Verif.Lemmas.Unshared
import Verif.Props.C66

/-!
# C68: the problems written for the steps with the rule `lia_generic`

The command `generate-lia-problems` writes a problem for each step with the rule `lia_generic`, so that the steps can be checked by a solver
(`carcara/src/lib.rs:281-327`, `cli/src/main.rs:737-752`). "There is one problem for each such step, with its id, no two have the same id, and each can be
read and has a model exactly if the clause of the step is not valid."
-/

namespace Carcara
open PRes Reader

/-- A text is read as a problem that has a model exactly if the clause is not valid. -/
def TextRefutes (E : PEnv) (text : List Char) (clause : List Term) : Prop :=
  ∃ ts, AllTokens text ts ∧ ∀ m, 3 * ts.length + 1 ≤ m → ∃ E' Q' F', readProblemCommands false m E {} ⟨ts, []⟩ = .ok ((E', Q'), ⟨[], F'⟩) ∧
    ((∃ M : Model, ∀ t ∈ Q'.premises, M.Holds t) ↔ ¬ ValidClause clause)

/-- The claim, for every proof that is read. -/
def C68Full : Prop := ∀ (share : Step → List Term → Term → Bool) (n : Nat) (apply holeArgs : Bool) (E : PEnv) (problem proof : List Token) (Q : Problem)
  (P : ParsedProof), PlainEnv E → E.subtyping = false → readInstance n apply holeArgs E problem proof = .ok (Q, P) →
  ∃ out, liaInstances share Q P = .ok out ∧ (out.map (·.1)).Nodup ∧
    ∀ F Γ s, Occ P.commands F Γ (.step s) → s.rule = "lia_generic" → ∃ text, (s.id, text) ∈ out ∧ TextRefutes solverEnv text s.clause

theorem mapRes_pairs {α β : Type} {f : α → Res β} : ∀ {as : List α} {bs : List β}, mapRes f as = .ok bs ↔ List.Forall₂ (fun a b => f a = .ok b) as bs
  | [], bs => by
    rw [mapRes]
    constructor
    · intro h; cases h; exact .nil
    · intro h; cases h; rfl
  | a :: as, bs => by
    rw [mapRes]
    constructor
    · intro h
      obtain ⟨b, h1, h⟩ := bind_ok.1 h
      obtain ⟨bs', h2, h⟩ := bind_ok.1 h
      cases h
      exact .cons h1 (mapRes_pairs.1 h2)
    · intro h
      cases h with
      | cons h1 h2 => exact bind_ok.2 ⟨_, h1, bind_ok.2 ⟨_, mapRes_pairs.2 h2, rfl⟩⟩

/-- **C68**, which problems are written: one for each step with this rule that is in no subproof, in the order of the proof. -/
theorem c68_which (share : Step → List Term → Term → Bool) (Q : Problem) (P : ParsedProof) (out : List (String × List Char)) :
    liaInstances share Q P = .ok out ↔
      List.Forall₂ (fun (s : Step) (o : String × List Char) => o.1 = s.id ∧ liaInstance (share s) Q s.clause = .ok o.2) (topLia P.commands) out := by
  rw [liaInstances_eq, mapRes_pairs]
  have : ∀ (s : Step) (o : String × List Char), (do let t ← liaInstance (share s) Q s.clause; (.ok (s.id, t) : Res _)) = .ok o ↔
      o.1 = s.id ∧ liaInstance (share s) Q s.clause = .ok o.2 := by
    intro s o
    constructor
    · intro h
      obtain ⟨t, h1, h⟩ := bind_ok.1 h
      cases h
      exact ⟨rfl, h1⟩
    · rintro ⟨h1, h2⟩
      exact bind_ok.2 ⟨_, h2, by rw [← h1]⟩
  exact ⟨fun h => h.imp fun s o => (this s o).1, fun h => h.imp fun s o => (this s o).2⟩

/-- **C68**, no problem is written over another one. -/
theorem c68_distinct (share : Step → List Term → Term → Bool) (n : Nat) (apply holeArgs : Bool) (E : PEnv) (problem proof : List Token) (Q : Problem)
    (P : ParsedProof) (out : List (String × List Char)) (hs : E.subtyping = false)
    (hi : readInstance n apply holeArgs E problem proof = .ok (Q, P)) (h : liaInstances share Q P = .ok out) : (out.map (·.1)).Nodup := by
  obtain ⟨rs, hp, -⟩ := readInstance_sorted hs hi
  have key : ∀ {ss : List Step} {out : List (String × List Char)}, List.Forall₂ (fun (s : Step) (o : String × List Char) =>
      o.1 = s.id ∧ liaInstance (share s) Q s.clause = .ok o.2) ss out → out.map (·.1) = ss.map (·.id) := by
    intro ss out h
    induction h with
    | nil => rfl
    | cons h _ ih => rw [List.map_cons, List.map_cons, h.1, ih]
  rw [key ((c68_which share Q P out).1 h)]
  exact topLia_distinct hp

/-- **C68**, what a problem says, under the conditions of C66. -/
theorem c68_text (share : List Term → Term → Bool) (E : PEnv) (Q : Problem) (clause : List Term) (hE : PlainEnv E) (hQ : PreludeOK E Q)
    (hn : ∀ i, (E.declaring Q.sorts Q.functions).vars.lookup (Sharing.name ⟨"p_", fun _ _ => false⟩ i) = none)
    (hc : ∀ l ∈ clause, LiteralOK (E.declaring Q.sorts Q.functions) l) : ∃ text, liaInstance share Q clause = .ok text ∧ TextRefutes E text clause := by
  have hS := c65_problem_names share
  obtain ⟨text, h1, rest, h2, h3⟩ := text_instance hS (E := E.declaring Q.sorts []) (Q := Q) (clause := clause) hQ.logic (fun d hd => (hQ.sorts d hd).1)
    hQ.functions fun l hl => (hc l hl).readable
  refine ⟨text, h1, _, ⟨rest, h2, h3⟩, fun m hm => ?_⟩
  have hl : realOnlyLogic (Q.logic.getD "ALL") = false := by
    cases hq : Q.logic with
    | none => decide +kernel
    | some l => exact hQ.reals l hq
  have hE2 : PlainEnv (E.declaring Q.sorts Q.functions) := ⟨hE.strict, hE.ints⟩
  obtain ⟨E', ps, F', k1, k2⟩ := readInstance68 (apply := false) (S := ⟨"p_", share⟩) (Q := Q) (clause := clause) hE hl (fun d hd => (hQ.sorts d hd).2)
    (fun d hd => (hQ.functions d hd).2)
    (fun l hl => ⟨readsShared hS l hE2 (hc l hl).writable (hc l hl).heads ⟨hn, (hc l hl).bound⟩, (hc l hl).bool, (hc l hl).writable.small⟩) hm
  exact ⟨E', _, F', k1, c64_negation clause ps k2⟩

/-- **C68**, what a problem says if no term is shared (the option `--no-print-with-sharing`): then it does not matter which names are declared, and any
terms may be applied. -/
theorem c68_unshared (share : List Term → Term → Bool) (E : PEnv) (Q : Problem) (clause : List Term) (hs : ∀ L t, share L t = false) (hE : PlainEnv E)
    (hQ : PreludeOK E Q) (hr : ∀ l ∈ clause, l.Readable [])
    (hw : ∀ l ∈ clause, Writable [] [] (E.declaring Q.sorts Q.functions) l ∧ sortOf l = some .bool) :
    ∃ text, liaInstance share Q clause = .ok text ∧ TextRefutes E text clause := by
  have hm : ∀ l ∈ (dedupNext clause).map (fun t => Term.op .not [t]), ∃ t ∈ clause, l = .op .not [t] := by
    intro l hl
    obtain ⟨t, ht, rfl⟩ := List.mem_map.1 hl
    exact ⟨t, mem_dedupNext.1 ht, rfl⟩
  have hl : realOnlyLogic (Q.logic.getD "ALL") = false := by
    cases hq : Q.logic with
    | none => decide +kernel
    | some l => exact hQ.reals l hq
  have e : liaInstance share Q clause = sliceProblem Q ((dedupNext clause).map fun t => .op .not [t]) := by
    rw [liaInstance, sliceProblem]
    have := printNegatedShared_none (S := ⟨"p_", share⟩) hs (dedupNext clause) []
    simp only [this]
  obtain ⟨text, h1, rest, h2, h3⟩ := text_slice (E := E.declaring Q.sorts []) (Q := Q) (asserts := (dedupNext clause).map fun t => .op .not [t]) hQ.logic
    (fun d hd => (hQ.sorts d hd).1) hQ.functions fun l hl => by
      obtain ⟨t, ht, rfl⟩ := hm l hl
      simp only [Term.Readable, Term.ReadableL, unnamed, List.lookup, and_true]
      exact hr t ht
  refine ⟨text, e.trans h1, _, ⟨rest, h2, h3⟩, fun m hm' => ?_⟩
  obtain ⟨ps, k1, k2⟩ := readSlice (apply := false) hE hl (fun d hd => (hQ.sorts d hd).2) (fun d hd => (hQ.functions d hd).2) (fun l hl => by
    obtain ⟨t, ht, rfl⟩ := hm l hl
    have hb' : sortOf (.op .not [t]) = some .bool := by
      rw [sortOf_op_eq (by simp)]
      simp [sortOfL, (hw t ht).2, opSort]
    exact ⟨by rw [hb']; rfl, smallWidths_op (fun a ha => by rw [List.mem_singleton.1 ha]; exact (hw t ht).1.small) (fun w hw => by rw [hb'] at hw; cases hw),
      ⟨fun e => (nomatch e), (hw t ht).1.known, trivial⟩⟩) hm'
  refine ⟨_, _, [], k1, c64_negation clause ps fun u => (k2 u).trans ?_⟩
  constructor
  · rintro ⟨l, hl, rfl⟩
    obtain ⟨t, ht, rfl⟩ := hm l hl
    exact ⟨t, ht, by simp [Term.standard, Term.standardL]⟩
  · rintro ⟨t, ht, rfl⟩
    exact ⟨.op .not [t], List.mem_map.2 ⟨t, mem_dedupNext.2 ht, rfl⟩, by simp [Term.standard, Term.standardL]⟩

/-- The problems for all steps, from what each of them says. -/
theorem liaInstances_all (share : Step → List Term → Term → Bool) (n : Nat) (apply holeArgs : Bool) (E E' : PEnv) (problem proof : List Token)
    (Q : Problem) (P : ParsedProof) (hs : E.subtyping = false) (hi : readInstance n apply holeArgs E problem proof = .ok (Q, P))
    (hc : ∀ s, .step s ∈ P.commands → s.rule = "lia_generic" → ∃ text, liaInstance (share s) Q s.clause = .ok text ∧ TextRefutes E' text s.clause) :
    ∃ out, liaInstances share Q P = .ok out ∧ (out.map (·.1)).Nodup ∧
      (∀ s, .step s ∈ P.commands → s.rule = "lia_generic" → ∃ text, (s.id, text) ∈ out ∧ TextRefutes E' text s.clause) ∧
      ∀ o ∈ out, ∃ s, .step s ∈ P.commands ∧ s.rule = "lia_generic" ∧ o.1 = s.id ∧ TextRefutes E' o.2 s.clause := by
  have mem : ∀ s, s ∈ topLia P.commands ↔ .step s ∈ P.commands ∧ s.rule = "lia_generic" := by
    intro s
    rw [topLia, List.mem_filterMap]
    constructor
    · rintro ⟨c, hc, h⟩
      cases c with
      | step u =>
        simp only at h
        split at h
        · next hu => cases h; exact ⟨hc, hu⟩
        · cases h
      | _ => cases h
    · rintro ⟨h1, h2⟩
      exact ⟨_, h1, by simp [h2]⟩
  have key : ∀ ss : List Step, (∀ s ∈ ss, s ∈ topLia P.commands) → ∃ out, List.Forall₂ (fun (s : Step) (o : String × List Char) =>
      (o.1 = s.id ∧ liaInstance (share s) Q s.clause = .ok o.2) ∧ TextRefutes E' o.2 s.clause) ss out := by
    intro ss
    induction ss with
    | nil => exact fun _ => ⟨[], .nil⟩
    | cons s ss ih =>
      intro h
      obtain ⟨out, ho⟩ := ih fun t ht => h t (by simp [ht])
      obtain ⟨h1, h2⟩ := (mem s).1 (h s (by simp))
      obtain ⟨text, k1, k2⟩ := hc s h1 h2
      exact ⟨(s.id, text) :: out, .cons ⟨⟨rfl, k1⟩, k2⟩ ho⟩
  obtain ⟨out, ho⟩ := key _ fun s hs => hs
  have hout := (c68_which share Q P out).2 (ho.imp fun s o h => h.1)
  refine ⟨out, hout, c68_distinct share n apply holeArgs E problem proof Q P out hs hi hout, fun s h1 h2 => ?_, fun o h => ?_⟩
  · obtain ⟨o, h, ⟨e, -⟩, k⟩ := forall₂_left ho ((mem s).2 ⟨h1, h2⟩)
    exact ⟨o.2, e ▸ h, k⟩
  · obtain ⟨s, h, ⟨e, -⟩, k⟩ := forall₂_right ho h
    obtain ⟨h1, h2⟩ := (mem s).1 h
    exact ⟨s, h1, h2, e, k⟩

/-- Partial: the claim is true for the steps in no subproof, under the conditions of C66 on the declarations and on the clauses of these steps. Missing:
steps in subproofs, for which it is false, and the conditions. -/
theorem c68_instances_partial (share : Step → List Term → Term → Bool) (n : Nat) (apply holeArgs : Bool) (E E' : PEnv) (problem proof : List Token)
    (Q : Problem) (P : ParsedProof) (hs : E.subtyping = false) (hi : readInstance n apply holeArgs E problem proof = .ok (Q, P)) (hE : PlainEnv E')
    (hQ : PreludeOK E' Q) (hn : ∀ i, (E'.declaring Q.sorts Q.functions).vars.lookup (Sharing.name ⟨"p_", fun _ _ => false⟩ i) = none)
    (hc : ∀ s, .step s ∈ P.commands → s.rule = "lia_generic" → ∀ l ∈ s.clause, LiteralOK (E'.declaring Q.sorts Q.functions) l) :
    ∃ out, liaInstances share Q P = .ok out ∧ (out.map (·.1)).Nodup ∧
      (∀ s, .step s ∈ P.commands → s.rule = "lia_generic" → ∃ text, (s.id, text) ∈ out ∧ TextRefutes E' text s.clause) ∧
      ∀ o ∈ out, ∃ s, .step s ∈ P.commands ∧ s.rule = "lia_generic" ∧ o.1 = s.id ∧ TextRefutes E' o.2 s.clause := by
  exact liaInstances_all share n apply holeArgs E E' problem proof Q P hs hi fun s h1 h2 => c68_text (share s) E' Q s.clause hE hQ hn (hc s h1 h2)

/-- Partial: without sharing, the conditions are those of C64. -/
theorem c68_instances_unshared_partial (share : Step → List Term → Term → Bool) (n : Nat) (apply holeArgs : Bool) (E E' : PEnv) (problem proof : List Token)
    (Q : Problem) (P : ParsedProof) (hs : E.subtyping = false) (hi : readInstance n apply holeArgs E problem proof = .ok (Q, P)) (hn : ∀ s L t, share s L t = false) (hE : PlainEnv E')
    (hQ : PreludeOK E' Q) (hc : ∀ s, .step s ∈ P.commands → s.rule = "lia_generic" → ∀ l ∈ s.clause,
      l.Readable [] ∧ Writable [] [] (E'.declaring Q.sorts Q.functions) l ∧ sortOf l = some .bool) :
    ∃ out, liaInstances share Q P = .ok out ∧ (out.map (·.1)).Nodup ∧
      (∀ s, .step s ∈ P.commands → s.rule = "lia_generic" → ∃ text, (s.id, text) ∈ out ∧ TextRefutes E' text s.clause) ∧
      ∀ o ∈ out, ∃ s, .step s ∈ P.commands ∧ s.rule = "lia_generic" ∧ o.1 = s.id ∧ TextRefutes E' o.2 s.clause :=
  liaInstances_all share n apply holeArgs E E' problem proof Q P hs hi fun s h1 h2 =>
    c68_unshared (share s) E' Q s.clause (hn s) hE hQ (fun l hl => (hc s h1 h2 l hl).1) fun l hl => (hc s h1 h2 l hl).2

/-! ## Examples -/

private def tok68 : Nat → List Char → List Token
  | 0, _ => []
  | n + 1, cs =>
    match nextToken cs with
    | .ok (.eof, _) => []
    | .ok (t, cs) => t :: tok68 n cs
    | .error _ => []

private theorem small68 (t : Term) (h : t.subterms.all (fun u => match sortOf u with | some (.bv _) => false | _ => true) = true) : t.smallWidths := by
  intro u hu w hw
  have := List.all_eq_true.1 h u hu
  rw [hw] at this
  cases this

private abbrev x : Term := .var "x" .int
private abbrev num (z : Int) : Term := .const (.int z)
private abbrev gt (z : Int) : Term := .op .gt [x, num z]
private def Q0 : Problem := { logic := some "QF_LIA", functions := [("x", .int)], premises := [gt 2] }
private def problem0 : List Char := "(set-logic QF_LIA) (declare-const x Int) (assert (> x 2))".toList
private def proof0 : List Char := ("(assume h (> x 2)) (step t1 (cl (not (> x 2)) (> x 1)) :rule lia_generic) (step t2 (cl (> x 1)) :rule resolution :premises (t1 h)) \
(step t3 (cl (not (> x 1)) (> x 0)) :rule lia_generic)").toList
private def P0 : ParsedProof := ⟨[], [.assume "h" (gt 2), .step ⟨"t1", [.op .not [gt 2], gt 1], "lia_generic", [], [], []⟩,
  .step ⟨"t2", [gt 1], "resolution", [(0, 1), (0, 0)], [], []⟩, .step ⟨"t3", [.op .not [gt 1], gt 0], "lia_generic", [], [], []⟩]⟩

/-- What is written for a proof with two such steps. -/
example : liaInstances (fun _ _ _ => false) Q0 P0 = .ok
    [("t1", ("(set-logic QF_LIA)\n(declare-fun x () Int)\n(assert (not (not (> x 2))))\n(assert (not (> x 1)))\n(check-sat)\n(exit)\n").toList),
     ("t3", ("(set-logic QF_LIA)\n(declare-fun x () Int)\n(assert (not (not (> x 1))))\n(assert (not (> x 0)))\n(check-sat)\n(exit)\n").toList)] :=
  (c68_which _ _ _ _).2 (.cons ⟨rfl, by decide +kernel⟩ (.cons ⟨rfl, by decide +kernel⟩ .nil))

/-- The hypotheses of `c68_instances_partial`, and of `c68_instances_unshared_partial`, which asks for less of the literals. -/
example : readInstance 300 false false {} (tok68 200 problem0) (tok68 200 proof0) = .ok (Q0, P0) ∧ PlainEnv solverEnv ∧ PreludeOK solverEnv Q0 ∧
    (∀ i, (solverEnv.declaring Q0.sorts Q0.functions).vars.lookup (Sharing.name ⟨"p_", fun _ _ => false⟩ i) = none) ∧
    ∀ s, .step s ∈ P0.commands → s.rule = "lia_generic" → ∀ l ∈ s.clause, LiteralOK (solverEnv.declaring Q0.sorts Q0.functions) l := by
  have hn : ∀ (x : String) (i : Nat), x.toList.head? ≠ some 'p' → x ≠ Sharing.name ⟨"p_", fun _ _ => false⟩ i := by
    rintro x i h rfl
    rw [Sharing.name, String.toList_ofList, Sharing.nameChars] at h
    exact h rfl
  have rx : Readable "x" := readable_of (by decide +kernel)
  have ok : ∀ l ∈ [gt 2, gt 1, gt 0, .op .not [gt 2], .op .not [gt 1]], LiteralOK (solverEnv.declaring Q0.sorts Q0.functions) l := by
    simp only [List.forall_mem_cons, List.not_mem_nil, false_implies, implies_true, and_true]
    refine ⟨?_, ?_, ?_, ?_, ?_⟩
    all_goals
      refine ⟨?_, ⟨by decide +kernel, small68 _ (by decide +kernel), ?_⟩, by decide +kernel, by decide +kernel, ?_⟩
      · simp [Term.Readable, Term.ReadableL, unnamed, Const.Readable, List.lookup, rx]
      · simp [Term.Known, Term.KnownL, knownName, List.lookup, PEnv.declaring, Q0, solverEnv, Const.Known]
        try decide +kernel
      · simp [Term.boundNames, Term.boundNamesL]
  refine ⟨by decide +kernel, ⟨rfl, rfl⟩, ⟨?_, ?_, fun d hd => (nomatch hd), ?_⟩, ?_, ?_⟩
  · intro l hl
    cases hl
    exact plainName_of (by decide +kernel)
  · intro l hl
    cases hl
    decide +kernel
  · simp only [Q0, List.forall_mem_cons, List.not_mem_nil, false_implies, implies_true, and_true]
    exact ⟨rx, trivial, trivial⟩
  · intro i
    have h1 := hn "x" i (by decide +kernel)
    simp only [PEnv.declaring, Q0, solverEnv, List.reverse_cons, List.reverse_nil, List.nil_append, List.append_nil, List.lookup]
    rw [beq_false_of_ne h1.symm]
  · intro s hs hr l hl
    simp only [P0, List.mem_cons, List.not_mem_nil, or_false, Command.step.injEq, reduceCtorEq, false_or] at hs
    apply ok
    rcases hs with rfl | rfl | rfl
    · simp only [List.mem_cons, List.not_mem_nil, or_false] at hl
      rcases hl with rfl | rfl <;> simp
    · exact absurd hr (by decide)
    · simp only [List.mem_cons, List.not_mem_nil, or_false] at hl
      rcases hl with rfl | rfl <;> simp

/-- `c68_unshared` with a symbol `p_0`, and its hypotheses: nothing is read as a shared term. -/
example : liaInstance (fun _ _ => false) { functions := [("p_0", .bool)] } [.op .not [.var "p_0" .bool]] =
      .ok "(set-logic ALL)\n(declare-fun p_0 () Bool)\n(assert (not (not p_0)))\n(check-sat)\n(exit)\n".toList ∧
    PreludeOK {} { functions := [("p_0", .bool)] } ∧ (Term.op .not [.var "p_0" .bool]).Readable [] ∧
    Writable [] [] (PEnv.declaring {} [] [("p_0", .bool)]) (.op .not [.var "p_0" .bool]) := by
  have rp : Readable "p_0" := readable_of (by decide +kernel)
  refine ⟨by decide +kernel, ⟨fun l hl => (nomatch hl), fun l hl => (nomatch hl), fun d hd => (nomatch hd), ?_⟩, ?_,
    ⟨by decide +kernel, small68 _ (by decide +kernel), ?_⟩⟩
  · simp only [List.forall_mem_cons, List.not_mem_nil, false_implies, implies_true, and_true]
    exact ⟨rp, trivial, trivial⟩
  · simp [Term.Readable, Term.ReadableL, unnamed, List.lookup, rp]
  · simp [Term.Known, Term.KnownL, knownName, List.lookup, PEnv.declaring]
    decide +kernel

/-! ## What fails -/

private def proof1 : List Char := ("(anchor :step t1) (assume t1.h (> x 2)) (step t1.t (cl (not (> x 2)) (> x 1)) :rule lia_generic) \
(step t1 (cl (not (> x 2)) (not (> x 2)) (> x 1)) :rule subproof :discharge (h))").toList
private def inner1 : List Command := [.assume "t1.h" (gt 2), .step ⟨"t1.t", [.op .not [gt 2], gt 1], "lia_generic", [], [], []⟩,
  .step ⟨"t1", [.op .not [gt 2], .op .not [gt 2], gt 1], "subproof", [], [], [(1, 0)]⟩]
private def P1 : ParsedProof := ⟨[], [.subproof inner1 [] 0]⟩

/-- **C68 fails**: no problem is written for a step in a subproof, and the command succeeds. -/
theorem c68_nested_fails : ∃ (n : Nat) (problem proof : List Token) (Q : Problem) (P : ParsedProof) (F : Frames) (Γ : List (List AnchorArg)) (s : Step),
    readInstance n false false {} problem proof = .ok (Q, P) ∧ Occ P.commands F Γ (.step s) ∧ s.rule = "lia_generic" ∧
      ∀ share, liaInstances share Q P = .ok [] :=
  ⟨300, tok68 200 problem0, tok68 200 proof1, Q0, P1, [(1, inner1), (0, P1.commands)], [[]], ⟨"t1.t", [.op .not [gt 2], gt 1], "lia_generic", [], [], []⟩, by decide +kernel,
    .sub (Γ := []) (j := 1) (as := []) (n := 0) (.top (i := 0) rfl) rfl, rfl, fun share => (c68_which share _ _ _).2 .nil⟩

theorem c68_full_fails : ¬ C68Full := by
  intro h
  obtain ⟨n, problem, proof, Q, P, F, Γ, s, h1, h2, h3, h4⟩ := c68_nested_fails
  obtain ⟨out, k1, -, k2⟩ := h (fun _ _ _ => false) n false false {} problem proof Q P ⟨rfl, rfl⟩ rfl h1
  rw [h4] at k1
  cases k1
  obtain ⟨text, hm, -⟩ := k2 F Γ s h2 h3
  cases hm

end Carcara
