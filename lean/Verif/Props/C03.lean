import Verif.Lemmas.Checker

/-!
# C02, C03, C04, C06: the checking loop

All theorems are about proofs in which every subproof has at least two commands and ends with a step. The parser
rejects all others (`Verif.Props.C04`).
-/

namespace Carcara

variable {P : Params} {cfg : Config} {prem : List Term} {proof : List Command} {b : Bool}

/-! ## C03 -/

/-- **C03.** What `ProofIter` returns is exactly the commands of the proof at all depths, in document order (so
each one once), and while a command is being looked at the stack of the iterator describes its position. -/
theorem c03_iterator (proof : List Command) :
    ∃ os : List Pos, (Iter.start proof).visits = os.map (fun o => (o.cmd, o.iter)) ∧
      (∀ F Γ c, ⟨F, Γ, c⟩ ∈ os ↔ Occ proof F Γ c) ∧
      os.Pairwise (fun a b => pathLt a.frames.path b.frames.path) :=
  ⟨allPositions proof, visits_start proof, fun _ _ _ => allPositions_iff, allPositions_sorted proof⟩

/-- **C03.** In an accepted proof every step at every depth has been verified by its rule, with the clauses of the
commands its premises denote and with the anchors it lies in, unless the configuration exempts its rule. -/
theorem c03_every_step_checked (hwf : Command.wfL proof = true) (h : check P cfg prem proof = .ok b)
    {F : Frames} {Γ : List (List AnchorArg)} {s : Step} (ho : Occ proof F Γ (.step s)) :
    s.verified P F Γ ∨ s.rule ∈ cfg.allowed ∨ (P.rule s.rule = none ∧ cfg.ignoreUnknown = true) := by
  have := (posOK_step ho hwf).1 (((check_iff hwf).1 h).1 F Γ _ ho)
  rcases this.2 with h | h | h
  · exact Or.inr (Or.inl h)
  · exact Or.inr (Or.inr h.2.2)
  · exact Or.inl h

/-- **C03.** In an accepted proof every assumption outside all subproofs matches an assertion. -/
theorem c03_every_assume_checked (hwf : Command.wfL proof = true) (h : check P cfg prem proof = .ok b)
    {i : Nat} {id : String} {t : Term} (ho : proof[i]? = some (.assume id t)) :
    t ∈ prem ∨ (cfg.elaborated = false ∧ ∃ u ∈ prem, P.assumeEq t u = .ok true) := by
  have := ((check_iff hwf).1 h).1 _ _ _ (Occ.top ho)
  simp only [PosOK, checkAssume, iter_isInSubproof, List.length_singleton, Nat.lt_irrefl, decide_false,
    Bool.false_eq_true, if_false] at this
  split at this
  · next hm => exact Or.inl hm
  · split at this
    · simp at this
    · next he => exact Or.inr ⟨by simpa using he, anyRes_true this⟩

/-- **C03, C02, C06.** Acceptance is the conjunction of what happens at the single positions. -/
theorem c03_check_iff (hwf : Command.wfL proof = true) :
    check P cfg prem proof = .ok b ↔
      (∀ F Γ c, Occ proof F Γ c → PosOK P cfg prem F Γ c) ∧
      (b = true ↔ ∃ F Γ s, Occ proof F Γ (.step s) ∧ s.holey P cfg) ∧
      (∃ F Γ s, Occ proof F Γ (.step s) ∧ s.clause = [] ∧ F.outermost) :=
  check_iff hwf

/-! ## C02 -/

/-- **C02.** The result says exactly whether the proof has, at any depth, a step with the rule `hole` or
`lia_generic`, with a rule in `allowed_rules`, or with an unknown rule. -/
theorem c02_holey_iff (hwf : Command.wfL proof = true) (h : check P cfg prem proof = .ok b) :
    b = true ↔ ∃ F Γ s, Occ proof F Γ (.step s) ∧
      (s.rule = "hole" ∨ s.rule = "lia_generic" ∨ s.rule ∈ cfg.allowed ∨ P.rule s.rule = none) := by
  rw [((check_iff hwf).1 h).2.1]
  simp only [Step.holey]
  constructor
  · rintro ⟨F, Γ, s, ho, h⟩; exact ⟨F, Γ, s, ho, by tauto⟩
  · rintro ⟨F, Γ, s, ho, h⟩; exact ⟨F, Γ, s, ho, by tauto⟩

/-- **C02.** If the result is `Ok(false)` then every step has been verified by a rule other than `hole` and
`lia_generic`. -/
theorem c02_not_holey_verified (hwf : Command.wfL proof = true) (h : check P cfg prem proof = .ok false)
    {F : Frames} {Γ : List (List AnchorArg)} {s : Step} (ho : Occ proof F Γ (.step s)) :
    s.verified P F Γ ∧ s.rule ≠ "hole" ∧ s.rule ≠ "lia_generic" := by
  have hn : ¬ (s.rule = "hole" ∨ s.rule = "lia_generic" ∨ s.rule ∈ cfg.allowed ∨ P.rule s.rule = none) := by
    intro hh
    have := (c02_holey_iff hwf h).2 ⟨F, Γ, s, ho, hh⟩
    cases this
  simp only [not_or] at hn
  rcases c03_every_step_checked hwf h ho with hv | ha | ha
  · exact ⟨hv, hn.1, hn.2.1⟩
  · exact absurd ha hn.2.2.1
  · exact absurd ha.1 hn.2.2.2

/-! ## C06 -/

/-- **C06.** An accepted proof has a step with the empty clause that is at the top level or closes a top-level
subproof. -/
theorem c06_empty_clause (hwf : Command.wfL proof = true) (h : check P cfg prem proof = .ok b) :
    ∃ F Γ s, Occ proof F Γ (.step s) ∧ s.clause = [] ∧
      (F.length = 1 ∨ (F.length = 2 ∧ F.isEnd)) :=
  ((check_iff hwf).1 h).2.2

/-- **C06.** Empty clauses elsewhere do not count. -/
theorem c06_no_empty_clause (hwf : Command.wfL proof = true)
    (h : ∀ F Γ s, Occ proof F Γ (.step s) → s.clause = [] →
      2 ≤ F.length ∧ ¬ (F.length = 2 ∧ F.isEnd)) :
    ¬ ∃ b, check P cfg prem proof = .ok b := by
  rintro ⟨b, hb⟩
  obtain ⟨F, Γ, s, ho, he, hF⟩ := c06_empty_clause hwf hb
  have := h F Γ s ho he
  rcases hF with hF | hF
  · omega
  · exact this.2 hF

/-! ## C04, for the iterator -/

/-- **C04.** `get_premise` resolves a reference to the command at that index of the enclosing level with that
depth, and panics if there is none. -/
theorem c04_get_premise {F : Frames} (d i : Nat) :
    Iter.getPremise F.iter (d, i) = match F.reverse[d]? with
      | none => panic
      | some f => match f.2[i]? with
        | none => panic
        | some c => .ok c := by
  rw [Frames.getPremise_iter]
  simp only [Frames.lookup]
  cases F.reverse[d]? with
  | none => rfl
  | some f => cases h : f.2[i]? <;> simp [h, orPanic]

/-- **C04.** Whatever a reference is resolved to while a step is checked occurs in the proof inside a prefix of the
anchors the step lies in, at exactly the given depth and index: never in a subproof that was closed before. -/
theorem c04_premise_in_scope {F : Frames} {Γ : List (List AnchorArg)} {s c : Command} {d i : Nat}
    (ho : Occ proof F Γ s) (h : Iter.getPremise F.iter (d, i) = .ok c) :
    ∃ F' : Frames, Occ proof F' (Γ.take d) c ∧ F'.path = F.path.take d ++ [i] := by
  rw [Frames.getPremise_iter, orPanic_ok] at h
  induction ho with
  | @top j c' hj =>
    simp only [Frames.lookup, List.reverse_singleton, Option.bind_eq_bind] at h
    cases d with
    | zero =>
      simp only [List.getElem?_cons_zero, Option.bind_some] at h
      exact ⟨[(i, proof)], .top h, by simp [Frames.path]⟩
    | succ d => simp at h
  | @sub F Γ cs as n j c' ho hj ih =>
    simp only [Frames.lookup, List.reverse_cons, Option.bind_eq_bind] at h ih
    have hl := ho.ctx_length
    by_cases hd : d < F.length
    · rw [List.getElem?_append_left (by simpa using hd)] at h
      obtain ⟨F', h1, h2⟩ := ih h
      refine ⟨F', ?_, ?_⟩
      · rwa [List.take_append_of_le_length (by omega)]
      · rw [h2, Frames.path, Frames.path, List.map_cons, List.reverse_cons,
          List.take_append_of_le_length (by simpa using Nat.le_of_lt hd)]
    · have hd' : d = F.length := by
        by_contra hne
        rw [List.getElem?_eq_none (by simp; omega)] at h
        simp at h
      subst hd'
      rw [List.getElem?_append_right (by simp)] at h
      simp only [List.length_reverse, Nat.sub_self, List.getElem?_cons_zero, Option.bind_some] at h
      refine ⟨(i, cs) :: F, ?_, ?_⟩
      · rw [List.take_of_length_le (by simp; omega)]
        exact .sub ho h
      · simp [Frames.path]

/-! ## Examples -/

section
private abbrev p : Term := .var "p" .bool
/-- Two rules: `any` accepts everything, `same` accepts if the conclusion is the first premise. -/
private def table : Params where
  rule n := if n = "any" ∨ n = "hole" ∨ n = "subproof" then some (fun _ => .ok ())
    else if n = "same" then some (fun a => require (a.premises.head? = some a.conclusion)) else none
  assumeEq _ _ := .ok false
private def sub : Command := .subproof
  [.assume "t1.h" p, .step ⟨"t1.a", [p], "same", [(1, 0)], [], []⟩,
   .step ⟨"t1", [.neg p, p], "subproof", [], [], [(1, 0)]⟩] [] 0

/-- A proof with a subproof is accepted … -/
example : check table {} [p] [.assume "h" p, sub, .step ⟨"t2", [p], "same", [(0, 0)], [], []⟩,
    .step ⟨"t3", [], "any", [(0, 1)], [], []⟩] = .ok false := by
  rw [check, checkLoop_start]; decide
/-- … unless an assumption of the subproof is not discharged … -/
example : check table {} [p] [.assume "h" p, .subproof
  [.assume "t1.h" p, .step ⟨"t1", [p], "subproof", [], [], []⟩] [] 0,
    .step ⟨"t3", [], "any", [(0, 1)], [], []⟩] = err := by
  rw [check, checkLoop_start]; decide
/-- … or the empty clause is only derived inside. -/
example : check table {} [p] [.assume "h" p, .subproof
  [.step ⟨"t1.a", [], "any", [], [], []⟩, .step ⟨"t1", [p], "subproof", [], [], []⟩] [] 0] = err := by
  rw [check, checkLoop_start]; decide
/-- The closing step of a top-level subproof may conclude the empty clause. -/
example : check table {} [p] [.assume "h" p, .subproof
  [.step ⟨"t1.a", [p], "any", [], [], []⟩, .step ⟨"t1", [], "subproof", [], [], []⟩] [] 0] = .ok false := by
  rw [check, checkLoop_start]; decide
/-- A `hole` inside a subproof makes the result holey. -/
example : check table {} [] [.subproof
  [.step ⟨"t1.a", [p], "hole", [], [], []⟩, .step ⟨"t1", [], "subproof", [], [], []⟩] [] 0] = .ok true := by
  rw [check, checkLoop_start]; decide
/-- An unknown rule. -/
example : check table {} [] [.step ⟨"t1", [], "foo", [], [], []⟩] = err := by
  rw [check, checkLoop_start]; decide
example : check table { ignoreUnknown := true } [] [.step ⟨"t1", [], "foo", [], [], []⟩] = .ok true := by
  rw [check, checkLoop_start]; decide
example : check table { allowed := ["foo"] } [] [.step ⟨"t1", [], "foo", [], [], []⟩] = .ok true := by
  rw [check, checkLoop_start]; decide
/-- The hypothesis of the theorems holds of a proof with a subproof. -/
example : Command.wfL [.assume "h" p, sub] = true := by decide
/-- A position two levels deep. -/
example : Occ [.assume "h" p, sub] [(0, [.assume "t1.h" p, .step ⟨"t1.a", [p], "same", [(1, 0)], [], []⟩,
   .step ⟨"t1", [.neg p, p], "subproof", [], [], [(1, 0)]⟩]), (1, [.assume "h" p, sub])] [[]]
   (.assume "t1.h" p) := .sub (as := []) (n := 0) (Γ := []) (.top rfl) rfl
end

end Carcara
