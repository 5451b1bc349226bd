import Verif.Lemmas.AssumeStandard
import Verif.Lemmas.SliceFiles
import Verif.Props.C52
import Verif.Props.C64

/-!
# C67: the two files that `slice` writes belong together

The command `slice` writes a problem with an assertion for each assumption of the sliced proof, and the sliced proof (`cli/src/main.rs:676-735`). "Both files
are read again, the proof as the sliced proof, and the problem with its assumptions among the premises."
-/

namespace Carcara
open PRes Reader

/-- The files are written; they are read as the sliced proof, and a problem in which the assumptions are asserted. -/
def FilesTogether (E : PEnv) (Q : Problem) (P : ParsedProof) (id : String) (d : Nat) : Prop :=
  ∀ commands asserts, slice P.commands id d = .ok (some (commands, asserts)) →
    ∃ text text' ts ts', sliceFiles Q P id d = .ok (some (text, text')) ∧ AllTokens text ts ∧ AllTokens text' ts' ∧
      ∀ n, 3 * ts.length + 1 ≤ n → 3 * ts'.length + 3 ≤ n → ∃ Q', readInstance n false true E ts ts' = .ok (Q', { P with commands }) ∧
        ∀ t ∈ asserts, t ∈ Q'.premises

/-- The claim: this is so for every step of a proof that is read. -/
def C67Full : Prop := ∀ (n : Nat) (E : PEnv) (problem proof : List Token) (Q : Problem) (P : ParsedProof), PlainEnv E →
  readInstance n false true E problem proof = .ok (Q, P) → ∀ id d, FilesTogether E Q P id d

/-- The proof that is written, with an empty line at the end. -/
theorem written_empty_line {F F' : List (String × FunDef)} {E : PEnv} {ds : List (String × Srt × Term)} {P : ParsedProof}
    {rs : List RawCommand} (hp : parseProof rs = .ok P.commands) (hE : PlainEnv E) (hc : P.consts = ds.map fun d => (d.1, d.2.2))
    (hds : DefsWritable E F ds F') (hw : Command.WritableInL (definedNames P.consts) F' E P.commands)
    (hdr : ∀ d ∈ ds, Readable d.1 ∧ d.2.1.Readable ∧ d.2.2.Readable []) (hr : ∀ G Γ c, Occ P.commands G Γ c → c.Readable (definedNames P.consts))
    (hf : ∀ G Γ s, Occ P.commands G Γ (.step s) → s.firstPlain G) (hu : ∀ G Γ s, Occ P.commands G Γ (.step s) → s.unshadowed G) :
    ∃ text ts, writeProof P = .ok text ∧ AllTokens (text ++ ['\n']) ts ∧
      ∀ n, 3 * ts.length + 3 ≤ n → readProof n true E ⟨ts, F⟩ = .ok (P, ⟨[], F'⟩) := by
  obtain ⟨o1, e1, t1⟩ := reads_definitions hds hdr
  obtain ⟨o2, e2, t2⟩ := reads_commands (defs := definedNames P.consts) ((parse_positions hp).imp fun _ _ h => h.1)
    (fun o h => allPositions_iff.1 h) hr (fun o h s hs => hf o.frames o.ctx s (hs ▸ allPositions_iff.1 h))
  have hw1 : writeProof P = .ok (joinLines (o1 ++ o2)) := by
    refine bind_ok.2 ⟨o1, by rw [hc]; exact e1, bind_ok.2 ⟨joinLines o2, printLoop_visits _ _ _ (Nat.le_refl _) o2 ?_, by simp [joinLines]⟩⟩
    rw [visits_start]
    exact e2
  have eraw := parseProof_rename hp hu
  have et : proofTokens (definedNames P.consts) false false ds ((allPositions P.commands).map Pos.raw) =
      ((ds.map fun d => definitionTokens d.1 d.2.1 d.2.2) ++ (allPositions P.commands).map fun o => o.raw.tokens (definedNames P.consts)).flatten := by
    simp [proofTokens, definitionsTokens, List.map_map, Function.comp_def]
  refine ⟨_, _, hw1, lexes_lines_empty (List.rel_append t1 t2), fun n hn => ?_⟩
  have := c51_reads_back_partial (definedNames P.consts) F F' E false false true ds _ P.commands n hE eraw hds hw (fun _ _ _ _ => rfl) (by rw [et]; exact hn)
  rw [et, ← hc] at this
  exact this

/-- What is read: the declarations, the assertions with numbers written with the operators of SMT-LIB, and the sliced proof. The conditions on the
declarations are those of C64, the conditions on the proof those of C52, with the declarations of the problem and no definitions. -/
theorem c67_files (E : PEnv) (Q : Problem) (P : ParsedProof) (id : String) (d : Nat) (commands : List Command) (asserts : List Term)
    (hsl : slice P.commands id d = .ok (some (commands, asserts))) (hE : PlainEnv E) (hQ : PreludeOK E Q) (hr : ∀ l ∈ asserts, l.Readable [])
    (hw : ∀ l ∈ asserts, Writable [] [] (E.declaring Q.sorts Q.functions) l)
    {F' : List (String × FunDef)} {ds : List (String × Srt × Term)} {rs : List RawCommand} (hp : parseProof rs = .ok commands)
    (hc : P.consts = ds.map fun d => (d.1, d.2.2)) (hds : DefsWritable (E.declaring Q.sorts Q.functions) [] ds F')
    (hcw : Command.WritableInL (definedNames P.consts) F' (E.declaring Q.sorts Q.functions) commands)
    (hdr : ∀ d ∈ ds, Readable d.1 ∧ d.2.1.Readable ∧ d.2.2.Readable []) (hcr : ∀ G Γ c, Occ commands G Γ c → c.Readable (definedNames P.consts))
    (hf : ∀ G Γ s, Occ commands G Γ (.step s) → s.firstPlain G) (hu : ∀ G Γ s, Occ commands G Γ (.step s) → s.unshadowed G) :
    ∃ text text' ts ts', sliceFiles Q P id d = .ok (some (text, text')) ∧ AllTokens text ts ∧ AllTokens text' ts' ∧
      ∀ n, 3 * ts.length + 1 ≤ n → 3 * ts'.length + 3 ≤ n → ∃ Q', readInstance n false true E ts ts' = .ok (Q', { P with commands }) ∧
        Q'.sorts = Q.sorts ∧ Q'.functions = Q.functions ∧ ∀ u, u ∈ Q'.premises ↔ ∃ l ∈ asserts, u = l.standard := by
  have hE2 : PlainEnv (E.declaring Q.sorts Q.functions) := ⟨hE.strict, hE.ints⟩
  obtain ⟨text, h1, rest, h2, h3⟩ := text_slice (E := E.declaring Q.sorts []) (Q := Q) (asserts := asserts) hQ.logic (fun d hd => (hQ.sorts d hd).1)
    hQ.functions hr
  obtain ⟨text', ts', k1, k2, k3⟩ := written_empty_line (P := { P with commands }) hp hE2 hc hds hcw hdr hcr hf hu
  refine ⟨text, text' ++ ['\n'], _, ts', ?_, ⟨rest, h2, h3⟩, k2, fun n hn hn' => ?_⟩
  · rw [sliceFiles, hsl]
    show (sliceProblem Q asserts >>= fun problem => writeProof { P with commands } >>= fun proof => (.ok (some (problem, proof ++ ['\n'])) : Res _)) = _
    rw [h1]
    show (writeProof { P with commands } >>= fun proof => (.ok (some (text, proof ++ ['\n'])) : Res _)) = _
    rw [k1]
    rfl
  · have hl : realOnlyLogic (Q.logic.getD "ALL") = false := by
      cases hq : Q.logic with
      | none => decide +kernel
      | some l => exact hQ.reals l hq
    have hEq : ∀ E : PEnv, E.intsAsReals = false → { E with intsAsReals := false } = E := by
      intro E h
      cases E
      cases h
      rfl
    obtain ⟨ps, e, h⟩ := readSlice (apply := false) hE hl (fun d hd => (hQ.sorts d hd).2) (fun d hd => (hQ.functions d hd).2) hw hn
    refine ⟨⟨some (Q.logic.getD "ALL"), Q.sorts, Q.functions, ps⟩, ?_, rfl, rfl, h⟩
    rw [readInstance, hEq E hE.ints, e]
    show (readProof n true { E.declaring Q.sorts Q.functions with intsAsReals := false } ⟨ts', []⟩ >>= _) = _
    rw [hEq _ hE2.ints, k3 n hn']
    rfl

/-- Partial: it is true, under these conditions, if no assumption has a negative number or a fraction, so that `standard` does not change it. Missing:
the conditions. -/
theorem c67_together_partial (E : PEnv) (Q : Problem) (P : ParsedProof) (id : String) (d : Nat) (hE : PlainEnv E) (hQ : PreludeOK E Q)
    (h : ∀ commands asserts, slice P.commands id d = .ok (some (commands, asserts)) →
      (∀ l ∈ asserts, l.Readable [] ∧ Writable [] [] (E.declaring Q.sorts Q.functions) l ∧ l.standard = l) ∧
      ∃ F' ds rs, parseProof rs = .ok commands ∧ P.consts = ds.map (fun d => (d.1, d.2.2)) ∧ DefsWritable (E.declaring Q.sorts Q.functions) [] ds F' ∧
        Command.WritableInL (definedNames P.consts) F' (E.declaring Q.sorts Q.functions) commands ∧
        (∀ d ∈ ds, Readable d.1 ∧ d.2.1.Readable ∧ d.2.2.Readable []) ∧ (∀ G Γ c, Occ commands G Γ c → c.Readable (definedNames P.consts)) ∧
        (∀ G Γ s, Occ commands G Γ (.step s) → s.firstPlain G) ∧ ∀ G Γ s, Occ commands G Γ (.step s) → s.unshadowed G) :
    FilesTogether E Q P id d := by
  intro commands asserts hsl
  obtain ⟨ha, F', ds, rs, h1, h2, h3, h4, h5, h6, h7, h8⟩ := h commands asserts hsl
  obtain ⟨text, text', ts, ts', k1, k2, k3, k⟩ := c67_files E Q P id d commands asserts hsl hE hQ (fun l hl => (ha l hl).1) (fun l hl => (ha l hl).2.1)
    h1 h2 h3 h4 h5 h6 h7 h8
  refine ⟨text, text', ts, ts', k1, k2, k3, fun n hn hn' => ?_⟩
  obtain ⟨Q', e, -, -, hp⟩ := k n hn hn'
  exact ⟨Q', e, fun t ht => (hp t).2 ⟨t, ht, (ha t ht).2.2.symm⟩⟩

/-- The sliced problem means what the assumptions mean, also if they have such numbers. -/
theorem c67_meaning (asserts ps : List Term) (h : ∀ u, u ∈ ps ↔ ∃ l ∈ asserts, u = l.standard) (M : Model) :
    (∀ t ∈ ps, M.Holds t) ↔ ∀ t ∈ asserts, M.Holds t := by
  have hs : ∀ l : Term, M.Holds l.standard ↔ M.Holds l := fun l => by rw [Model.Holds, Model.Holds, Model.val, Model.val, eval_standard]
  constructor
  · exact fun hp t ht => (hs t).1 (hp _ ((h _).2 ⟨t, ht, rfl⟩))
  · intro ha u hu
    obtain ⟨l, hl, rfl⟩ := (h u).1 hu
    exact (hs l).2 (ha l hl)

/-- Partial: without the option for elaborated proofs, the two files are accepted with the same result as the slice with its own assumptions, also if these
have negative numbers and fractions: `Polyeq` takes a term and its standard form for the same. Missing: slices with an assumption after other commands (it
is not asserted, see C38), terms with a left-associative operator applied to one argument, and comparisons that panic. -/
theorem c67_checked_partial (T : TableEnv) (pc cfg : Config) (commands : List Command) (asserts ps : List Term) (b : Bool) (he : cfg.elaborated = false)
    (hwf : Command.wfL commands = true) (h : ∀ u, u ∈ ps ↔ ∃ l ∈ asserts, u = l.standard) (hn : ∀ l ∈ asserts, l.NoUnary)
    (ho : ∀ F Γ id t, Occ commands F Γ (.assume id t) → F.length ≤ 1 → t ∈ asserts) (hq : ∀ t ∈ asserts, ∀ u ∈ ps, ∃ r, assumeEq t u = .ok r)
    (hc : check (T.params pc) cfg asserts commands = .ok b) : check (T.params pc) cfg ps commands = .ok b := by
  have any : ∀ {f : Term → Res Bool} {us : List Term}, (∀ u ∈ us, ∃ r, f u = .ok r) → (∃ u ∈ us, f u = .ok true) → anyRes f us = .ok true := by
    intro f us
    induction us with
    | nil => rintro - ⟨u, hu, -⟩; cases hu
    | cons a us ih =>
      intro h1 h2
      obtain ⟨r, hr⟩ := h1 a (by simp)
      simp only [anyRes, hr]
      cases r with
      | true => rfl
      | false =>
        refine ih (fun u hu => h1 u (List.mem_cons_of_mem _ hu)) ?_
        obtain ⟨u, hu, e⟩ := h2
        rcases List.mem_cons.1 hu with rfl | hu
        · rw [hr] at e; cases e
        · exact ⟨u, hu, e⟩
  obtain ⟨h1, h2, h3⟩ := (check_iff hwf).1 hc
  refine (check_iff hwf).2 ⟨fun F Γ c hocc => ?_, h2, h3⟩
  have hp := h1 F Γ c hocc
  cases c with
  | step s => exact hp
  | subproof cs as n => exact hp
  | assume id t =>
    simp only [PosOK, checkAssume, iter_isInSubproof] at hp ⊢
    by_cases hl : 1 < F.length
    · simp [hl]
    · have ht := ho F Γ id t hocc (by omega)
      simp only [hl, decide_false, Bool.false_eq_true, if_false, he]
      split
      · rfl
      · exact any (hq t ht) ⟨t.standard, (h _).2 ⟨t, ht, rfl⟩, assumeEq_standard (hn t ht)⟩

private def tok67 : Nat → List Char → List Token
  | 0, _ => []
  | n + 1, cs =>
    match nextToken cs with
    | .ok (.eof, _) => []
    | .ok (t, cs) => t :: tok67 n cs
    | .error _ => []

private def T0 : TableEnv := ⟨fun _ => 0, fun _ db => db, fun _ => 0, fun _ _ => err⟩

private def problemText : List Char := "(declare-const x Real) (declare-const p Bool) (assert (and (> x 0.5) p)) (assert (not p))".toList
private def proofText : List Char := ("(assume h1 (and (> x 0.5) p)) (assume h2 (not p)) (step t1 (cl p) :rule and :premises (h1) :args (1)) \
(step t2 (cl) :rule resolution :premises (t1 h2) :args (p true))").toList

private def x67 : Term := .var "x" .real
private def p67 : Term := .var "p" .bool
private def assume67 (half : Term) : Term := .op .and [.op .gt [x67, half], p67]
private def half67 : Term := .const (.real (1 / 2))
private def Q67 : Problem := { functions := [("x", .real), ("p", .bool)], premises := [assume67 half67, .op .not [p67]] }
private def P67 : ParsedProof := ⟨[], [.assume "h1" (assume67 half67), .assume "h2" (.op .not [p67]),
  .step ⟨"t1", [p67], "and", [(0, 0)], [.const (.int 1)], []⟩, .step ⟨"t2", [], "resolution", [(0, 2), (0, 1)], [p67, .tru], []⟩]⟩
private def sliced67 : List Command := [.assume "h1" (assume67 half67), .step ⟨"t1", [p67], "and", [(0, 0)], [.const (.int 1)], []⟩,
  .step ⟨"slice_end", [], "hole", [(0, 1)], [trustTerm], []⟩]
private def written67 : List Char := ("(set-logic ALL)\n(declare-fun x () Real)\n(declare-fun p () Bool)\n(assert (and (> x (/ 1.0 2.0)) p))\n\
(check-sat)\n(exit)\n").toList
private def writtenProof67 : List Char := ("(assume h1 (and (> x 1/2) p))\n(step t1 (cl p) :rule and :premises (h1) :args (1))\n\
(step slice_end (cl) :rule hole :premises (t1) :args (\"trust\"))\n\n").toList

private def notBv67 : Option Srt → Bool
  | some (.bv _) => false
  | _ => true

private theorem small67 (t : Term) (h : ∀ u ∈ t.subterms, notBv67 (sortOf u) = true) : t.smallWidths := fun u hu w e => by
  have := h u hu
  rw [e] at this
  cases this

private def three67 : Term := .const (.real 3)
private def proof67 (k : Term) : ParsedProof := ⟨[], [.assume "h1" (assume67 k), .assume "h2" (.op .not [p67]),
  .step ⟨"t1", [p67], "and", [(0, 0)], [.const (.int 1)], []⟩, .step ⟨"t2", [], "resolution", [(0, 2), (0, 1)], [p67, .tru], []⟩]⟩
private def slice67 (k : Term) : List Command := [.assume "h1" (assume67 k), .step ⟨"t1", [p67], "and", [(0, 0)], [.const (.int 1)], []⟩,
  .step ⟨"slice_end", [], "hole", [(0, 1)], [trustTerm], []⟩]

private theorem escape67 : ¬ HasEscape ['t', 'r', 'u', 's', 't'] := by
  rintro ⟨h, ⟨ds, -, ⟨rfl, -⟩ | ⟨rfl, -⟩⟩, hi⟩
  all_goals
    have := hi.subset (show '\\' ∈ _ by simp)
    revert this
    decide

/-- The hypotheses of `c67_files`, and of `c67_together_partial`: an assumption about a number is used by the step, another one is not. -/
example : PlainEnv {} ∧ PreludeOK {} Q67 ∧ slice (proof67 three67).commands "t1" 0 = .ok (some (slice67 three67, [assume67 three67])) ∧
    (assume67 three67).Readable [] ∧ Writable [] [] (PEnv.declaring {} Q67.sorts Q67.functions) (assume67 three67) ∧
    (assume67 three67).standard = assume67 three67 ∧
    parseProof [.assume "h1" (assume67 three67), .step ⟨"t1", [p67], "and", ["h1"], [.const (.int 1)], []⟩,
      .step ⟨"slice_end", [], "hole", ["t1"], [trustTerm], []⟩] = .ok (slice67 three67) ∧
    (proof67 three67).consts = ([] : List (String × Srt × Term)).map (fun d => (d.1, d.2.2)) ∧
    DefsWritable (PEnv.declaring {} Q67.sorts Q67.functions) [] [] [] ∧
    Command.WritableInL (definedNames (proof67 three67).consts) [] (PEnv.declaring {} Q67.sorts Q67.functions) (slice67 three67) ∧
    (∀ G Γ c, Occ (slice67 three67) G Γ c → c.Readable (definedNames (proof67 three67).consts)) ∧
    (∀ G Γ s, Occ (slice67 three67) G Γ (.step s) → s.firstPlain G) ∧ ∀ G Γ s, Occ (slice67 three67) G Γ (.step s) → s.unshadowed G := by
  have hn : ∀ G Γ s, Occ (slice67 three67) G Γ (.step s) → s.discharge = [] := by
    have : ∀ o ∈ allPositions (slice67 three67), ∀ s, o.cmd = .step s → s.discharge = [] := by
      simp only [slice67, allPositions, positionsL, positions, List.mem_cons, List.not_mem_nil, or_false, List.append_nil, forall_eq_or_imp, forall_eq,
        List.cons_append, List.nil_append]
      simp
    exact fun G Γ s ho => this ⟨G, Γ, .step s⟩ (allPositions_iff.2 ho) s rfl
  refine ⟨⟨rfl, rfl⟩, ⟨fun l hl => (nomatch hl), fun l hl => (nomatch hl), fun d hd => (nomatch hd), ?_⟩, by decide +kernel, ?_,
    ⟨by decide +kernel, small67 _ (by decide +kernel), ?_⟩, by decide +kernel, by decide +kernel, rfl, .nil, ?_, ?_, ?_, ?_⟩
  · simp only [Q67, List.mem_cons, List.not_mem_nil, or_false, forall_eq_or_imp, forall_eq]
    exact ⟨⟨readable_of (by decide +kernel), trivial, trivial⟩, readable_of (by decide +kernel), trivial, trivial⟩
  · simp [assume67, x67, p67, three67, Term.Readable, Term.ReadableL, unnamed, List.lookup, Const.Readable]
    exact ⟨readable_of (by decide +kernel), readable_of (by decide +kernel)⟩
  · simp [assume67, x67, p67, three67, Term.Known, Term.KnownL, knownName, List.lookup, PEnv.declaring, Q67, Const.Known, BEq.beq]
    try decide +kernel
  · simp only [slice67, Command.WritableInL, Command.WritableIn, ArgsWritable, and_true, forall_eq, List.mem_cons, List.not_mem_nil,
      or_false, forall_eq_or_imp, false_imp_iff, implies_true, true_and]
    refine ⟨⟨⟨by decide +kernel, small67 _ (by decide +kernel), ?_⟩, by decide +kernel⟩,
      ⟨⟨⟨by decide +kernel, small67 _ (by decide +kernel), ?_⟩, by decide +kernel⟩, ⟨by decide +kernel, small67 _ (by decide +kernel), ?_⟩⟩,
      ⟨by decide +kernel, small67 _ (by decide +kernel), ?_⟩⟩
    all_goals
      simp [assume67, x67, p67, three67, trustTerm, proof67, definedNames, Term.Known, Term.KnownL, knownName, List.lookup, PEnv.declaring, Q67, Const.Known, BEq.beq]
      try decide +kernel
  · have : ∀ o ∈ allPositions (slice67 three67), o.cmd.Readable (definedNames (proof67 three67).consts) := by
      simp only [slice67, allPositions, positionsL, positions, List.mem_cons, List.not_mem_nil, or_false, List.append_nil, forall_eq_or_imp, forall_eq,
        List.cons_append, List.nil_append]
      simp [Command.Readable, assume67, x67, p67, three67, trustTerm, proof67, Term.Readable, Term.ReadableL, unnamed, List.lookup, definedNames, Const.Readable]
      refine ⟨⟨?_, ?_, ?_⟩, ⟨?_, ?_, plainName_of (by decide +kernel)⟩, ?_, plainName_of (by decide +kernel), ?_⟩
      all_goals first | exact escape67 | exact readable_of (by decide +kernel)
    exact fun G Γ c ho => this ⟨G, Γ, c⟩ (allPositions_iff.2 ho)
  · intro G Γ s ho p hp
    rw [hn G Γ s ho] at hp
    cases hp
  · intro G Γ s ho p hp
    rw [hn G Γ s ho] at hp
    cases hp

private theorem read67 : readInstance 400 false true {} (tok67 200 problemText) (tok67 200 proofText) = .ok (Q67, P67) := by decide +kernel

/-- **C67 fails**: a fraction is written as a division in the problem and as a fraction in the proof, so the assumption is no premise. The proof is accepted
as an elaborated proof, and so is the slice, with the assumption for a premise; but the two files are rejected. (Without this option, the assumption is
compared with the premises by `Polyeq`, and accepted.) -/
theorem c67_fraction_fails : ∃ (n : Nat) (problem proof : List Token) (Q : Problem) (P : ParsedProof) (id : String) (commands : List Command)
    (asserts : List Term) (text text' : List Char) (ts ts' : List Token) (Q' : Problem), readInstance n false true {} problem proof = .ok (Q, P) ∧
      check (T0.params { elaborated := true }) { elaborated := true } Q.premises P.commands = .ok false ∧
      slice P.commands id 0 = .ok (some (commands, asserts)) ∧
      check (T0.params { elaborated := true }) { elaborated := true } asserts commands = .ok true ∧
      sliceFiles Q P id 0 = .ok (some (text, text')) ∧ AllTokens text ts ∧ AllTokens text' ts' ∧
      readInstance n false true {} ts ts' = .ok (Q', { P with commands }) ∧ (∃ t ∈ asserts, t ∉ Q'.premises) ∧
      check (T0.params { elaborated := true }) { elaborated := true } Q'.premises commands = err := by
  refine ⟨400, tok67 200 problemText, tok67 200 proofText, Q67, P67, "t1", sliced67, [assume67 half67], written67, writtenProof67, tok67 200 written67,
    tok67 200 writtenProof67, { Q67 with logic := some "ALL", premises := [assume67 (.op .realDiv [.const (.real 1), .const (.real 2)])] }, read67,
    by rw [check, checkLoop_start]; decide +kernel, by decide +kernel, by rw [check, checkLoop_start]; decide +kernel, by decide +kernel,
    ⟨['\n'], lexN_sound (n := (tok67 200 written67).length) (by decide +kernel), by decide +kernel⟩,
    ⟨['\n', '\n'], lexN_sound (n := (tok67 200 writtenProof67).length) (by decide +kernel), by decide +kernel⟩, by decide +kernel,
    ⟨assume67 half67, by simp, by decide +kernel⟩, by rw [check, checkLoop_start]; decide +kernel⟩

/-- Without the option, the witness is accepted; it meets the conditions of `c67_checked_partial`. -/
example : check (T0.params {}) {} [assume67 (.op .realDiv [.const (.real 1), .const (.real 2)])] sliced67 = .ok true := by
  have hs : (assume67 half67).standard = assume67 (.op .realDiv [.const (.real 1), .const (.real 2)]) := by decide +kernel
  refine c67_checked_partial T0 {} {} sliced67 [assume67 half67] _ true rfl (by decide) (by simp [hs]) ?_ ?_ ?_ (by rw [check, checkLoop_start]; decide +kernel)
  · simp [assume67, half67, x67, p67, Term.NoUnary, Term.NoUnaryL]
  · intro F Γ id t hocc _
    have : ∀ o ∈ allPositions sliced67, ∀ id t, o.cmd = .assume id t → t ∈ [assume67 half67] := by
      simp only [sliced67, allPositions, positionsL, positions, List.mem_cons, List.not_mem_nil, or_false, List.append_nil, forall_eq_or_imp, forall_eq,
        List.cons_append, List.nil_append]
      simp
    exact this ⟨F, Γ, _⟩ (allPositions_iff.2 hocc) id t rfl
  · simp only [List.mem_singleton, forall_eq]
    exact ⟨true, by decide +kernel⟩

theorem c67_full_fails : ¬ C67Full := by
  intro h
  obtain ⟨text, text', ts, ts', h1, h2, h3, h4⟩ := h 400 {} _ _ Q67 P67 ⟨rfl, rfl⟩ read67 "t1" 0 sliced67 [assume67 half67] (by decide +kernel)
  have e : sliceFiles Q67 P67 "t1" 0 = .ok (some (written67, writtenProof67)) := by decide +kernel
  rw [e] at h1
  have h1 := Prod.mk.inj (Option.some.inj (Except.ok.inj h1))
  rw [← h1.1] at h2
  rw [← h1.2] at h3
  have a2 : AllTokens written67 (tok67 200 written67) := ⟨['\n'], lexN_sound (n := (tok67 200 written67).length) (by decide +kernel), by decide +kernel⟩
  have a3 : AllTokens writtenProof67 (tok67 200 writtenProof67) :=
    ⟨['\n', '\n'], lexN_sound (n := (tok67 200 writtenProof67).length) (by decide +kernel), by decide +kernel⟩
  rw [h2.unique a2, h3.unique a3] at h4
  obtain ⟨Q', e', hm⟩ := h4 400 (by decide +kernel) (by decide +kernel)
  have r : readInstance 400 false true {} (tok67 200 written67) (tok67 200 writtenProof67) =
    .ok ({ Q67 with logic := some "ALL", premises := [assume67 (.op .realDiv [.const (.real 1), .const (.real 2)])] }, { P67 with commands := sliced67 }) := by
    decide +kernel
  rw [r] at e'
  have e' := (Prod.mk.inj (Except.ok.inj e')).1
  rw [← e'] at hm
  exact absurd (hm _ (List.mem_singleton.2 rfl)) (by decide +kernel)
end Carcara
