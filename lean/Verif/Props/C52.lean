import Verif.Lemmas.ProofPrinter
import Verif.Props.C51

/-!
# C52: a proof that is written is read as the same proof

"If Carcara reads a proof and writes it (after elaboration, slicing or on request), then what is written is read as the same proof." Terms and steps
alone are C39 and C47; here it is the whole text, with names for references, anchors, and definitions of constants.
-/

namespace Carcara
open PRes Reader

/-- The tokens of a whole text. -/
def AllTokens (text : List Char) (ts : List Token) : Prop := ∃ rest, LexesTo text ts rest ∧ nextToken rest = .ok (.eof, [])

/-- The full claim. -/
def C52Full : Prop := ∀ (n : Nat) (holeArgs : Bool) (E : PEnv) (st st' : ReadState) (P : ParsedProof), E.subtyping = false → DefsSorted st.defs →
  readProof n holeArgs E st = .ok (P, st') →
  ∃ text ts F', writeProof P = .ok text ∧ AllTokens text ts ∧ ∀ m, 3 * ts.length + 3 ≤ m → readProof m holeArgs E ⟨ts, st.defs⟩ = .ok (P, ⟨[], F'⟩)

/-- Partial: it is true of every tree that comes from a text if
* constants are defined by terms that can be written before the commands, and terms are `Writable` where they are (C47);
* names and strings can be written (C39), names of rules without bars, and the first discharged assumption as well;
* no visible command is called like a discharged one with the identifier of the step and a dot before it. -/
theorem c52_written_partial (F F' : List (String × FunDef)) (E : PEnv) (holeArgs : Bool) (ds : List (String × Srt × Term)) (P : ParsedProof)
    (rs : List RawCommand) (hp : parseProof rs = .ok P.commands) (hE : PlainEnv E) (hc : P.consts = ds.map fun d => (d.1, d.2.2))
    (hds : DefsWritable E F ds F') (hw : Command.WritableInL (definedNames P.consts) F' E P.commands)
    (hdr : ∀ d ∈ ds, Readable d.1 ∧ d.2.1.Readable ∧ d.2.2.Readable []) (hr : ∀ G Γ c, Occ P.commands G Γ c → c.Readable (definedNames P.consts))
    (hf : ∀ G Γ s, Occ P.commands G Γ (.step s) → s.firstPlain G) (hu : ∀ G Γ s, Occ P.commands G Γ (.step s) → s.unshadowed G)
    (hh : ∀ G Γ s, Occ P.commands G Γ (.step s) → s.rule = "hole" → s.args ≠ [] → holeArgs = true) :
    ∃ text ts, writeProof P = .ok text ∧ AllTokens text ts ∧
      ∀ n, 3 * ts.length + 3 ≤ n → readProof n holeArgs E ⟨ts, F⟩ = .ok (P, ⟨[], F'⟩) := by
  obtain ⟨o1, e1, t1⟩ := reads_definitions hds hdr
  obtain ⟨o2, e2, t2⟩ := reads_commands (defs := definedNames P.consts) ((parse_positions hp).imp fun _ _ h => h.1)
    (fun o h => allPositions_iff.1 h) hr (fun o h s hs => hf o.frames o.ctx s (hs ▸ allPositions_iff.1 h))
  have hw1 : writeProof P = .ok (joinLines (o1 ++ o2)) := by
    refine bind_ok.2 ⟨o1, by rw [hc]; exact e1, bind_ok.2 ⟨joinLines o2, printLoop_visits _ _ _ (Nat.le_refl _) o2 ?_, by simp [joinLines]⟩⟩
    rw [visits_start]
    exact e2
  have ht := lexes_lines (List.rel_append t1 t2)
  have eraw := parseProof_rename hp hu
  have et : proofTokens (definedNames P.consts) false false ds ((allPositions P.commands).map Pos.raw) =
      ((ds.map fun d => definitionTokens d.1 d.2.1 d.2.2) ++ (allPositions P.commands).map fun o => o.raw.tokens (definedNames P.consts)).flatten := by
    simp [proofTokens, definitionsTokens, List.map_map, Function.comp_def]
  refine ⟨_, _, hw1, ht, fun n hn => ?_⟩
  have := c51_reads_back_partial (definedNames P.consts) F F' E false false holeArgs ds _ P.commands n hE eraw hds hw ?_ (by rw [et]; exact hn)
  · rw [et, ← hc] at this
    exact this
  · intro r hr' e1 e2
    obtain ⟨o, ho, e⟩ := List.mem_map.1 hr'
    obtain ⟨G, Γ, c⟩ := o
    cases c with
    | assume => cases e
    | subproof => cases e
    | step s =>
      cases e
      exact hh G Γ s (allPositions_iff.1 ho) e1 e2

/-- In particular of every proof that was read, perhaps after other definitions and with other fuel. -/
theorem c52_reread_partial (n : Nat) (holeArgs : Bool) (E : PEnv) (st st' : ReadState) (P : ParsedProof) (hE : PlainEnv E)
    (hs : E.subtyping = false) (hd : DefsSorted st.defs)
    (h : readProof n holeArgs E st = .ok (P, st')) (F F' : List (String × FunDef)) (ds : List (String × Srt × Term))
    (hc : P.consts = ds.map fun d => (d.1, d.2.2)) (hds : DefsWritable E F ds F') (hw : Command.WritableInL (definedNames P.consts) F' E P.commands)
    (hdr : ∀ d ∈ ds, Readable d.1 ∧ d.2.1.Readable ∧ d.2.2.Readable []) (hr : ∀ G Γ c, Occ P.commands G Γ c → c.Readable (definedNames P.consts))
    (hf : ∀ G Γ s, Occ P.commands G Γ (.step s) → s.firstPlain G) (hu : ∀ G Γ s, Occ P.commands G Γ (.step s) → s.unshadowed G) :
    ∃ text ts, writeProof P = .ok text ∧ AllTokens text ts ∧
      ∀ n, 3 * ts.length + 3 ≤ n → readProof n true E ⟨ts, F⟩ = .ok (P, ⟨[], F'⟩) := by
  obtain ⟨rs, h1, -⟩ := (Ensures.readProof hs holeArgs n _ _ _ hd h).1
  exact c52_written_partial F F' E true ds P rs h1 hE hc hds hw hdr hr hf hu fun _ _ _ _ _ _ => rfl

theorem LexesTo.unique {cs : List Char} {ts us : List Token} {r r' : List Char} (h : LexesTo cs ts r) (h' : LexesTo cs us r')
    (hr : nextToken r = .ok (.eof, [])) (hr' : nextToken r' = .ok (.eof, [])) : ts = us := by
  induction h generalizing us with
  | nil =>
    cases h' with
    | nil => rfl
    | cons h1 h2 _ =>
      rw [hr] at h1
      cases h1
      exact absurd rfl h2
  | cons h1 h2 _ ih =>
    cases h' with
    | nil =>
      rw [hr'] at h1
      cases h1
      exact absurd rfl h2
    | cons g1 g2 g3 =>
      rw [h1] at g1
      cases g1
      rw [ih g3 hr]

theorem AllTokens.unique {text : List Char} {ts us : List Token} (h : AllTokens text ts) (h' : AllTokens text us) : ts = us := by
  obtain ⟨r, h1, h2⟩ := h
  obtain ⟨r', h1', h2'⟩ := h'
  exact h1.unique h1' h2 h2'

/-- What is written for a proof, line by line. -/
def proofLines (P : ParsedProof) : Res (List (List Char)) := do
  let ds ← mapRes (fun d : String × Term => printDefinition d.1 d.2) P.consts
  let cs ← mapRes (fun o : Pos => printCommand (definedNames P.consts) o.iter o.cmd) (allPositions P.commands)
  .ok (ds ++ cs)

private theorem mapRes_visits {α β γ : Type} (f : α → β) (g : β → Res γ) : ∀ as : List α, mapRes g (as.map f) = mapRes (fun a => g (f a)) as
  | [] => rfl
  | a :: as => by rw [List.map_cons, mapRes, mapRes, mapRes_visits f g as]

theorem writeProof_lines {P : ParsedProof} {ls : List (List Char)} (h : proofLines P = .ok ls) : writeProof P = .ok (joinLines ls) := by
  obtain ⟨ds, h1, h⟩ := bind_ok.1 h
  obtain ⟨cs, h2, h⟩ := bind_ok.1 h
  cases h
  refine bind_ok.2 ⟨ds, h1, bind_ok.2 ⟨joinLines cs, printLoop_visits _ _ _ (Nat.le_refl _) cs ?_, by simp [joinLines]⟩⟩
  rw [visits_start, mapRes_visits]
  exact h2

/-- How the claim is refuted: a text is read, written, and read as something else. -/
def refutes (n m k : Nat) (E : PEnv) (ts : List Token) : Bool :=
  match readProof n true E ⟨ts, []⟩ with
  | .error _ => false
  | .ok (P, _) =>
    match proofLines P with
    | .error _ => false
    | .ok ls =>
      match lexN k (joinLines ls) with
      | none => false
      | some (us, rest) => decide (nextToken rest = .ok (.eof, [])) && decide (3 * us.length + 3 ≤ m) &&
        match readProof m true E ⟨us, []⟩ with
        | .error _ => true
        | .ok (P', _) => decide (P' ≠ P)

theorem refutes_sound {n m k : Nat} {E : PEnv} {ts : List Token} (hE : E.subtyping = false) (h : refutes n m k E ts = true) : ¬ C52Full := by
  intro full
  rw [refutes] at h
  split at h
  · cases h
  · next P st e =>
    split at h
    · cases h
    · next ls hl =>
      split at h
      · cases h
      · next us rest hx =>
        obtain ⟨text, ts', F', h1, h2, h3⟩ := full n true E ⟨ts, []⟩ st P hE (fun p hp => by cases hp) e
        rw [writeProof_lines hl] at h1
        cases h1
        simp only [Bool.and_eq_true, decide_eq_true_eq] at h
        have := h2.unique ⟨rest, lexN_sound hx, h.1.1⟩
        subst this
        have e' := h3 m h.1.2
        rw [e'] at h
        simp at h

/-- The tokens of a text, for examples. -/
private def tok : Nat → List Char → List Token
  | 0, _ => []
  | n + 1, cs =>
    match nextToken cs with
    | .ok (.eof, _) => []
    | .ok (t, cs) => t :: tok n cs
    | .error _ => []

private def E0 : PEnv := { vars := [("a", .bool), ("b", .bool)] }

section Examples

private abbrev a : Term := .var "a" .bool
private abbrev b : Term := .var "b" .bool
private abbrev c : Term := .op .or [a, b]
private def rs0 : List RawCommand :=
  [.assume "h" a, .anchor "t1" [], .assume "t1.h" b, .step ⟨"t1.t2", [c], "hole", ["t1.h"], [], []⟩,
   .step ⟨"t1", [.op .not [b], c], "subproof", [], [], ["h"]⟩, .step ⟨"t2", [], "hole", ["h", "t1"], [c], []⟩]
private def P0 : ParsedProof := ⟨[("c", c)],
  [.assume "h" a, .subproof [.assume "t1.h" b, .step ⟨"t1.t2", [c], "hole", [(1, 0)], [], []⟩,
    .step ⟨"t1", [.op .not [b], c], "subproof", [], [], [(1, 0)]⟩] [] 0, .step ⟨"t2", [], "hole", [(0, 0), (0, 1)], [c], []⟩]⟩

private def notBv : Option Srt → Bool
  | some (.bv _) => false
  | _ => true

private theorem small (t : Term) (h : ∀ u ∈ t.subterms, notBv (sortOf u) = true) : t.smallWidths := fun u hu w e => by
  have := h u hu
  rw [e] at this
  cases this

private theorem plain {s : String} (h : s ≠ "" ∧ (∀ c ∈ s.toList, isSymbolChar c = true) ∧ (∀ c ∈ s.toList.head?, c.isDigit = false) ∧
    negativeCheck s = false ∧ ∀ r ∈ Reserved.all, s ≠ r.name) : PlainName s :=
  ⟨h.1, h.2.1, h.2.2.1, (fun e => by rw [looksNegative_iff, h.2.2.2.1] at e; cases e), fun r => h.2.2.2.2 r (by cases r <;> decide)⟩

private theorem freshId (V : List (List Command)) (k : String) (h : ∀ l ∈ V, ∀ c ∈ l, c.id ≠ .ok k) : FreshId V k := by
  rintro p ⟨L, c, h1, h2, h3⟩
  exact h L (List.mem_reverse.1 (List.mem_of_getElem? h1)) c (List.mem_of_getElem? h2) h3

private theorem discharged {G Γ s p c k} (ho : Occ P0.commands G Γ (.step s)) (hp : p ∈ s.discharge) (hc : G.lookup p = some c) (hk : c.id = .ok k) :
    k = "t1.h" ∧ ∀ l ∈ G.visible, ∀ c ∈ l, c.id ≠ .ok (s.id ++ "." ++ "t1.h") := by
  have : (⟨G, Γ, .step s⟩ : Pos) ∈ allPositions P0.commands := allPositions_iff.2 ho
  simp only [P0, allPositions, positionsL, positions, List.mem_cons, List.not_mem_nil, or_false, List.append_nil, List.cons_append, List.nil_append] at this
  rcases this with h | h | h | h | h | h <;> cases h
  · cases hp
  · cases hp with
    | head =>
      cases hc
      cases hk
      exact ⟨rfl, by decide +kernel⟩
    | tail _ h => cases h
  · cases hp

/-- The hypotheses of `c52_written_partial`: `c` is defined as `(or a b)` and used for it, and an assumption is discharged. -/
example : parseProof rs0 = .ok P0.commands ∧ PlainEnv E0 ∧ P0.consts = [("c", Srt.bool, c)].map (fun d => (d.1, d.2.2)) ∧
    DefsWritable E0 [] [("c", .bool, c)] [("c", ⟨[], c⟩)] ∧ Command.WritableInL (definedNames P0.consts) [("c", ⟨[], c⟩)] E0 P0.commands ∧
    (∀ d ∈ [("c", Srt.bool, c)], Readable d.1 ∧ d.2.1.Readable ∧ d.2.2.Readable []) ∧
    (∀ G Γ c, Occ P0.commands G Γ c → c.Readable (definedNames P0.consts)) ∧
    (∀ G Γ s, Occ P0.commands G Γ (.step s) → s.firstPlain G) ∧ (∀ G Γ s, Occ P0.commands G Γ (.step s) → s.unshadowed G) := by
  refine ⟨by decide +kernel, ⟨rfl, rfl⟩, rfl, .cons trivial ⟨by decide +kernel, small _ (by decide +kernel), ?_⟩ (by decide +kernel) .nil, ?_,
    ?_, ?_, ?_, ?_⟩
  · simp [Term.Known, Term.KnownL, knownName, List.lookup, E0, BEq.beq]
    decide +kernel
  · simp only [P0, Command.WritableInL, Command.WritableIn, ArgsWritable, and_true, forall_eq, List.mem_cons, List.not_mem_nil,
      or_false, forall_eq_or_imp, false_imp_iff, implies_true, true_and]
    refine ⟨⟨⟨by decide +kernel, small _ (by decide +kernel), ?_⟩, by decide +kernel⟩,
      ⟨⟨⟨by decide +kernel, small _ (by decide +kernel), ?_⟩, by decide +kernel⟩, ⟨⟨by decide +kernel, small _ (by decide +kernel), ?_⟩, by decide +kernel⟩,
      ⟨⟨by decide +kernel, small _ (by decide +kernel), ?_⟩, by decide +kernel⟩, ⟨by decide +kernel, small _ (by decide +kernel), ?_⟩, by decide +kernel⟩,
      ⟨by decide +kernel, small _ (by decide +kernel), ?_⟩⟩
    all_goals
      simp [definedNames, Term.Known, Term.KnownL, knownName, List.lookup, E0, BEq.beq, PEnv.bind]
      try decide +kernel
  · simp only [List.mem_singleton, forall_eq]
    refine ⟨readable_of (by decide +kernel), trivial, ?_⟩
    simp only [Term.Readable, Term.ReadableL, unnamed, List.lookup, and_true]
    exact ⟨readable_of (by decide +kernel), readable_of (by decide +kernel)⟩
  · have : ∀ o ∈ allPositions P0.commands, o.cmd.Readable (definedNames P0.consts) := by
      simp only [P0, allPositions, positionsL, positions, List.mem_cons, List.not_mem_nil, or_false, List.append_nil, forall_eq_or_imp, forall_eq,
        List.cons_append, List.nil_append]
      simp [Command.Readable, Term.Readable, Term.ReadableL, unnamed, List.lookup, definedNames, BEq.beq]
      refine ⟨⟨?_, ?_⟩, ⟨?_, ?_⟩, ⟨?_, ?_, plain (by decide +kernel)⟩, ⟨?_, ⟨?_, ?_⟩, plain (by decide +kernel)⟩, ?_, plain (by decide +kernel), ?_⟩ <;>
        exact readable_of (by decide +kernel)
    exact fun G Γ c ho => this ⟨G, Γ, c⟩ (allPositions_iff.2 ho)
  · refine fun G Γ s ho p hp c k hc hk => ?_
    have := discharged ho (List.mem_of_mem_head? hp) hc hk
    exact this.1 ▸ plain (by decide +kernel)
  · refine fun G Γ s ho p hp c k hc hk => ?_
    obtain ⟨rfl, h⟩ := discharged ho hp hc hk
    exact freshId _ _ h

end Examples

/-- `:discharge (h1)` is `t1.h1`, which is written as `:discharge (t1.h1)`, which is `t1.t1.h1`. -/
private def shadow : String := "
(anchor :step t1)
(assume t1.h1 a)
(assume t1.t1.h1 b)
(step t1.t2 (cl a) :rule hole)
(step t1 (cl (not a) a) :rule subproof :discharge (h1))"

/-- **C52 fails**: another assumption is discharged. -/
theorem c52_discharge_fails : ¬ C52Full :=
  refutes_sound (E := E0) rfl (show refutes 200 400 43 E0 (tok 200 shadow.toList) = true by decide +kernel)

/-- The first discharged name is written without bars: `:discharge (t1.h 1)`. -/
private def unquoted : String := "
(anchor :step t1)
(assume |t1.h 1| a)
(step t1.t2 (cl a) :rule hole)
(step t1 (cl (not a) a) :rule subproof :discharge (|h 1|))"

/-- **C52 fails**: what is written is not read. -/
theorem c52_unquoted_fails : ¬ C52Full :=
  refutes_sound (E := E0) rfl (show refutes 200 400 39 E0 (tok 200 unquoted.toList) = true by decide +kernel)

/-- The definition is written first, where `x` is not declared. -/
private def inside : String := "
(anchor :step t1 :args ((x Int)))
(define-fun c () Int x)
(step t1.t2 (cl a) :rule hole)
(step t1 (cl a) :rule bind)"

/-- **C52 fails** for definitions in subproofs: what is written is not read. -/
theorem c52_definition_fails : ¬ C52Full :=
  refutes_sound (E := E0) rfl (show refutes 200 400 40 E0 (tok 200 inside.toList) = true by decide +kernel)

/-- The definition is written first, where it also concerns the assumption. -/
private def later : String := "
(assume h a)
(define-fun a () Bool b)
(step t2 (cl a) :rule hole)"

/-- **C52 fails** for definitions after commands: another assumption is read. -/
theorem c52_hoisted_fails : ¬ C52Full :=
  refutes_sound (E := E0) rfl (show refutes 200 400 23 E0 (tok 200 later.toList) = true by decide +kernel)

end Carcara
