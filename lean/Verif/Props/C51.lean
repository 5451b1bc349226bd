import Verif.Lemmas.FileParserPrint
import Verif.Lemmas.FileParserProblem
import Verif.Props.C04
import Verif.Props.C01

/-!
# C51: proof texts are read as the proofs they show

"The parser accepts a proof text only if it shows a proof: a tree of commands in which every reference is to a command before it, and every literal is a
formula. And the text of a proof is read as this proof." What concerns the tree alone is C04; here the tree is built from tokens.
-/

namespace Carcara
open PRes Reader

/-- Whatever is accepted is a tree that the grammar of C04 describes: there are commands, in the order of the text, which it is built from. -/
theorem c51_grammar (n : Nat) (holeArgs : Bool) (E : PEnv) (st st' : ReadState) (P : ParsedProof) (hE : E.subtyping = false)
    (hd : DefsSorted st.defs) (h : readProof n holeArgs E st = .ok (P, st')) : ∃ rs k, Parses [] "" [] 0 rs P.commands k := by
  obtain ⟨rs, h1, -⟩ := (Ensures.readProof hE holeArgs n _ _ _ hd h).1
  obtain ⟨k, hk⟩ := parseProof_iff.1 h1
  exact ⟨rs, k, hk⟩

/-- Premises and discharged assumptions in a text that is accepted are commands before the step. -/
theorem c51_references (n : Nat) (holeArgs : Bool) (E : PEnv) (st st' : ReadState) (P : ParsedProof) (hE : E.subtyping = false)
    (hd : DefsSorted st.defs) (h : readProof n holeArgs E st = .ok (P, st')) (F : Frames) (Γ : List (List AnchorArg)) (s : Step)
    (ho : Occ P.commands F Γ (.step s)) : s.wellScoped F := by
  obtain ⟨rs, h1, -⟩ := (Ensures.readProof hE holeArgs n _ _ _ hd h).1
  exact c04_parse_scoped h1 ho

theorem clauseLast_mem : ∀ {cs : List Command} {cl : List Term}, Command.clauseLast cs = .ok cl → ∃ (j : Nat) (c : Command), cs[j]? = some c ∧ c ∈ cs ∧ c.clause = .ok cl
  | [], _, h => by simp [Command.clauseLast, panic] at h
  | [c], cl, h => ⟨0, c, rfl, by simp, by simpa [Command.clauseLast] using h⟩
  | _ :: c :: cs, cl, h => by
    rw [Command.clauseLast] at h
    · obtain ⟨j, c', h1, h2, h3⟩ := clauseLast_mem h
      exact ⟨j + 1, c', h1, List.mem_cons_of_mem _ h2, h3⟩
    · simp

theorem occ_literals {rs : List RawCommand} {proof : List Command} (hp : parseProof rs = .ok proof) (hs : ∀ r ∈ rs, r.Sorted) :
    ∀ (c : Command) (F : Frames) (Γ : List (List AnchorArg)) (cl : List Term), Occ proof F Γ c → c.clause = .ok cl →
      ∀ l ∈ cl, l.plainWidths → sortOf l = some .bool
  | .subproof cs as k, F, Γ, cl, ho, hc => by
    rw [Command.clause] at hc
    obtain ⟨j, c, h1, h2, h3⟩ := clauseLast_mem hc
    have : sizeOf c < 1 + sizeOf cs + sizeOf as + sizeOf k := by
      have := List.sizeOf_lt_of_mem h2
      omega
    exact occ_literals hp hs c _ _ cl (.sub ho h1) h3
  | .assume id t, F, Γ, cl, ho, hc => by
    obtain ⟨os, -, ho', hd⟩ := c04_parse_describes hp
    obtain ⟨r, hr, hr'⟩ := forall₂_right hd ((ho' _ _ _).2 ho)
    rw [Command.clause] at hc
    cases hc
    intro l hl
    rw [List.mem_singleton] at hl
    subst hl
    have := hs r hr
    cases r with
    | assume => cases hr'; exact this
    | step => exact hr'.elim
    | anchor => exact hr'.elim
  | .step s, F, Γ, cl, ho, hc => by
    obtain ⟨os, -, ho', hd⟩ := c04_parse_describes hp
    obtain ⟨r, hr, hr'⟩ := forall₂_right hd ((ho' _ _ _).2 ho)
    rw [Command.clause] at hc
    cases hc
    have := hs r hr
    cases r with
    | assume => cases hr'
    | step =>
      rw [hr'.2.1]
      exact this.1
    | anchor => exact hr'.elim

/-- The claim that the literals of all commands are formulas. -/
def C51Full : Prop := ∀ (n : Nat) (holeArgs : Bool) (E : PEnv) (st st' : ReadState) (P : ParsedProof), E.subtyping = false → DefsSorted st.defs →
  readProof n holeArgs E st = .ok (P, st') → ∀ F Γ c cl, Occ P.commands F Γ c → c.clause = .ok cl → ClauseOK cl

/-- Partial: it is true of literals in which bit-vector widths are natural numbers. -/
theorem c51_literals_partial (n : Nat) (holeArgs : Bool) (E : PEnv) (st st' : ReadState) (P : ParsedProof) (hE : E.subtyping = false)
    (hd : DefsSorted st.defs) (h : readProof n holeArgs E st = .ok (P, st')) (F : Frames) (Γ : List (List AnchorArg)) (c : Command) (cl : List Term)
    (ho : Occ P.commands F Γ c) (hc : c.clause = .ok cl) (l : Term) (hl : l ∈ cl) (hw : l.plainWidths) : sortOf l = some .bool := by
  obtain ⟨rs, h1, h2⟩ := (Ensures.readProof hE holeArgs n _ _ _ hd h).1
  exact occ_literals h1 h2 c F Γ cl ho hc l hl hw

/-- The text of a proof: definitions of constants, then commands; perhaps with `unsat` before it and parentheses around it. -/
def proofTokens (D : List (Term × String)) (unsat wrapped : Bool) (ds : List (String × Srt × Term)) (rs : List RawCommand) : List Token :=
  (if unsat then [.symbol "unsat"] else []) ++ (if wrapped then [.openParen] else []) ++ definitionsTokens ds ++
    (rs.map (RawCommand.tokens D)).flatten ++ if wrapped then [.closeParen] else []

theorem sum_le {α : Type} (f : α → List Token) {as : List α} {a : α} (h : a ∈ as) : (f a).length ≤ (as.map f).flatten.length := by
  induction as with
  | nil => cases h
  | cons b as ih =>
    simp only [List.map_cons, List.flatten_cons, List.length_append]
    rcases List.mem_cons.1 h with rfl | h
    · omega
    · have := ih h
      omega

theorem count_le {α : Type} (f : α → List Token) (hf : ∀ a, f a ≠ []) (as : List α) : as.length ≤ (as.map f).flatten.length := by
  induction as with
  | nil => simp
  | cons b as ih =>
    have := List.length_pos_of_ne_nil (hf b)
    simp only [List.map_cons, List.flatten_cons, List.length_append, List.length_cons]
    omega

/-- Partial: the tokens of a proof are read as the proof, if its terms are `Writable` where they are: with the variables of the problem and of the
enclosing anchors. Missing: other terms, for which this is false (C47). -/
theorem c51_reads_back_partial (D : List (Term × String)) (F F' : List (String × FunDef)) (E : PEnv) (unsat wrapped holeArgs : Bool)
    (ds : List (String × Srt × Term)) (rs : List RawCommand) (proof : List Command) (n : Nat) (hE : PlainEnv E) (hp : parseProof rs = .ok proof)
    (hds : DefsWritable E F ds F') (hw : Command.WritableInL D F' E proof)
    (hh : ∀ r, .step r ∈ rs → r.rule = "hole" → r.args ≠ [] → holeArgs = true) (hn : 3 * (proofTokens D unsat wrapped ds rs).length + 3 ≤ n) :
    readProof n holeArgs E ⟨proofTokens D unsat wrapped ds rs, F⟩ = .ok (⟨ds.map fun d => (d.1, d.2.2), proof⟩, ⟨[], F'⟩) := by
  have hdt : ∀ d : String × Srt × Term, definitionTokens d.1 d.2.1 d.2.2 ≠ [] := fun d => by simp [definitionTokens, parens]
  have hrt : ∀ r : RawCommand, r.tokens D ≠ [] := fun r => by cases r <;> simp [RawCommand.tokens, stepTokens, parens]
  have hnd := count_le (fun d : String × Srt × Term => definitionTokens d.1 d.2.1 d.2.2) hdt ds
  have hnr := count_le (RawCommand.tokens D) hrt rs
  simp only [proofTokens, List.length_append, definitionsTokens] at hn
  have hbody : ∀ (N : Nat) (first extra : Bool) (rest : List Token), (rest = [] ∨ ∃ ts, rest = .closeParen :: ts) →
      3 * (definitionsTokens ds).length + 3 * (rs.map (RawCommand.tokens D)).flatten.length + 1 ≤ N → ∃ P : Progress,
      readCommands holeArgs E N first extra { scopes := [E.vars] }
        ⟨definitionsTokens ds ++ ((rs.map (RawCommand.tokens D)).flatten ++ rest), F⟩ = .ok ((extra, P), ⟨rest, F'⟩) ∧
      P.consts = (ds.map fun d => (d.1, d.2.2)) ∧ ∃ root, P.proof.stack = [root] ∧ root.commands = proof := by
    intro N first extra rest hr hN
    obtain ⟨m, rfl⟩ := Nat.exists_eq_add_of_le (show 1 + rs.length + ds.length ≤ N by simp only [definitionsTokens] at hN; omega)
    rw [show 1 + rs.length + ds.length + m = m + 1 + rs.length + ds.length by omega]
    simp only [definitionsTokens] at hN
    obtain ⟨first', e⟩ := readCommands_definitions (holeArgs := holeArgs) hE hds (m := m + 1 + rs.length) (first := first) (extra := extra)
      (consts := []) (rest := (rs.map (RawCommand.tokens D)).flatten ++ rest) (fun d hd => by
        have := sum_le (fun d : String × Srt × Term => definitionTokens d.1 d.2.1 d.2.2) hd
        omega)
    obtain ⟨P, h1, h2, h3⟩ := readProof_commands hE hp hw hh (m := m + 1) (fun r hr => by have := sum_le (RawCommand.tokens D) hr; omega) (by omega)
      (ds.map fun d => (d.1, d.2.2)) first' extra hr
    exact ⟨P, e.trans h1, h2, h3⟩
  have main : ∃ P : Progress, readCommands holeArgs E n true false { scopes := [E.vars] }
      ⟨(if wrapped then [.openParen] else []) ++ (definitionsTokens ds ++ ((rs.map (RawCommand.tokens D)).flatten ++ if wrapped then [.closeParen] else [])), F⟩ =
        .ok ((wrapped, P), ⟨if wrapped then [.closeParen] else [], F'⟩) ∧
      P.consts = (ds.map fun d => (d.1, d.2.2)) ∧ ∃ root, P.proof.stack = [root] ∧ root.commands = proof := by
    cases wrapped with
    | false =>
      have := hbody n true false [] (.inl rfl) (by simp only [definitionsTokens]; simp at hn; simp; omega)
      simpa using this
    | true =>
      obtain ⟨m, rfl⟩ := Nat.exists_eq_add_of_le (show 1 ≤ n by omega)
      obtain ⟨P, e, h2, h3⟩ := hbody m false true [.closeParen] (.inr ⟨_, rfl⟩) (by simp only [definitionsTokens]; simp at hn; simp; omega)
      refine ⟨P, ?_, h2, h3⟩
      simp only [if_true, List.cons_append, List.nil_append]
      rw [Nat.add_comm 1 m, readCommands, reader_bind current_cons]
      simp only
      rw [reader_bind expect_cons]
      have hhead : ∃ t ts, definitionsTokens ds ++ ((rs.map (RawCommand.tokens D)).flatten ++ [.closeParen]) = t :: ts ∧
          (t = .openParen ∨ t = .closeParen) := by
        cases ds with
        | cons d ds => exact ⟨.openParen, _, rfl, .inl rfl⟩
        | nil =>
          cases rs with
          | nil => exact ⟨.closeParen, _, rfl, .inr rfl⟩
          | cons r rs => cases r <;> exact ⟨.openParen, _, rfl, .inl rfl⟩
      obtain ⟨t, ts, et, ht⟩ := hhead
      rw [et] at e ⊢
      rw [reader_bind current_cons, if_pos (by simpa using ht)]
      exact e
  obtain ⟨P, e, h2, root, h3, h4⟩ := main
  have hskip : ∀ ts, (∀ t, ts.head? = some t → t = .openParen) → skipUnsat ⟨(if unsat then [.symbol "unsat"] else []) ++ ts, F⟩ = .ok ((), ⟨ts, F⟩) := by
    intro ts hts
    cases unsat with
    | true =>
      simp only [if_true, List.cons_append, List.nil_append]
      rw [skipUnsat, reader_bind current_cons, if_pos rfl, reader_bind next_cons]
      rfl
    | false =>
      cases ts with
      | nil => rfl
      | cons t ts =>
        have := hts t rfl
        subst this
        rfl
  have hclose : expectIf wrapped .closeParen ⟨if wrapped then [.closeParen] else [], F'⟩ = .ok ((), ⟨[], F'⟩) := by cases wrapped <;> rfl
  have hend : expect .eof ⟨[], F'⟩ = .ok ((), ⟨[], F'⟩) := rfl
  rw [readProof, proofTokens]
  simp only [List.append_assoc]
  rw [reader_bind (hskip _ ?_), reader_bind e]
  · rw [reader_bind hclose, reader_bind hend, h3, h2, ← h4]
    rfl
  · intro t ht
    cases wrapped with
    | true =>
      simp at ht
      exact ht.symm
    | false =>
      cases ds with
      | cons d ds => exact (Option.some.inj ht).symm
      | nil =>
        cases rs with
        | nil => cases ht
        | cons r rs => cases r <;> exact (Option.some.inj ht).symm

/-! ## From texts to satisfiability -/

/-- **C01**, partial, for texts: if a problem and a proof are read, and the proof is accepted in the elaborated mode, and all its rules are among those
that are proved sound, then what the problem asserts is unsatisfiable. That the clauses are well sorted need not be assumed, except for widths. -/
theorem c01_text_partial (T : TableEnv) (cfg : Config) (n : Nat) (apply holeArgs : Bool) (E : PEnv) (problem proof : List Token) (Q : Problem)
    (P : ParsedProof) (hE : E.subtyping = false) (hr : readInstance n apply holeArgs E problem proof = .ok (Q, P)) (he : cfg.elaborated = true)
    (hw : ∀ F Γ c cl, Occ P.commands F Γ c → c.clause = .ok cl → ∀ l ∈ cl, l.plainWidths)
    (hanchors : ∀ F Γ c, Occ P.commands F Γ c → ∀ as ∈ Γ, as = [])
    (hrules : ∀ F Γ s, Occ P.commands F Γ (.step s) → s.rule ∈ "resolution" :: "th_resolution" :: soundNames)
    (h : check (T.params cfg) cfg Q.premises P.commands = .ok false) : ¬ ∃ M : Model, ∀ t ∈ Q.premises, M.Holds t := by
  obtain ⟨rs, hp, hs⟩ := readInstance_sorted hE hr
  exact c01_elaborated_partial hp he (fun F Γ c cl ho hc l hl => occ_literals hp hs c F Γ cl ho hc l hl (hw F Γ c cl ho hc l hl)) hanchors hrules h

/-! ## Examples -/

section Examples

private def E0 : PEnv := { vars := [("f", .fn [.int] .int), ("a", .int), ("p", .bool)] }
private abbrev p : Term := .var "p" .bool
private abbrev x : Term := .var "x" .int
private abbrev y : Term := .var "y" .int
private abbrev a : Term := .var "a" .int
private abbrev f (t : Term) : Term := .app (.var "f" (.fn [.int] .int)) [t]

/-- A subproof with arguments, in which the definition `c` is used, and after which `y` is not declared. -/
private def rs0 : List RawCommand :=
  [.assume "h" (.op .equals [a, f a]),
   .anchor "t1" [.var "y" .int, .assign "x" .int y],
   .assume "t1.h" (.op .equals [x, y]),
   .step ⟨"t1.t1", [.op .equals [f x, f y]], "cong", ["t1.h"], [], []⟩,
   .step ⟨"t1", [.op .equals [.binder .all [("x", .int)] (.op .equals [f x, x]), .binder .all [("y", .int)] (.op .equals [f y, y])]], "bind", [], [], ["h"]⟩,
   .step ⟨"t2", [], "hole", ["h", "t1"], [f a, .const (.int 3)], []⟩]

private def proof0 : List Command :=
  [.assume "h" (.op .equals [a, f a]),
   .subproof [.assume "t1.h" (.op .equals [x, y]), .step ⟨"t1.t1", [.op .equals [f x, f y]], "cong", [(1, 0)], [], []⟩,
     .step ⟨"t1", [.op .equals [.binder .all [("x", .int)] (.op .equals [f x, x]), .binder .all [("y", .int)] (.op .equals [f y, y])]], "bind", [], [],
       [(1, 0)]⟩] [.var "y" .int, .assign "x" .int y] 0,
   .step ⟨"t2", [], "hole", [(0, 0), (0, 1)], [f a, .const (.int 3)], []⟩]

example : parseProof rs0 = .ok proof0 := by decide +kernel

private theorem small0 (t : Term) (h : ∀ u ∈ t.subterms, ∀ w, sortOf u ≠ some (.bv w)) : t.smallWidths := fun u hu w hw => absurd hw (h u hu w)

private def notBv : Option Srt → Bool
  | some (.bv _) => false
  | _ => true

private theorem small1 (t : Term) (h : ∀ u ∈ t.subterms, notBv (sortOf u) = true) : t.smallWidths := small0 t fun u hu w e => by
  have := h u hu
  rw [e] at this
  cases this

/-- The hypotheses of `c51_reads_back_partial`: `c` is defined as `(f a)` and used for it. -/
example : PlainEnv E0 ∧ DefsWritable E0 [] [("c", .int, f a)] [("c", ⟨[], f a⟩)] ∧ Command.WritableInL [(f a, "c")] [("c", ⟨[], f a⟩)] E0 proof0 ∧
    ∀ r, .step r ∈ rs0 → r.rule = "hole" → r.args ≠ [] → true = true := by
  refine ⟨⟨rfl, rfl⟩, .cons trivial ⟨by decide +kernel, small1 _ (by decide +kernel), ?_⟩ (by decide +kernel) ?_, ?_, fun _ _ _ _ => rfl⟩
  · simp [Term.Known, Term.KnownL, knownName, headKnown, List.lookup, E0, f, BEq.beq]
    decide +kernel
  · exact .nil
  · simp only [proof0, Command.WritableInL, Command.WritableIn, ArgsWritable, and_true, List.mem_singleton, forall_eq, List.mem_cons, List.not_mem_nil,
      or_false, forall_eq_or_imp, false_imp_iff, implies_true, true_and]
    refine ⟨⟨⟨by decide +kernel, small1 _ (by decide +kernel), ?_⟩, by decide +kernel⟩, ⟨⟨trivial, ?_, trivial, ?_⟩,
      ⟨⟨by decide +kernel, small1 _ (by decide +kernel), ?_⟩, by decide +kernel⟩, ⟨⟨by decide +kernel, small1 _ (by decide +kernel), ?_⟩, by decide +kernel⟩,
      ⟨⟨by decide +kernel, small1 _ (by decide +kernel), ?_⟩, by decide +kernel⟩⟩, ⟨by decide +kernel, small1 _ (by decide +kernel), ?_⟩,
      ⟨by decide +kernel, small1 _ (by decide +kernel), ?_⟩⟩
    case refine_2 => simp
    case refine_3 =>
      rintro x s v e
      cases e
      refine ⟨⟨by decide +kernel, small1 _ (by decide +kernel), ?_⟩, by decide +kernel⟩
      simp [Term.Known, knownName, List.lookup, E0, PEnv.bind, AnchorArg.declares, BEq.beq]
      decide +kernel
    all_goals
      simp [Term.Known, Term.KnownL, knownName, headKnown, List.lookup, E0, f, BEq.beq, PEnv.bind, AnchorArg.declares, Const.Known, Srt.Known]
      try decide +kernel

set_option maxRecDepth 10000 in
/-- That text: the parser is run on it. -/
example : readProof 400 true E0 ⟨proofTokens [(f a, "c")] true true [("c", .int, f a)] rs0, []⟩ = .ok (⟨[("c", f a)], proof0⟩, ⟨[], [("c", ⟨[], f a⟩)]⟩) := by
  decide +kernel

private abbrev problem1 : List Token :=
  [.openParen, .reserved .declareConst, .symbol "p", .symbol "Bool", .closeParen,
   .openParen, .reserved .assert, .symbol "p", .closeParen,
   .openParen, .reserved .assert, .openParen, .symbol "not", .symbol "p", .closeParen, .closeParen]
private abbrev rs1 : List RawCommand :=
  [.assume "h1" p, .assume "h2" (.op .not [p]), .step ⟨"t", [], "resolution", ["h1", "h2"], [p, .tru], []⟩]
private abbrev proof1 : List Command :=
  [.assume "h1" p, .assume "h2" (.op .not [p]), .step ⟨"t", [], "resolution", [(0, 0), (0, 1)], [p, .tru], []⟩]
private def T0 : TableEnv := ⟨fun _ => 0, fun _ db => db, fun _ => 0, fun _ _ => err⟩

/-- The hypotheses of `c01_text_partial`: a problem and a proof that are read and accepted. -/
example : readInstance 200 true true {} problem1 (proofTokens [] false false [] rs1) =
      .ok ({ functions := [("p", .bool)], premises := [p, .op .not [p]] }, ⟨[], proof1⟩) ∧
    (∀ F Γ s, Occ proof1 F Γ (.step s) → s.rule ∈ "resolution" :: "th_resolution" :: soundNames) ∧
    check (T0.params { elaborated := true }) { elaborated := true } [p, .op .not [p]] proof1 = .ok false := by
  refine ⟨by decide +kernel, ?_, by rw [check, checkLoop_start]; decide +kernel⟩
  have : ∀ o ∈ allPositions proof1, ∀ s, o.cmd = .step s → s.rule ∈ "resolution" :: "th_resolution" :: soundNames := by
    intro o ho s hs
    simp [allPositions, positionsL, positions] at ho
    rcases ho with rfl | rfl | rfl <;> simp at hs
    subst hs
    simp
  exact fun F Γ s ho => this ⟨F, Γ, .step s⟩ (allPositions_iff.2 ho) s rfl

end Examples

/-- **C51 fails**: the literal of a step need not be a formula, because of the exception for widths that are not constant (C48). -/
theorem c51_literals_fails : ¬ C51Full := by
  intro h
  have e : readProof 60 true { vars := [("n", .int)] } ⟨[.openParen, .reserved .step, .symbol "t", .openParen, .reserved .cl, .openParen, .symbol "@bv",
      .numeral 0, .symbol "n", .closeParen, .closeParen, .keyword "rule", .symbol "hole", .closeParen], []⟩ =
      .ok (⟨[], [.step ⟨"t", [.op .bvConst [.const (.int 0), .var "n" .int]], "hole", [], [], []⟩]⟩, ⟨[], []⟩) := by decide +kernel
  have := h _ _ _ _ _ _ rfl (fun p hp => by cases hp) e _ _ _ _ (.top (i := 0) rfl) rfl _ (List.mem_singleton_self _)
  revert this
  decide +kernel

end Carcara
