import Verif.Model.SliceFiles
import Verif.Lemmas.SolverProblemText

/-!
# The problem that `slice` writes, and how it is read
-/

namespace Carcara
open PRes Reader

def assertTokens (t : Term) : List Token := parens [[.reserved .assert], t.tokens true []]

theorem reads_assert {t : Term} (h : t.Readable []) : Reads (printAssert t) (assertTokens t) := by
  obtain ⟨o, e, ht⟩ := reads_term true [] h
  refine ⟨_, bind_ok.2 ⟨o, e, rfl⟩, ?_⟩
  have := text_parens (out := "assert".toList) (ts := [.reserved .assert]) (text_word (by decide +kernel)) (.cons ht .nil)
  simpa [assertTokens, tailChars] using this

/-- The tokens of the problem, line by line. -/
def sliceLines (Q : Problem) (asserts : List Term) : List (List Token) :=
  logicTokens (Q.logic.getD "ALL") :: (Q.sorts.map sortDeclarationTokens ++ Q.functions.map funDeclarationTokens) ++
    asserts.map assertTokens ++ [parens [[.symbol "check-sat"]], parens [[.symbol "exit"]]]

theorem text_slice {E : PEnv} {Q : Problem} {asserts : List Term} (hl : ∀ l ∈ Q.logic, PlainName l) (hs : ∀ d ∈ Q.sorts, Readable d.1)
    (hf : ∀ d ∈ Q.functions, Readable d.1 ∧ d.2.Declarable E) (hc : ∀ l ∈ asserts, l.Readable []) :
    ∃ text, sliceProblem Q asserts = .ok text ∧ ∃ rest, LexesTo text (sliceLines Q asserts).flatten rest ∧ nextToken rest = .ok (.eof, []) := by
  obtain ⟨o1, e1, t1⟩ := readsL_map (f := printSortDeclaration) (g := sortDeclarationTokens) (as := Q.sorts) fun d hd => reads_sortDeclaration (hs d hd)
  obtain ⟨o2, e2, t2⟩ := readsL_map (f := printFunDeclaration) (g := funDeclarationTokens) (as := Q.functions) fun d hd =>
    reads_funDeclaration (hf d hd).1 (hf d hd).2
  obtain ⟨o3, e3, t3⟩ := readsL_map (f := printAssert) (g := assertTokens) (as := asserts) fun d hd => reads_assert (hc d hd)
  have h0 : PlainName (Q.logic.getD "ALL") := by
    cases hq : Q.logic with
    | some l => exact hl l hq
    | none => exact ⟨by decide, by decide +kernel, by decide +kernel, fun h => by rw [looksNegative_iff] at h; revert h; decide +kernel, fun r => by cases r <;> decide +kernel⟩
  have h1 : Text ("(set-logic ".toList ++ (Q.logic.getD "ALL").toList ++ [')']) (logicTokens (Q.logic.getD "ALL")) := by
    have := text_parens (out := "set-logic".toList) (ts := [.reserved .setLogic]) (text_word (by decide +kernel)) (.cons (text_plain h0) .nil)
    simpa [logicTokens, tailChars] using this
  refine ⟨_, bind_ok.2 ⟨_, bind_ok.2 ⟨o1, e1, bind_ok.2 ⟨o2, e2, rfl⟩⟩, bind_ok.2 ⟨o3, e3, rfl⟩⟩, ?_⟩
  have ht := lexes_lines (List.rel_append (List.rel_append (.cons h1 (List.rel_append t1 t2)) t3)
    (.cons (text_single (s := "check-sat") (by decide +kernel)) (.cons (text_single (s := "exit") (by decide +kernel)) .nil)))
  simpa [joinLines, sliceLines] using ht

/-- Lines with an empty line after them. -/
theorem lexes_lines_empty {outs : List (List Char)} {tss : List (List Token)} (h : List.Forall₂ Text outs tss) :
    ∃ rest, LexesTo (joinLines outs ++ ['\n']) tss.flatten rest ∧ nextToken rest = .ok (.eof, []) := by
  induction h with
  | nil => exact ⟨['\n'], .nil, by rfl⟩
  | @cons o ts outs tss h hs ih =>
    obtain ⟨rest, h1, h2⟩ := ih
    have h0 := h.2 ('\n' :: (joinLines outs ++ ['\n'])) (ends_newline _)
    have e : joinLines (o :: outs) ++ ['\n'] = o ++ '\n' :: (joinLines outs ++ ['\n']) := by simp [joinLines]
    rw [e, List.flatten_cons]
    by_cases hne : tss.flatten = []
    · rw [hne, List.append_nil]
      have : tss = [] := by
        cases hs with
        | nil => rfl
        | cons h' _ =>
          simp only [List.flatten_cons, List.append_eq_nil_iff] at hne
          exact absurd hne.1 h'.1
      subst this
      cases hs
      exact ⟨_, h0, by rfl⟩
    · exact ⟨rest, h0.append (h1.newline hne), h2⟩

section
variable {apply : Bool} {E : PEnv} {Q : Problem} {F : List (String × FunDef)}

theorem readAssert67 {n : Nat} {t : Term} {rest : List Token} (hE : PlainEnv E) (h : Writable [] F E t) (hn : 2 * (assertTokens t).length ≤ n) :
    readProblemCommands apply (n + 1) E Q ⟨assertTokens t ++ rest, F⟩ = readProblemCommands apply n E (Q.assert t.standard) ⟨rest, F⟩ := by
  have e : assertTokens t ++ rest = .openParen :: .reserved .assert :: (t.standard.tokens false [] ++ .closeParen :: rest) := by
    rw [← tokens_standard t h.sorted, assertTokens]
    simp [parens]
  rw [e]
  refine readCommands63_cons (readAssert63 (readsTerm _ E hE h.standard n _ ?_))
  rw [← tokens_standard t h.sorted]
  simp only [assertTokens, parens_length, List.flatten_cons, List.flatten_nil, List.length_append, List.length_cons, List.length_nil] at hn
  omega

theorem readAsserts67 : ∀ {ls : List Term} {Q : Problem} {n : Nat} {rest : List Token}, PlainEnv E →
    (∀ l ∈ ls, Writable [] F E l) → 2 * (ls.map assertTokens).flatten.length ≤ n →
    readProblemCommands apply (n + ls.length) E Q ⟨(ls.map assertTokens).flatten ++ rest, F⟩ =
      readProblemCommands apply n E ((ls.map Term.standard).foldl Problem.assert Q) ⟨rest, F⟩
  | [], Q, n, rest, _, _, _ => by simp
  | l :: ls, Q, n, rest, hE, h, hn => by
    rw [List.map_cons, List.flatten_cons, List.length_append] at hn
    rw [List.map_cons, List.flatten_cons, List.append_assoc, List.length_cons, ← Nat.add_assoc,
      readAssert67 hE (h l (by simp)) (by omega), readAsserts67 hE (fun e he => h e (by simp [he])) (by omega)]
    simp

/-- The whole problem. -/
theorem readSlice {E : PEnv} {Q : Problem} {asserts : List Term} (hE : PlainEnv E) (hl : realOnlyLogic (Q.logic.getD "ALL") = false)
    (hs : ∀ d ∈ Q.sorts, d.2 < 2 ^ 64) (hf : ∀ d ∈ Q.functions, d.2.Declarable (E.declaring Q.sorts []))
    (hc : ∀ l ∈ asserts, Writable [] [] (E.declaring Q.sorts Q.functions) l) {n : Nat} (hn : 3 * (sliceLines Q asserts).flatten.length + 1 ≤ n) :
    ∃ ps, readProblemCommands apply n E {} ⟨(sliceLines Q asserts).flatten, []⟩ =
        .ok ((E.declaring Q.sorts Q.functions, { logic := some (Q.logic.getD "ALL"), sorts := Q.sorts, functions := Q.functions, premises := ps }), ⟨[], []⟩) ∧
      ∀ u, u ∈ ps ↔ ∃ l ∈ asserts, u = l.standard := by
  have len : ∀ {α : Type} (g : α → List Token) (as : List α), (∀ a, 1 ≤ (g a).length) → as.length ≤ (as.map g).flatten.length := by
    intro α g as hg
    induction as with
    | nil => simp
    | cons a as ih =>
      have := hg a
      simp only [List.length_cons, List.map_cons, List.flatten_cons, List.length_append]
      omega
  have l1 := len sortDeclarationTokens Q.sorts fun a => by simp [sortDeclarationTokens, parens]
  have l2 := len funDeclarationTokens Q.functions fun a => by simp [funDeclarationTokens, parens]
  have l3 := len assertTokens asserts fun a => by simp [assertTokens, parens]
  have et : (sliceLines Q asserts).flatten = logicTokens (Q.logic.getD "ALL") ++ ((Q.sorts.map sortDeclarationTokens).flatten ++
      ((Q.functions.map funDeclarationTokens).flatten ++ ((asserts.map assertTokens).flatten ++ (parens [[.symbol "check-sat"]] ++
      (parens [[.symbol "exit"]] ++ []))))) := by
    simp [sliceLines]
  rw [et] at hn ⊢
  simp only [List.length_append] at hn
  have l5 : 1 ≤ (logicTokens (Q.logic.getD "ALL")).length := by simp [logicTokens, parens]
  have l6 : 1 ≤ (parens [[Token.symbol "check-sat"]]).length := by decide
  have l8 : 1 ≤ (parens [[Token.symbol "exit"]]).length := by decide
  obtain ⟨m, rfl⟩ : ∃ m, n = m + 1 + 1 + asserts.length + Q.functions.length + Q.sorts.length + 1 :=
    ⟨n - (asserts.length + Q.functions.length + Q.sorts.length + 3), by omega⟩
  have eE : { E with intsAsReals := realOnlyLogic (Q.logic.getD "ALL") } = E := by
    rw [hl, ← hE.ints]
  have hE1 : PlainEnv (E.declaring Q.sorts []) := ⟨hE.strict, hE.ints⟩
  have hE2 : PlainEnv (E.declaring Q.sorts Q.functions) := ⟨hE.strict, hE.ints⟩
  have eD : (E.declaring Q.sorts []).declaring [] Q.functions = E.declaring Q.sorts Q.functions := by simp [PEnv.declaring]
  rw [readLogic, eE, readSortDeclarations hs, readFunDeclarations hE1 hf (by omega), eD,
    readAsserts67 hE2 hc (by omega), readIgnored, readIgnored, readCommands63_nil (by omega)]
  obtain ⟨ps, e, h⟩ := foldl_assert (ts := asserts.map Term.standard)
    (Q := { logic := some (Q.logic.getD "ALL"), sorts := [] ++ Q.sorts, functions := [] ++ Q.functions })
  refine ⟨ps, ?_, fun u => ?_⟩
  · exact congrArg (fun R => Except.ok ((E.declaring Q.sorts Q.functions, R), (⟨[], []⟩ : ReadState))) e
  · rw [h, List.mem_map]
    constructor
    · rintro (h | ⟨l, hl, rfl⟩)
      · cases h
      · exact ⟨l, hl, rfl⟩
    · rintro ⟨l, hl, rfl⟩
      exact .inr ⟨l, hl, rfl⟩

end

end Carcara
