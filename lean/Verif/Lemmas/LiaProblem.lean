import Verif.Model.LiaProblem
import Verif.Lemmas.SharedText
import Verif.Lemmas.SolverProblemText

/-!
# The tokens of a problem with sharing, and how they are read
-/

namespace Carcara
open PRes Reader

/-! ## Tokens -/

/-- The tokens of the assertions. -/
def negatedShared (S : Sharing) : List Term → List Term → List (List Token)
  | [], _ => []
  | t :: ts, L => parens [[.reserved .assert], parens [[.symbol "not"], (t.sharedTokens S true L).1]] :: negatedShared S ts (t.sharedTokens S true L).2

theorem reads_negatedShared {S : Sharing} (hS : S.OK) : ∀ {ls : List Term}, (∀ l ∈ ls, l.Readable []) → ∀ L,
    ReadsL (printNegatedShared S ls L) (negatedShared S ls L)
  | [], _, _ => ⟨[], rfl, .nil⟩
  | t :: ts, h, L => by
    obtain ⟨o, e, ht⟩ := prints_shared hS (strict := true) (h t (by simp)) L
    obtain ⟨os, es, hts⟩ := reads_negatedShared hS (ls := ts) (fun l hl => h l (by simp [hl])) (t.sharedTokens S true L).2
    refine ⟨_, bind_ok.2 ⟨_, e, bind_ok.2 ⟨os, es, rfl⟩⟩, .cons ?_ hts⟩
    have := text_parens (out := "assert".toList) (ts := [.reserved .assert]) (text_word (by decide +kernel))
      (.cons (text_parens (out := "not".toList) (ts := [.symbol "not"]) (text_word (by decide +kernel)) (.cons ht .nil)) .nil)
    simpa [tailChars] using this

/-- The tokens of the problem, line by line. -/
def liaLines (S : Sharing) (Q : Problem) (clause : List Term) : List (List Token) :=
  optionTokens :: logicTokens (Q.logic.getD "ALL") :: (Q.sorts.map sortDeclarationTokens ++ Q.functions.map funDeclarationTokens) ++
    negatedShared S (dedupNext clause) [] ++ [parens [[.symbol "check-sat"]], parens [[.symbol "get-proof"]], parens [[.symbol "exit"]]]

theorem text_lia {share : List Term → Term → Bool} (hS : Sharing.OK ⟨"p_", share⟩) {E : PEnv} {Q : Problem} {clause : List Term} (hl : ∀ l ∈ Q.logic, PlainName l) (hs : ∀ d ∈ Q.sorts, Readable d.1)
    (hf : ∀ d ∈ Q.functions, Readable d.1 ∧ d.2.Declarable E) (hc : ∀ l ∈ clause, l.Readable []) :
    ∃ text, liaProblem share Q clause = .ok text ∧ ∃ rest, LexesTo text (liaLines ⟨"p_", share⟩ Q clause).flatten rest ∧
      nextToken rest = .ok (.eof, []) := by
  obtain ⟨o1, e1, t1⟩ := readsL_map (f := printSortDeclaration) (g := sortDeclarationTokens) (as := Q.sorts) fun d hd => reads_sortDeclaration (hs d hd)
  obtain ⟨o2, e2, t2⟩ := readsL_map (f := printFunDeclaration) (g := funDeclarationTokens) (as := Q.functions) fun d hd =>
    reads_funDeclaration (hf d hd).1 (hf d hd).2
  obtain ⟨o3, e3, t3⟩ := reads_negatedShared hS (ls := dedupNext clause) (fun d hd => hc d (mem_dedupNext.1 hd)) []
  have h0 : PlainName (Q.logic.getD "ALL") := by
    cases hq : Q.logic with
    | some l => exact hl l hq
    | none => exact ⟨by decide, by decide +kernel, by decide +kernel, fun h => by rw [looksNegative_iff] at h; revert h; decide +kernel, fun r => by cases r <;> decide +kernel⟩
  have h1 : Text ("(set-logic ".toList ++ (Q.logic.getD "ALL").toList ++ [')']) (logicTokens (Q.logic.getD "ALL")) := by
    have := text_parens (out := "set-logic".toList) (ts := [.reserved .setLogic]) (text_word (by decide +kernel)) (.cons (text_plain h0) .nil)
    simpa [logicTokens, tailChars] using this
  refine ⟨_, bind_ok.2 ⟨_, bind_ok.2 ⟨o1, e1, bind_ok.2 ⟨o2, e2, rfl⟩⟩, bind_ok.2 ⟨o3, e3, rfl⟩⟩, ?_⟩
  have ht := lexes_lines (List.rel_append (List.rel_append (.cons text_option (.cons h1 (List.rel_append t1 t2))) t3)
    (.cons (text_single (s := "check-sat") (by decide +kernel)) (.cons (text_single (s := "get-proof") (by decide +kernel))
      (.cons (text_single (s := "exit") (by decide +kernel)) .nil))))
  simpa [joinLines, liaLines] using ht

/-! ## Reading -/

section
variable {apply : Bool} {S : Sharing} {F0 : List (String × FunDef)} {E : PEnv}

theorem parseNot_shared (hE : PlainEnv E) {t : Term} (h : ReadsShared S true F0 E t) (hb : sortOf t = some .bool) (hw : t.smallWidths) {L : List Term}
    {F : List (String × FunDef)} (hF : ∀ k, Knows65 S true F0 k L F) {n : Nat} {rest : List Token} (hn : 2 * (t.sharedTokens S true L).1.length + 6 ≤ n) :
    ∃ F', parseTerm n E ⟨parens [[.symbol "not"], (t.sharedTokens S true L).1] ++ rest, F⟩ = .ok (.op .not [t.standard], ⟨rest, F'⟩) ∧
      ∀ k, Knows65 S true F0 k (t.sharedTokens S true L).2 F' := by
  have hs : sortOf t.standard = some .bool := by rw [sortOf_standard t (by rw [hb]; rfl), hb]
  have hb' : sortOf (.op .not [t.standard]) = some .bool := by
    rw [sortOf_op_eq (by simp)]
    simp [sortOfL, hs, opSort]
  have make := makeOp_ok hE.strict hE.ints hb' (smallWidths_op (fun a ha => by
    rw [List.mem_singleton.1 ha]
    exact smallWidths_standard t (by rw [hb]; rfl) hw) (fun w hw => by rw [hb'] at hw; cases hw))
  obtain ⟨n, rfl⟩ := Nat.exists_eq_add_of_le (show 2 ≤ n by omega)
  obtain ⟨F', args, g⟩ := parseTerms_shared (as := [t]) (m := sizeOf t) (fun a ha => by rw [List.mem_singleton.1 ha]; exact h)
    (fun a ha => by rw [List.mem_singleton.1 ha]) (hF (sizeOf t + 1)) (by omega) (n := n) (rest := rest) (by
      simp only [Term.sharedTokensL, List.flatten_cons, List.flatten_nil, List.append_nil]
      omega)
  have e1 : (Term.sharedTokensL S true [t] L).1.flatten = (t.sharedTokens S true L).1 := by simp [Term.sharedTokensL]
  have e2 : (Term.sharedTokensL S true [t] L).2 = (t.sharedTokens S true L).2 := by simp [Term.sharedTokensL]
  rw [e1] at args
  rw [e2] at g
  refine ⟨F', ?_, fun k => (hF k).grow g⟩
  have et : parens [[.symbol "not"], (t.sharedTokens S true L).1] ++ rest =
      .openParen :: .symbol "not" :: ((t.sharedTokens S true L).1 ++ .closeParen :: rest) := by simp [parens]
  rw [et, Nat.add_comm 2 n, parseTerm, reader_bind next_cons]
  simp only
  rw [parseApplication, reader_bind current_cons]
  have : Op.ofName "not" = some .not := by decide +kernel
  simp only [this]
  rw [reader_bind next_cons, reader_bind args, reader_bind (nonEmpty_ok (by simp))]
  exact reader_lift make

theorem readAssert66 {n : Nat} {Q : Problem} {t : Term} {ts rest : List Token} {F F' : List (String × FunDef)}
    (h : parseTerm n E ⟨ts, F⟩ = .ok (t, ⟨.closeParen :: rest, F'⟩)) : readProblemCommand n apply E Q ⟨.reserved .assert :: ts, F⟩ =
      .ok ((E, Q.assert t), ⟨rest, F'⟩) := by
  rw [readProblemCommand, reader_bind next_cons]
  simp only
  rw [reader_bind h, reader_bind expect_cons]
  rfl

theorem readNegatedShareds (hE : PlainEnv E) : ∀ {ls : List Term} {L : List Term} {F : List (String × FunDef)} {Q : Problem} {n : Nat} {rest : List Token},
    (∀ l ∈ ls, ReadsShared S true F0 E l ∧ sortOf l = some .bool ∧ l.smallWidths) → (∀ k, Knows65 S true F0 k L F) →
    2 * (negatedShared S ls L).flatten.length ≤ n → ∃ F',
    readProblemCommands apply (n + ls.length) E Q ⟨(negatedShared S ls L).flatten ++ rest, F⟩ =
      readProblemCommands apply n E ((ls.map fun l => .op .not [l.standard]).foldl Problem.assert Q) ⟨rest, F'⟩
  | [], L, F, Q, n, rest, _, _, _ => ⟨F, by simp [negatedShared]⟩
  | l :: ls, L, F, Q, n, rest, h, hF, hn => by
    obtain ⟨h1, h2, h3⟩ := h l (by simp)
    simp only [negatedShared, List.flatten_cons, List.length_append, parens_length, List.flatten_nil, List.append_nil, List.length_cons, List.length_nil] at hn
    obtain ⟨F1, e1, k1⟩ := parseNot_shared hE h1 h2 h3 hF (n := n + ls.length)
      (rest := .closeParen :: ((negatedShared S ls (l.sharedTokens S true L).2).flatten ++ rest)) (by omega)
    obtain ⟨F2, e2⟩ := readNegatedShareds hE (ls := ls) (Q := Q.assert (.op .not [l.standard])) (n := n) (rest := rest) (fun m hm => h m (by simp [hm])) k1 (by omega)
    refine ⟨F2, ?_⟩
    have et : (negatedShared S (l :: ls) L).flatten ++ rest = .openParen :: .reserved .assert :: (parens [[.symbol "not"], (l.sharedTokens S true L).1] ++
        .closeParen :: ((negatedShared S ls (l.sharedTokens S true L).2).flatten ++ rest)) := by
      rw [negatedShared]
      simp [parens]
    rw [et, List.length_cons, ← Nat.add_assoc, readCommands63_cons (readAssert66 e1), e2]
    simp

/-- The whole problem. -/
theorem readLia {Q : Problem} {clause : List Term} (hE : PlainEnv E) (hl : realOnlyLogic (Q.logic.getD "ALL") = false)
    (hs : ∀ d ∈ Q.sorts, d.2 < 2 ^ 64) (hf : ∀ d ∈ Q.functions, d.2.Declarable (E.declaring Q.sorts []))
    (hc : ∀ l ∈ clause, ReadsShared S true [] (E.declaring Q.sorts Q.functions) l ∧ sortOf l = some .bool ∧ l.smallWidths) {n : Nat}
    (hn : 3 * (liaLines S Q clause).flatten.length + 1 ≤ n) :
    ∃ E' ps F', readProblemCommands apply n E {} ⟨(liaLines S Q clause).flatten, []⟩ =
        .ok ((E', { logic := some (Q.logic.getD "ALL"), sorts := Q.sorts, functions := Q.functions, premises := ps }), ⟨[], F'⟩) ∧
      ∀ u, u ∈ ps ↔ ∃ l ∈ clause, u = .op .not [l.standard] := by
  have len : ∀ {α : Type} (g : α → List Token) (as : List α), (∀ a, 1 ≤ (g a).length) → as.length ≤ (as.map g).flatten.length := by
    intro α g as hg
    induction as with
    | nil => simp
    | cons a as ih =>
      have := hg a
      simp only [List.length_cons, List.map_cons, List.flatten_cons, List.length_append]
      omega
  have l1 := len sortDeclarationTokens Q.sorts fun a => by simp [sortDeclarationTokens, parens]
  have l2 := len funDeclarationTokens Q.functions fun a => by simp [funDeclarationTokens, parens]
  have l3 : ∀ (ls L : List Term), ls.length ≤ (negatedShared S ls L).flatten.length := by
    intro ls
    induction ls with
    | nil => simp
    | cons l ls ih =>
      intro L
      have := ih (l.sharedTokens S true L).2
      simp only [negatedShared, List.length_cons, List.flatten_cons, List.length_append, parens_length]
      omega
  have l3 := l3 (dedupNext clause) []
  have et : (liaLines S Q clause).flatten = optionTokens ++ (logicTokens (Q.logic.getD "ALL") ++ ((Q.sorts.map sortDeclarationTokens).flatten ++
      ((Q.functions.map funDeclarationTokens).flatten ++ ((negatedShared S (dedupNext clause) []).flatten ++ (parens [[.symbol "check-sat"]] ++
      (parens [[.symbol "get-proof"]] ++ (parens [[.symbol "exit"]] ++ []))))))) := by
    simp [liaLines]
  rw [et] at hn ⊢
  simp only [List.length_append] at hn
  have l4 : 1 ≤ optionTokens.length := by decide
  have l5 : 1 ≤ (logicTokens (Q.logic.getD "ALL")).length := by simp [logicTokens, parens]
  have l6 : 1 ≤ (parens [[Token.symbol "check-sat"]]).length := by decide
  have l7 : 1 ≤ (parens [[Token.symbol "get-proof"]]).length := by decide
  have l8 : 1 ≤ (parens [[Token.symbol "exit"]]).length := by decide
  obtain ⟨m, rfl⟩ : ∃ m, n = m + 1 + 1 + 1 + (dedupNext clause).length + Q.functions.length + Q.sorts.length + 1 + 1 :=
    ⟨n - ((dedupNext clause).length + Q.functions.length + Q.sorts.length + 5), by omega⟩
  have eE : { E with intsAsReals := realOnlyLogic (Q.logic.getD "ALL") } = E := by
    rw [hl, ← hE.ints]
  have hE1 : PlainEnv (E.declaring Q.sorts []) := ⟨hE.strict, hE.ints⟩
  have hE2 : PlainEnv (E.declaring Q.sorts Q.functions) := ⟨hE.strict, hE.ints⟩
  have eD : (E.declaring Q.sorts []).declaring [] Q.functions = E.declaring Q.sorts Q.functions := by simp [PEnv.declaring]
  obtain ⟨F', er⟩ := readNegatedShareds (apply := apply) (S := S) (F0 := []) hE2 (ls := dedupNext clause) (L := []) (F := [])
    (Q := { logic := some (Q.logic.getD "ALL"), sorts := [] ++ Q.sorts, functions := [] ++ Q.functions }) (n := m + 1 + 1 + 1)
    (rest := parens [[.symbol "check-sat"]] ++ (parens [[.symbol "get-proof"]] ++ (parens [[.symbol "exit"]] ++ [])))
    (fun l hl => hc l (mem_dedupNext.1 hl)) (fun k => ⟨fun j u hj => by simp at hj, fun _ _ => rfl⟩) (by omega)
  rw [readOption, readLogic, eE, readSortDeclarations hs, readFunDeclarations hE1 hf (by omega), eD]
  obtain ⟨ps, e, h⟩ := foldl_assert (ts := (dedupNext clause).map fun l => .op .not [l.standard])
    (Q := { logic := some (Q.logic.getD "ALL"), sorts := [] ++ Q.sorts, functions := [] ++ Q.functions })
  refine ⟨E.declaring Q.sorts Q.functions, ps, F', ?_, fun u => ?_⟩
  · refine er.trans ?_
    rw [readIgnored, readIgnored, readIgnored, readCommands63_nil (by omega)]
    exact congrArg (fun R => Except.ok ((E.declaring Q.sorts Q.functions, R), (⟨[], F'⟩ : ReadState))) e
  · rw [h, List.mem_map]
    constructor
    · rintro (h | ⟨l, hl, rfl⟩)
      · cases h
      · exact ⟨l, mem_dedupNext.1 hl, rfl⟩
    · rintro ⟨l, hl, rfl⟩
      exact .inr ⟨l, mem_dedupNext.2 hl, rfl⟩

end

end Carcara
