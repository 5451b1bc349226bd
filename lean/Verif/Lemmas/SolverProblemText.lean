import Verif.Lemmas.SolverProblem

/-!
# The tokens of the problem for a clause, and how they are read
-/

namespace Carcara
open PRes Reader

def sortDeclarationTokens (d : String × Nat) : List Token := parens [[.reserved .declareSort], [.symbol d.1], [.numeral d.2]]

def signatureTokens : Srt → List (List Token)
  | .fn as r => [parens (Srt.tokensL as), r.tokens]
  | s => [parens [], s.tokens]

def funDeclarationTokens (d : String × Srt) : List Token := parens ([.reserved .declareFun] :: [.symbol d.1] :: signatureTokens d.2)

def negatedTokens (t : Term) : List Token := parens [[.reserved .assert], parens [[.symbol "not"], t.tokens true []]]

def optionTokens : List Token := parens [[.symbol "set-option"], [.keyword "produce-proofs"], [.symbol "true"]]
def logicTokens (l : String) : List Token := parens [[.reserved .setLogic], [.symbol l]]

/-- The tokens of the problem, line by line. -/
def problemLines (Q : Problem) (clause : List Term) : List (List Token) :=
  optionTokens :: logicTokens (Q.logic.getD "ALL") :: (Q.sorts.map sortDeclarationTokens ++ Q.functions.map funDeclarationTokens) ++
    (dedupNext clause).map negatedTokens ++ [parens [[.symbol "check-sat"]], parens [[.symbol "get-proof"]], parens [[.symbol "exit"]]]

theorem readsL_map {α : Type} {f : α → Res (List Char)} {g : α → List Token} : ∀ {as : List α}, (∀ a ∈ as, Reads (f a) (g a)) →
    ReadsL (mapRes f as) (as.map g)
  | [], _ => ⟨[], rfl, .nil⟩
  | a :: as, h => by
    obtain ⟨o, e, t⟩ := h a (by simp)
    obtain ⟨os, es, ts⟩ := readsL_map (f := f) (g := g) (as := as) fun b hb => h b (by simp [hb])
    exact ⟨o :: os, bind_ok.2 ⟨o, e, bind_ok.2 ⟨os, es, rfl⟩⟩, .cons t ts⟩

theorem reads_sortDeclaration {d : String × Nat} (h : Readable d.1) : Reads (printSortDeclaration d) (sortDeclarationTokens d) := by
  obtain ⟨o, e, t⟩ := reads_name h
  refine ⟨_, bind_ok.2 ⟨o, e, rfl⟩, ?_⟩
  have := text_parens (out := "declare-sort".toList) (ts := [.reserved .declareSort]) (text_word (by decide +kernel)) (.cons t (.cons (text_nat d.2) .nil))
  simpa [sortDeclarationTokens, tailChars] using this

theorem reads_signature {E : PEnv} {s : Srt} (h : s.Declarable E) : ∃ a r, signatureChars s = .ok (a, r) ∧ List.Forall₂ Text [a, r] (signatureTokens s) := by
  have hd : ∀ {s : Srt}, s.Known E ∧ s.Readable → ∃ a r, (do let s ← s.chars; .ok ("()".toList, s) : Res (List Char × List Char)) = .ok (a, r) ∧
      List.Forall₂ Text [a, r] [parens [], s.tokens] := fun h => by
    obtain ⟨o, e, t⟩ := reads_sort h.2
    exact ⟨_, o, bind_ok.2 ⟨o, e, rfl⟩, .cons text_empty (.cons t .nil)⟩
  cases s with
  | fn as r =>
    obtain ⟨h1, h2, h3, h4⟩ := h
    obtain ⟨o, e, t⟩ := reads_sort h4
    have hl : Srt.ReadableL as := by
      clear h1
      induction as with
      | nil => trivial
      | cons a as ih => exact ⟨(h2 a (by simp)).2, ih fun b hb => h2 b (by simp [hb])⟩
    obtain ⟨os, es, ts⟩ := reads_sorts hl
    cases as with
    | nil => exact absurd rfl h1
    | cons a as => exact ⟨_, _, bind_ok.2 ⟨os, es, bind_ok.2 ⟨o, e, rfl⟩⟩, .cons (text_list ts) (.cons t .nil)⟩
  | _ => exact hd h

theorem reads_funDeclaration {E : PEnv} {d : String × Srt} (hx : Readable d.1) (h : d.2.Declarable E) :
    Reads (printFunDeclaration d) (funDeclarationTokens d) := by
  obtain ⟨o, e, t⟩ := reads_name hx
  obtain ⟨a, r, e', t'⟩ := reads_signature h
  refine ⟨_, bind_ok.2 ⟨o, e, bind_ok.2 ⟨(a, r), e', rfl⟩⟩, ?_⟩
  have := text_parens (out := "declare-fun".toList) (ts := [.reserved .declareFun]) (text_word (by decide +kernel)) (.cons t t')
  simpa [funDeclarationTokens, tailChars] using this

theorem reads_negated {t : Term} (h : t.Readable []) : Reads (printNegated t) (negatedTokens t) := by
  obtain ⟨o, e, ht⟩ := reads_term true [] h
  refine ⟨_, bind_ok.2 ⟨o, e, rfl⟩, ?_⟩
  have := text_parens (out := "assert".toList) (ts := [.reserved .assert]) (text_word (by decide +kernel))
    (.cons (text_parens (out := "not".toList) (ts := [.symbol "not"]) (text_word (by decide +kernel)) (.cons ht .nil)) .nil)
  simpa [negatedTokens, tailChars] using this

theorem text_option : Text "(set-option :produce-proofs true)".toList optionTokens := by
  have := text_parens (out := "set-option".toList) (ts := [.symbol "set-option"]) (text_word (by decide +kernel))
    (.cons (text_keyword "produce-proofs" (by decide +kernel)) (.cons (text_word (s := "true".toList) (t := .symbol "true") (by decide +kernel)) .nil))
  simpa [optionTokens, tailChars] using this

theorem text_single {s : String} (h : wordCheck s.toList (.symbol s) = true) : Text ('(' :: s.toList ++ [')']) (parens [[.symbol s]]) :=
  text_parens (text_word h) .nil

theorem mem_dedupNext {l : Term} : ∀ {c : List Term}, l ∈ dedupNext c ↔ l ∈ c
  | [] => Iff.rfl
  | [_] => Iff.rfl
  | t :: u :: ts => by
    have ih := mem_dedupNext (l := l) (c := u :: ts)
    rw [dedupNext]
    split
    · next e => subst e; rw [ih]; simp
    · rw [List.mem_cons, ih, List.mem_cons (a := l) (b := t)]

/-- The text and its tokens. -/
theorem text_problem {E : PEnv} {Q : Problem} {clause : List Term} (hl : ∀ l ∈ Q.logic, PlainName l) (hs : ∀ d ∈ Q.sorts, Readable d.1)
    (hf : ∀ d ∈ Q.functions, Readable d.1 ∧ d.2.Declarable E) (hc : ∀ l ∈ clause, l.Readable []) :
    ∃ text, problemString Q clause = .ok text ∧ ∃ rest, LexesTo text (problemLines Q clause).flatten rest ∧ nextToken rest = .ok (.eof, []) := by
  obtain ⟨o1, e1, t1⟩ := readsL_map (f := printSortDeclaration) (g := sortDeclarationTokens) (as := Q.sorts) fun d hd => reads_sortDeclaration (hs d hd)
  obtain ⟨o2, e2, t2⟩ := readsL_map (f := printFunDeclaration) (g := funDeclarationTokens) (as := Q.functions) fun d hd =>
    reads_funDeclaration (hf d hd).1 (hf d hd).2
  obtain ⟨o3, e3, t3⟩ := readsL_map (f := printNegated) (g := negatedTokens) (as := dedupNext clause) fun d hd => reads_negated (hc d (mem_dedupNext.1 hd))
  have h0 : PlainName (Q.logic.getD "ALL") := by
    cases hq : Q.logic with
    | some l => exact hl l hq
    | none => exact ⟨by decide, by decide +kernel, by decide +kernel, fun h => by rw [looksNegative_iff] at h; revert h; decide +kernel, fun r => by cases r <;> decide +kernel⟩
  have h1 : Text ("(set-logic ".toList ++ (Q.logic.getD "ALL").toList ++ [')']) (logicTokens (Q.logic.getD "ALL")) := by
    have := text_parens (out := "set-logic".toList) (ts := [.reserved .setLogic]) (text_word (by decide +kernel)) (.cons (text_plain h0) .nil)
    simpa [logicTokens, tailChars] using this
  refine ⟨_, bind_ok.2 ⟨_, bind_ok.2 ⟨o1, e1, bind_ok.2 ⟨o2, e2, rfl⟩⟩, bind_ok.2 ⟨o3, e3, rfl⟩⟩, ?_⟩
  have ht := lexes_lines (List.rel_append (List.rel_append (.cons text_option (.cons h1 (List.rel_append t1 t2))) t3)
    (.cons (text_single (s := "check-sat") (by decide +kernel)) (.cons (text_single (s := "get-proof") (by decide +kernel))
      (.cons (text_single (s := "exit") (by decide +kernel)) .nil))))
  simpa [joinLines, problemLines] using ht

/-! ## Reading -/

section
variable {apply : Bool} {E : PEnv} {Q : Problem} {F : List (String × FunDef)}

theorem natCast_lt64 {k : Nat} (h : k < 2 ^ 64) : (k : Int) < 2 ^ 64 := by omega

theorem readDeclareSort64 {d : String × Nat} {rest : List Token} (h : d.2 < 2 ^ 64) :
    readDeclareSort ⟨.symbol d.1 :: .numeral d.2 :: .closeParen :: rest, F⟩ = .ok ((d.1, d.2), ⟨rest, F⟩) := by
  rw [readDeclareSort, reader_bind expectSymbol_cons, reader_bind next_cons]
  simp only
  rw [reader_bind expect_cons]
  have h2 : (0 : Int) ≤ d.2 ∧ (d.2 : Int) < 2 ^ 64 := ⟨Int.natCast_nonneg _, natCast_lt64 h⟩
  simp only [h2, and_self, if_true]
  rfl

theorem readProblemCommand_sort {n : Nat} {d : String × Nat} {ts rest : List Token} (h : readDeclareSort ⟨ts, F⟩ = .ok (d, ⟨rest, F⟩)) :
    readProblemCommand n apply E Q ⟨.reserved .declareSort :: ts, F⟩ =
      .ok (({ E with sortDecls := d :: E.sortDecls }, { Q with sorts := Q.sorts ++ [d] }), ⟨rest, F⟩) := by
  rw [readProblemCommand, reader_bind next_cons]
  simp only
  rw [reader_bind h]
  exact reader_pure

theorem readSortDeclaration {n : Nat} {d : String × Nat} {rest : List Token} (h : d.2 < 2 ^ 64) :
    readProblemCommands apply (n + 1) E Q ⟨sortDeclarationTokens d ++ rest, F⟩ =
      readProblemCommands apply n { E with sortDecls := d :: E.sortDecls } { Q with sorts := Q.sorts ++ [d] } ⟨rest, F⟩ := by
  have e : sortDeclarationTokens d ++ rest = .openParen :: .reserved .declareSort :: .symbol d.1 :: .numeral d.2 :: .closeParen :: rest := by
    simp [sortDeclarationTokens, parens]
  rw [e]
  exact readCommands63_cons (readProblemCommand_sort (readDeclareSort64 h))

theorem readFunDeclaration {n : Nat} {d : String × Srt} {rest : List Token} (hE : PlainEnv E) (h : d.2.Declarable E)
    (hn : 2 * (funDeclarationTokens d).length ≤ n) : readProblemCommands apply (n + 1) E Q ⟨funDeclarationTokens d ++ rest, F⟩ =
      readProblemCommands apply n (E.bind [d]) (Q.declare d.1 d.2) ⟨rest, F⟩ := by
  obtain ⟨x, s⟩ := d
  have h1 : ∃ ts, funDeclarationTokens (x, s) ++ rest = .openParen :: .reserved .declareFun :: ts ∧
      readDeclareFun n E ⟨ts, F⟩ = .ok ((x, s), ⟨rest, F⟩) := by
    have h0 : (∀ ss r, s ≠ .fn ss r) → s.Known E → ∃ ts, funDeclarationTokens (x, s) ++ rest = .openParen :: .reserved .declareFun :: ts ∧
      readDeclareFun n E ⟨ts, F⟩ = .ok ((x, s), ⟨rest, F⟩) := by
      intro hs hk
      have et : signatureTokens s = [parens [], s.tokens] := by
        cases s with
        | fn ss r => exact absurd rfl (hs ss r)
        | _ => rfl
      refine ⟨.symbol x :: .openParen :: .closeParen :: (s.tokens ++ .closeParen :: rest), by simp [funDeclarationTokens, et, parens], ?_⟩
      simp only [funDeclarationTokens, et, parens_length, List.flatten_cons, List.flatten_nil, List.length_append, List.length_cons, List.length_nil] at hn
      obtain ⟨n, rfl⟩ := Nat.exists_eq_add_of_le (show 1 ≤ n by omega)
      rw [readDeclareFun, reader_bind expectSymbol_cons, reader_bind expect_cons, Nat.add_comm 1 n, reader_bind (parseSorts_close _ _),
        reader_bind (parseSort_tokens hE.ints hk (by omega)), reader_bind expect_cons]
      rfl
    cases s with
    | fn as r =>
      obtain ⟨k1, k2, k3, -⟩ := h
      have hl : Srt.KnownL E as := by
        clear k1 hn h0
        induction as with
        | nil => trivial
        | cons a as ih => exact ⟨(k2 a (by simp)).1, ih fun b hb => k2 b (by simp [hb])⟩
      refine ⟨.symbol x :: .openParen :: ((Srt.tokensL as).flatten ++ .closeParen :: (r.tokens ++ .closeParen :: rest)), by
        simp [funDeclarationTokens, signatureTokens, parens], ?_⟩
      simp only [funDeclarationTokens, signatureTokens, parens_length, List.flatten_cons, List.flatten_nil, List.length_append, List.length_cons,
        List.length_nil] at hn
      rw [readDeclareFun, reader_bind expectSymbol_cons, reader_bind expect_cons, reader_bind (parseSorts_tokens hE.ints hl (by omega)),
        reader_bind (parseSort_tokens hE.ints k3 (by omega)), reader_bind expect_cons]
      simp [functionSort, k1, reader_pure]
    | _ => exact h0 (by simp) h.1
  obtain ⟨ts, e, h2⟩ := h1
  rw [e]
  refine readCommands63_cons ?_
  rw [readProblemCommand, reader_bind next_cons]
  simp only
  rw [reader_bind h2]
  rfl

theorem readNegated {n : Nat} {t : Term} {rest : List Token} (hE : PlainEnv E) (h : Writable [] F E t) (hb : sortOf t = some .bool)
    (hn : 2 * (negatedTokens t).length ≤ n) : readProblemCommands apply (n + 1) E Q ⟨negatedTokens t ++ rest, F⟩ =
      readProblemCommands apply n E (Q.assert (.op .not [t.standard])) ⟨rest, F⟩ := by
  have hb' : sortOf (.op .not [t.standard]) = some .bool := by
    rw [sortOf_op_eq (by simp)]
    simp [sortOfL, sortOf_standard t h.sorted, hb, opSort]
  have hw : Writable [] F E (.op .not [t.standard]) := ⟨by rw [hb']; rfl,
    smallWidths_op (fun a ha => by rw [List.mem_singleton.1 ha]; exact h.standard.small) (fun w hw => by rw [hb'] at hw; cases hw),
    ⟨fun e => (nomatch e), h.standard.known, trivial⟩⟩
  have et : (Term.op .not [t.standard]).tokens false [] = parens [[.symbol "not"], t.tokens true []] := by
    rw [tokens_standard t h.sorted]
    rfl
  have e : negatedTokens t ++ rest = .openParen :: .reserved .assert :: ((Term.op .not [t.standard]).tokens false [] ++ .closeParen :: rest) := by
    rw [et, negatedTokens]
    simp [parens]
  rw [e]
  refine readCommands63_cons (readAssert63 (readsTerm _ E hE hw n _ ?_))
  rw [et]
  simp only [negatedTokens, parens_length, List.flatten_cons, List.flatten_nil, List.length_append, List.length_cons, List.length_nil] at hn ⊢
  omega

theorem readIgnored {n : Nat} {x : String} {rest : List Token} : readProblemCommands apply (n + 1) E Q ⟨parens [[.symbol x]] ++ rest, F⟩ =
    readProblemCommands apply n E Q ⟨rest, F⟩ := by
  change readProblemCommands apply (n + 1) E Q ⟨.openParen :: .symbol x :: .closeParen :: rest, F⟩ = _
  exact readCommands63_cons rfl

theorem readOption {n : Nat} {rest : List Token} : readProblemCommands apply (n + 1) E Q ⟨optionTokens ++ rest, F⟩ =
    readProblemCommands apply n E Q ⟨rest, F⟩ := by
  change readProblemCommands apply (n + 1) E Q ⟨.openParen :: .symbol "set-option" :: .keyword "produce-proofs" :: .symbol "true" :: .closeParen :: rest, F⟩ = _
  exact readCommands63_cons rfl

theorem readLogic {n : Nat} {l : String} {rest : List Token} : readProblemCommands apply (n + 1) E Q ⟨logicTokens l ++ rest, F⟩ =
    readProblemCommands apply n { E with intsAsReals := realOnlyLogic l } { Q with logic := some l } ⟨rest, F⟩ := by
  change readProblemCommands apply (n + 1) E Q ⟨.openParen :: .reserved .setLogic :: .symbol l :: .closeParen :: rest, F⟩ = _
  refine readCommands63_cons ?_
  rw [readProblemCommand, reader_bind next_cons]
  simp only
  rw [reader_bind expectSymbol_cons, reader_bind expect_cons]
  rfl


/-- The declarations of sorts. -/
theorem readSortDeclarations : ∀ {ds : List (String × Nat)} {E : PEnv} {Q : Problem} {n : Nat} {rest : List Token}, (∀ d ∈ ds, d.2 < 2 ^ 64) →
    readProblemCommands apply (n + ds.length) E Q ⟨(ds.map sortDeclarationTokens).flatten ++ rest, F⟩ =
      readProblemCommands apply n (E.declaring ds []) { Q with sorts := Q.sorts ++ ds } ⟨rest, F⟩
  | [], E, Q, n, rest, _ => by simp [PEnv.declaring]
  | d :: ds, E, Q, n, rest, h => by
    rw [List.map_cons, List.flatten_cons, List.append_assoc, List.length_cons, ← Nat.add_assoc, readSortDeclaration (h d (by simp)),
      readSortDeclarations fun e he => h e (by simp [he])]
    simp [PEnv.declaring]

theorem Srt.Declarable.congr {E E' : PEnv} (h1 : E'.sortDecls = E.sortDecls) (h2 : E'.sortDefs = E.sortDefs) {s : Srt} (h : s.Declarable E) :
    s.Declarable E' := by
  have hk : ∀ s : Srt, s.Known E → s.Known E' := fun s h => h.congr h1 h2
  cases s with
  | fn as r => exact ⟨h.1, fun a ha => ⟨hk a (h.2.1 a ha).1, (h.2.1 a ha).2⟩, hk r h.2.2.1, h.2.2.2⟩
  | _ => exact ⟨hk _ h.1, h.2⟩

/-- The declarations of functions. -/
theorem readFunDeclarations : ∀ {ds : List (String × Srt)} {E : PEnv} {Q : Problem} {n : Nat} {rest : List Token}, PlainEnv E →
    (∀ d ∈ ds, d.2.Declarable E) → 2 * (ds.map funDeclarationTokens).flatten.length ≤ n →
    readProblemCommands apply (n + ds.length) E Q ⟨(ds.map funDeclarationTokens).flatten ++ rest, F⟩ =
      readProblemCommands apply n (E.declaring [] ds) { Q with functions := Q.functions ++ ds } ⟨rest, F⟩
  | [], E, Q, n, rest, _, _, _ => by simp [PEnv.declaring]
  | d :: ds, E, Q, n, rest, hE, h, hn => by
    rw [List.map_cons, List.flatten_cons, List.length_append] at hn
    have hb : ∀ e ∈ ds, e.2.Declarable (E.bind [d]) := fun e he => Srt.Declarable.congr (E := E) (E' := E.bind [d]) rfl rfl (h e (by simp [he]))
    rw [List.map_cons, List.flatten_cons, List.append_assoc, List.length_cons, ← Nat.add_assoc, readFunDeclaration hE (h d (by simp)) (by omega),
      readFunDeclarations (hE.bind _) hb (by omega)]
    simp [PEnv.declaring, PEnv.bind, Problem.declare]

/-- The literals. -/
theorem readNegateds : ∀ {ls : List Term} {E : PEnv} {Q : Problem} {n : Nat} {rest : List Token}, PlainEnv E →
    (∀ l ∈ ls, Writable [] F E l ∧ sortOf l = some .bool) → 2 * (ls.map negatedTokens).flatten.length ≤ n →
    readProblemCommands apply (n + ls.length) E Q ⟨(ls.map negatedTokens).flatten ++ rest, F⟩ =
      readProblemCommands apply n E ((ls.map fun l => .op .not [l.standard]).foldl Problem.assert Q) ⟨rest, F⟩
  | [], E, Q, n, rest, _, _, _ => by simp
  | l :: ls, E, Q, n, rest, hE, h, hn => by
    rw [List.map_cons, List.flatten_cons, List.length_append] at hn
    rw [List.map_cons, List.flatten_cons, List.append_assoc, List.length_cons, ← Nat.add_assoc,
      readNegated hE (h l (by simp)).1 (h l (by simp)).2 (by omega), readNegateds hE (fun e he => h e (by simp [he])) (by omega)]
    simp

theorem foldl_assert : ∀ {ts : List Term} {Q : Problem}, ∃ ps, ts.foldl Problem.assert Q = { Q with premises := ps } ∧
    ∀ u, u ∈ ps ↔ u ∈ Q.premises ∨ u ∈ ts
  | [], Q => ⟨Q.premises, rfl, by simp⟩
  | t :: ts, Q => by
    obtain ⟨ps, e, h⟩ := foldl_assert (ts := ts) (Q := Q.assert t)
    refine ⟨ps, e, fun u => ?_⟩
    rw [h, mem_assert, List.mem_cons, or_assoc]

/-- The whole problem. -/
theorem readProblem64 {E : PEnv} {Q : Problem} {clause : List Term} (hE : PlainEnv E) (hl : realOnlyLogic (Q.logic.getD "ALL") = false)
    (hs : ∀ d ∈ Q.sorts, d.2 < 2 ^ 64) (hf : ∀ d ∈ Q.functions, d.2.Declarable (E.declaring Q.sorts []))
    (hc : ∀ l ∈ clause, Writable [] [] (E.declaring Q.sorts Q.functions) l ∧ sortOf l = some .bool) {n : Nat}
    (hn : 3 * (problemLines Q clause).flatten.length + 1 ≤ n) :
    ∃ E' ps, readProblemCommands apply n E {} ⟨(problemLines Q clause).flatten, []⟩ =
        .ok ((E', { logic := some (Q.logic.getD "ALL"), sorts := Q.sorts, functions := Q.functions, premises := ps }), ⟨[], []⟩) ∧
      ∀ u, u ∈ ps ↔ ∃ l ∈ clause, u = .op .not [l.standard] := by
  have len : ∀ {α : Type} (g : α → List Token) (as : List α), (∀ a, 1 ≤ (g a).length) → as.length ≤ (as.map g).flatten.length := by
    intro α g as hg
    induction as with
    | nil => simp
    | cons a as ih =>
      have := hg a
      simp only [List.length_cons, List.map_cons, List.flatten_cons, List.length_append]
      omega
  have l1 := len sortDeclarationTokens Q.sorts fun a => by simp [sortDeclarationTokens, parens]
  have l2 := len funDeclarationTokens Q.functions fun a => by simp [funDeclarationTokens, parens]
  have l3 := len negatedTokens (dedupNext clause) fun a => by simp [negatedTokens, parens]
  have et : (problemLines Q clause).flatten = optionTokens ++ (logicTokens (Q.logic.getD "ALL") ++ ((Q.sorts.map sortDeclarationTokens).flatten ++
      ((Q.functions.map funDeclarationTokens).flatten ++ (((dedupNext clause).map negatedTokens).flatten ++ (parens [[.symbol "check-sat"]] ++
      (parens [[.symbol "get-proof"]] ++ (parens [[.symbol "exit"]] ++ []))))))) := by
    simp [problemLines]
  rw [et] at hn ⊢
  simp only [List.length_append] at hn
  have l4 : 1 ≤ optionTokens.length := by decide
  have l5 : 1 ≤ (logicTokens (Q.logic.getD "ALL")).length := by simp [logicTokens, parens]
  have l6 : 1 ≤ (parens [[Token.symbol "check-sat"]]).length := by decide
  have l7 : 1 ≤ (parens [[Token.symbol "get-proof"]]).length := by decide
  have l8 : 1 ≤ (parens [[Token.symbol "exit"]]).length := by decide
  obtain ⟨m, rfl⟩ : ∃ m, n = m + 1 + 1 + 1 + (dedupNext clause).length + Q.functions.length + Q.sorts.length + 1 + 1 :=
    ⟨n - ((dedupNext clause).length + Q.functions.length + Q.sorts.length + 5), by omega⟩
  have eE : { E with intsAsReals := realOnlyLogic (Q.logic.getD "ALL") } = E := by
    rw [hl, ← hE.ints]
  have hE1 : PlainEnv (E.declaring Q.sorts []) := ⟨hE.strict, hE.ints⟩
  have hE2 : PlainEnv (E.declaring Q.sorts Q.functions) := ⟨hE.strict, hE.ints⟩
  have eD : (E.declaring Q.sorts []).declaring [] Q.functions = E.declaring Q.sorts Q.functions := by simp [PEnv.declaring]
  rw [readOption, readLogic, eE, readSortDeclarations hs, readFunDeclarations hE1 hf (by omega), eD,
    readNegateds hE2 (fun l hl => hc l (mem_dedupNext.1 hl)) (by omega), readIgnored, readIgnored, readIgnored, readCommands63_nil (by omega)]
  obtain ⟨ps, e, h⟩ := foldl_assert (ts := (dedupNext clause).map fun l => .op .not [l.standard])
    (Q := { logic := some (Q.logic.getD "ALL"), sorts := [] ++ Q.sorts, functions := [] ++ Q.functions })
  refine ⟨E.declaring Q.sorts Q.functions, ps, ?_, fun u => ?_⟩
  · exact congrArg (fun R => Except.ok ((E.declaring Q.sorts Q.functions, R), (⟨[], []⟩ : ReadState))) e
  · rw [h, List.mem_map]
    constructor
    · rintro (h | ⟨l, hl, rfl⟩)
      · cases h
      · exact ⟨l, mem_dedupNext.1 hl, rfl⟩
    · rintro ⟨l, hl, rfl⟩
      exact .inr ⟨l, mem_dedupNext.2 hl, rfl⟩

end

end Carcara
