import Verif.Lemmas.TermParserPrint
import Verif.Lemmas.TermParserReader
import Verif.Lemmas.TermParserFuel
import Verif.Lemmas.Printer
import Mathlib.Data.Rat.Lemmas

/-!
# C47: terms that are printed are read back

"A term that is printed and read again is the same term." C39 is the part of this claim that concerns the lexer.
-/

namespace Carcara
open PRes Reader

/-- The full claim: a term that was read and is printed is read as the same term. -/
def C47Full : Prop := ∀ (n : Nat) (E : PEnv) (F : List (String × FunDef)) (toks rest : List Token) (t : Term),
  parseTerm n E ⟨toks, F⟩ = .ok (t, ⟨rest, F⟩) → ∃ m, parseTerm m E ⟨t.tokens false [] ++ rest, F⟩ = .ok (t, ⟨rest, F⟩)

/-- Partial: the tokens of a term are read as that term, whatever follows them, if lets are kept, integers are not read as reals, and the term is
`Writable`: it has a sort, its bit vectors are shorter than `2 ^ 64`, and its names mean the same to the parser. The printer may replace constants
by names that the parser knows. Missing: other terms, for which the claim is false. -/
theorem c47_tokens_partial (D : List (Term × String)) (F : List (String × FunDef)) (E : PEnv) (t : Term) (n : Nat) (rest : List Token)
    (hE : PlainEnv E) (h : Writable D F E t) (hn : 2 * (t.tokens false D).length ≤ n) :
    parseTerm n E ⟨t.tokens false D ++ rest, F⟩ = .ok (t, ⟨rest, F⟩) :=
  readsTerm t E hE h n rest hn

/-- Partial: the same for the text. What the printer writes consists of tokens that are read as the term. -/
theorem c47_text_partial (D : List (Term × String)) (F : List (String × FunDef)) (E : PEnv) (t : Term) (hE : PlainEnv E)
    (h : Writable D F E t) (hr : t.Readable D) :
    ∃ out ts, printTerm false D t = .ok out ∧ (∀ rest, Ends rest → LexesTo (out ++ rest) ts rest) ∧
      ∀ n rest, 2 * ts.length ≤ n → parseTerm n E ⟨ts ++ rest, F⟩ = .ok (t, ⟨rest, F⟩) := by
  obtain ⟨out, ho, hl⟩ := reads_term false D hr
  exact ⟨out, t.tokens false D, ho, hl.2, fun n rest hn => readsTerm t E hE h n rest hn⟩

/-- Partial: a clause is read back. -/
theorem c47_clause_partial (D : List (Term × String)) (F : List (String × FunDef)) (E : PEnv) (c : List Term) (n : Nat) (rest : List Token)
    (hE : PlainEnv E) (h : ∀ l ∈ c, Writable D F E l) (hc : ClauseOK c)
    (hn : 2 * (parens ([.reserved .cl] :: Term.tokensL false D c)).length ≤ n) :
    parseClause n E ⟨parens ([.reserved .cl] :: Term.tokensL false D c) ++ rest, F⟩ = .ok (c, ⟨rest, F⟩) := by
  simp only [parens_length, List.flatten_cons, List.length_append, List.length_cons, List.length_nil] at hn
  simp only [parens_append, List.flatten_cons, List.append_assoc, List.cons_append, List.nil_append]
  rw [parseClause, reader_bind expect_cons, reader_bind expect_cons]
  exact parseLiterals_tokens hE (fun a ha => ⟨h a ha, hc a ha⟩) (by omega)

/-- Partial: two terms with the same tokens are the same. -/
theorem c47_unambiguous_partial (D : List (Term × String)) (F : List (String × FunDef)) (E : PEnv) (t u : Term) (hE : PlainEnv E)
    (ht : Writable D F E t) (hu : Writable D F E u) (h : t.tokens false D = u.tokens false D) : t = u := by
  have h1 := readsTerm t E hE ht _ [] (Nat.le_refl _)
  have h2 := readsTerm u E hE hu _ [] (Nat.le_refl _)
  rw [h, h2] at h1
  simpa using h1.symm

/-- Partial: what was read is read again after printing. That it has a sort is C48. -/
theorem c47_reread_partial (n : Nat) (E : PEnv) (F : List (String × FunDef)) (st st' : ReadState) (t : Term) (rest : List Token) (hE : PlainEnv E)
    (ht : E.subtyping = false) (hd : ∀ p ∈ st.defs, (sortOf p.2.body).isSome = true) (h : parseTerm n E st = .ok (t, st')) (hp : t.plainWidths)
    (hw : t.smallWidths) (hk : t.Known [] F E) : ∃ m, parseTerm m E ⟨t.tokens false [] ++ rest, F⟩ = .ok (t, ⟨rest, F⟩) :=
  ⟨_, readsTerm t E hE ⟨((readsSorted n).term E ht st t st' (fun p hp _ => hd p hp) h).1 hp, hw, hk⟩ _ rest (Nat.le_refl _)⟩

/-- Names of operators are read as these operators. -/
theorem c47_operator_names (o : Op) (p : ParamOp) : Op.ofName o.name = some o ∧ ParamOp.ofName p.name = some p :=
  ⟨Op.ofName_name o, ParamOp.ofName_name p⟩

private theorem lookup_skip {x : String} {l m : List (String × Srt)} (h : ∀ c ∈ l, c.1 ≠ x) : (l ++ m).lookup x = m.lookup x := by
  induction l with
  | nil => rfl
  | cons c l ih =>
    have hc : (x == c.1) = false := by simpa using fun e => h c (List.mem_cons_self ..) e.symm
    rw [List.cons_append, List.lookup_cons, hc]
    exact ih fun d hd => h d (List.mem_cons_of_mem _ hd)

/-- In the scope of `bs` the name of a bound variable stands for the last variable of this name in `bs`, whatever it stands for outside. -/
theorem c47_bound_variable (n : Nat) (E : PEnv) (F : List (String × FunDef)) (bs cs : List (String × Srt)) (x : String) (s : Srt) (rest : List Token)
    (hx : ∀ c ∈ cs, c.1 ≠ x) (hF : F.lookup x = none) (ho : Op.ofName x = none) :
    parseTerm (n + 1) (E.bind (bs ++ (x, s) :: cs)) ⟨.symbol x :: rest, F⟩ = .ok (.var x s, ⟨rest, F⟩) := by
  have : (E.bind (bs ++ (x, s) :: cs)).vars.lookup x = some s := by
    simp only [PEnv.bind, List.reverse_append, List.reverse_cons, List.append_assoc, List.cons_append, List.nil_append]
    rw [lookup_skip fun c hc => hx c (List.mem_reverse.1 hc)]
    simp
  rw [parseTerm, reader_bind next_cons]
  simp only
  rw [reader_bind definition_eq, hF]
  simp only [ho, makeVar, this]
  rfl

/-- The other names stand for what they stand for outside. -/
theorem c47_free_variable (n : Nat) (E : PEnv) (F : List (String × FunDef)) (bs : List (String × Srt)) (x : String) (s : Srt) (rest : List Token)
    (hx : ∀ b ∈ bs, b.1 ≠ x) (hE : E.vars.lookup x = some s) (hF : F.lookup x = none) (ho : Op.ofName x = none) :
    parseTerm (n + 1) (E.bind bs) ⟨.symbol x :: rest, F⟩ = .ok (.var x s, ⟨rest, F⟩) := by
  have : (E.bind bs).vars.lookup x = some s := by
    simp only [PEnv.bind]
    rw [lookup_skip fun c hc => hx c (List.mem_reverse.1 hc), hE]
  rw [parseTerm, reader_bind next_cons]
  simp only
  rw [reader_bind definition_eq, hF]
  simp only [ho, makeVar, this]
  rfl

/-- `(/ a b)`, where `a` and `b` are positive numerals. If the fraction is reduced, it is read as a constant, except for `(/ 1 1)`; otherwise as a
quotient. -/
theorem c47_fraction (n a b : Nat) (E : PEnv) (F : List (String × FunDef)) (rest : List Token) (ha : 0 < a) (hb : 0 < b)
    (hi : E.intsAsReals = true ∨ E.subtyping = true) :
    parseTerm (n + 5) E ⟨.openParen :: .symbol "/" :: .numeral a :: .numeral b :: .closeParen :: rest, F⟩ =
      .ok (if Nat.Coprime a b ∧ ¬ (a = 1 ∧ b = 1) then .const (.real ((a : Rat) / (b : Rat)))
        else if E.intsAsReals then .op .realDiv [.const (.real (a : Rat)), .const (.real (b : Rat))]
        else .op .realDiv [.const (.int a), .const (.int b)], ⟨rest, F⟩) := by
  have ho : Op.ofName "/" = some .realDiv := by decide +kernel
  have hlit : E.divLiteral (.const (if E.intsAsReals then .real ((a : Int) : Rat) else .int a)) (.const (if E.intsAsReals then .real ((b : Int) : Rat) else .int b)) =
      if Nat.Coprime a b ∧ ¬ (a = 1 ∧ b = 1) then some (.const (.real ((a : Rat) / (b : Rat)))) else none := by
    have h1 : ∀ c : Nat, E.literal (.const (if E.intsAsReals then .real ((c : Int) : Rat) else .int c)) = some (c : Int) := by
      intro c
      cases h : E.intsAsReals <;> simp [PEnv.literal, h]
    simp only [PEnv.divLiteral, h1, Option.bind_some, bind]
    have h2 : (0 < (a : Int) ∧ 0 < (b : Int) ∧ ¬ ((a : Int) = 1 ∧ (b : Int) = 1) ∧ Int.gcd a b = 1) ↔ Nat.Coprime a b ∧ ¬ (a = 1 ∧ b = 1) := by
      simp only [Int.gcd_natCast_natCast, Nat.Coprime]
      omega
    by_cases h : Nat.Coprime a b ∧ ¬ (a = 1 ∧ b = 1)
    · rw [if_pos (h2.2 h), if_pos h]
      simp
    · rw [if_neg fun h' => h (h2.1 h'), if_neg h]
  have hsorts : ∀ c : Nat, poolSort (.const (if E.intsAsReals then .real ((c : Int) : Rat) else .int c)) =
      .ok (.known (if E.intsAsReals then .real else .int)) := by
    intro c
    cases E.intsAsReals <;> rfl
  rw [parseTerm, reader_bind next_cons]
  simp only
  rw [parseApplication, reader_bind current_cons]
  simp only [ho]
  rw [reader_bind next_cons]
  have hargs : parseTerms (n + 3) E ⟨.numeral a :: .numeral b :: .closeParen :: rest, F⟩ =
      .ok ([.const (if E.intsAsReals then .real ((a : Int) : Rat) else .int a), .const (if E.intsAsReals then .real ((b : Int) : Rat) else .int b)], ⟨rest, F⟩) := by
    rfl
  rw [reader_bind hargs]
  have hsub : E.intsAsReals = false → E.subtyping = true := fun h => hi.resolve_left (by simp [h])
  have hcheck : checkOp E .realDiv [.known (if E.intsAsReals then .real else .int), .known (if E.intsAsReals then .real else .int)] = .ok () := by
    cases h1 : E.intsAsReals with
    | false => simp only [checkOp, hsub h1]; rfl
    | true => cases h2 : E.subtyping <;> simp only [checkOp, h2] <;> rfl
  have hmake : makeOp E .realDiv [.const (if E.intsAsReals then .real ((a : Int) : Rat) else .int a), .const (if E.intsAsReals then .real ((b : Int) : Rat) else .int b)] =
      .ok (if Nat.Coprime a b ∧ ¬ (a = 1 ∧ b = 1) then .const (.real ((a : Rat) / (b : Rat)))
        else if E.intsAsReals then .op .realDiv [.const (.real (a : Rat)), .const (.real (b : Rat))]
        else .op .realDiv [.const (.int a), .const (.int b)]) := by
    simp only [makeOp, poolSorts, hsorts, PRes.all, bind, Except.bind, hcheck, hlit]
    by_cases h : Nat.Coprime a b ∧ ¬ (a = 1 ∧ b = 1)
    · simp only [if_pos h, Option.getD_some]
    · simp only [if_neg h, Option.getD_none]
      cases h1 : E.intsAsReals <;> simp
  show lift (makeOp E .realDiv _) _ = _
  rw [hmake]
  rfl

/-- Two such fractions are read as the same term only if they are the same. -/
theorem c47_fraction_unambiguous (a b c d : Nat) (E : PEnv) (F : List (String × FunDef)) (rest : List Token) (hp : 0 < a ∧ 0 < b ∧ 0 < c ∧ 0 < d)
    (hi : E.intsAsReals = true ∨ E.subtyping = true)
    (h : parseTerm 5 E ⟨.openParen :: .symbol "/" :: .numeral a :: .numeral b :: .closeParen :: rest, F⟩ =
      parseTerm 5 E ⟨.openParen :: .symbol "/" :: .numeral c :: .numeral d :: .closeParen :: rest, F⟩) : a = c ∧ b = d := by
  rw [c47_fraction 0 a b E F rest hp.1 hp.2.1 hi, c47_fraction 0 c d E F rest hp.2.2.1 hp.2.2.2 hi] at h
  simp only [Except.ok.injEq, Prod.mk.injEq, and_true] at h
  have hq : ∀ a b : Nat, 0 < b → Nat.Coprime a b → ((a : Rat) / (b : Rat)).num = a ∧ ((a : Rat) / (b : Rat)).den = b := by
    intro a b hb hc
    have h1 := Rat.num_div_eq_of_coprime (a := a) (b := b) (by omega) (by simpa using hc)
    have h2 := Rat.den_div_eq_of_coprime (a := a) (b := b) (by omega) (by simpa using hc)
    exact ⟨by simpa using h1, by simpa using h2⟩
  by_cases h1 : Nat.Coprime a b ∧ ¬ (a = 1 ∧ b = 1) <;> by_cases h2 : Nat.Coprime c d ∧ ¬ (c = 1 ∧ d = 1)
  · rw [if_pos h1, if_pos h2] at h
    simp only [Term.const.injEq, Const.real.injEq] at h
    obtain ⟨e1, e2⟩ := hq a b hp.2.1 h1.1
    obtain ⟨e3, e4⟩ := hq c d hp.2.2.2 h2.1
    rw [h] at e1 e2
    exact ⟨by omega, by omega⟩
  · rw [if_pos h1, if_neg h2] at h
    split at h <;> cases h
  · rw [if_neg h1, if_pos h2] at h
    split at h <;> cases h
  · rw [if_neg h1, if_neg h2] at h
    split at h <;> simpa using h

/-- A variable that is bound twice, and hides a global one: `(forall ((x Int) (x Bool)) x)`. -/
example : parseTerm 12 { vars := [("x", .real)] } ⟨[.openParen, .reserved .forall, .openParen, .openParen, .symbol "x", .symbol "Int", .closeParen,
    .openParen, .symbol "x", .symbol "Bool", .closeParen, .closeParen, .symbol "x", .closeParen], []⟩ =
    .ok (.binder .all [("x", .int), ("x", .bool)] (.var "x" .bool), ⟨[], []⟩) := by decide +kernel

/-- `(/ 2 3)` and `(/ 2 4)`. -/
example : parseTerm 5 { intsAsReals := true } ⟨[.openParen, .symbol "/", .numeral 2, .numeral 3, .closeParen], []⟩ = .ok (.const (.real (2 / 3)), ⟨[], []⟩) ∧
    parseTerm 5 { intsAsReals := true } ⟨[.openParen, .symbol "/", .numeral 2, .numeral 4, .closeParen], []⟩ =
      .ok (.op .realDiv [.const (.real 2), .const (.real 4)], ⟨[], []⟩) := by decide +kernel

section Examples

private def E0 : PEnv := { vars := [("x", .int), ("p", .bool), ("f", .fn [.int] .int), ("b", .bv 8), ("r", .real)], sortDecls := [("U", 0)] }

/-- `(forall ((u U) (y Int)) (let ((z (f y))) (or (= ((_ extract 3 0) b) (_ bv3 4)) (< z 3) ((lambda ((q Bool)) q) p))))` -/
private def t0 : Term := .binder .all [("u", .atom "U" []), ("y", .int)] (.let_ [("z", .app (.var "f" (.fn [.int] .int)) [.var "y" .int])]
  (.op .or [.op .equals [.paramOp .bvExtract [.const (.int 3), .const (.int 0)] [.var "b" (.bv 8)], .const (.bv 3 4)],
    .op .lt [.var "z" .int, .const (.int 3)], .app (.binder .lambda [("q", .bool)] (.var "q" .bool)) [.var "p" .bool]]))

/-- Every kind of term is `Writable`; and `3` is printed as `three`. -/
private theorem t0_writable : Writable [(.const (.int 3), "three")] [("three", ⟨[], .const (.int 3)⟩)] E0 t0 := by
  refine ⟨by decide +kernel, ?_, ?_⟩
  · simp only [Term.smallWidths, t0, Term.subterms, Term.subtermsL, Term.subtermsB, List.append_nil, List.cons_append, List.nil_append,
      List.mem_cons, List.not_mem_nil, or_false]
    rintro u (rfl | rfl | rfl | rfl | rfl | rfl | rfl | rfl | rfl | rfl | rfl | rfl | rfl | rfl | rfl | rfl | rfl | rfl | rfl) w hw <;>
      simp [sortOf, sortOfL, sortOfB, opSort, popSort, Const.sort, allSort] at hw <;> omega
  · simp [t0, Term.Known, Term.KnownL, Term.KnownB, knownName, headKnown, List.lookup, Srt.Known, Srt.KnownL, builtinSorts, E0, PEnv.bind, letSorts,
      sortOf, sortOfL, Const.Known, BEq.beq]
    decide +kernel

example : PlainEnv E0 ∧ Writable [(.const (.int 3), "three")] [("three", ⟨[], .const (.int 3)⟩)] E0 t0 := ⟨⟨rfl, rfl⟩, t0_writable⟩

/-- The text of `t0`: it can be written. -/
example : t0.Readable [] ∧ printTerm false [] t0 = .ok
    "(forall ((u U) (y Int)) (let ((z (f y))) (or (= ((_ extract 3 0) b) (_ bv3 4)) (< z 3) ((lambda ((q Bool)) q) p))))".toList := by
  refine ⟨?_, by decide +kernel⟩
  have h1 : Readable "u" ∧ Readable "U" ∧ Readable "y" ∧ Readable "z" ∧ Readable "f" ∧ Readable "b" ∧ Readable "q" ∧ Readable "p" := by
    refine ⟨?_, ?_, ?_, ?_, ?_, ?_, ?_, ?_⟩ <;> exact readable_of (by decide +kernel)
  simp [t0, Term.Readable, Term.ReadableL, Term.ReadableB, unnamed, List.lookup, Const.Readable, Srt.Readable, Srt.ReadableL, h1]

/-- The hypotheses of `c47_reread_partial`, for a term that was read with a definition in it: `(not q)` where `q` is `p`. -/
example : parseTerm 9 E0 ⟨[.openParen, .symbol "not", .symbol "q", .closeParen], [("q", ⟨[], .var "p" .bool⟩)]⟩ =
      .ok (.op .not [.var "p" .bool], ⟨[], [("q", ⟨[], .var "p" .bool⟩)]⟩) ∧
    (Term.op .not [.var "p" .bool]).Known [] [("q", ⟨[], .var "p" .bool⟩)] E0 := by
  refine ⟨by decide +kernel, ?_⟩
  simp [Term.Known, Term.KnownL, knownName, List.lookup, E0]
  decide +kernel

/-- The hypotheses of `c47_clause_partial`. -/
example : (∀ l ∈ [t0], Writable [(.const (.int 3), "three")] [("three", ⟨[], .const (.int 3)⟩)] E0 l) ∧ ClauseOK [t0] := by
  refine ⟨by simpa using t0_writable, ?_⟩
  simp only [ClauseOK, List.mem_singleton, forall_eq]
  decide +kernel

end Examples

/-! ## What is not read back -/

/-- How the claim is refuted: one run that does not stop with the term. -/
private theorem not_reread {E : PEnv} {F : List (String × FunDef)} {toks rest : List Token} {t : Term} {x : PRes (Term × ReadState)}
    (h : parseTerm 30 E ⟨toks, F⟩ = .ok (t, ⟨rest, F⟩)) (h' : parseTerm 30 E ⟨t.tokens false [] ++ rest, F⟩ = x) (hx : x ≠ .error .fuel)
    (hx' : x ≠ .ok (t, ⟨rest, F⟩)) : ¬ C47Full := fun hf => by
  obtain ⟨m, e⟩ := hf 30 E F toks rest t h
  refine hx' ?_
  rw [← h', ← e]
  exact parseTerm_agree (by rw [h']; exact hx) (by rw [e]; simp)

/-- **C47 fails.** `(cl)` is accepted as a term, and printed as `cl`, which is not. -/
theorem c47_empty_clause_fails : ¬ C47Full :=
  not_reread (E := E0) (F := []) (toks := [.openParen, .reserved .cl, .closeParen]) (rest := []) (t := .op .cl []) (x := .error .err) (by decide +kernel)
    (by decide +kernel) (by decide) (by decide)

/-- **C47 fails** in problems of a logic with reals and without integers: if `h` is defined by `(h y) = (/ y 2.0 r)`, then `(h 1.0)` is read as
`(/ 1.0 2.0 r)`, but this is read as the constant one half, without `r`. -/
theorem c47_quotient_fails : ¬ C47Full :=
  not_reread (E := { E0 with intsAsReals := true }) (F := [("h", ⟨[("y", .real)], .op .realDiv [.var "y" .real, .const (.real 2), .var "r" .real]⟩)])
    (toks := [.openParen, .symbol "h", .decimal 1, .closeParen]) (rest := []) (t := .op .realDiv [.const (.real 1), .const (.real 2), .var "r" .real])
    (x := .ok (.const (.real (1 / 2)), ⟨[], [("h", ⟨[("y", .real)], .op .realDiv [.var "y" .real, .const (.real 2), .var "r" .real]⟩)]⟩))
    (by decide +kernel) (by decide +kernel) (by decide +kernel) (by decide +kernel)

private def captured : List (String × FunDef) := [("x'", ⟨[], .const (.int 0)⟩),
  ("h", ⟨[("y", .int)], .binder .all [("x", .int)] (.op .equals [.var "x" .int, .var "y" .int])⟩)]

/-- **C47 fails** because definitions take precedence over bound variables. If `h` is defined by `(h y) = (forall ((x Int)) (= x y))`, then `(h x)`
is read as `(forall ((x' Int)) (= x' x))`; but if `x'` is defined as `0`, this is read as `(forall ((x' Int)) (= 0 x))`. -/
theorem c47_captured_fails : ¬ C47Full :=
  not_reread (E := E0) (F := captured) (toks := [.openParen, .symbol "h", .symbol "x", .closeParen]) (rest := [])
    (t := .binder .all [("x'", .int)] (.op .equals [.var "x'" .int, .var "x" .int]))
    (x := .ok (.binder .all [("x'", .int)] (.op .equals [.const (.int 0), .var "x" .int]), ⟨[], captured⟩))
    (by decide +kernel) (by decide +kernel) (by decide +kernel) (by decide +kernel)

end Carcara
