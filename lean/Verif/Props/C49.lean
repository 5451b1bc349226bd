import Verif.Lemmas.TermParserFuel
import Verif.Lemmas.TermParserPanic

/-!
# C49: the parser of terms ends with a term or an error

"On every list of tokens, the parser of terms ends; and it ends with a term or an error, not with a panic."

The functions of the model have a step counter. The first half of the claim is that it makes no difference.
-/

namespace Carcara
open PRes Reader

/-- The part of the full claim about panics. -/
def C49Full : Prop := ∀ (n : Nat) (E : PEnv) (st : ReadState), parseTerm n E st ≠ .error .panic

/-- The parser ends: it needs at most two steps per token, and one more. -/
theorem c49_terminates (E : PEnv) (st : ReadState) (n : Nat) (h : 2 * st.toks.length + 1 ≤ n) : parseTerm n E st ≠ .error .fuel :=
  ((enoughSteps n).term E _ h st (Nat.le_refl _)).1

/-- The number of steps makes no difference to the result. -/
theorem c49_steps (E : PEnv) (st : ReadState) (n m : Nat) (hn : parseTerm n E st ≠ .error .fuel) (h : n ≤ m) : parseTerm m E st = parseTerm n E st :=
  refines_le h E st hn

/-- Of the tokens, at least one is read. -/
theorem c49_progress (E : PEnv) (st st' : ReadState) (n : Nat) (t : Term) (h : parseTerm n E st = .ok (t, st')) :
    st'.toks.length < st.toks.length := by
  have e := c49_steps E st n (max n (2 * st.toks.length + 1)) (by rw [h]; simp) (Nat.le_max_left _ _)
  exact ((enoughSteps _).term E _ (Nat.le_max_right n _) st (Nat.le_refl _)).2 t st' (e.trans h)

/-- The same for clauses. -/
theorem c49_clause_terminates (E : PEnv) (st : ReadState) (n : Nat) (h : 2 * st.toks.length + 3 ≤ n) : parseClause n E st ≠ .error .fuel := by
  have : Suffices st.toks.length 0 (parseClause n E) :=
    .seq (.expect (by simp)) fun _ _ => .seq (.expect (by simp)) fun _ _ => .parseLiterals (by omega)
  exact (this st (Nat.le_refl _)).1

theorem c49_clause_steps (E : PEnv) (st : ReadState) (n m : Nat) (hn : parseClause n E st ≠ .error .fuel) (h : n ≤ m) :
    parseClause m E st = parseClause n E st :=
  refines_clause_le h E st hn

/-- Too few steps do make a difference. -/
example : parseTerm 3 {} ⟨[.openParen, .symbol "not", .symbol "true", .closeParen], []⟩ = .error .fuel ∧
    parseTerm 9 {} ⟨[.openParen, .symbol "not", .symbol "true", .closeParen], []⟩ = .ok (.op .not [.op .tru []], ⟨[], []⟩) := by decide +kernel

/-! ## Panics

The parser does not panic on calm input, `Spec/TermParserCalm.lean`. Missing from the full claim: numbers after `_` that are negative or that do not
fit into 64 bits, bit vectors whose value is not a number, `repeat`, `@bv`, `@d`, definitions with parameters, lets that are expanded (also those
of `eo::define`), and mixed arithmetic (`subtyping`). Examples below show a panic for each of these but the last two. -/

/-- The parser of terms does not panic on calm input. The term that is read is well sorted, and its sort can be computed without a panic. -/
theorem c49_no_panic_partial (n : Nat) (E : PEnv) (st : ReadState) (hs : E.subtyping = false) (hl : E.expandLets = false)
    (ht : CalmTokens st.toks) (hd : CalmDefs st.defs) :
    parseTerm n E st ≠ .error .panic ∧ ∀ t st', parseTerm n E st = .ok (t, st') →
      (sortOf t).isSome = true ∧ poolSort t ≠ .error .panic ∧ CalmTokens st'.toks ∧ CalmDefs st'.defs := by
  obtain ⟨h1, h2⟩ := (readsCalm n).term E ⟨hs, hl⟩ [] st ⟨ht, hd, fun _ h => (by cases h)⟩
  refine ⟨h1, fun t st' e => ?_⟩
  obtain ⟨h3, h4⟩ := h2 t st' e
  exact ⟨h3.sorted h3.plain, NoPanic.poolSort h3, h4.tokens, h4.defs⟩

/-- The same for clauses. -/
theorem c49_clause_no_panic_partial (n : Nat) (E : PEnv) (st : ReadState) (hs : E.subtyping = false) (hl : E.expandLets = false)
    (ht : CalmTokens st.toks) (hd : CalmDefs st.defs) : parseClause n E st ≠ .error .panic := by
  have : Calmly (CalmState []) (parseClause n E) (Keeping [] fun _ => True) :=
    .bind .expect fun _ _ => .bind .expect fun _ _ => .parseLiterals ⟨hs, hl⟩ n
  exact (this st ⟨ht, hd, fun _ h => (by cases h)⟩).1

/-! Panics: -/

private def E0 : PEnv := { vars := [("x", .int), ("b", .bv 8)] }

/-- **C49 fails.** `(_ bvx 8)`: what follows `bv` is not a number. -/
theorem c49_bv_value_fails : ¬ C49Full := fun h =>
  h 20 E0 ⟨[.openParen, .reserved .underscore, .symbol "bvx", .numeral 8, .closeParen], []⟩ (by decide +kernel)

/-- **C49 fails.** `(_ bv3 -8)`: the width is negative. -/
theorem c49_bv_width_fails : ¬ C49Full := fun h =>
  h 20 E0 ⟨[.openParen, .reserved .underscore, .symbol "bv3", .numeral (-8), .closeParen], []⟩ (by decide +kernel)

/-- **C49 fails.** `@d`: the operator is used as a constant, and its first argument is looked at before the number of arguments. -/
theorem c49_delete_fails : ¬ C49Full := fun h => h 20 E0 ⟨[.symbol "@d"], []⟩ (by decide +kernel)

/-- **C49 fails.** `(= b ((_ int_to_bv -1) x))`: the width is negative, which is noticed when the sort of the term is computed. -/
theorem c49_int_to_bv_fails : ¬ C49Full := fun h =>
  h 20 E0 ⟨[.openParen, .symbol "=", .symbol "b", .openParen, .openParen, .reserved .underscore, .symbol "int_to_bv", .numeral (-1), .closeParen,
    .symbol "x", .closeParen, .closeParen], []⟩ (by decide +kernel)

/-- **C49 fails.** `(forall ((y (_ BitVec -1))) true)`: the width is negative. -/
theorem c49_sort_fails : ¬ C49Full := fun h =>
  h 20 E0 ⟨[.openParen, .reserved .forall, .openParen, .openParen, .symbol "y", .openParen, .reserved .underscore, .symbol "BitVec", .numeral (-1),
    .closeParen, .closeParen, .closeParen, .symbol "true", .closeParen], []⟩ (by decide +kernel)

/-- **C49 fails.** `(= b (@bv 3 -8))`. -/
theorem c49_bv_operator_fails : ¬ C49Full := fun h =>
  h 20 E0 ⟨[.openParen, .symbol "=", .symbol "b", .openParen, .symbol "@bv", .numeral 3, .numeral (-8), .closeParen, .closeParen], []⟩
    (by decide +kernel)

/-- **C49 fails.** `(= b ((_ repeat 2305843009213693952) b))`: the width of the repetition is `2 ^ 64`. -/
theorem c49_repeat_fails : ¬ C49Full := fun h =>
  h 20 E0 ⟨[.openParen, .symbol "=", .symbol "b", .openParen, .openParen, .reserved .underscore, .symbol "repeat", .numeral (2 ^ 61), .closeParen,
    .symbol "b", .closeParen, .closeParen], []⟩ (by decide +kernel)

/-- **C49 fails.** `(h x)`, where `h` is defined by `(h y) = (let ((z y)) z)`: the substitution panics on the let. -/
theorem c49_definition_fails : ¬ C49Full := fun h =>
  h 20 E0 ⟨[.openParen, .symbol "h", .symbol "x", .closeParen], [("h", ⟨[("y", .int)], .let_ [("z", .var "y" .int)] (.var "z" .int)⟩)]⟩
    (by decide +kernel)

/-! ## Calm input -/

/-- `(= ((_ extract 3 0) d) (! (_ bv5 4) :named k))` is calm, and so is the definition of `d` as `(bvnot b)`. -/
private def calmTokens : List Token := [.openParen, .symbol "=", .openParen, .openParen, .reserved .underscore, .symbol "extract", .numeral 3,
  .numeral 0, .closeParen, .symbol "d", .closeParen, .openParen, .reserved .bang, .openParen, .reserved .underscore, .symbol "bv5", .numeral 4,
  .closeParen, .keyword "named", .symbol "k", .closeParen, .closeParen]

private def calmDefs : List (String × FunDef) := [("d", ⟨[], .op .bvNot [.var "b" (.bv 8)]⟩)]

example : CalmTokens calmTokens ∧ CalmDefs calmDefs ∧ parseTerm 40 E0 ⟨calmTokens, calmDefs⟩ =
    .ok (.op .equals [.paramOp .bvExtract [.const (.int 3), .const (.int 0)] [.op .bvNot [.var "b" (.bv 8)]], .const (.bv 5 4)],
      ⟨[], [("d", ⟨[], .op .bvNot [.var "b" (.bv 8)]⟩), ("k", ⟨[], .const (.bv 5 4)⟩)]⟩) := by
  refine ⟨⟨by decide +kernel, fun rest h => ?_⟩, ?_, by decide +kernel⟩
  · simp only [calmTokens, List.suffix_cons_iff, List.cons.injEq, reduceCtorEq, false_and, false_or, true_and, List.suffix_nil,
      Token.reserved.injEq, or_false] at h
    rcases h with rfl | rfl
    · exact ⟨"extract", [3, 0], _, rfl, by decide, by decide, fun cs h => absurd h (by simp)⟩
    · refine ⟨"bv5", [4], _, rfl, by decide, by decide, fun cs h => ?_⟩
      simp only [String.reduceToList, List.cons.injEq, true_and] at h
      subst h
      decide
  · intro p hp
    cases List.mem_singleton.1 hp
    refine ⟨rfl, plainWidths_of_op (by simp) ?_, .bv 8, by decide, by decide⟩
    intro a ha
    cases List.mem_singleton.1 ha
    exact (calm_var _ _).1

end Carcara
