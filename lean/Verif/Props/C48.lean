import Verif.Lemmas.TermParserReader
import Verif.Lemmas.TermParserReadSort

/-!
# C48: terms that the parser accepts are well sorted

"Every term that the parser accepts has a sort, and every literal of a clause that it accepts has sort `Bool`."

`sortOf` is the sort system without mixed arithmetic, so the parser is configured without integer/real subtyping.
-/

namespace Carcara
open PRes Reader

/-- The bodies of the definitions have sorts. -/
def DefsOK (ds : List (String × FunDef)) : Prop := ∀ p ∈ ds, (sortOf p.2.body).isSome = true

/-- The full claim. -/
def C48Full : Prop := ∀ (n : Nat) (E : PEnv) (st st' : ReadState) (t : Term), E.subtyping = false → DefsOK st.defs →
  parseTerm n E st = .ok (t, st') → (sortOf t).isSome = true

/-- Partial: a term that is accepted has a sort if every width in it is a natural number, that is, if the second argument of `@bv` is one and the
index of `int_to_bv` is one. Missing: other terms, for which the claim is false. -/
theorem c48_term_partial (n : Nat) (E : PEnv) (st st' : ReadState) (t : Term) (hE : E.subtyping = false) (hd : DefsOK st.defs)
    (h : parseTerm n E st = .ok (t, st')) (hw : t.plainWidths) : (sortOf t).isSome = true :=
  ((readsSorted n).term E hE st t st' (fun p hp _ => hd p hp) h).1 hw

/-- Partial: under the same condition, a clause that is accepted is one whose literals have sort `Bool`. -/
theorem c48_clause_partial (n : Nat) (E : PEnv) (st st' : ReadState) (c : List Term) (hE : E.subtyping = false) (hd : DefsOK st.defs)
    (h : parseClause n E st = .ok (c, st')) (hw : ∀ l ∈ c, l.plainWidths) : ClauseOK c := by
  have := (Ensures.bind .expect fun _ _ => .bind .expect fun _ _ => Ensures.parseLiterals hE n : Ensures (DefsP DefsSorted) (parseClause n E) _)
    st c st' (fun p hp _ => hd p hp) h
  exact fun l hl => this.1 l hl (hw l hl)

/-- Partial: a term that is expected to have a sort, such as the body of a quantifier, has that sort. -/
theorem c48_expected_sort_partial (n : Nat) (E : PEnv) (st st' : ReadState) (s : Srt) (t : Term) (hE : E.subtyping = false) (hd : DefsOK st.defs)
    (h : parseSorted n E s st = .ok (t, st')) (hw : t.plainWidths) : sortOf t = some s :=
  ((readsSorted n).sorted E hE s st t st' (fun p hp _ => hd p hp) h).1 hw

/-- The sort that the pool computes for a well-sorted term, if it does not panic, is the sort of the term. -/
theorem c48_pool_sort (t : Term) (s : Srt) (p : PSrt) (hs : sortOf t = some s) (h : poolSort t = .ok p) : p = .known s :=
  poolSort_yields t hs p h

/-- An operator is applied exactly to those arguments that it is defined on. -/
theorem c48_make_op (E : PEnv) (o : Op) (args : List Term) (hs : E.strict = false) (ht : E.subtyping = false) (ho : o ≠ .bvConst)
    (ha : ∀ a ∈ args, ∃ s, sortOf a = some s ∧ poolSort a = .ok (.known s)) :
    (∃ t, makeOp E o args = .ok t) ↔ (sortOf (.op o args)).isSome = true := by
  have sorts : ∀ as : List Term, (∀ a ∈ as, ∃ s, sortOf a = some s ∧ poolSort a = .ok (.known s)) →
      ∃ ss : List Srt, sortOfL as = some ss ∧ PRes.all (poolSorts as) = .ok (ss.map .known) := by
    intro as
    induction as with
    | nil => exact fun _ => ⟨[], rfl, rfl⟩
    | cons a as ih =>
      intro ha
      obtain ⟨s, h1, h2⟩ := ha a (by simp)
      obtain ⟨ss, h3, h4⟩ := ih fun b hb => ha b (by simp [hb])
      exact ⟨s :: ss, by simp [sortOfL, h1, h3], by simp [poolSorts, PRes.all, h2, h4, bind, Except.bind]⟩
  obtain ⟨ss, h1, h2⟩ := sorts args ha
  rw [sortOf_op_eq ho, h1, Option.bind_some, ← checkOp_known hs ht ho]
  constructor
  · rintro ⟨t, h⟩
    simp only [makeOp, h2, pbind_ok, Except.ok.injEq, exists_eq_left', exists_unit] at h
    exact h.1
  · intro h
    simp only [makeOp, h2, pbind_ok, Except.ok.injEq, exists_eq_left', exists_unit, h, true_and]
    split <;> exact ⟨_, rfl⟩

/-! ## Sorts -/

/-- A sort that the parser accepts uses declared sorts, with the declared number of arguments, if the definitions of sorts do. Function sorts are not
among them. -/
theorem c48_sort (n : Nat) (E : PEnv) (st st' : ReadState) (s : Srt) (hE : SortsOK E) (h : parseSort n E st = .ok (s, st')) : s.Over E.sortDecls [] :=
  (parseSort_over hE n).1 st s st' h

/-- A sort whose name is defined is the body of the definition with the arguments in place of the parameters, all at once. -/
theorem c48_sort_definition (E : PEnv) (name : String) (args : List Srt) (d : SortDef) (hd : E.sortDefs.lookup name = some d)
    (hn : name ∉ ["Bool", "Int", "Real", "String", "RegLan", "Type", "Array"]) (s : Srt) :
    makeSort E name args = .ok s ↔ d.params.length = args.length ∧ s = d.body.inst fun x => (d.params.zip args).reverse.lookup x := by
  simp only [List.mem_cons, List.not_mem_nil, or_false, not_or] at hn
  obtain ⟨h1, h2, h3, h4, h5, h6, h7⟩ := hn
  unfold makeSort
  simp only [h1, h2, h3, h4, h5, h6, h7, or_self, false_and, if_false, hd, pbind_ok, need_ok, exists_unit, Except.ok.injEq]
  refine and_congr_right fun hl => ?_
  split
  · next he =>
    have hp := List.isEmpty_iff.1 he
    rw [hp, List.zip_nil_left, eq_comm]
    exact iff_of_eq (congrArg (s = ·) (inst_none d.body).symm)
  · rw [subst_params, eq_comm]
    rfl

section Examples

/-- `(define-sort P (a b) (Array a (L b)))`, with `L` declared with one argument: `(P (L Int) Bool)`. -/
example :
    let E : PEnv := { sortDecls := [("L", 1)], sortDefs := [("P", ⟨["a", "b"], .array (.atom "a" []) (.atom "L" [.atom "b" []])⟩)] }
    SortsOK E ∧ parseSort 9 E ⟨[.openParen, .symbol "P", .openParen, .symbol "L", .symbol "Int", .closeParen, .symbol "Bool", .closeParen], []⟩ =
      .ok (.array (.atom "L" [.int]) (.atom "L" [.bool]), ⟨[], []⟩) ∧
    parseSort 9 E ⟨[.openParen, .symbol "L", .symbol "Int", .symbol "Int", .closeParen], []⟩ = .error .err := by
  refine ⟨?_, by decide +kernel, by decide +kernel⟩
  intro p hp
  cases List.mem_singleton.1 hp
  exact ⟨.inl ⟨by simp, rfl⟩, .inr ⟨by simp, rfl, .inl ⟨by simp, rfl⟩, trivial⟩⟩

private def E0 : PEnv := { vars := [("x", .int), ("p", .bool), ("f", .fn [.int] .int), ("b", .bv 8), ("n", .int)], sortDecls := [("U", 0)] }

/-- `(forall ((y Int)) (! (= (f y) 3) :named q))`. -/
private def quantified : List Token := [.openParen, .reserved .forall, .openParen, .openParen, .symbol "y", .symbol "Int", .closeParen, .closeParen,
  .openParen, .reserved .bang, .openParen, .symbol "=", .openParen, .symbol "f", .symbol "y", .closeParen, .numeral 3, .closeParen,
  .keyword "named", .symbol "q", .closeParen, .closeParen]

/-- A term that is accepted, with all that it needs. -/
example : ∃ t st', parseTerm 20 E0 ⟨quantified, []⟩ = .ok (t, st') ∧ t.plainWidths ∧ t = .binder .all [("y", .int)]
    (.op .equals [.app (.var "f" (.fn [.int] .int)) [.var "y" .int], .const (.int 3)]) ∧
    st' = ⟨[], [("q", ⟨[], .op .equals [.app (.var "f" (.fn [.int] .int)) [.var "y" .int], .const (.int 3)]⟩)]⟩ := by
  refine ⟨_, _, by decide +kernel, ?_, rfl, rfl⟩
  simp [Term.plainWidths, Term.subterms, Term.subtermsL, Term.plainWidth]

/-- A clause with a bit vector of the kind that `plainWidths` restricts: `(cl (= b (@bv 3 8)) p)`. -/
example : ∃ c st', parseClause 20 E0 ⟨[.openParen, .reserved .cl, .openParen, .symbol "=", .symbol "b", .openParen, .symbol "@bv", .numeral 3,
      .numeral 8, .closeParen, .closeParen, .symbol "p", .closeParen], []⟩ = .ok (c, st') ∧ (∀ l ∈ c, l.plainWidths) ∧
    c = [.op .equals [.var "b" (.bv 8), .op .bvConst [.const (.int 3), .const (.int 8)]], .var "p" .bool] := by
  refine ⟨_, ⟨[], []⟩, by decide +kernel, ?_, rfl⟩
  simp only [List.mem_cons, List.not_mem_nil, or_false, forall_eq_or_imp, forall_eq, Term.plainWidths, Term.subterms, Term.subtermsL,
    List.append_nil, List.cons_append, List.nil_append, Term.plainWidth, and_true, true_and]
  exact ⟨_, 8, rfl⟩

/-- The arguments of `c48_make_op`, for an application that is accepted and one that is not. -/
example : (∀ a ∈ [Term.var "x" .int, .const (.int 3)], ∃ s, sortOf a = some s ∧ poolSort a = .ok (.known s)) ∧
    (makeOp E0 .add [.var "x" .int, .const (.int 3)]).toBool = true ∧ (makeOp E0 .and [.var "x" .int, .const (.int 3)]).toBool = false := by
  refine ⟨?_, by decide +kernel, by decide +kernel⟩
  simp only [List.mem_cons, List.not_mem_nil, or_false, forall_eq_or_imp, forall_eq]
  exact ⟨⟨.int, rfl, rfl⟩, .int, rfl, rfl⟩

end Examples

/-- **C48 fails.** `(not (@bv 0 n))`, where `n` is a variable of sort `Int`, is accepted: the sort of `(@bv 0 n)` is a bit-vector sort with a
parameter, which is taken to be equal to every sort, even `Bool`. -/
theorem c48_bv_fails : ¬ C48Full := by
  intro h
  have := h 20 E0 ⟨[.openParen, .symbol "not", .openParen, .symbol "@bv", .numeral 0, .symbol "n", .closeParen, .closeParen], []⟩ ⟨[], []⟩
    (.op .not [.op .bvConst [.const (.int 0), .var "n" .int]]) rfl (fun p hp => by cases hp) (by decide +kernel)
  revert this
  decide +kernel

/-- The literal of a clause need not have sort `Bool` either: `(cl (@bv 0 n))` is accepted. -/
theorem c48_clause_fails : ∃ (E : PEnv) (st st' : ReadState) (c : List Term), E.subtyping = false ∧ DefsOK st.defs ∧
    parseClause 20 E st = .ok (c, st') ∧ ¬ ClauseOK c := by
  refine ⟨E0, ⟨[.openParen, .reserved .cl, .openParen, .symbol "@bv", .numeral 0, .symbol "n", .closeParen, .closeParen], []⟩, ⟨[], []⟩,
    [.op .bvConst [.const (.int 0), .var "n" .int]], rfl, (fun p hp => by cases hp), by decide +kernel, fun h => ?_⟩
  have := h _ (List.mem_singleton_self _)
  revert this
  decide +kernel

/-- **C48 fails** also for `((_ int_to_bv (- 1)) x)`: that the width is negative is only noticed, by a panic, when the sort is computed. -/
theorem c48_int_to_bv_fails : ¬ C48Full := by
  intro h
  have := h 20 E0 ⟨[.openParen, .openParen, .reserved .underscore, .symbol "int_to_bv", .openParen, .symbol "-", .numeral 1, .closeParen,
      .closeParen, .symbol "x", .closeParen], []⟩ ⟨[], []⟩
    (.paramOp .intToBv [.const (.int (-1))] [.var "x" .int]) rfl (fun p hp => by cases hp) (by decide +kernel)
  revert this
  decide +kernel

end Carcara
