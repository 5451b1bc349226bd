import Verif.Lemmas.RareParser
import Verif.Lemmas.RareParserPanic
import Verif.Props.C56
import Verif.Spec.FreeVars

/-!
# C62: rewrite rules are read as the file declares them

"A file of rewrite rules is read as the rules that it declares: a rule has the parameters, premises and conclusion of its declaration, its terms are well
sorted, and what they mention is a parameter of the rule or is declared in the problem. Whatever the file contains, reading it ends without a panic, and so
does using its rules."
-/

namespace Carcara
open PRes Reader

/-! ## Reading ends -/

/-- Twice as many steps as there are tokens, and one more, are enough. -/
theorem c62_terminates (E : PEnv) (st : ReadState) (n : Nat) (h : 2 * st.toks.length + 1 ≤ n) : readRareRules n E st ≠ .error .fuel :=
  (Suffices.readRareRules h st (Nat.le_refl _)).1

/-- The number of steps makes no difference to the result. -/
theorem c62_steps (E : PEnv) (st : ReadState) (n m : Nat) (hn : readRareRules n E st ≠ .error .fuel) (h : n ≤ m) :
    readRareRules m E st = readRareRules n E st := refines_rareRules_le h E st hn

/-- Partial: no panic on calm input. Missing are the panics of C49, which the terms of a rule can bring about as well. -/
theorem c62_no_panic_partial (n : Nat) (E : PEnv) (st : ReadState) (hs : E.subtyping = false) (hl : E.expandLets = false)
    (ht : CalmTokens st.toks) (hd : CalmDefs st.defs) : readRareRules n E st ≠ .error .panic :=
  (Calmly.readRareRules (D := []) n ⟨hs, hl⟩ st ⟨ht, hd, fun _ h => (by cases h)⟩).1

/-! ## What is read -/

/-- The claim that all terms of rules are well sorted. -/
def C62Sorted : Prop := ∀ (n : Nat) (E : PEnv) (st st' : ReadState) (rs : List RareDecl), E.subtyping = false → DefsSorted st.defs →
  readRareRules n E st = .ok (rs, st') → ∀ r ∈ rs, ∀ t ∈ r.conclusion :: r.premises, (sortOf t).isSome = true

/-- Partial: it is true of terms in which bit-vector widths are natural numbers. -/
theorem c62_sorted_partial (n : Nat) (E : PEnv) (st st' : ReadState) (rs : List RareDecl) (hE : E.subtyping = false) (hd : DefsSorted st.defs)
    (h : readRareRules n E st = .ok (rs, st')) : ∀ r ∈ rs, ∀ t ∈ r.conclusion :: r.premises, t.plainWidths → (sortOf t).isSome = true :=
  fun r hr t ht hp => ((Ensures.readRareRules n hE _ _ _ hd h).1 r hr t ht) hp

/-- Partial: the tokens of rules are read as these rules. Missing are sorts with type variables and sorts with arguments, and other orders of the attributes
of a rule. -/
theorem c62_read_partial {E : PEnv} (hE : PlainEnv E) {F : List (String × FunDef)} {rs : List RareDecl} (h : RareWritable F E rs) (n : Nat)
    (hn : 2 * (rs.map RareDecl.tokens).flatten.length + 1 ≤ n) :
    readRareRules n E ⟨(rs.map RareDecl.tokens).flatten, F⟩ = .ok (rs, ⟨[], F⟩) := readRareRules_tokens hE h hn

private theorem rules_last : ∀ (rs : List RareDecl) (m : List (String × RareRule)) (x : String),
    mapGet (rs.foldl (fun m r => mapInsert m r.name r.toRule) m) x = ((rs.reverse.find? fun r => r.name = x).map RareDecl.toRule).or (mapGet m x)
  | [], m, x => by simp
  | r :: rs, m, x => by
    rw [List.foldl_cons, rules_last rs, mapGet_insert, List.reverse_cons, List.find?_append]
    cases rs.reverse.find? fun r => r.name = x with
    | some r' => simp
    | none =>
      by_cases e : r.name = x <;> simp [e]

/-- The rule that a step names is the last one in the file with this name. -/
theorem c62_last (rs : List RareDecl) (x : String) : mapGet (rareRules rs) x = (rs.reverse.find? fun r => r.name = x).map RareDecl.toRule := by
  rw [rareRules, rules_last]
  simp [mapGet]

private theorem params_last : ∀ (ps : List RareParamDecl) (m : List (String × RareParam)) (x : String),
    mapGet (ps.foldl (fun m p => mapInsert m p.name ⟨p.sort, false⟩) m) x =
      ((ps.reverse.find? fun p => p.name = x).map fun p => ⟨p.sort, false⟩).or (mapGet m x)
  | [], m, x => by simp
  | p :: ps, m, x => by
    rw [List.foldl_cons, params_last ps, mapGet_insert, List.reverse_cons, List.find?_append]
    cases ps.reverse.find? fun p => p.name = x with
    | some r' => simp
    | none =>
      by_cases e : p.name = x <;> simp [e]

/-- And the sort of a parameter is the last one that is given for its name. -/
theorem c62_params (r : RareDecl) (x : String) :
    mapGet r.toRule.params x = (r.params.reverse.find? fun p => p.name = x).map fun p => ⟨p.sort, false⟩ := by
  rw [RareDecl.toRule, params_last]
  simp [mapGet]

/-- The name of a parameter is also a sort, for the parameters and terms after it: a parameter with it has the sort of the earlier one. -/
theorem c62_param_sort (n : Nat) (E : PEnv) (F : List (String × FunDef)) (x y : String) (s : Srt) (rest : List Token)
    (hx : x ∉ ["Bool", "Int", "Real", "String", "RegLan", "Type", "Array"]) (ha : x.toList.head? ≠ some '@') :
    readRareParam n (E.declareParam x s) ⟨[.openParen, .symbol y, .symbol x, .closeParen] ++ rest, F⟩ = .ok ({ name := y, sort := s }, ⟨rest, F⟩) := by
  simp only [List.mem_cons, List.not_mem_nil, or_false, not_or] at hx
  obtain ⟨h1, h2, h3, h4, h5, h6, h7⟩ := hx
  have hm : makeSort (E.declareParam x s) x [] = .ok s := by
    simp only [makeSort, h1, h2, h3, h4, h5, h6, h7, or_self, false_and, if_false, PEnv.declareParam, List.lookup, BEq.rfl]
    rfl
  have hr : readRareSort n (E.declareParam x s) ⟨.symbol x :: .closeParen :: rest, F⟩ = .ok (s, ⟨.closeParen :: rest, F⟩) := by
    rw [readRareSort, reader_bind next_cons]
    simp only [ha, false_and, if_false]
    rw [hm]
    rfl
  simp only [List.cons_append, List.nil_append]
  rw [readRareParam, reader_bind expect_cons, reader_bind expectSymbol_cons, reader_bind hr]
  rfl

example : (readRareParams 9 {} ⟨[.openParen, .symbol "x", .symbol "Int", .closeParen, .openParen, .symbol "y", .symbol "x", .closeParen, .closeParen], []⟩).map
    (fun r => r.1.1) = .ok [{ name := "x", sort := .int }, { name := "y", sort := .int }] := by decide +kernel

/-! ## From the text to sound steps -/

/-- Partial: with a file of rules that are valid as they are written, accepted steps are sound. Missing are schemas, and arguments with lists or with empty
conjunctions or disjunctions (C56). -/
theorem c62_sound_partial {E : PEnv} (hE : PlainEnv E) {F : List (String × FunDef)} {rs : List RareDecl} (hw : RareWritable F E rs) (n : Nat)
    (hn : 2 * (rs.map RareDecl.tokens).flatten.length + 1 ≤ n)
    (hf : ∀ r ∈ rs, ∀ t ∈ r.conclusion :: r.premises, sortOf t = some .bool ∧ t.plain = true ∧ t.listFree = true ∧ t.filled = true)
    (hv : ∀ r ∈ rs, ∀ M : Model, (∀ p ∈ r.premises, M.Holds p) → M.Holds r.conclusion)
    {rules : List (String × RareRule)} {st' : ReadState} (hr : readRare n E ⟨(rs.map RareDecl.tokens).flatten, F⟩ = .ok (rules, st'))
    {conclusion : List Term} {premises : List (List Term)} {args : List Term} (ha : ∀ a ∈ args, a.listFree = true ∧ a.filled = true)
    (h : checkRare rules conclusion premises args = .ok ()) : Entails premises conclusion := by
  rw [readRare, reader_bind (c62_read_partial hE hw n hn)] at hr
  cases hr
  have h' := h
  unfold checkRare at h'
  split at h'
  · next name args =>
    obtain ⟨r, hr, -⟩ := bind_ok.1 h'
    have hr : mapGet (rareRules rs) name = some r := by
      cases hm : mapGet (rareRules rs) name with
      | none => rw [hm] at hr; cases hr
      | some r' => rw [hm] at hr; cases hr; rfl
    have hl := hr
    rw [c62_last] at hl
    obtain ⟨d, hd, rfl⟩ := Option.map_eq_some_iff.1 hl
    have hmem : d ∈ rs := by simpa using List.mem_of_find?_eq_some hd
    refine c56_rare_first_order_partial hr ⟨fun p hp => ?_, hf d hmem⟩ (hv d hmem) (fun a h => ha a (by simp [h])) h
    have : ∀ (ps : List RareParamDecl) (m : List (String × RareParam)), (∀ p ∈ m, p.2.poly = false) →
        ∀ p ∈ ps.foldl (fun m p => mapInsert m p.name ⟨p.sort, false⟩) m, p.2.poly = false := by
      intro ps
      induction ps with
      | nil => exact fun m h => h
      | cons q ps ih =>
        intro m h
        refine ih _ fun p hp => ?_
        rcases mem_mapInsert_cases hp with h' | h'
        · rw [h']
        · exact h p h'
    exact this d.params [] (fun _ h => by cases h) p hp
  · cases h'

/-! ## Examples -/

private def symm62 : RareDecl where
  name := "symm"
  params := [⟨"a", .int, false⟩, ⟨"b", .int, true⟩]
  args := ["a", "b"]
  premises := [.op .equals [.var "a" .int, .var "b" .int]]
  conclusion := .op .equals [.var "b" .int, .var "a" .int]

/-- The second rule declares a parameter `a` again, with another sort. -/
private def refl62 : RareDecl where
  name := "refl"
  params := [⟨"a", .bv 8, false⟩, ⟨"u", .atom "U" [], false⟩]
  args := ["a"]
  conclusion := .op .equals [.var "a" (.bv 8), .var "a" (.bv 8)]

private def E62 : PEnv := { sortDecls := [("U", 0)] }

private def smallSort : Option Srt → Bool
  | some (.bv w) => decide (w < 2 ^ 64)
  | _ => true

private theorem small62 (t : Term) (h : ∀ u ∈ t.subterms, smallSort (sortOf u) = true) : t.smallWidths := fun u hu w e => by
  have := h u hu
  rw [e] at this
  exact of_decide_eq_true this

private theorem known62 (F : List (String × FunDef)) (E : PEnv) (a b : String) (s : Srt)
    (ha : F.lookup a = none ∧ Op.ofName a = none ∧ E.vars.lookup a = some s) (hb : F.lookup b = none ∧ Op.ofName b = none ∧ E.vars.lookup b = some s) :
    (Term.op .equals [.var a s, .var b s]).Known [] F E := by
  simp [Term.Known, Term.KnownL, knownName, ha, hb]

private theorem writable62 : RareWritable [] E62 [symm62, refl62] := by
  refine ⟨⟨⟨trivial, rfl, trivial, rfl, trivial⟩, fun t ht => ?_, by decide +kernel, small62 _ (by decide +kernel), ?_⟩,
    ⟨⟨?_, rfl, ?_, rfl, trivial⟩, fun t ht => (by cases ht), by decide +kernel, small62 _ (by decide +kernel), ?_⟩, trivial⟩
  · rw [List.mem_singleton.1 ht]
    exact ⟨by decide +kernel, small62 _ (by decide +kernel), known62 _ _ _ _ _ (by decide +kernel) (by decide +kernel)⟩
  · exact known62 _ _ _ _ _ (by decide +kernel) (by decide +kernel)
  · show 8 < 2 ^ 64
    decide
  · exact ⟨by decide +kernel, by decide +kernel, by decide +kernel, trivial⟩
  · exact known62 _ _ _ _ _ (by decide +kernel) (by decide +kernel)

/-- The hypotheses of `c62_read_partial`, and of `c62_sound_partial`: two rules that are valid as they are written. -/
example : PlainEnv E62 ∧ RareWritable [] E62 [symm62, refl62] ∧
    (∀ r ∈ [symm62, refl62], ∀ t ∈ r.conclusion :: r.premises, sortOf t = some .bool ∧ t.plain = true ∧ t.listFree = true ∧ t.filled = true) ∧
    (∀ r ∈ [symm62, refl62], ∀ M : Model, (∀ p ∈ r.premises, M.Holds p) → M.Holds r.conclusion) ∧
    ∃ rules st', readRare 200 E62 ⟨([symm62, refl62].map RareDecl.tokens).flatten, []⟩ = .ok (rules, st') ∧
      checkRare rules [.op .equals [.const (.int 2), .const (.int 1)]] [[.op .equals [.const (.int 1), .const (.int 2)]]]
        [.const (.str "symm"), .const (.int 1), .const (.int 2)] = .ok () := by
  refine ⟨⟨rfl, rfl⟩, writable62, by decide +kernel, ?_, rareRules [symm62, refl62], ⟨[], []⟩, ?_, by decide +kernel⟩
  · intro r hr M h
    simp only [List.mem_cons, List.not_mem_nil, or_false] at hr
    rcases hr with rfl | rfl
    · have := h _ (List.mem_singleton_self _)
      rw [M.holds_eq] at this
      exact (M.holds_eq _ _).2 this.symm
    · exact (M.holds_eq _ _).2 rfl
  · rw [readRare, reader_bind (c62_read_partial ⟨rfl, rfl⟩ writable62 200 (by decide +kernel))]
    rfl

/-- The hypotheses of `c62_sorted_partial` hold of these rules. -/
example : E62.subtyping = false ∧ DefsSorted [] ∧ readRareRules 200 E62 ⟨([symm62, refl62].map RareDecl.tokens).flatten, []⟩ = .ok ([symm62, refl62], ⟨[], []⟩) :=
  ⟨rfl, fun _ h => (by cases h), c62_read_partial ⟨rfl, rfl⟩ writable62 200 (by decide +kernel)⟩

/-- The attributes of a rule may have another order, and the last of several counts. -/
example : readRareRules 60 {} ⟨[.openParen, .reserved .declareRareRule, .symbol "r", .openParen, .openParen, .symbol "a", .symbol "Bool", .keyword "list",
    .closeParen, .closeParen, .keyword "conclusion", .symbol "true", .keyword "args", .openParen, .symbol "a", .closeParen, .keyword "conclusion",
    .symbol "a", .closeParen], []⟩ = .ok ([⟨"r", [⟨"a", .bool, true⟩], ["a"], [], .var "a" .bool⟩], ⟨[], []⟩) := by decide +kernel

/-- A rule needs a conclusion; the only attribute of a parameter is `:list`; the sort of a parameter must be known. -/
example : readRareRules 60 {} ⟨[.openParen, .reserved .declareRareRule, .symbol "r", .openParen, .closeParen, .keyword "args", .openParen, .closeParen,
      .closeParen], []⟩ = .error .err ∧
    readRareRules 60 {} ⟨[.openParen, .reserved .declareRareRule, .symbol "r", .openParen, .openParen, .symbol "a", .symbol "Bool", .keyword "lists",
      .closeParen, .closeParen, .keyword "conclusion", .symbol "a", .closeParen], []⟩ = .error .err ∧
    readRareRules 60 {} ⟨[.openParen, .reserved .declareRareRule, .symbol "r", .openParen, .openParen, .symbol "a", .symbol "U",
      .closeParen, .closeParen, .keyword "conclusion", .symbol "a", .closeParen], []⟩ = .error .err := by decide +kernel

/-- Of rules with the same name, the last counts. -/
example : mapGet (rareRules [symm62, { refl62 with name := "symm" }]) "symm" = some { refl62 with name := "symm" }.toRule := by
  rw [c62_last]
  rfl

/-- Too few steps do make a difference. -/
example : readRareRules 4 E62 ⟨symm62.tokens, []⟩ = .error .fuel ∧ 2 * symm62.tokens.length + 1 ≤ 79 := by decide +kernel

/-- Calm input: a rule whose parameter has a sort of bit vectors. -/
private def calm62 : List Token := [.openParen, .reserved .declareRareRule, .symbol "r", .openParen, .openParen, .symbol "a", .openParen,
  .reserved .underscore, .symbol "BitVec", .numeral 8, .closeParen, .closeParen, .closeParen, .keyword "conclusion", .openParen, .symbol "=", .symbol "a",
  .symbol "a", .closeParen, .closeParen]

example : CalmTokens calm62 ∧ CalmDefs [] ∧ readRareRules 60 {} ⟨calm62, []⟩ =
    .ok ([⟨"r", [⟨"a", .bv 8, false⟩], [], [], .op .equals [.var "a" (.bv 8), .var "a" (.bv 8)]⟩], ⟨[], []⟩) := by
  refine ⟨⟨by decide +kernel, fun rest h => ?_⟩, fun _ h => (by cases h), by decide +kernel⟩
  simp only [calm62, List.suffix_cons_iff, List.cons.injEq, reduceCtorEq, false_and, false_or, true_and, List.suffix_nil,
    Token.reserved.injEq, or_false] at h
  subst h
  exact ⟨"BitVec", [8], _, rfl, by decide, by decide, fun cs h => absurd h (by simp)⟩

/-! ## What fails -/

/-- **C62 fails**: a term of a rule need not be well sorted, because of the exception for widths that are not constant (C48). -/
theorem c62_sorted_fails : ¬ C62Sorted := by
  intro h
  have e : readRareRules 60 {} ⟨[.openParen, .reserved .declareRareRule, .symbol "r", .openParen, .openParen, .symbol "n", .symbol "Int", .closeParen,
      .closeParen, .keyword "conclusion", .openParen, .symbol "@bv", .numeral 0, .symbol "n", .closeParen, .closeParen], []⟩ =
      .ok ([⟨"r", [⟨"n", .int, false⟩], [], [], .op .bvConst [.const (.int 0), .var "n" .int]⟩], ⟨[], []⟩) := by decide +kernel
  have := h _ _ _ _ _ rfl (fun p hp => by cases hp) e _ (List.mem_singleton_self _) _ (List.mem_cons_self ..)
  revert this
  decide +kernel

/-- The claim that steps can use the rules of a file without a panic. -/
def C62NoPanic : Prop := ∀ (n : Nat) (E : PEnv) (st st' : ReadState) (rules : List (String × RareRule)), readRare n E st = .ok (rules, st') →
  ∀ conclusion premises args, checkRare rules conclusion premises args ≠ panic

/-- **C62 fails**: `(declare-rare-rule r () :args (y) :conclusion true)` is read, although `y` is no parameter. Every step with this rule, one argument, no
premise and one literal makes the checker panic. -/
theorem c62_args_fails : ¬ C62NoPanic ∧ ∃ st rules st', readRare 60 {} st = .ok (rules, st') ∧
    ∀ c t, checkRare rules [c] [] [.const (.str "r"), t] = panic := by
  have e : readRare 60 {} ⟨[.openParen, .reserved .declareRareRule, .symbol "r", .openParen, .closeParen, .keyword "args", .openParen, .symbol "y",
      .closeParen, .keyword "conclusion", .symbol "true", .closeParen], []⟩ = .ok ([("r", ⟨[], ["y"], [], .op .tru []⟩)], ⟨[], []⟩) := rfl
  have p : ∀ c t, checkRare [("r", ⟨[], ["y"], [], .op .tru []⟩)] [c] [] [.const (.str "r"), t] = panic := fun c t => rfl
  exact ⟨fun h => h _ _ _ _ _ e _ _ _ (p (.op .tru []) (.op .tru [])), _, _, _, e, p⟩

/-- The claim that the variables of a rule are its parameters and what the problem declares. -/
def C62Scope : Prop := ∀ (n : Nat) (E : PEnv) (st st' : ReadState) (rs : List RareDecl), DefsSorted st.defs → readRareRules n E st = .ok (rs, st') →
  ∀ r ∈ rs, ∀ t ∈ r.conclusion :: r.premises, ∀ v ∈ t.fv, (∃ p ∈ r.params, v = (p.name, p.sort)) ∨ v ∈ E.vars

/-- **C62 fails**: the parameters of a rule stay declared after it. The second rule mentions the parameter `a` of the first, for which no step can give
a term. -/
theorem c62_scope_fails : ¬ C62Scope := by
  intro h
  have e : readRareRules 60 {} ⟨[.openParen, .reserved .declareRareRule, .symbol "r", .openParen, .openParen, .symbol "a", .symbol "Bool", .closeParen,
      .closeParen, .keyword "conclusion", .symbol "true", .closeParen, .openParen, .reserved .declareRareRule, .symbol "s", .openParen, .closeParen,
      .keyword "conclusion", .symbol "a", .closeParen], []⟩ =
      .ok ([⟨"r", [⟨"a", .bool, false⟩], [], [], .op .tru []⟩, ⟨"s", [], [], [], .var "a" .bool⟩], ⟨[], []⟩) := by decide +kernel
  have := h _ _ _ _ _ (fun p hp => by cases hp) e _ (List.mem_cons_of_mem _ (List.mem_singleton_self _)) _ (List.mem_cons_self ..) ("a", .bool)
    (List.mem_singleton_self _)
  rcases this with ⟨p, hp, _⟩ | h
  · cases hp
  · cases h

/-- The claim that what a rule means does not depend on the definitions of the problem and of the proof, if it does not mention names that are no
parameters. -/
def C62Definitions : Prop := ∀ (n : Nat) (E : PEnv) (F : List (String × FunDef)) (r : RareDecl), PlainEnv E → DefsSorted F → r.WritableIn [] E →
  2 * r.tokens.length + 1 ≤ n → ∀ rs st', readRareRules n E ⟨r.tokens, F⟩ = .ok (rs, st') → rs = [r]

/-- **C62 fails**: a definition `(define-fun a () Int 5)` in the problem or the proof comes before the parameter `a` of a rule. The rule that is read is
`(= b 5)` from `(= 5 b)`, and so a step that the rule as it is written justifies is rejected. -/
theorem c62_definition_fails : ¬ C62Definitions ∧
    ∃ rules st' rules' st'', readRare 79 E62 ⟨symm62.tokens, []⟩ = .ok (rules, st') ∧
      readRare 79 E62 ⟨symm62.tokens, [("a", ⟨[], .const (.int 5)⟩)]⟩ = .ok (rules', st'') ∧
      checkRare rules [.op .equals [.const (.int 2), .const (.int 1)]] [[.op .equals [.const (.int 1), .const (.int 2)]]]
        [.const (.str "symm"), .const (.int 1), .const (.int 2)] = .ok () ∧
      checkRare rules' [.op .equals [.const (.int 2), .const (.int 1)]] [[.op .equals [.const (.int 1), .const (.int 2)]]]
        [.const (.str "symm"), .const (.int 1), .const (.int 2)] = err := by
  let r' : RareDecl := { symm62 with
    premises := [.op .equals [.const (.int 5), .var "b" .int]]
    conclusion := .op .equals [.var "b" .int, .const (.int 5)] }
  have e : readRareRules 79 E62 ⟨symm62.tokens, [("a", ⟨[], .const (.int 5)⟩)]⟩ = .ok ([r'], ⟨[], [("a", ⟨[], .const (.int 5)⟩)]⟩) := by decide +kernel
  have e' : readRareRules 79 E62 ⟨symm62.tokens, []⟩ = .ok ([symm62], ⟨[], []⟩) := by decide +kernel
  refine ⟨fun h => ?_, rareRules [symm62], ⟨[], []⟩, rareRules [r'], ⟨[], [("a", ⟨[], .const (.int 5)⟩)]⟩, ?_, ?_, by decide +kernel, by decide +kernel⟩
  · have := h 79 E62 _ symm62 ⟨rfl, rfl⟩ (fun p hp => ?_) writable62.1 (by decide +kernel) _ _ e
    · revert this
      decide +kernel
    · rw [List.mem_singleton.1 hp]
      exact fun _ => rfl
  · rw [readRare, reader_bind e']
    rfl
  · rw [readRare, reader_bind e]
    rfl

end Carcara
