# Formal model of the Carcara proof checker: design

Source under verification: `/repo` (ufmg-smite/carcara, pinned). The code is read as text; nothing is
built or run. All paths below are relative to `/repo/carcara/src` unless said otherwise.

## 1. Layout

* `lean/Verif/Spec/…`   – what is *meant*: values, interpretations, evaluation of terms, entailment of
  clauses, 0/1 assignments, stacks of maps, counting, etc. Nothing here mentions the checker.
* `lean/Verif/Model/…`  – the code, function by function; each definition cites file and lines.
* `lean/Verif/Lemmas/…` – helper lemmas.
* `lean/Verif/Props/…`  – the property theorems (named `c01_…`, `c02_…`), each next to an `example` showing a
  non-trivial concrete case in which the hypotheses hold, and, where the code violates the property, a
  concrete counterexample theorem (`…_fails`) next to a `…_partial` theorem.

## 2. Modelling conventions

* **Terms.** `Term` mirrors `ast/term.rs: enum Term`. Hash-consed `Rc<Term>` values of one pool are modelled
  by structural terms; that pointer equality is structural equality is itself property C27. Sorts are a
  separate inductive type `Srt` (in the code they are `Term::Sort`); terms that use a sort as a value are
  therefore not in the model.
* **Errors and panics.** Rule functions return `Res α = Except Fault α` with `Fault = err | panic`. Every
  `unwrap`, slice index, `assert!`, division, unsigned subtraction that can panic is an explicit `panic`.
  Error payloads are dropped (only the verdict matters).
* **Mutation.** `&mut` state becomes a returned value. Caches (`HashMap` memo tables) are dropped unless the
  property is about them. `IndexSet`/`IndexMap` become duplicate-free lists; `HashMap` iteration order is
  modelled as an arbitrary order where it matters (theorems quantify over it).
* **Integers.** `rug::Integer`/`Rational` are `Int`/`Rat`. `usize`/`u32`/`u64` are `Nat`; wrap-around is not
  modelled except where noted (subtractions that underflow are panics).
* **Timing, statistics, logging** are dropped.

## 3. Semantics (specification)

`Interp` gives a value domain `Val` (booleans, integers, reals, strings, bit-vectors, everything else), a
non-empty carrier for every sort (standard for Bool/Int/Real/BitVec), a value for each sorted variable, an
arbitrary function application, an arbitrary meaning of every operator for which the model has no fixed
meaning, and a choice function. Evaluation is total and classical. `let` is parallel, quantifiers range over
the carriers. A clause is satisfied if one literal evaluates to true. Boolean connectives are defined through
"is the value `true`", so most propositional rules need no typing hypothesis.

## 4. Properties

For each property: what is modelled, what is proved and how, what is missing or false. Names of theorems and their status are in
`MANIFEST.json`. "Refuted" means a theorem `…_fails` with a concrete input; what remains true is in a theorem `…_partial` next to it.

### The checker loop and proofs

* **C01 Acceptance means unsatisfiability.** Model/Checker (loop, `check_assume`, `check_discharge`), Model/RuleTable (the table from rule
  names to rules). Proved by induction over positions of the proof with the invariant "the clause of every checked command follows from
  the assumptions open there" for any rule table (`c01_refutation_partial`), and instantiated with the modelled table for proofs
  without anchor arguments (`c01_partial`). Refuted in the normal mode (greedy resolution) and in the elaborated mode (`la_generic`).
  Model/CheckerContext adds the context stack to the loop and the rows of the table for the rules that read it. `c01_contexts_partial`
  covers proofs with anchor arguments: the loop with the stack is simulated by the loop for an abstract rule table, and the conditions
  of C23 are asked of every context rule at every history of its context. `c01_contexts_fails` refutes the full claim in both modes:
  `Substitution::remove` forgets the names to be renamed but keeps the memo table, and `catch_up_cumulative` clones the outer
  substitution with its table. A variable declared by an inner anchor is then still replaced in terms that were looked up outside;
  premises valid in every model are refuted with `refl`, `bind`, `equiv2` and `resolution` only.
  Missing: rules not modelled.
* **C53 Checking is independent of the history of the context stack.** Lemmas/PlainSubst: an invariant of the stack under every history
  (push, pop, apply, apply_previous): what the map and the memo table say about terms without binders is the simultaneous replacement
  described by the anchors (Spec/PlainSubst). From it that the rules end alike with any two stacks (`c53_rules_partial`) and that the loop
  ends exactly as the loop that builds a new stack for every step (`c53_checker_partial`). Refuted in general: the stale memo table of C01,
  on a term without binders inside an anchor that declares an assigned variable again. Missing: terms with binders, for which the names
  chosen for bound variables depend on `should_be_renamed` and with it on the history.
* **C02, C03, C06.** `ProofIter` (ast/iter.rs) is an explicit stack machine. Its trace is shown to be the list of positions of the tree
  in document order; acceptance is shown to be equivalent to a condition at every position (`c03_check_iff`), from which the flag
  (C02) and the empty clause (C06) follow.
* **C04.** Model/ProofParser is `parse_proof` from raw commands (tokens and terms already parsed). It is shown equivalent to a grammar
  that says which written names denote which commands; from it, that references are to visible earlier commands.
* **C05.** Discharging and the `subproof` rule; entailment under the conditions for polyequality of C07.
* **C07.** Model/Polyeq (`mod_reordering`, `mod_nary`). Refuted: unary minus against n-ary minus, confusable integer and real
  literals, third arguments of quotients. Partial theorem for well-sorted terms without them; without condition in the elaborated mode.
* **C40 (no panics).** Panics are values of the model. `c40_loop_no_panic`: checking a parsed proof panics only if a rule panics on
  the arguments of a step or the comparison of an assumption does. `c40_rules_no_panic_partial`: of the 111 plain rows of the
  rule table, 107 do not panic on steps that are well-sorted, without division by a literal zero, without index arguments ≥ 2^64
  and without bit-vectors of width 0 (each condition is shown to be necessary by a panicking step).
  `c40_polyeq_no_panic_partial`: comparisons of terms without empty associative applications and zero divisions. Together:
  `c40_check_no_panic_partial` for the whole checker. Refuted: `forall_inst` (instantiation creates `(/ 1.0 0.0)`, which the
  comparison divides), `la_mult_pos`/`la_mult_neg` (non-comparison multiplied), `bitblast_equal` (integers) panic on such
  steps too; `parse_proof` (empty identifier), `drup`, `concat_cprop`. `Props/C40Pb.lean` covers the cutting planes rules, with the exact
  conditions under which they panic (`cp_division` on an empty premise, `cp_literal` on an empty conclusion, …), and the rules for
  pseudo-Boolean blasting, all of which panic on an empty conclusion and none on well-sorted ones otherwise. Not covered: rules outside the table model (`otherNames`,
  assumed not to panic in the theorem), the term parser.
* **C42.** Strict rules accept exactly the literally computed conclusion.

### Clauses and equality

* **C08, C09.** Model/Resolution: the generic collection, binary and greedy resolution, the argument variants. With pivots: exact
  characterisation. Greedy: refuted (tautological premises; returning pivots); partial theorem under conditions; RUP fallback proved
  sound and, in Props/C09, exact: it accepts if and only if unit propagation finds a conflict.
* **C10, C43, C44.** Model/Drup: `rup`, implied clauses, DRUP and DRAT with a database keyed by hashes; traversal order is a
  parameter. Soundness of drup without collision (refuted with), exactness w.r.t. unit propagation, independence of the order. drat is
  refuted for non-empty conclusions.
* **C11, C12, C13.** Rules of clausification.rs, tautology.rs, transitivity.rs, congruence.rs, extras.rs, one theorem per rule.
  `bfun_elim` (Model/BfunElim): the transformation is proved to end with an equivalent term for terms in which bound names cannot be
  confused; refuted with a binding list that repeats a name, which makes the substitution rename a variable to one that occurs free.
  `ite_intro`: sound for comparable terms, refuted with a quotient of three arguments (C07).
* **C14, C15.** Rewriting loops with their rounds; soundness of each round; termination by a measure. Arithmetic rules are refuted
  (integer `div` read as a fraction, `(div x x)`), with partial theorems for exact divisions.
* **C54.** `aci_simp` with its cache (Model/AciSimp). For the idempotent operators a value is described bit by bit (`Model.bitAt`, Lemmas/AciIdem),
  which is defined on applications to no arguments too and preserved by every entry of the cache, whatever operator made it. For the others:
  every operator is a monoid (`OpLaw`, Lemmas/AciLaw), the result is a normal form (`aciTerm_normal`, Lemmas/AciNormal) and its operands are all
  operands if none is repeated. Refuted: `(= (+ 1 1) 1)`, `(= (* 2 2) 2)`, `(= (concat a a b) (concat a b b))`, and, through the cache,
  `(= (* 1 2) (+ (* 1 2) 2))` are accepted.
* **C55.** `bind_let` with the notion of a sound end of a subproof from C53/C01 (`CloseSound`). The rule reads neither the anchor nor the assumptions.
  If the anchor only declares variables, their values can be chosen as the lets bind them, so the last step of the subproof equates the bodies. Refuted in
  general: an anchor `(:= x 1)` or an assumption `(= x 1)` gives `(= (let ((x 0)) x) (let ((x 0)) 1))`.
* **C56.** `rare_rewrite` (Model/Rare): matching, rebuilding, rewriting with a step counter, and the rule, for rules given as data (the parser of rule files
  is not modelled; a sort variable `@T` is an atomic sort with a flag). Rewriting: every round returns the term or a smaller one (`metaSize`), so it ends;
  its meaning is compared with the term in which lists are replaced by their elements (`Term.splice`, Spec/Rare). The rule: for formulas without binders
  the substitution is `Term.put` of C53, so `checkRare_iff` says exactly what is accepted. Refuted: the equations `(or) ~> true` and `(and) ~> false` are the
  wrong way round, and with `bool-or-false` and empty lists `(= (or false) true)` is accepted. A name in `:args` that is not declared and a `let` in a rule
  make the checker panic.
* **C16, C17.** `la_generic` step by step; Farkas combination over the reals. Refuted (strengthening applied to reals, and to integers
  with fractional coefficients); partial theorem under `FarkasOK`. `lia_generic` runs an external solver and is not modelled.
* **C18.** All `bitblast_*` rules for all widths, by induction on the width against Lean's `BitVec`.
* **C19.** All `pbblast_*` rules against Lean's `BitVec`; `n - 1` on unsigned numbers panics at 0, as in debug builds. A `pbbterm` is read as
  the vector of the bits equal to 1; the theorems assume that its arguments are 0 or 1, so no other reading matters. The sum of an accepted
  step is the value of the lower bits, as many as there are addends, so steps hold when the sums are complete; the code only demands that
  they are not too long (`c19_short_sum_fails`, `c19_sign_bit_twice_fails`). Also refuted: entries of a `pbbterm` beyond 32 bits, operands
  in which `z` is free, bits from `pbblast_bvand` (the choice term may be -1), single-bit rules on other integers than bits.
* **C20.** All cutting planes rules; printing of terms, which identifies literals, is a parameter. Refuted in ten ways, sound under
  conditions that are shown necessary.

* **C21.** `ast/evaluate.rs` in full (values, partial evaluation, every operator with its panics and `None`s). Refuted for ten operators by false
  accepted equalities; for all other operators, and for those on harmless arguments, values and sorts are preserved. The arithmetic of
  `rug` is that of ℤ and ℚ.

* **C46.** `checker/rules/strings.rs` in full. The meaning of the operators is a structure of equations (`Spec.StringTheory`) over interpretations
  whose regular expressions have languages (Mathlib's `Language`); a concrete interpretation shows that it can be satisfied. Proved without
  conditions for `re_unfold_neg_concat_fixed_prefix` and `…_suffix`; the length they compute is right for constants of one-byte characters only.
  Where a rule uses `polyeq`, the theorems assume that the terms of the step can be
  compared (see C05). Refuted: `concat_cprop_prefix` (variables are taken to differ from constants), `concat_cprop_suffix` (the second argument
  is taken for the last one), `string_decompose` (negative lengths, and the length of the second part), `re_unfold_neg` (captures `L`),
  `re_concat_unfold_pos` and `re_kleene_star_unfold_pos` (components are put into the language of the whole rest); the two `cprop` rules panic
  on empty parts. The refuted rules are proved for the remaining cases, except `re_kleene_star_unfold_pos`, where
  the component between the two others is always put into too small a language. In `re_unfold_pos_component` the Skolem terms are modelled with their quantified variables, as the code builds
  them.

### Binders and contexts

* **C22 – C26.** Quantifier rules, context rules, alpha-equivalence (Polyeq in alpha mode with its cache), substitution with renaming and its
  cache as a history, free variables with their cache. All refuted in general, with partial theorems.

### Data structures

* **C27.** Pools as a machine that allocates addresses; also layered pools of the parallel checker (refuted for `sort`).
* **C28, C29, C30.** Histories of operations against functions, counts, sublists.

### Parallel checking

* **C31.** The scheduler with its heap and hash sets; orders of both are parameters. Properties of every schedule that is produced; that one
  is produced is refuted (the witness needs the concrete binary heap, which is modelled too).
* **C32.** Workers as a relation (the abort flag is read at arbitrary times), merged in any order. Agreement up to two provisos, both
  shown necessary.
* **C33.** `ContextStack` with guards and counters as a transition system, any number of threads. `RwLock` by contract (no queueing
  of writers), sequentially consistent atomics; caches of substitutions are not in this model.

### Elaboration

* **C34.** Nodes are trees with addresses; nodes are the same iff addresses are. `proof_list_to_nodes` by recursion instead of its stack,
  `proof_nodes_to_list` iteration by iteration. Round trip by mutual induction over commands with the invariant that nodes have been
  written out where they were read. Context ids are lost (`c34_context_ids_fails`), nothing else is.
* **C35.** Uncrowding with and without rotation; orders of hash sets are parameters. Entailment for whatever is returned; acceptance by the
  checker under conditions; refuted: panics and rejected steps.
* **C36, C45.** Chains of `trans` and `eq_transitive`; acceptance of elaborated `eq_transitive` refuted.
* **C57.** `cong` and `eq_congruent` (Model/ElabCong follows `elaborator/congruence.rs` function by function; `seen_premises` is `dedup`). For `cong` every
  accepted step elaborates to accepted steps (`c57_cong`); if both sides are the same term the result is one `refl` step, shown accepted in every context
  separately (`c57_cong_refl`), since `refl` depends on the context. For `eq_congruent` the claim is refuted by
  `(cl (not (= a b)) (not (= b a)) (= (k a a) (k b b)))`: resolution removes `(not (= a b))`, but the clause given for the step keeps it. The exact condition
  (no equality that is turned around is there in the other direction) is proved sufficient and necessary.
* **C58.** `elaborator/polyeq.rs` without a context, and its caller for assumptions (Model/ElabPolyeq; the memory of finished pairs and the identifiers are
  modelled, the `Polyeq` that is kept between comparisons is not). Lemmas/ElabPolyeqReord shows that the comparison decides a relation `Reord` on terms
  without division by zero; Lemmas/ElabPolyeq shows by induction on the size of the terms that the elaborator produces accepted steps, with `bind` and
  `bind_let` subproofs. `Spec.Accepted` extends `Spec.Derived` by `refl` steps that hold in every context and by subproofs. N-ary applications at the root: a
  `nary_elim` step is produced that is accepted exactly for `+`, `-`, `*` and `=>`, and only from the n-ary to the nested form; so an assumption `(and p q r)`
  of the premise `(and (and p q) r)` is always elaborated into a rejected step. Also refuted: two differing arguments of a left-associative operator (the
  premises of `cong` come in the wrong order), literals in different notations in elaborated mode, and panics in six cases (`c58_panics`). Missing from the
  positive theorems: n-ary applications below the root, and the terms that `elaborable` excludes. Not modelled: the elaborator with a context (used by the
  passes for `refl`, `forall_inst` and others).
* **C59.** `elaborator/resolution.rs` (Model/ElabResolution; two premises are the same node if they are equal, where the code compares addresses). The
  proof (Lemmas/ElabResolution) relates the state of greedy resolution after each premise to the clause that resolution with the recorded arguments has
  reached (`Mid'`, `greedyLoop_trace`), for premises without tautologies in which no literal comes back after its complement. Result: the arguments are
  accepted exactly if there is one for each premise after the first and no literal is taken out twice. Refuted in general by eleven small steps that the
  checker accepts: eight are elaborated into rejected steps, and for three the elaborator panics. Tracing does not change the outcome of greedy
  resolution (`greedyResolution_untraced`), so steps that the checker accepts by greedy resolution are elaborated without an error (`c59_found`).
* **C60.** The part of `lia_generic.rs` and `hole.rs` that inserts a solver's proof (Model/ElabSolver); the solver, its problem and the check of its
  proof are not modelled, so the theorems take the forest of nodes as given. `Spec.Closes` says that the rule `subproof` accepts the closing step and that
  no assumption of that depth is left. Nodes have no outbound premises in the model; the extra steps of subproofs are searched for assumptions instead,
  which finds the same ones. Proved for every conclusion: the resolution step is accepted without arguments (by `c09_rup_exact`, whatever the literals
  are). Refuted: an assumption made twice or only equal up to reordering is not discharged; for `hole`, unused or reordered literals, and the closing
  step gets the name of the solver's step `t1`; after elaboration, conclusions with two literals for one atom.
* **C61.** The pass `elaborate_polyeq` (Model/ElabPolyeqPass) without the renaming of bound variables, which is a parameter (`alpha`). From C58: the
  equality proved by `elaborateEq` is accepted; the steps around it (`equiv1`, `resolution`, `trans`, `symm`, `refl` in a context) are checked against
  their rules. That the checker compares in one direction and the elaborator in the other needs that the comparison is symmetric and transitive, which is
  proved for terms whose literals have one notation (Lemmas/ReordEquiv) and false otherwise (`c61_literals_fails`). For terms without binders comparison
  modulo renaming is comparison without (Lemmas/PolyeqPlain), so that `refl` needs no hypothesis about it. `Spec.AcceptedIn` is `Accepted` for steps
  inside anchors. Refuted: a subproof that ends in an assumption or a subproof; clashes of names.
* **C37.** The reordering pass on trees of nodes; refuted for contraction and resolution steps with implicit reasoning.
* **C41.** `IdHelper` histories; distinctness refuted in general, proved for the calling pattern of the elaborator.

### Printing and lexing

* **C38.** `slice.rs` as a fold over the visits of the proof iterator. Maps are association lists, `to_keep` is filled level by level as
  the breadth first search does; that a step is visited twice makes no difference to the map. An overflow is a panic, as in debug builds.
  The theorem needs identifiers used once, steps that close the enclosing subproofs without premises, and a distance below the largest
  one; without each of them the property is refuted, as is the one about assumptions that come after a step. References to discharged
  assumptions are copied unchanged, which is refuted separately because the property does not mention them.
* **C39.** `parser/lexer.rs` as a function on lists of characters (lines and positions left out) and `ast/printer.rs` without sharing.
  Integers and rationals read back; symbols and strings read back under conditions that are proved to be exact. Refuted: symbols such as
  `|-5|`, strings that contain escape sequences, rule names and first discharged assumptions that need bars. Terms and steps are covered
  down to their tokens, in both modes for constants; anchors, definitions and the prelude are not. Of the lexer alone: the values of hexadecimal
  and binary literals, reserved words, comments and white space.

### Parsing terms

`Model/TermParser.lean` follows the functions of `parser/mod.rs` that read terms, sorts and clauses: lists of tokens in, terms out. Symbol tables are
association lists; definitions are part of the state because `:named` adds to them. Recursion is on a step counter. Panics (`unwrap`, indices,
`to_usize`) are values. Not modelled (a fault of its own, `unmodelled`, so that no theorem speaks about them): `(as const …)`, the sort `Type`,
bindings whose sort is a bit vector of unknown width, signs and underscores after `bv`, substitution into ill-sorted terms.

* **C48.** An invariant of all thirteen mutually recursive readers, in a small program logic for readers (`Ensures`). The cases of lets and
  definitions need that substitution preserves sorts, which is `c25_sort`. Refuted in general: a bit vector `(@bv v n)` whose width is not a
  literal has a sort with a parameter, which is taken to equal every sort, so `(not (@bv 0 n))` is accepted.
  Sorts: declared sorts have the declared number of arguments, and definitions of sorts are replaced (`Lemmas/TermParserReadSort.lean`).
* **C47.** By induction on terms, with two statements: the tokens of a term are read as the term, and those of a compound term also from after the
  opening parenthesis (heads of applications are read that way). `Known` says what the names in a term have to mean to the parser. Refuted in
  general; the worst case is that in a problem of a logic with reals only, `(/ 1.0 2.0 r)` is read as the constant 1/2. `c47_fraction` and
  `c47_fraction_unambiguous` say when a quotient of two numerals is read as a constant (only in lowest terms), `c47_bound_variable` and
  `c47_free_variable` what a name means below a binding list.
* **C49.** Termination: a relation between readers with different step counters (`Refines`), and a logic that counts tokens (`Suffices`). Panics
  are refuted with inputs such as `(_ bvx 8)`, `@d`, `(_ BitVec -1)` and the application of a defined function whose body contains a let.
  That calm input (`Spec/TermParserCalm.lean`) causes no panic is proved with a third logic (`Calmly`, `Lemmas/TermParserPanic.lean`): every term that
  is read is well sorted and has a sort that the pool can compute, so that the `unwrap`s of `make_op` and `compute_sort` succeed, and a definition
  that is looked up twice is found the second time because definitions are only added.

* **C50.** From `c25_substitution_partial`: what the parser substitutes is a map from parameters to arguments, so the value of the result is that of
  the body where the parameters have the values of the arguments. For an expanded let the theorem compares with the let that the same tokens are
  read as when lets are kept. Refuted in general, because the new name of a bound variable can be one that is used in the body. Annotations:
  attributes are given as data (`Attribute`), written as tokens, and shown to be skipped or to define the name; what is skipped is a list of tokens
  with matching parentheses (`Balanced`).

### Problems and proofs (`Model/FileParser.lean`)

`parse_problem` and `parse_proof` from tokens: declarations, definitions, assertions, `set-logic`; commands of proofs with their attributes, anchors with
arguments, scopes. Symbol tables are association lists with the innermost declaration first; leaving a scope restores the table from before. Sorts in
`declare-datatype` and the like are not modelled because the code skips these commands too. Files of rewrite rules (`Model/RareParser.lean`) are read in
the symbol tables that the problem and the proof leave behind; type variables in them are not modelled (`unmodelled`).

* **C51.** One direction: each reader of a command is proved (`Ensures`, as for C48) to do what `parseCommand` of C04 does to the stack of frames, so
  that the theorems of C04 hold of texts. Other direction: induction over the grammar of C04 (`Parses.read`), with the symbol table of each scope.
  `c01_text_partial` combines this with C01: from the tokens of a problem and of a proof to unsatisfiability.
* **C52.** `write_proof` without sharing (`Model/ProofPrinter.lean`), to characters; the loop uses the iterator of C04 to look up the names of
  references. Proof: what the loop writes is one line for each position (`printLoop_visits`); each line lexes to the tokens of C51 (`reads_command`);
  and the tree is what the grammar makes of commands whose references are written as the names of the commands they denote (`parseProof_rename`).
  Refuted in general by four proofs that are read, written, and read differently or not at all; the most serious is that `:discharge (h1)` in step
  `t1` may be `t1.h1`, which is written `:discharge (t1.h1)` and may be `t1.t1.h1` when read again.
* **C62.** The logics of C48 and C49 (`Ensures`, `Suffices`, `Refines`, `Calmly`) applied to the readers of rules (`Lemmas/RareParser.lean`,
  `Lemmas/RareParserPanic.lean`), and the read-back lemma of C47 for the terms of a rule, in the symbol table of its parameters and of those of all rules
  before it. With `c56_rare_first_order_partial` this gives soundness from the text of the rules (`c62_sound_partial`). Refuted: names in `:args` are not
  checked, parameters stay declared after their rule, and definitions of the problem or the proof come before parameters. That the name of a parameter is also a sort for
  later parameters, `c62_param_sort`, was added after a wrong program without it went unnoticed.
* **C63.** The text of a problem is read twice, with and without `apply_function_defs`, and the two lists of premises are compared by their models. The
  lemma behind it (`Lemmas/Expansion.lean`) reads the tokens of a term in which defined constants are variables, in an environment that knows them as
  definitions, and says which term comes out (`expandsTo`) and that it has the same value if the constants have the values of their bodies
  (`eval_expanded`). `Lemmas/ExpansionProblem.lean` goes through the commands; from a model of the expanded problem a model of the text is made by giving
  the constants these values. Refuted in general: definitions are looked up before bound variables and their bodies are not renamed, so a satisfiable
  problem can have an accepted refutation (`c63_refuted_fails`). The hypothesis `Term.Fresh` of the partial theorems excludes exactly this: no name that
  is already declared or defined is bound.
* **C64.** `Model/SolverProblem.lean` writes the text of `hole.rs` to characters: the declarations of the problem, and the negation of each literal of the
  clause (repeated neighbours once). Numbers are written in the strict mode of the printer, so that `-1` becomes `(- 1)` and `1/2` a division;
  `Term.standard` says which term this is, and `eval_standard` that it has the same value. `Lemmas/SolverProblemText.lean` shows that the text has the
  expected tokens and what is read from them. The text is read with the options of `hole.rs` (`solverEnv`), among them `expand_lets`; for this the
  lemmas about printed terms (C47) no longer assume that `let` is kept, unless a term contains `let`. Refuted in general by four steps: with a defined
  name, inside an anchor, under a logic with a space in its name, and with names that are declared twice; in the last case the text is even
  unsatisfiable although the clause is not valid.
* **C65.** `Model/SharedPrinter.lean` is the printer with `use_sharing`. Which terms are shared is decided in the code by `Rc::strong_count` and
  `is_closed`; the model takes any function for this, which may depend on the terms that have names, so the theorem holds whatever is counted. A term
  gets its number before its subterms are printed, but the reader defines the name after it has read them; `Knows65` says that in between only
  smaller terms can be looked up, which is enough because a term is not part of itself. `Lemmas/SharedText.lean` goes from tokens to characters.
  Refuted in general by a declared symbol `@p_0`; by a shared lambda term that is applied, since its name is a definition without parameters and
  `(@p_0 2)` is an error; and by `p_0`, which nothing reserves, in a problem for `lia_generic`.
* **C66.** `Model/LiaProblem.lean` is the text that `elaborator/lia_generic.rs` writes, with names that go from one assertion to the next. The
  declarations are as in C64, the literals as in C65; in the strict mode a negative number or a fraction is read as an
  operator applied to numbers (`Term.standard`), which has the same value. Refuted in general by a declared symbol `p_0`: the clause `(or a b)`, `(not p_0)` becomes an unsatisfiable text, so that a solver's
  correct proof would replace a step with an invalid conclusion. The printer's comment says that the prefix was changed from `@p_` because SMT-LIB
  reserves symbols that begin with `@`; that is what made the clash possible for a legal input.
* **C67.** `Model/SliceFiles.lean` is what `cli/src/main.rs` writes for `slice` (C38): the declarations as in C64, an assertion for each assumption, and
  the proof as in C52 with an empty line after it. The assertions are written in strict mode, the proof is not, so `0.5` is `(/ 1.0 2.0)` in the problem
  and `1/2` in the proof, and these are two terms. Refuted for that reason: a proof that is accepted with the granularity `elaborated` has a slice that is
  rejected, because there an assumption must be a premise. With the normal granularity `Polyeq` identifies the two terms: by
  induction over the comparison (`Lemmas/AssumeStandard.lean`) every term is taken for its standard form if no left-associative operator has a single
  argument, so the files are accepted with the result of the slice (`c67_checked_partial`), unless comparing with another premise panics.
* **C68.** `Model/LiaInstances.lean` is the loop of `lib.rs` over the proof and the text for each step, which is that of C66 without the first line and
  without `(get-proof)`. Which steps are met is derived from what the iterator returns (`visits_start`); that ids differ, from the grammar of C04. Which
  terms are shared may be another choice for each step. Refuted for steps in subproofs: an error is logged, no problem is written, and the exit code is
  that of success. The clash with a declared `p_0`, C66, is there as well, but not if sharing is turned off (`c68_unshared`): then
  the printer with sharing is the printer (`printShared_none`), and the text is that of C67 for the negated literals.

### Not modelled at all

Command-line front end, rewrite rules with type variables (their parser; C56 covers their use), external solvers (what hole
elaboration writes for them is C64, what is done with their proofs is C60; for `lia_generic` it is C66), benchmarking, error message text, performance.

## 5. Trusted base

* The Lean 4.33.0 kernel and Mathlib's definitions of the number systems.
* Axioms: only `propext`, `Classical.choice`, `Quot.sound` (checked with `#print axioms` by the gate).
* That the Lean definitions say what the cited Rust lines do (checked by reading and by mutation testing,
  `seeded/LOG.jsonl`), and the SMT-LIB semantics as written in `Verif/Spec`.
