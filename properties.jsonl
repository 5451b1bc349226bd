{"id": "C01", "title": "Acceptance means unsatisfiability", "statement": "If `check` (sequential, default configuration) returns Ok(false) for a problem and a proof, then no interpretation satisfies all assertions of the problem.", "quantifier": "every problem, every proof, every interpretation of the declared symbols", "why_tests_cant": "The set of proofs and of interpretations is infinite; a test shows that one proof of one unsatisfiable problem is accepted, never that no proof of any satisfiable problem is.", "anchors": ["carcara/src/lib.rs: check", "carcara/src/checker/mod.rs: ProofChecker::check_impl", "carcara/src/checker/shared.rs: check_step_core, check_assume_shared, get_rule_shared", "carcara/src/resolution.rs: greedy_resolution"]}
{"id": "C02", "title": "The holey flag is never lost", "statement": "If `check` returns Ok(b) then b is true exactly when the proof contains a step whose rule is `hole`, `lia_generic`, listed in `allowed_rules`, or unknown (with ignore_unknown_rules); in particular Ok(false) means every single step was actually verified by its rule.", "quantifier": "every proof tree of any nesting, every configuration", "why_tests_cant": "The flag is accumulated over a traversal of arbitrarily nested subproofs; tests only see particular shapes.", "anchors": ["carcara/src/checker/shared.rs: check_step_core", "carcara/src/checker/mod.rs: check_impl"]}
{"id": "C03", "title": "Every command of an accepted proof has been checked", "statement": "The traversal used by the checker visits every command of the proof, at every nesting depth, exactly once and in document order, each with the right scope; hence an accepted proof contains no unchecked step, also below steps that conclude the empty clause.", "quantifier": "every command tree of any depth and width", "why_tests_cant": "Arbitrary nesting and arbitrary position of subproofs.", "anchors": ["carcara/src/ast/iter.rs: ProofIter", "carcara/src/checker/mod.rs: check_impl"]}
{"id": "C04", "title": "Premise references cannot leave their scope", "statement": "A premise (depth, index) of a visited step resolves to a command that lies in one of the enclosing subproofs at exactly that depth and index; a reference to an assumption or step of a closed subproof can never be resolved to that command.", "quantifier": "every proof tree, every position of the traversal, every reference", "why_tests_cant": "Quantifies over all histories of opened and closed subproofs.", "anchors": ["carcara/src/ast/iter.rs: ProofIter::get_premise", "carcara/src/parser/mod.rs: parse_proof", "carcara/src/utils.rs: HashMapStack"]}
{"id": "C05", "title": "Local assumptions are always discharged", "statement": "If a subproof is accepted then every assumption that is a direct command of it is named in the `:discharge` of its closing step, and the `subproof` rule's conclusion contains the negation of each of them; so the conclusion is entailed by the enclosing scope alone.", "quantifier": "every subproof, every list of assumptions and discharges, every interpretation", "why_tests_cant": "Entailment and all nestings.", "anchors": ["carcara/src/checker/shared.rs: check_discharge_shared", "carcara/src/checker/rules/subproof.rs: subproof"]}
{"id": "C06", "title": "Acceptance needs the empty clause at top level", "statement": "`check` returns Ok only if some step that is at depth zero once its own subproof is closed concludes the empty clause; if no such step exists the result is DoesNotReachEmptyClause, even when empty clauses are derived under local assumptions.", "quantifier": "every proof tree", "why_tests_cant": "Arbitrary trees and positions.", "anchors": ["carcara/src/checker/mod.rs: check_impl"]}
{"id": "C07", "title": "Assumptions come from the problem", "statement": "A top-level `assume` is accepted only if its term has the same truth value as one of the problem's assertions in every interpretation.", "quantifier": "every list of assertions, every assumed term, every interpretation", "why_tests_cant": "Semantic equivalence over all terms accepted by the modulo-reordering, modulo-n-ary comparison.", "anchors": ["carcara/src/checker/shared.rs: check_assume_shared", "carcara/src/ast/polyeq.rs: Polyeq"]}
{"id": "C08", "title": "Resolution with pivots is sound", "statement": "If `resolution`/`strict_resolution`/`th_resolution` with pivot arguments accepts, then every interpretation satisfying all premise clauses satisfies the conclusion clause.", "quantifier": "every list of premise clauses, every pivot list, every conclusion, every interpretation", "why_tests_cant": "All clause sets and models.", "anchors": ["carcara/src/checker/rules/resolution.rs: resolution_with_args, strict_resolution, apply_generic_resolution"]}
{"id": "C09", "title": "Resolution without pivots is sound", "statement": "If `resolution`/`th_resolution` without arguments accepts, then every interpretation satisfying all premise clauses satisfies the conclusion clause.", "quantifier": "every list of premise clauses, every conclusion, every interpretation", "why_tests_cant": "The greedy pivot search has exponentially many behaviours; tests cover a handful.", "anchors": ["carcara/src/resolution.rs: greedy_resolution, rup_resolution", "carcara/src/checker/rules/resolution.rs: resolution"]}
{"id": "C10", "title": "Reverse unit propagation is sound", "statement": "If `rup_resolution`/`drup` style unit propagation derives a conflict for the negated goal clause, every interpretation satisfying the clauses satisfies the goal; this holds for every sequence of added and deleted lemmas.", "quantifier": "every clause database, every lemma/deletion history, every order of propagation", "why_tests_cant": "All histories of additions, deletions and watch-list moves.", "anchors": ["carcara/src/drup.rs", "carcara/src/resolution.rs", "carcara/src/checker/rules/drup.rs", "carcara/src/checker/rules/resolution.rs: rup_resolution"]}
{"id": "C11", "title": "Clause-manipulation rules are sound", "statement": "contraction, weakening, reordering/shuffle, tautology, or/and introduction and elimination style rules never conclude a clause that is not entailed by their premise.", "quantifier": "every premise clause, every conclusion clause, every interpretation", "why_tests_cant": "All clauses and models.", "anchors": ["carcara/src/checker/rules/resolution.rs: contraction, tautology", "carcara/src/checker/rules/extras.rs: reordering, weakening"]}
{"id": "C12", "title": "CNF introduction and elimination rules are sound", "statement": "Every rule of the tautology and clausification families (true, false, not_not, and_pos, …, equiv_neg2, ite_*, distinct_elim, …) accepts only conclusions valid in every interpretation satisfying its premises.", "quantifier": "every conclusion, premise, argument list and interpretation; all arities", "why_tests_cant": "n-ary connectives of every arity, all index arguments, all models.", "anchors": ["carcara/src/checker/rules/tautology.rs", "carcara/src/checker/rules/clausification.rs"]}
{"id": "C13", "title": "Equality and congruence rules are sound", "statement": "eq_reflexive, eq_symmetric, symm, not_symm, trans, eq_transitive, cong, eq_congruent, eq_congruent_pred and ho_cong accept only entailed conclusions, in any orientation and order of the premises.", "quantifier": "every list of premise equalities, every term, every interpretation", "why_tests_cant": "All chains, all arities, all interpretations of the function symbols.", "anchors": ["carcara/src/checker/rules/transitivity.rs", "carcara/src/checker/rules/congruence.rs", "carcara/src/checker/rules/extras.rs", "carcara/src/checker/rules/reflexivity.rs"]}
{"id": "C14", "title": "Boolean simplification rules are sound", "statement": "and_simplify, or_simplify, not_simplify, implies_simplify, equiv_simplify, bool_simplify, ite_simplify, eq_simplify, ac_simp accept an equality only if both sides have the same value in every interpretation; their rewriting loop terminates.", "quantifier": "every pair of terms, every interpretation", "why_tests_cant": "Repeated rewriting from arbitrary terms.", "anchors": ["carcara/src/checker/rules/simplification.rs"]}
{"id": "C15", "title": "Arithmetic simplification rules are sound", "statement": "sum_simplify, prod_simplify, minus_simplify, unary_minus_simplify, div_simplify, comp_simplify, poly_simp accept an equality only if both sides have the same value in every interpretation (with SMT-LIB `div`, `mod`, `/`).", "quantifier": "every pair of terms, every interpretation", "why_tests_cant": "All integer and rational constants, all term shapes.", "anchors": ["carcara/src/checker/rules/simplification.rs", "carcara/src/checker/rules/polynomial.rs", "carcara/src/ast/term.rs: as_fraction"]}
{"id": "C16", "title": "Farkas reasoning is sound", "statement": "If `la_generic` accepts a clause with the given coefficients, the clause is true in every interpretation over the integers and reals.", "quantifier": "every clause of linear literals, every coefficient list, every assignment of the variables", "why_tests_cant": "Unbounded numbers of literals, arbitrary rational coefficients, infinitely many assignments.", "anchors": ["carcara/src/checker/rules/linear_arithmetic.rs: la_generic, LinearComb"]}
{"id": "C17", "title": "Linear arithmetic lemmas are sound", "statement": "la_rw_eq, la_disequality, la_totality, la_tautology, la_mult_pos, la_mult_neg, lia/lra tautologies accept only valid clauses.", "quantifier": "every term, constant and interpretation", "why_tests_cant": "All numbers.", "anchors": ["carcara/src/checker/rules/linear_arithmetic.rs"]}
{"id": "C18", "title": "Bit-blasting is correct for every width", "statement": "If a bitblast_* rule (value, var, and, or, xor, xnor, not, ult, slt, add, mult, neg, equal, comp, extract, concat, sign_extend) accepts (= t res), then for every assignment of the bits, the bits of res are the bits of t.", "quantifier": "every bit width, every number of arguments, every bit assignment", "why_tests_cant": "All widths; exhaustive testing is limited to a few bits.", "anchors": ["carcara/src/checker/rules/bitvectors.rs"]}
{"id": "C19", "title": "Pseudo-Boolean blasting is correct for every width", "statement": "If a pbblast_* rule accepts, the bit-vector predicate and the pseudo-Boolean constraint are equivalent for every assignment.", "quantifier": "every bit width and every bit assignment", "why_tests_cant": "All widths and assignments.", "anchors": ["carcara/src/checker/rules/pb_blasting.rs"]}
{"id": "C20", "title": "Cutting planes steps are sound", "statement": "cp_addition, cp_multiplication, cp_division, cp_saturation, cp_literal and cp_normalize accept only pseudo-Boolean constraints implied, over 0/1 assignments, by their premises.", "quantifier": "every constraint with arbitrarily many literals and arbitrarily large coefficients, every 0/1 assignment", "why_tests_cant": "Unbounded coefficients and numbers of literals.", "anchors": ["carcara/src/checker/rules/cutting_planes.rs"]}
{"id": "C21", "title": "Constant evaluation agrees with SMT-LIB", "statement": "If the `evaluate` rule accepts (= t v), then t and v have the same value under the SMT-LIB semantics of the operators (Euclidean div/mod, two's complement bit-vectors).", "quantifier": "every ground term, all integers, all widths", "why_tests_cant": "Unbounded integers and widths.", "anchors": ["carcara/src/ast/evaluate.rs"]}
{"id": "C22", "title": "Quantifier rules are sound", "statement": "forall_inst, qnt_join, qnt_rm_unused, qnt_simplify, qnt_cnf, miniscope_* accept only conclusions valid in every interpretation.", "quantifier": "every term, binding list, instantiation and interpretation", "why_tests_cant": "Arbitrary nested binders and shadowing.", "anchors": ["carcara/src/checker/rules/quantifier.rs"]}
{"id": "C23", "title": "Context rules are sound", "statement": "refl, bind, let, onepoint, sko_ex, sko_forall under an anchor context conclude only equalities that are valid in the enclosing context.", "quantifier": "every context stack, every term, every interpretation", "why_tests_cant": "Nested contexts, shadowing, substitutions.", "anchors": ["carcara/src/checker/rules/subproof.rs", "carcara/src/checker/rules/reflexivity.rs", "carcara/src/ast/context.rs"]}
{"id": "C24", "title": "Alpha-equivalence implies semantic equality", "statement": "If two terms compare equal modulo renaming of bound variables (and optionally modulo reordering of equalities), they have the same value in every interpretation.", "quantifier": "every pair of terms with arbitrarily nested binders and lets, every interpretation", "why_tests_cant": "Arbitrary nesting, shadowing, binding-list lengths.", "anchors": ["carcara/src/ast/polyeq.rs"]}
{"id": "C25", "title": "Substitution is capture avoiding", "statement": "Applying a substitution to a term yields a term whose value in any interpretation equals the value of the original term in the interpretation updated with the values of the substituted terms.", "quantifier": "every term with arbitrary binders, every substitution, every interpretation", "why_tests_cant": "Variable capture depends on arbitrary combinations of names.", "anchors": ["carcara/src/ast/substitution.rs: Substitution::apply, rename_binding_list"]}
{"id": "C26", "title": "Free variables are complete", "statement": "If a variable is not reported among the free variables of a term, changing its value does not change the value of the term.", "quantifier": "every term, every variable, every pair of interpretations differing on it", "why_tests_cant": "All terms and models.", "anchors": ["carcara/src/ast/pool/mod.rs: free_vars"]}
{"id": "C27", "title": "Hash-consed equality is structural equality", "statement": "For terms obtained from the same pool by any sequence of `add` calls, pointer equality coincides with structural equality; adding a term never changes the identity of earlier terms.", "quantifier": "every sequence of additions to the pool", "why_tests_cant": "All histories.", "anchors": ["carcara/src/ast/pool/storage.rs: Storage::add", "carcara/src/ast/rc.rs", "carcara/src/ast/pool/mod.rs: PrimitivePool::add"]}
{"id": "C28", "title": "Scoped symbol tables behave like a stack of maps", "statement": "For every sequence of push_scope, insert, pop_scope on a scoped map, lookup returns the most recent binding in the innermost still open scope that has one; popping restores exactly the bindings visible before the push.", "quantifier": "every operation history, every key", "why_tests_cant": "All histories.", "anchors": ["carcara/src/utils.rs: HashMapStack"]}
{"id": "C29", "title": "Multisets count", "statement": "For every history of insertions and removals the multiset reports the exact multiplicity of every element; symmetric difference is empty exactly when both multisets are equal.", "quantifier": "every operation history and element", "why_tests_cant": "All histories.", "anchors": ["carcara/src/utils.rs: MultiSet"]}
{"id": "C30", "title": "Deduplication keeps the first occurrences", "statement": "dedup returns a sublist without duplicates containing each distinct element of the input, in order of first occurrence.", "quantifier": "every list", "why_tests_cant": "All lists.", "anchors": ["carcara/src/utils.rs: Dedup"]}
{"id": "C31", "title": "Parallel scheduling covers the proof exactly once", "statement": "For every proof and every number of workers, every step and assume of the proof is placed in the load of exactly one worker, and each worker's load, when replayed, visits its commands inside the subproofs they belong to, with matching opening and closing.", "quantifier": "every proof tree, every number of workers", "why_tests_cant": "All trees and worker counts.", "anchors": ["carcara/src/checker/parallel/scheduler.rs: Scheduler::new, ScheduleIter"]}
{"id": "C32", "title": "Parallel and sequential verdicts agree", "statement": "For every interleaving of the worker threads the parallel checker accepts a proof exactly when the sequential checker does, with the same holey flag.", "quantifier": "every proof, every number of workers, every thread schedule", "why_tests_cant": "Interleavings cannot be enumerated by tests.", "anchors": ["carcara/src/checker/parallel/mod.rs", "carcara/src/checker/mod.rs"]}
{"id": "C33", "title": "Shared contexts live exactly as long as they are used", "statement": "In the parallel checker a shared context is created before its first use, is the same for all workers, and is dropped only after its last user has left it, whatever the interleaving.", "quantifier": "every usage vector and every interleaving of push/pop", "why_tests_cant": "Interleavings.", "anchors": ["carcara/src/ast/context.rs: ContextStack::push_with_id, pop"]}
{"id": "C34", "title": "List/graph proof representations are inverse", "statement": "Converting a proof from its command list to the node graph and back yields a proof with the same commands, ids, clauses, rules and premise references.", "quantifier": "every proof tree", "why_tests_cant": "All trees and sharing patterns.", "anchors": ["carcara/src/ast/node.rs: proof_list_to_nodes, proof_nodes_to_list"]}
{"id": "C35", "title": "Uncrowded resolution steps still check", "statement": "The chain of resolution/contraction/weakening/reordering steps produced by the uncrowding elaboration derives the original clause from the original premises.", "quantifier": "every accepted resolution step", "why_tests_cant": "All clause sets and pivot orders.", "anchors": ["carcara/src/elaborator/uncrowding.rs"]}
{"id": "C36", "title": "Elaborated transitivity chains are ordered", "statement": "The premises produced by elaborating a trans/eq_transitive step, after the reported flips, form an ordered chain from the left to the right of the conclusion.", "quantifier": "every list of equalities", "why_tests_cant": "All permutations and orientations.", "anchors": ["carcara/src/elaborator/transitivity.rs: find_and_trace_chain"]}
{"id": "C37", "title": "Removing reorderings preserves clauses as multisets", "statement": "The reordering-elimination pass returns for every step a clause that is a permutation of the original conclusion.", "quantifier": "every resolution/weakening/contraction step with permuted premises", "why_tests_cant": "All permutations.", "anchors": ["carcara/src/elaborator/reordering.rs"]}
{"id": "C38", "title": "Slicing keeps the step", "statement": "slicing a proof at a step returns a proof in which that step occurs with its rule, clause and premises, every premise reference points to a kept command with the right clause, and all kept top-level assumptions are among the new problem's assertions.", "quantifier": "every proof, every step id, every distance", "why_tests_cant": "All proofs and distances.", "anchors": ["carcara/src/slice.rs"]}
{"id": "C39", "title": "Printed symbols, strings and numbers read back", "statement": "Lexing the printed form of a symbol, string literal or numeric literal yields the same token.", "quantifier": "every string and number", "why_tests_cant": "All strings.", "anchors": ["carcara/src/ast/printer.rs: quote_symbol, escape_string", "carcara/src/parser/lexer.rs: Lexer::next_token"]}
{"id": "C40", "title": "Checking never panics", "statement": "For every parsed problem and proof, checking returns Ok or Err; no rule implementation panics (index out of bounds, unwrap on None, division by zero, arithmetic underflow).", "quantifier": "every step of every parsed proof", "why_tests_cant": "All inputs.", "anchors": ["carcara/src/checker/rules/*", "carcara/src/ast/evaluate.rs", "carcara/src/drup.rs"]}
{"id": "C41", "title": "Elaborator step ids are unique", "statement": "The identifiers generated for new steps while elaborating one step are pairwise distinct and have the original id as proper prefix, for every sequence of next/push/pop.", "quantifier": "every operation sequence", "why_tests_cant": "All sequences.", "anchors": ["carcara/src/elaborator/mod.rs: IdHelper"]}
{"id": "C42", "title": "Strict mode accepts no more than normal mode", "statement": "A resolution/reflexivity step accepted under the `elaborated` configuration derives an entailed clause also when checked independently; strict_refl, strict_resolution accept only steps whose conclusion is literally determined by premises and arguments.", "quantifier": "every step and configuration", "why_tests_cant": "All steps.", "anchors": ["carcara/src/checker/rules/resolution.rs: strict_resolution", "carcara/src/checker/rules/reflexivity.rs: strict_refl"]}
{"id": "C43", "title": "Verdict of drup/drat is independent of hash-map order", "statement": "Checking the same `drup`/`drat` step twice gives the same verdict, although the clause database is a `std::collections::HashMap` whose traversal order is randomised per process.", "quantifier": "every step, every two traversal orders at every lemma", "why_tests_cant": "The order is random; a test observes one order per run.", "anchors": ["carcara/src/drup.rs: rup, get_implied_clause, check_drat, check_drup"]}
{"id": "C44", "title": "drat is sound", "statement": "If a `drat` step is accepted, every interpretation satisfying the premises satisfies the conclusion; in particular a `drat` refutation shows that the premises are unsatisfiable.", "quantifier": "every premise list, every lemma/deletion history, every conclusion, every interpretation", "why_tests_cant": "RAT lemmas are only equisatisfiable; whether that leaks into a conclusion depends on the whole history.", "anchors": ["carcara/src/drup.rs: check_drat, check_drup", "carcara/src/checker/rules/drup.rs: drup"]}
{"id": "C45", "title": "Elaborated transitivity steps are accepted", "statement": "Elaborating an accepted `trans` or `eq_transitive` step succeeds, and the steps it produces are each accepted by their rule and derive the clause of the original step from the same premises.", "quantifier": "every accepted step, every premise order and orientation, both checker modes", "why_tests_cant": "Repeated, turned around and unneeded equalities interact with the set semantics of resolution; tests only meet the combinations that solvers happen to print.", "anchors": ["carcara/src/elaborator/transitivity.rs: trans, eq_transitive, flip_eq_transitive_premises", "carcara/src/elaborator/mod.rs: add_symm_step"]}
{"id": "C46", "title": "String rules are sound", "statement": "In every interpretation of the SMT-LIB theory of strings, the conclusion of an accepted step by one of the rules in `strings.rs` follows from its premises.", "quantifier": "every step (conclusion, premises, arguments) that the rule accepts, every interpretation of the theory", "why_tests_cant": "The rules compare and cut strings of any length, with variables between the constants; tests only contain the steps cvc5 happens to print, and wrong accepted steps never appear in them.", "anchors": ["carcara/src/checker/rules/strings.rs: concat_eq, concat_unify, concat_conflict, concat_csplit_prefix, concat_split_prefix, concat_lprop_prefix, concat_cprop_prefix, concat_cprop_suffix, string_decompose, string_length_pos, string_length_non_empty", "carcara/src/checker/rules/strings.rs: re_inter, re_kleene_star_unfold_pos, re_concat_unfold_pos, re_unfold_neg, re_unfold_neg_concat_fixed_prefix, re_unfold_neg_concat_fixed_suffix, str_fixed_len_re"]}
{"id": "C47", "title": "Printed terms are read back", "statement": "A term that was read and is printed is read again as the same term; so printing loses nothing, and two different terms are never printed alike.", "quantifier": "every term, every symbol table and configuration, every continuation of the text", "why_tests_cant": "The round trip depends on the interaction of every operator with every declared or defined name, renamed bound variables and special cases for literals; tests only print the terms that proofs happen to contain.", "anchors": ["carcara/src/ast/printer.rs: write_raw_term, write_id, write_annotated_step", "carcara/src/parser/mod.rs: parse_term, parse_application, parse_binder, parse_let_term, parse_indexed_operator, parse_sort, make_op, interpret_div_as_real_lit", "carcara/src/parser/lexer.rs: next_token"]}
{"id": "C48", "title": "Accepted terms are well sorted", "statement": "Every term that the parser accepts has a sort in the sort system of SMT-LIB, and every literal of a clause that it accepts has sort Bool.", "quantifier": "every list of tokens, every symbol table with well-sorted definitions, every configuration without integer/real subtyping", "why_tests_cant": "Each operator has its own checks, and the exceptions for sorts with parameters apply to all of them; tests contain well-sorted terms, and the few ill-sorted ones they reject.", "anchors": ["carcara/src/parser/mod.rs: make_op, make_app, make_indexed_op, parse_term, parse_application, parse_binder, parse_let_term, parse_clause, FunctionDef::apply", "carcara/src/parser/error.rs: SortError, assert_num_args, assert_indexed_op_args_value", "carcara/src/ast/pool/mod.rs: compute_sort"]}
{"id": "C49", "title": "The parser of terms ends with a term or an error", "statement": "On every list of tokens the parser of terms ends, after a number of calls that is linear in the number of tokens, and it ends with a term or an error, not with a panic.", "quantifier": "every list of tokens, well formed or not, every symbol table and configuration", "why_tests_cant": "Panics and loops sit in malformed inputs that no solver prints.", "anchors": ["carcara/src/parser/mod.rs: parse_term, parse_application, parse_indexed_operator, make_indexed_op, make_indexed_sort, make_op, FunctionDef::apply", "carcara/src/ast/pool/mod.rs: compute_sort", "carcara/src/ast/substitution.rs: apply"]}
{"id": "C50", "title": "Definitions, lets and annotations mean what they should", "statement": "A defined function applied to arguments is read as a term whose value is that of the body with the values of the arguments for the parameters; a let that is expanded is read as a term with the value of the let; an annotated term is read as the term, and a name given by :named is read as that term afterwards.", "quantifier": "every definition, every list of arguments, every let, every list of attributes, every interpretation and assignment", "why_tests_cant": "Expansion goes through capture-avoiding substitution with renaming; tests rarely apply a definition whose body binds a variable that occurs in an argument, and cannot compare values in every interpretation.", "anchors": ["carcara/src/parser/mod.rs: FunctionDef::apply, parse_application, parse_let_term, parse_annotated_term, ignore_until_close_parens, make_sort", "carcara/src/ast/substitution.rs: apply"]}
{"id": "C51", "title": "Proof texts are read as the proofs they show", "statement": "The parser accepts a proof text only if it shows a proof: a tree of commands in which every reference is to a visible command before it and every literal of every command is a formula. The text of a proof, with definitions of constants, subproofs and anchor arguments, is read as that proof.", "quantifier": "every list of tokens, every symbol table with well-sorted definitions; every proof tree whose terms can be written", "why_tests_cant": "Scopes of names and of variables interact with subproofs of any depth; tests contain a handful of proof shapes.", "anchors": ["carcara/src/parser/mod.rs: parse_proof, parse_step_command, parse_assume_command, parse_anchor_command, parse_anchor_argument, parse_define_fun, parse_function_dec, ignore_remaining_attributes, parse_instance_with_pool"]}
{"id": "C52", "title": "A proof that is written is read as the same proof", "statement": "If a proof is read and written again, then the text that is written is read as the same proof: the same definitions, commands, references and subproofs.", "quantifier": "every proof that was read from any text; every symbol table", "why_tests_cant": "References are written as names and names are resolved again in the scope of each command; whether another command is found depends on all names that are visible, and definitions are moved to the front.", "anchors": ["carcara/src/ast/printer.rs: write_proof, write_step, quote_symbol", "carcara/src/parser/mod.rs: parse_proof, parse_step_command, parse_discharge_premise"]}
{"id": "C53", "title": "The verdict on a step does not depend on the steps checked before it", "statement": "What a rule that reads the context (refl, bind, let, onepoint, sko_ex, sko_forall) says about a step depends only on the step and on the anchors around it: the substitutions that the context stack computes on demand, hands on to inner contexts and memoises never show. In particular the checker ends on a proof as it would if every step were checked with a newly built context.", "quantifier": "all anchors, all histories of the context stack (pushes, pops and applications in any order), all steps; all parsed proofs", "why_tests_cant": "A stale memo entry shows only for particular sequences of steps and anchors; tests run rules with a freshly built stack.", "anchors": ["carcara/src/ast/context.rs:149-241", "carcara/src/ast/substitution.rs:102-149", "carcara/src/ast/substitution.rs:190-272", "carcara/src/checker/rules/reflexivity.rs:10-71", "carcara/src/checker/rules/subproof.rs:261-437"]}
{"id": "C54", "title": "aci_simp: flattening, dropping neutral elements and repeated operands", "statement": "If aci_simp accepts (= l r) then l and r have the same value in every model: flattening nested applications of and, or, +, *, bvadd, bvmul, bvand, bvor, bvxor and concat, removing the neutral element and removing repeated operands does not change a value. What is computed for a side is the application of its operator to its distinct operands other than the neutral element; applications with the same such operands are accepted; no sorted clause makes the rule panic.", "quantifier": "all equalities between sorted terms, all models", "why_tests_cant": "The rule is wrong only when an operand is repeated under an operator that is not idempotent, or when a term occurs on both sides under different operators; the tests of the project use neither.", "anchors": ["carcara/src/checker/rules/simplification.rs:742-886", "carcara/src/utils.rs:28-65"]}
{"id": "C55", "title": "bind_let: congruence under let", "statement": "If bind_let accepts (= (let bs u) (let bs' u')) as the end of a subproof, then the conclusion follows from the premises and from what the subproof has shown, whatever the anchor and the assumptions of the subproof. The rule never panics, it accepts exactly lets with the same names whose different values are equated by premises in order, and the bodies have to be the two sides of the last step of the subproof.", "quantifier": "all anchors, assumptions, premises, previous clauses and conclusions; all models", "why_tests_cant": "The rule does not look at the anchor, so it is wrong only for anchors or assumptions that no proof producer writes; the project tests use the anchor that fits.", "anchors": ["carcara/src/checker/rules/extras.rs:113-157"]}
{"id": "C56", "title": "rare_rewrite: instances of user-supplied rules", "statement": "If all user-supplied rewrite rules are valid, where list parameters stand for any number of arguments, then every step that rare_rewrite accepts is entailed by its premises. Rewriting an instance by the five built-in equations always ends and does not change its meaning; terms to which no equation applies are not changed; an instance whose arguments have the sorts of the parameters is accepted; no step makes the rule panic.", "quantifier": "all lists of rules, all steps, all terms, all models", "why_tests_cant": "The equations for empty conjunctions and disjunctions are used only when all lists in an application are empty; termination depends on terms the rewriting builds itself.", "anchors": ["carcara/src/rare/mod.rs:8-224", "carcara/src/checker/rules/rare.rs:11-97", "carcara/src/ast/rare_rules.rs:102-138", "carcara/src/ast/substitution.rs:67-100"]}
{"id": "C57", "title": "Elaborated congruence steps are accepted", "statement": "Elaborating a cong or eq_congruent step that the checker accepts does not fail or panic, keeps the clause of the step, and gives steps that are accepted and derive the clause from the same premises.", "quantifier": "all accepted cong and eq_congruent steps, with any number of premises, repeated or turned around", "why_tests_cant": "The elaboration of eq_congruent takes care of repeated premises and of premises that are turned around; what goes wrong needs the same equality in both directions in one clause.", "anchors": ["carcara/src/elaborator/congruence.rs:10-383", "carcara/src/elaborator/mod.rs:273-307", "carcara/src/checker/rules/congruence.rs:6-210"]}
{"id": "C58", "title": "Elaborated assumptions are derived from the premises of the problem", "statement": "For an assumption that the checker accepts because it equals a premise of the problem up to the order of equalities, the notation of literals and n-ary expansion, elaboration does not panic, and gives accepted steps that derive the assumption from that premise.", "quantifier": "all assumptions and lists of premises, with terms of any depth", "why_tests_cant": "The elaborator builds a proof by recursion over two terms, with cases for swapped equalities at every level, quantifiers, let bindings and n-ary applications; most combinations are rare, and some end in todo!() or unreachable!().", "anchors": ["carcara/src/elaborator/polyeq.rs:7-487", "carcara/src/elaborator/mod.rs:203-251", "carcara/src/ast/polyeq.rs:83-560", "carcara/src/checker/rules/clausification.rs:198-264"]}
{"id": "C59", "title": "Elaborated resolution steps are accepted", "statement": "Elaborating a resolution step without arguments that the checker accepts does not fail or panic, keeps the clause of the step, and gives steps that are accepted in elaborated mode and derive the clause from the same premises: the pivots and polarities that greedy resolution records are accepted as arguments.", "quantifier": "all accepted resolution and th_resolution steps, any number of premises, literals with any number of negations", "why_tests_cant": "Greedy resolution works on sets with marks and looks at the conclusion; the check with arguments removes literals from clauses one premise after another. They agree on ordinary steps and differ when a pivot is reused, a premise takes no pivot, or a literal comes back.", "anchors": ["carcara/src/elaborator/resolution.rs:4-146", "carcara/src/resolution.rs:67-227", "carcara/src/checker/rules/resolution.rs:8-203", "carcara/src/elaborator/mod.rs:176-201"]}
{"id": "C60", "title": "Solver proofs are inserted as accepted subproofs", "statement": "Where the elaborator puts the proof found by a solver in place of a lia_generic or hole step, the result has the conclusion and depth of the step, the inserted subproof is closed by a step that the checker accepts and that discharges all assumptions of the solver's proof, and every step that leads from the subproof to the conclusion is accepted, also after the resolution step has been elaborated.", "quantifier": "all solver proofs of the empty clause from negated literals of the conclusion, all conclusions, depths and step names", "why_tests_cant": "Tests need a solver, and solvers usually assume every literal once and in order; unused, repeated and reordered assumptions and conclusions with related literals do not come up.", "anchors": ["carcara/src/elaborator/lia_generic.rs:149-295", "carcara/src/elaborator/hole.rs:163-269", "carcara/src/ast/node.rs:118-190", "carcara/src/checker/rules/subproof.rs:9-48", "carcara/src/checker/shared.rs:145-164"]}
{"id": "C61", "title": "Steps that use equality modulo reordering are elaborated into accepted steps", "statement": "If the checker accepts a subproof, ite_intro, bfun_elim, forall_inst or refl step because it compares terms modulo reordering of equalities, the elaborator does not panic on it and puts in its place a proof of the same clause at the same depth whose steps are all accepted in elaborated mode, under names that no other step has.", "quantifier": "all accepted steps of these five rules, all contexts, all preceding commands", "why_tests_cant": "The positions in which two terms differ by a reordered equality are unbounded; literals written in two ways, subproofs that end in an assumption or in another subproof, and clashes of step names need proofs that solvers seldom write.", "anchors": ["carcara/src/elaborator/mod.rs:146-175", "carcara/src/elaborator/subproof.rs:4-50", "carcara/src/elaborator/tautology.rs", "carcara/src/elaborator/clausification.rs", "carcara/src/elaborator/quantifiers.rs", "carcara/src/elaborator/reflexivity.rs"]}
{"id": "C62", "title": "Rewrite rules are read as the file declares them", "statement": "A file of rewrite rules is read as the rules it declares: a rule has the parameters, premises and conclusion of its declaration, its terms are well sorted, what they mention is a parameter of the rule or declared in the problem, and definitions made elsewhere do not change it. Reading any file ends without a panic, and steps that use the rules that were read do not make the checker panic.", "quantifier": "all files of rewrite rules, all problems and proofs read before them, all steps that use the rules", "why_tests_cant": "Rule files are written by users and read in the state that the problem and the proof leave behind, so what a rule means depends on names in three files; tests use a few rule files with names that do not clash.", "anchors": ["carcara/src/parser/rare/mod.rs:21-156", "carcara/src/parser/mod.rs:91-98", "carcara/src/checker/rules/rare.rs:11-97"]}
{"id": "C63", "title": "Expanding definitions does not change what a problem means", "statement": "With the option apply_function_defs a defined name is replaced by its body where it is read; without it the name is declared and asserted to be equal to its body. The two problems that are read from the same text are satisfiable together, so a refutation of the expanded problem refutes what the text says.", "quantifier": "all problem texts that are read both with and without expansion; all models", "why_tests_cant": "The two readings differ only when a name is both defined, or used in a definition, and bound by a quantifier where the definition is used; tests use one setting and names that do not clash, and a wrong premise is not visible in a verdict.", "anchors": ["carcara/src/parser/mod.rs:734-820", "carcara/src/parser/mod.rs:1328-1350", "carcara/src/parser/mod.rs:1775-1790", "cli/src/main.rs:114-121"]}
{"id": "C64", "title": "The problem given to a solver for a step says the negation of the step's clause", "statement": "For a step that is elaborated with a solver, a problem is written with the declarations of the original problem and the negation of each literal of the clause. This text is read again, and it has a model exactly if the clause is not valid; so a refutation of it, which is put in the place of the step, proves the clause.", "quantifier": "all problems and proofs that are read, all steps, all models", "why_tests_cant": "The text is only seen by the solver. A text that says something else is noticed only if the solver's verdict changes and the inserted proof is then rejected; tests use a handful of clauses over declared constants.", "anchors": ["carcara/src/elaborator/hole.rs:39-70", "carcara/src/elaborator/hole.rs:142-161", "carcara/src/ast/printer.rs:33-67", "carcara/src/ast/printer.rs:587-607"]}
{"id": "C65", "title": "Terms printed with sharing are read as themselves", "statement": "With sharing, a term that is used more than once is printed as (! t :named @p_i) where it is printed first, and as @p_i afterwards. Whatever terms are shared, terms that are printed one after the other are read as the same terms.", "quantifier": "all sequences of terms, all choices of shared subterms (nested ones included), all environments in which the terms can be read", "why_tests_cant": "Which terms are shared depends on reference counts of the term pool, and numbers are given before the inner terms are printed; the tests have five steps with one shared term each, and no symbol of the problem is called like a shared term.", "anchors": ["carcara/src/ast/printer.rs:44-142", "carcara/src/ast/printer.rs:298-369", "carcara/src/parser/mod.rs:1461-1501"]}
{"id": "C66", "title": "The problem given to a solver for lia_generic, with sharing, says the negation of the clause", "statement": "For a step with the rule lia_generic, the text that is given to a solver declares the symbols of the problem and asserts the negation of each literal, where a term that is used more than once is written (! t :named p_i) and then called by that name, also in later assertions. Whatever terms are shared, the text is read again, and it has a model exactly if the clause is not valid.", "quantifier": "all problems and proofs that are read, all steps of the proof, all choices of shared subterms", "why_tests_cant": "Elaborating lia_generic needs an external solver, and no test does it; which terms are shared depends on reference counts, and a clash of a name with a symbol of the problem shows only for problems that use such a symbol.", "anchors": ["carcara/src/elaborator/lia_generic.rs:39-59", "carcara/src/elaborator/lia_generic.rs:128-147", "carcara/src/ast/printer.rs:44-62", "carcara/src/ast/printer.rs:416-424"]}
{"id": "C67", "title": "The two files that are written for a slice belong together", "statement": "The command slice writes a problem, with an assertion for each assumption at the front of the sliced proof, and the sliced proof. Whatever step is sliced, both texts are read again, the proof as the sliced proof, and each assumption is among the premises of the problem.", "quantifier": "all problems and proofs that are read, all ids and distances", "why_tests_cant": "The problem is written in strict mode and the proof is not, so they differ only for negative numbers and fractions; a test of slice would have to read both files again, with such numbers, and compare.", "anchors": ["cli/src/main.rs:676-735", "carcara/src/ast/printer.rs:64-88", "carcara/src/slice.rs:330-354"]}
{"id": "C68", "title": "The problems written for lia_generic steps cover these steps", "statement": "The command generate-lia-problems writes one problem for each step with the rule lia_generic, named by the id of the step. No two problems have the same name, every such step has one, and each can be read and has a model exactly if the clause of the step is not valid.", "quantifier": "all problems and proofs that are read, all choices of shared subterms", "why_tests_cant": "No test runs this command; that a step is missing, or that one file is written over another, shows only by comparing the files with the steps of the proof.", "anchors": ["carcara/src/lib.rs:281-327", "cli/src/main.rs:737-752", "carcara/src/ast/iter.rs:46-103", "carcara/src/ast/printer.rs:44-62"]}
