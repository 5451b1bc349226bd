{
 "claims": [
  {
   "property": "C01",
   "status": "partial",
   "theorems": [
    "Carcara.c01_refutation_partial",
    "Carcara.c01_partial",
    "Carcara.c01_elaborated_partial",
    "Carcara.c01_fails",
    "Carcara.c01_elaborated_fails",
    "Carcara.c01_contexts_partial",
    "Carcara.c01_contexts_fails",
    "Carcara.c01_text_partial"
   ],
   "note": "c01_refutation_partial: whatever the rule table, an accepted proof is a refutation if every step is locally sound in its scope (SoundSteps), for all proofs with subproofs and anchors; c01_partial instantiates it with the modelled rule table (81 rules without conditions, resolution, drup and subproof with conditions) for proofs without anchor arguments. c01_text_partial states it for texts: a problem and a proof given as tokens. c01_contexts_partial adds the rules that use the context (refl, bind, let, sko_*, onepoint) and the context stack to the loop, for proofs with anchor arguments. The full claim is false in both modes: c01_fails (greedy resolution), c01_elaborated_fails (la_generic). c01_contexts_fails: with the context rules a satisfiable set of premises is refuted in both modes through a stale memo table of the substitution."
  },
  {
   "property": "C02",
   "status": "proved",
   "theorems": [
    "Carcara.c02_holey_iff",
    "Carcara.c02_not_holey_verified"
   ],
   "note": "For every proof whose subproofs have at least two commands and end with a step, which is what the parser produces."
  },
  {
   "property": "C03",
   "status": "proved",
   "theorems": [
    "Carcara.c03_iterator",
    "Carcara.c03_every_step_checked",
    "Carcara.c03_every_assume_checked",
    "Carcara.c03_check_iff"
   ],
   "note": "Iterator enumerates the positions in document order; acceptance is equivalent to a condition at every position."
  },
  {
   "property": "C04",
   "status": "proved",
   "theorems": [
    "Carcara.c04_get_premise",
    "Carcara.c04_premise_in_scope",
    "Carcara.c04_parse_iff_grammar",
    "Carcara.c04_parse_wf",
    "Carcara.c04_parse_describes",
    "Carcara.c04_names_unique",
    "Carcara.c04_parse_scoped"
   ],
   "note": "Both halves: the parser resolves every written reference to the command with that name that is visible at that point (grammar equivalence), and the iterator fetches that command."
  },
  {
   "property": "C05",
   "status": "partial",
   "theorems": [
    "Carcara.c05_assumptions_discharged",
    "Carcara.c05_closed_by_subproof",
    "Carcara.c05_conclusion_has_negations",
    "Carcara.c05_subproof_sound_partial",
    "Carcara.c05_scope_partial"
   ],
   "note": "Discharge of every direct assumption, the shape of subproof conclusions, and their soundness; the soundness part assumes terms on which assert_polyeq is sound (Compatible)."
  },
  {
   "property": "C06",
   "status": "proved",
   "theorems": [
    "Carcara.c06_empty_clause",
    "Carcara.c06_no_empty_clause"
   ],
   "note": ""
  },
  {
   "property": "C07",
   "status": "partial",
   "theorems": [
    "Carcara.c07_assume_partial",
    "Carcara.c07_assume_elaborated",
    "Carcara.c07_polyeq_partial",
    "Carcara.c07_comparison_total",
    "Carcara.c07_unary_minus_fails",
    "Carcara.c07_numerator_fails",
    "Carcara.c07_quotient_fails"
   ],
   "note": "False of the code (three c07_..._fails witnesses). Proved for well-sorted terms without unary minus, third quotient arguments and confusable integer/real literals; unconditional under the elaborated configuration."
  },
  {
   "property": "C08",
   "status": "proved",
   "theorems": [
    "Carcara.c08_resolution_with_args",
    "Carcara.c08_strict_resolution",
    "Carcara.c08_resolution",
    "Carcara.c08_resolution_with_args_exact"
   ],
   "note": "All inputs of resolution_with_args, strict_resolution and resolution with a non-empty argument list."
  },
  {
   "property": "C09",
   "status": "partial",
   "theorems": [
    "Carcara.c09_resolution_fails",
    "Carcara.c09_resolution_two_premises_fails",
    "Carcara.c09_resolution_partial",
    "Carcara.c09_resolution_two_premises_partial",
    "Carcara.c09_rup",
    "Carcara.c09_rup_terminates",
    "Carcara.c09_rup_exact",
    "Carcara.c09_rup_weaker"
   ],
   "note": "The full claim is false of the code (c09_resolution_fails, c09_resolution_two_premises_fails). The partial theorems assume that no premise is tautological and that no pivot returns; the RUP fallback is sound unconditionally, and accepts exactly if unit propagation finds a conflict (c09_rup_exact)."
  },
  {
   "property": "C10",
   "status": "proved",
   "theorems": [
    "Carcara.c10_drup",
    "Carcara.c10_rup_complete",
    "Carcara.c10_collision_fails"
   ],
   "note": "Soundness of drup for every history and traversal order, assuming no hash collision with the conclusion (c10_collision_fails shows the assumption is needed); the engine is also shown to decide unit propagation exactly."
  },
  {
   "property": "C11",
   "status": "proved",
   "theorems": [
    "Carcara.c11_contraction",
    "Carcara.c11_tautology",
    "Carcara.c11_reordering",
    "Carcara.c11_reordering_exact",
    "Carcara.c11_weakening",
    "Carcara.c11_weakening_exact",
    "Carcara.c11_and_intro"
   ],
   "note": "contraction, tautology, reordering, shuffle (c13_shuffle), weakening and and_intro; or/and elimination rules are covered by C12."
  },
  {
   "property": "C12",
   "status": "partial",
   "theorems": [
    "Carcara.c12_not_not",
    "Carcara.c12_xor_pos1",
    "Carcara.c12_xor_pos2",
    "Carcara.c12_xor_neg1",
    "Carcara.c12_xor_neg2",
    "Carcara.c12_implies_pos",
    "Carcara.c12_implies_neg1",
    "Carcara.c12_implies_neg2",
    "Carcara.c12_ite_pos1",
    "Carcara.c12_ite_pos2",
    "Carcara.c12_ite_neg1",
    "Carcara.c12_ite_neg2",
    "Carcara.c12_ite1",
    "Carcara.c12_ite2",
    "Carcara.c12_not_ite1",
    "Carcara.c12_not_ite2",
    "Carcara.c12_xor1",
    "Carcara.c12_xor2",
    "Carcara.c12_not_xor1",
    "Carcara.c12_not_xor2",
    "Carcara.c12_implies",
    "Carcara.c12_not_implies1",
    "Carcara.c12_not_implies2",
    "Carcara.c12_true",
    "Carcara.c12_false",
    "Carcara.c12_and_pos",
    "Carcara.c12_or_neg",
    "Carcara.c12_and_neg",
    "Carcara.c12_or_pos",
    "Carcara.c12_and",
    "Carcara.c12_not_or",
    "Carcara.c12_or",
    "Carcara.c12_not_and",
    "Carcara.c12_equiv_pos1",
    "Carcara.c12_equiv_pos2",
    "Carcara.c12_equiv_neg1",
    "Carcara.c12_equiv_neg2",
    "Carcara.c12_equiv1",
    "Carcara.c12_equiv2",
    "Carcara.c12_not_equiv1",
    "Carcara.c12_not_equiv2",
    "Carcara.c12_connective_def",
    "Carcara.c12_distinct_elim",
    "Carcara.c12_nary_elim",
    "Carcara.c12_bfun_elim_term_partial",
    "Carcara.c12_bfun_elim_partial",
    "Carcara.c12_bfun_elim_fails",
    "Carcara.c12_ite_intro_partial",
    "Carcara.c12_ite_intro_fails"
   ],
   "note": "every rule of tautology.rs and clausification.rs. ite_intro and bfun_elim compare terms modulo reordering, and bfun_elim substitutes; both are refuted in general and proved for comparable terms, the latter for terms in which bound names cannot be confused"
  },
  {
   "property": "C13",
   "status": "proved",
   "theorems": [
    "Carcara.c13_eq_reflexive",
    "Carcara.c13_trans",
    "Carcara.c13_eq_transitive",
    "Carcara.c13_cong",
    "Carcara.c13_ho_cong",
    "Carcara.c13_eq_congruent",
    "Carcara.c13_eq_congruent_pred",
    "Carcara.c13_symm",
    "Carcara.c13_not_symm",
    "Carcara.c13_eq_symmetric",
    "Carcara.c13_shuffle"
   ],
   "note": "All rules of transitivity.rs and congruence.rs, and eq_reflexive, symm, not_symm, eq_symmetric, shuffle."
  },
  {
   "property": "C14",
   "status": "proved",
   "theorems": [
    "Carcara.c14_ite_simplify",
    "Carcara.c14_eq_simplify",
    "Carcara.c14_not_simplify",
    "Carcara.c14_implies_simplify",
    "Carcara.c14_equiv_simplify",
    "Carcara.c14_bool_simplify",
    "Carcara.c14_and_simplify",
    "Carcara.c14_or_simplify",
    "Carcara.c14_ac_simp",
    "Carcara.c14_rewriting_terminates",
    "Carcara.c14_loop_terminates"
   ],
   "note": "ite_simplify, eq_simplify, not_simplify, implies_simplify, equiv_simplify, bool_simplify, and_simplify, or_simplify and ac_simp accept only valid equalities, and the rewriting loops terminate within the modelled number of rounds. qnt_simplify is counted under C22."
  },
  {
   "property": "C15",
   "status": "partial",
   "theorems": [
    "Carcara.c15_minus_simplify",
    "Carcara.c15_mod_simplify",
    "Carcara.c15_div_simplify_partial",
    "Carcara.c15_sum_simplify_partial",
    "Carcara.c15_prod_simplify_partial",
    "Carcara.c15_comp_simplify_partial",
    "Carcara.c15_poly_simp_partial",
    "Carcara.c15_poly_simp_rel_partial",
    "Carcara.c15_comp_rewriting_terminates",
    "Carcara.c15_comp_loop_terminates",
    "Carcara.c15_div_simplify_fails",
    "Carcara.c15_prod_simplify_fails",
    "Carcara.c15_sum_simplify_fails",
    "Carcara.c15_comp_simplify_fails",
    "Carcara.c15_poly_simp_fails",
    "Carcara.c15_poly_simp_rel_fails"
   ],
   "note": "minus_simplify and mod_simplify proved; div_simplify, sum_simplify, prod_simplify, comp_simplify, poly_simp and poly_simp_rel refuted in general (integer div read as an exact fraction, (div x x) = 1) and proved under the hypothesis that divisions of constants are exact / denominators are non-zero; termination of comp_simplify's loop proved"
  },
  {
   "property": "C16",
   "status": "partial",
   "theorems": [
    "Carcara.c16_la_generic_partial",
    "Carcara.c16_la_generic_int_fails",
    "Carcara.c16_la_generic_real_fails",
    "Carcara.c16_la_generic_fails"
   ],
   "note": "The full claim is false (refuted for integers with fractional coefficients and for reals); sound for the clauses described by FarkasOK."
  },
  {
   "property": "C17",
   "status": "partial",
   "theorems": [
    "Carcara.c17_la_rw_eq",
    "Carcara.c17_la_disequality",
    "Carcara.c17_la_totality",
    "Carcara.c17_la_tautology_partial",
    "Carcara.c17_la_mult_pos",
    "Carcara.c17_la_mult_neg",
    "Carcara.c17_la_tautology_fails"
   ],
   "note": "la_rw_eq, la_disequality, la_totality, la_mult_pos, la_mult_neg proved. la_tautology is refuted in general (as_fraction reads (div 1 2) as 1/2) and proved for exact divisions. lia_generic calls an external solver and is not modelled."
  },
  {
   "property": "C18",
   "status": "proved",
   "theorems": [
    "Carcara.c18_value",
    "Carcara.c18_var",
    "Carcara.c18_and",
    "Carcara.c18_or",
    "Carcara.c18_xor",
    "Carcara.c18_add",
    "Carcara.c18_mult",
    "Carcara.c18_xnor",
    "Carcara.c18_not",
    "Carcara.c18_neg",
    "Carcara.c18_ult",
    "Carcara.c18_slt",
    "Carcara.c18_equal",
    "Carcara.c18_comp",
    "Carcara.c18_extract",
    "Carcara.c18_concat",
    "Carcara.c18_sign_extend"
   ],
   "note": "All 17 bitblasting rules are modelled and proved sound for every width, argument count and model, against an evaluation of bit-vector terms over Lean's BitVec."
  },
  {
   "property": "C19",
   "status": "partial",
   "theorems": [
    "Carcara.c19_sums",
    "Carcara.c19_bveq_partial",
    "Carcara.c19_bvult_partial",
    "Carcara.c19_bvugt_partial",
    "Carcara.c19_bvuge_partial",
    "Carcara.c19_bvule_partial",
    "Carcara.c19_bvslt_partial",
    "Carcara.c19_bvsgt_partial",
    "Carcara.c19_bvsge_partial",
    "Carcara.c19_bvsle_partial",
    "Carcara.c19_pbbvar",
    "Carcara.c19_pbbconst_partial",
    "Carcara.c19_bvxor_partial",
    "Carcara.c19_bvand_partial",
    "Carcara.c19_bvxor_ith_bit_partial",
    "Carcara.c19_bvand_ith_bit_partial",
    "Carcara.c19_short_sum_fails",
    "Carcara.c19_fails",
    "Carcara.c19_sign_bit_twice_fails",
    "Carcara.c19_wrapping_fails",
    "Carcara.c19_xor_capture_fails",
    "Carcara.c19_and_capture_fails",
    "Carcara.c19_and_bit_fails",
    "Carcara.c19_bvxor_ith_bit_fails",
    "Carcara.c19_bvand_ith_bit_fails",
    "Carcara.c19_panics"
   ],
   "note": "All pbblast rules are modelled. Proved for every width and model: pbbvar without conditions; equality and unsigned comparisons when the sums have an addend for every bit, signed comparisons when they have one for every bit but the sign bit, and in general that accepted sums are the lower bits; pbbconst for entries below 2^31; bvxor, bvand and the rules for single bits when bits are 0 or 1 and z is not free in the operands. Refuted without each of these conditions."
  },
  {
   "property": "C20",
   "status": "partial",
   "theorems": [
    "Carcara.c20_addition_partial",
    "Carcara.c20_multiplication_partial",
    "Carcara.c20_division_partial",
    "Carcara.c20_saturation_partial",
    "Carcara.c20_literal_partial",
    "Carcara.c20_normalize_partial",
    "Carcara.c20_addition_fails",
    "Carcara.c20_addition_duplicate_fails",
    "Carcara.c20_addition_names_fails",
    "Carcara.c20_multiplication_fails",
    "Carcara.c20_division_fails",
    "Carcara.c20_saturation_fails",
    "Carcara.c20_saturation_constant_fails",
    "Carcara.c20_saturation_clause_fails",
    "Carcara.c20_literal_fails",
    "Carcara.c20_normalize_unary_fails",
    "Carcara.c20_normalize_double_fails",
    "Carcara.c20_normalize_real_fails"
   ],
   "note": "All six rules modelled; how terms are printed is a parameter. Sound over 0/1 assignments for any number of literals and any coefficients under conditions that are each shown to matter: cp_addition (no zero coefficient in the conclusion, literals occur once per sign and are printed apart), cp_multiplication (scalar not negative), cp_division (unit premise; truncating division proved harmless), cp_saturation (unit premise, no negative coefficients or constant), cp_literal (argument is 0 or 1), cp_normalize (integers, no unary minus, no double (- 1 (- 1 l))). Ten refutations of the unrestricted claims."
  },
  {
   "property": "C21",
   "status": "partial",
   "theorems": [
    "Carcara.c21_evaluate_partial",
    "Carcara.c21_evaluate_plain_partial",
    "Carcara.c21_div_fails",
    "Carcara.c21_mod_fails",
    "Carcara.c21_bvsub_fails",
    "Carcara.c21_bvsdiv_fails",
    "Carcara.c21_bvsrem_fails",
    "Carcara.c21_bvsmod_fails",
    "Carcara.c21_bvslt_fails",
    "Carcara.c21_sbv_to_int_fails",
    "Carcara.c21_sign_extend_fails",
    "Carcara.c21_extract_fails",
    "Carcara.c21_constant_fails",
    "Carcara.c21_fails"
   ],
   "note": "Refuted operator by operator (integer division and remainder, bvsub, signed bit-vector operators, sign_extend, extract, constants that do not fit): accepted equalities that are false in every model. Proved for all terms, widths and integers on which the defects do not matter, and for all terms without the defective operators."
  },
  {
   "property": "C22",
   "status": "partial",
   "theorems": [
    "Carcara.c22_qnt_join",
    "Carcara.c22_qnt_simplify",
    "Carcara.c22_miniscope_distribute",
    "Carcara.c22_qnt_rm_unused_partial",
    "Carcara.c22_qnt_cnf_partial",
    "Carcara.c22_miniscope_split_partial",
    "Carcara.c22_miniscope_ite_partial",
    "Carcara.c22_forall_inst_partial",
    "Carcara.c22_qnt_rm_unused_fails",
    "Carcara.c22_miniscope_split_fails",
    "Carcara.c22_miniscope_ite_fails",
    "Carcara.c22_qnt_cnf_fails",
    "Carcara.c22_forall_inst_fails",
    "Carcara.c22_full_fails"
   ],
   "note": "False in general for forall_inst, qnt_rm_unused, qnt_cnf, miniscope_split and miniscope_ite (c22_*_fails); each is proved under side conditions that exclude the defect. qnt_join, qnt_simplify and miniscope_distribute are sound without restriction."
  },
  {
   "property": "C23",
   "status": "partial",
   "theorems": [
    "Carcara.c23_context_partial",
    "Carcara.c23_context_previous_partial",
    "Carcara.c23_refl_partial",
    "Carcara.c23_strict_refl_partial",
    "Carcara.c23_bind_partial",
    "Carcara.c23_let_partial",
    "Carcara.c23_onepoint_partial",
    "Carcara.c23_sko_partial",
    "Carcara.c23_refl_fails",
    "Carcara.c23_bind_fails",
    "Carcara.c23_let_fails",
    "Carcara.c23_onepoint_fails",
    "Carcara.c23_sko_ex_fails",
    "Carcara.c23_sko_forall_fails",
    "Carcara.c23_full_fails"
   ],
   "note": "Refuted for every rule: anchors are not checked to be fresh or to have the form the rule needs. Proved for refl, strict_refl, bind, let, onepoint, sko_ex and sko_forall under anchors that do not interfere with each other; the conditions under which alpha-equivalence and substitution can be trusted are inherited from C24 and C25."
  },
  {
   "property": "C24",
   "status": "partial",
   "theorems": [
    "Carcara.c24_alpha_equiv_partial",
    "Carcara.c24_alpha_only_partial",
    "Carcara.c24_alpha_equiv_fails",
    "Carcara.c24_binding_lists_fails",
    "Carcara.c24_let_fails"
   ],
   "note": "The full claim is false of the code (c24_alpha_equiv_fails: cached comparison reused under a binder; c24_binding_lists_fails: binding lists of different lengths; c24_let_fails). Proved for well-sorted let-free terms in which no name is rebound or used both free and bound, with equally long binding lists at corresponding positions."
  },
  {
   "property": "C25",
   "status": "partial",
   "theorems": [
    "Carcara.c25_substitution_partial",
    "Carcara.c25_substitution_history_partial",
    "Carcara.c25_insert_map",
    "Carcara.c25_apply_map",
    "Carcara.c25_sort",
    "Carcara.c25_fresh_name",
    "Carcara.c25_substitution_fails",
    "Carcara.c25_substitution_let_fails",
    "Carcara.c25_remove_fails"
   ],
   "note": "Correct after any history of new, insert and apply, for well-sorted let-free terms whose bound names cannot be confused up to added quotes. The full claim is false of the code (c25_substitution_fails: a renamed bound variable captures; c25_substitution_let_fails: panic on let; c25_remove_fails: stale results after remove). Sorts are preserved for all terms (c25_sort)."
  },
  {
   "property": "C26",
   "status": "partial",
   "theorems": [
    "Carcara.c26_free_vars_complete_partial",
    "Carcara.c26_free_vars_complete_without_let_partial",
    "Carcara.c26_free_vars_exact_partial",
    "Carcara.c26_free_vars_nodup",
    "Carcara.c26_free_vars_fails"
   ],
   "note": "complete and exact for well-sorted terms whose let values are closed; refuted in general (free variables of let values are not reported)"
  },
  {
   "property": "C27",
   "status": "proved",
   "theorems": [
    "Carcara.c27_add",
    "Carcara.c27_inv_add",
    "Carcara.c27_add_stable",
    "Carcara.c27_denotes_total",
    "Carcara.c27_denotes_unique",
    "Carcara.c27_pointer_equality",
    "Carcara.c27_history",
    "Carcara.c27_history_pointers",
    "Carcara.c27_local_pool_fails",
    "Carcara.c27_local_pool_partial"
   ],
   "note": "Proved for one pool and every sequence of additions. The layered pools used by the parallel checker are modelled as well: c27_local_pool_fails shows that their sort lookup is wrong for terms of the shared pool, and c27_local_pool_partial gives the condition under which layering is faithful."
  },
  {
   "property": "C28",
   "status": "proved",
   "theorems": [
    "Carcara.c28_get",
    "Carcara.c28_panic",
    "Carcara.c28_restore",
    "Carcara.c28_get_with_depth"
   ],
   "note": ""
  },
  {
   "property": "C29",
   "status": "proved",
   "theorems": [
    "Carcara.c29_get",
    "Carcara.c29_returned",
    "Carcara.c29_symmetric_difference",
    "Carcara.c29_eq",
    "Carcara.c29_roundtrip"
   ],
   "note": ""
  },
  {
   "property": "C30",
   "status": "proved",
   "theorems": [
    "Carcara.c30_mem",
    "Carcara.c30_nodup",
    "Carcara.c30_first",
    "Carcara.c30_sublist"
   ],
   "note": ""
  },
  {
   "property": "C31",
   "status": "partial",
   "theorems": [
    "Carcara.c31_leaves",
    "Carcara.c31_covers",
    "Carcara.c31_exactly_once",
    "Carcara.c31_numbered",
    "Carcara.c31_usage",
    "Carcara.c31_iterator",
    "Carcara.c31_iterator_at",
    "Carcara.c31_total_partial",
    "Carcara.c31_total_fails"
   ],
   "note": "Every schedule that is produced is proved right for every proof, every number of workers and every order of the heap and the hash sets: each load replays inside the right subproofs with matching opening and closing, each step and assumption is visited exactly once, context usage equals the number of openings, and the iterator returns the commands of the load. That a schedule exists is proved for one worker and for proofs without subproofs; in general it is refuted (the scheduler panics)."
  },
  {
   "property": "C32",
   "status": "partial",
   "theorems": [
    "Carcara.c32_agree",
    "Carcara.c32_verdict",
    "Carcara.c32_sound",
    "Carcara.c32_interleaving",
    "Carcara.c32_complete_partial",
    "Carcara.c32_fails",
    "Carcara.c32_schedule_fails"
   ],
   "note": "Under any interleaving and queue order the parallel checker accepts exactly what the sequential one accepts, with the same flag, provided that the proof can be scheduled and that the empty clause is concluded outside of subproofs (c32_agree; c32_sound is unconditional). Both provisos are necessary: c32_fails and c32_schedule_fails. The rules are assumed to depend only on their arguments; shared contexts are C33."
  },
  {
   "property": "C33",
   "status": "proved",
   "theorems": [
    "Carcara.c33_workers",
    "Carcara.c33_no_panic",
    "Carcara.c33_same",
    "Carcara.c33_created",
    "Carcara.c33_contents",
    "Carcara.c33_dropped",
    "Carcara.c33_exclusive",
    "Carcara.c33_no_deadlock",
    "Carcara.c33_no_livelock",
    "Carcara.c33_finishes",
    "Carcara.c33_dropped_fails"
   ],
   "note": "Transition system for ContextStack (push_with_id, pop, catch_up_cumulative, apply, last) with guards and counters as in the code, any number of threads, any interleaving, any type of substitutions. c33_no_panic: contexts exist and have their substitutions when they are used; c33_same: every thread sees exactly what it would see with contexts of its own; c33_contents: contents do not depend on the thread that built them; c33_dropped: a context is dropped only when no thread uses or will use it; c33_exclusive: guards; c33_no_deadlock, c33_no_livelock, c33_finishes: threads finish. c33_workers: the hypotheses hold for what workers do with the loads of the scheduler, with the usage it computes. Finding: c33_dropped_fails, because pop loads and stores the counter in two steps, a context may never be dropped (a leak, not an error). Assumed: RwLock by its contract, sequentially consistent atomics; caches of substitutions are not in this model."
  },
  {
   "property": "C34",
   "status": "proved",
   "theorems": [
    "Carcara.c34_roundtrip",
    "Carcara.c34_parsed_roundtrip",
    "Carcara.c34_mirrors",
    "Carcara.c34_context_ids_fails"
   ],
   "note": "Commands, identifiers, clauses, rules, arguments and references survive the round trip for every well-formed proof, hence for every parsed one, and the forest mirrors the list. c34_context_ids_fails: the context ids of subproofs, which the statement does not list, become zero."
  },
  {
   "property": "C35",
   "status": "partial",
   "theorems": [
    "Carcara.c35_chain",
    "Carcara.c35_entailed",
    "Carcara.c35_accepted_partial",
    "Carcara.c35_repetition_fails",
    "Carcara.c35_return_fails",
    "Carcara.c35_rejected_fails",
    "Carcara.c35_rotation_permutes",
    "Carcara.c35_rotation_fails"
   ],
   "note": "Whatever uncrowding returns, with or without rotation and for any hash order, is a chain from the original premises to the original clause, which they entail. Without rotation it returns and every step is accepted if no premise is a tautology, no literal comes back after its complement and the first premise has no repetitions. Refuted in general: it panics (repetition in the first premise; returning literal; rotation) and it emits resolution steps that the checker rejects. Missing: that rotation succeeds under these conditions."
  },
  {
   "property": "C36",
   "status": "proved",
   "theorems": [
    "Carcara.c36_trace",
    "Carcara.c36_trace_total",
    "Carcara.c36_trans",
    "Carcara.c36_trans_total",
    "Carcara.c36_eq_transitive",
    "Carcara.c36_eq_transitive_total"
   ],
   "note": "find_and_trace_chain returns an ordered chain for every input and succeeds whenever the checker accepts; same for trans and eq_transitive nodes."
  },
  {
   "property": "C37",
   "status": "partial",
   "theorems": [
    "Carcara.c37_partial",
    "Carcara.c37_reordering",
    "Carcara.c37_exact_of_accepted",
    "Carcara.c37_contraction_fails",
    "Carcara.c37_resolution_fails"
   ],
   "note": "Proved for all trees whose contraction and resolution steps have the literally computed conclusion. False for all accepted proofs: panic on partial contraction, wrong multiset on resolution with implicit contraction (c37_contraction_fails, c37_resolution_fails)."
  },
  {
   "property": "C38",
   "status": "partial",
   "theorems": [
    "Carcara.c38_slice_partial",
    "Carcara.c38_assumes_fails",
    "Carcara.c38_end_premises_fails",
    "Carcara.c38_reused_ids_fails",
    "Carcara.c38_discharge_fails",
    "Carcara.c38_distance_fails",
    "Carcara.c38_fails"
   ],
   "note": "For proofs whose identifiers are used once, below the largest distance, and for steps whose enclosing subproofs end in steps without premises: slicing succeeds, the step is kept with references to commands with the same identifier and conclusion, all other steps come from the proof or ask to be trusted, all premises come before the steps, and the assertions contain the assumptions if those come first. Refuted without each of the conditions; references to discharged assumptions are refuted too."
  },
  {
   "property": "C39",
   "status": "partial",
   "theorems": [
    "Carcara.c39_int",
    "Carcara.c39_real",
    "Carcara.c39_symbol_partial",
    "Carcara.c39_symbol_range",
    "Carcara.c39_symbol_reread_partial",
    "Carcara.c39_symbol_fails",
    "Carcara.c39_symbol_panics",
    "Carcara.c39_string_partial",
    "Carcara.c39_string_fails",
    "Carcara.c39_string_error_fails",
    "Carcara.c39_fails",
    "Carcara.c39_term_partial",
    "Carcara.c39_step_partial",
    "Carcara.c39_rule_fails",
    "Carcara.c39_discharge_fails",
    "Carcara.c39_fraction_panics_fails",
    "Carcara.c39_hexadecimal",
    "Carcara.c39_binary",
    "Carcara.c39_reserved",
    "Carcara.c39_comment",
    "Carcara.c39_last_comment",
    "Carcara.c39_white_space"
   ],
   "note": "Integers and rationals always read back. Symbols read back iff they have no bar or backslash and do not look like a negative number, strings iff no escape sequence occurs in them; both exact conditions are proved, and inputs that violate them and do pass the lexer are given. Whole terms and steps read back token by token under these conditions. The full statement is refuted. Values of hexadecimal and binary literals, reserved words, comments and white space are proved for all inputs."
  },
  {
   "property": "C40",
   "status": "partial",
   "theorems": [
    "Carcara.c40_parse_proof_no_panic",
    "Carcara.c40_parse_proof_fails",
    "Carcara.c40_polyeq_panics",
    "Carcara.c40_drup_panics",
    "Carcara.c40_drup_no_panic",
    "Carcara.c40_rules_no_panic_partial",
    "Carcara.c40_resolution_no_panic",
    "Carcara.c40_poly_simp_no_panic_partial",
    "Carcara.c40_la_mult_no_panic_partial",
    "Carcara.c40_bitblast_equal_no_panic_partial",
    "Carcara.c40_polyeq_no_panic_partial",
    "Carcara.c40_loop_no_panic",
    "Carcara.c40_check_no_panic_partial",
    "Carcara.c40_rules_no_panic_fails",
    "Carcara.c40_index_panics",
    "Carcara.c40_zero_division_panics",
    "Carcara.c40_empty_bit_vector_panics",
    "Carcara.c40_ill_sorted_panics",
    "Carcara.c40_cp_no_panic",
    "Carcara.c40_cp_division_panics_iff",
    "Carcara.c40_cp_saturation_panics_iff",
    "Carcara.c40_cp_literal_panics_iff",
    "Carcara.c40_cp_normalize_no_panic_partial",
    "Carcara.c40_cp_normalize_fails",
    "Carcara.c40_pb_no_panic_partial",
    "Carcara.c40_pb_no_panic_fails",
    "Carcara.c40_pb_empty_bit_vector_panics"
   ],
   "note": "The loop adds no panics; 107 of 111 plain rules, resolution, poly_simp, subproof, drup, the cutting planes rules, pseudo-Boolean blasting and the comparison do not panic under stated conditions, each necessary; four rules and others refuted. Rules outside the table model are assumed not to panic."
  },
  {
   "property": "C41",
   "status": "partial",
   "theorems": [
    "Carcara.c41_distinct_partial",
    "Carcara.c41_distinct_fails",
    "Carcara.c41_prefix"
   ],
   "note": "The full claim is false (c41_distinct_fails): next, push, next, pop, push, next yields the same identifier twice. Proved for call sequences where each pop is followed by next before any further push or pop, which is how the elaborator calls it."
  },
  {
   "property": "C42",
   "status": "proved",
   "theorems": [
    "Carcara.c42_strict_resolution_exact",
    "Carcara.c42_strict_resolution_determined",
    "Carcara.c42_strict_resolution_entailed",
    "Carcara.c42_strict_resolution_accepts_more_fails",
    "Carcara.c42_resolution_elaborated",
    "Carcara.c42_strict_refl_exact",
    "Carcara.c42_strict_refl_refl"
   ],
   "note": "strict_resolution accepts exactly the ordered resolvent (c42_strict_resolution_exact), strict_refl exactly identity and the context's substitution; what the elaborated configuration accepts for resolution the normal one accepts. The title read literally fails for strict_resolution (c42_strict_resolution_accepts_more_fails: it accepts a step with a repeated pivot that resolution rejects), soundness is unaffected."
  },
  {
   "property": "C43",
   "status": "proved",
   "theorems": [
    "Carcara.c43_order_independent"
   ],
   "note": ""
  },
  {
   "property": "C44",
   "status": "partial",
   "theorems": [
    "Carcara.c44_drat_refutation",
    "Carcara.c44_drat_partial",
    "Carcara.c44_drat_fails"
   ],
   "note": "False in general (c44_drat_fails). Proved when the conclusion is the empty clause, i.e. for refutations."
  },
  {
   "property": "C45",
   "status": "partial",
   "theorems": [
    "Carcara.c45_trans",
    "Carcara.c45_eq_transitive_partial",
    "Carcara.c45_eq_transitive_fails",
    "Carcara.c45_eq_transitive_repeated_fails"
   ],
   "note": "Proved for trans. False for eq_transitive (c45_eq_transitive_fails, c45_eq_transitive_repeated_fails); proved when the chain needs two equalities and none is repeated."
  },
  {
   "property": "C46",
   "status": "partial",
   "theorems": [
    "Carcara.c46_concat_eq_partial",
    "Carcara.c46_concat_unify_partial",
    "Carcara.c46_concat_conflict_partial",
    "Carcara.c46_concat_csplit_prefix_partial",
    "Carcara.c46_concat_csplit_suffix_partial",
    "Carcara.c46_concat_split_partial",
    "Carcara.c46_concat_lprop_partial",
    "Carcara.c46_concat_cprop_prefix_fails",
    "Carcara.c46_concat_cprop_suffix_fails",
    "Carcara.c46_string_decompose_negative_fails",
    "Carcara.c46_string_decompose_second_fails",
    "Carcara.c46_re_unfold_neg_fails",
    "Carcara.c46_re_concat_unfold_pos_fails",
    "Carcara.c46_re_kleene_star_unfold_pos_fails",
    "Carcara.c46_concat_cprop_panics",
    "Carcara.c46_fixed_length_partial",
    "Carcara.c46_fixed_length_fails",
    "Carcara.c46_concat_cprop_prefix_partial",
    "Carcara.c46_concat_cprop_suffix_partial",
    "Carcara.c46_string_decompose_partial",
    "Carcara.c46_string_length_pos_partial",
    "Carcara.c46_string_length_non_empty_partial",
    "Carcara.c46_re_inter_partial",
    "Carcara.c46_re_unfold_neg_partial",
    "Carcara.c46_re_unfold_neg_concat_fixed_prefix",
    "Carcara.c46_re_unfold_neg_concat_fixed_suffix",
    "Carcara.c46_re_concat_unfold_pos_partial"
   ],
   "note": "Proved in full for re_unfold_neg_concat_fixed_prefix/suffix; for the other rules under conditions (terms comparable for polyeq, or the cases that are sound). False for concat_cprop_prefix, concat_cprop_suffix, string_decompose, re_unfold_neg, re_concat_unfold_pos and re_kleene_star_unfold_pos (the _fails theorems). The computed length of regular expressions is proved to be the length of all their words for constants of one-byte characters, and refuted otherwise."
  },
  {
   "property": "C47",
   "status": "partial",
   "theorems": [
    "Carcara.c47_tokens_partial",
    "Carcara.c47_text_partial",
    "Carcara.c47_clause_partial",
    "Carcara.c47_unambiguous_partial",
    "Carcara.c47_reread_partial",
    "Carcara.c47_operator_names",
    "Carcara.c47_bound_variable",
    "Carcara.c47_free_variable",
    "Carcara.c47_fraction",
    "Carcara.c47_fraction_unambiguous",
    "Carcara.c47_empty_clause_fails",
    "Carcara.c47_quotient_fails",
    "Carcara.c47_captured_fails"
   ],
   "note": "Proved for all terms that have a sort, whose bit vectors are shorter than 2^64 and whose names mean the same to the parser (Known), in the configuration that keeps lets and does not read integers as reals: tokens, text (with C39), clauses, and that no two such terms have the same tokens. The full claim is refuted: `(cl)`; quotients such as `(/ 1.0 2.0 r)` in problems of real-only logics, which are read as 1/2; bound variables that a definition captures."
  },
  {
   "property": "C48",
   "status": "partial",
   "theorems": [
    "Carcara.c48_term_partial",
    "Carcara.c48_clause_partial",
    "Carcara.c48_expected_sort_partial",
    "Carcara.c48_pool_sort",
    "Carcara.c48_make_op",
    "Carcara.c48_sort",
    "Carcara.c48_sort_definition",
    "Carcara.c48_bv_fails",
    "Carcara.c48_clause_fails",
    "Carcara.c48_int_to_bv_fails"
   ],
   "note": "Proved for every term all of whose written widths are natural numbers (second argument of @bv, index of int_to_bv), with definitions, lets (kept or expanded), :named, binders, indexed operators and sorts. The full claim is false: `(not (@bv 0 n))` is accepted, as is the clause `(cl (@bv 0 n))`, and `((_ int_to_bv -1) x)` (the _fails theorems). The sort the pool computes is proved to be the sort of the term. Sorts that are read use declared sorts with the declared number of arguments, and sort definitions are expanded by simultaneous replacement."
  },
  {
   "property": "C49",
   "status": "partial",
   "theorems": [
    "Carcara.c49_terminates",
    "Carcara.c49_steps",
    "Carcara.c49_progress",
    "Carcara.c49_clause_terminates",
    "Carcara.c49_clause_steps",
    "Carcara.c49_no_panic_partial",
    "Carcara.c49_clause_no_panic_partial",
    "Carcara.c49_bv_value_fails",
    "Carcara.c49_bv_width_fails",
    "Carcara.c49_delete_fails",
    "Carcara.c49_int_to_bv_fails",
    "Carcara.c49_sort_fails",
    "Carcara.c49_bv_operator_fails",
    "Carcara.c49_repeat_fails",
    "Carcara.c49_definition_fails"
   ],
   "note": "Termination proved in full: 2n+1 steps suffice for n tokens, and more steps change nothing; a term is read from at least one token. The claim about panics is refuted by eight kinds of input. On calm input (no @d, @bv, eo::define; every _ followed by a name other than repeat and numbers below 2^64; definitions of constants only; lets kept; no subtyping) the parser of terms and clauses is proved not to panic."
  },
  {
   "property": "C50",
   "status": "partial",
   "theorems": [
    "Carcara.c50_apply_partial",
    "Carcara.c50_application",
    "Carcara.c50_let_partial",
    "Carcara.c50_annotation",
    "Carcara.c50_no_attribute",
    "Carcara.c50_name",
    "Carcara.c50_capture_fails"
   ],
   "note": "Proved for bodies that are safe for the way new names are made (as C25) and arguments without lets; annotations (:named, other attributes, lists of tokens in them) are proved in full. The full claim is false: a definition (f x) = (forall ((y Int)) (= x y')) applied to y is read as (forall ((y' Int)) (= y y')) (c50_capture_fails)."
  },
  {
   "property": "C51",
   "status": "partial",
   "theorems": [
    "Carcara.c51_grammar",
    "Carcara.c51_references",
    "Carcara.c51_literals_partial",
    "Carcara.c51_reads_back_partial",
    "Carcara.c51_literals_fails"
   ],
   "note": "What is accepted is proved to be a tree of the grammar of C04 with well-scoped references, and its literals to be formulas if their widths are natural numbers (false otherwise: c51_literals_fails). The tokens of a proof (define-fun of constants, assume, step with all attributes, anchors with arguments, optional `unsat` and outer parentheses) are proved to be read as the proof, for terms that can be written in the scope they are in."
  },
  {
   "property": "C52",
   "status": "partial",
   "theorems": [
    "Carcara.c52_written_partial",
    "Carcara.c52_reread_partial",
    "Carcara.c52_discharge_fails",
    "Carcara.c52_unquoted_fails",
    "Carcara.c52_definition_fails",
    "Carcara.c52_hoisted_fails"
   ],
   "note": "Proved for every tree that comes from a text if constants are defined by terms that can be written before the commands, terms and names can be written (C39, C47), and no visible command is called like a discharged one with the identifier of the step before it. False in general: c52_discharge_fails (another assumption is discharged), c52_unquoted_fails (first discharged name is not quoted), c52_definition_fails and c52_hoisted_fails (definitions are moved to the front). Printing with sharing is not modelled."
  },
  {
   "property": "C53",
   "status": "partial",
   "theorems": [
    "Carcara.c53_apply_partial",
    "Carcara.c53_apply_previous_partial",
    "Carcara.c53_rules_partial",
    "Carcara.c53_checker_partial",
    "Carcara.c53_rules_fails",
    "Carcara.c53_checker_fails"
   ],
   "note": "c53_apply_partial, c53_apply_previous_partial: on terms without binders, inside anchors without binders that do not declare an assigned variable again, the substitution is the replacement the anchors describe, whatever the history; c53_rules_partial: the rules then end alike with any two stacks; c53_checker_partial: the checker ends as with a new stack for every step. The full claim is false in both modes: c53_rules_fails, c53_checker_fails (stale memo table)."
  },
  {
   "property": "C54",
   "status": "partial",
   "theorems": [
    "Carcara.c54_aci_simp_partial",
    "Carcara.c54_aci_simp_formulas",
    "Carcara.c54_normal_form",
    "Carcara.c54_complete",
    "Carcara.c54_no_panic",
    "Carcara.c54_aci_simp_sum_fails",
    "Carcara.c54_aci_simp_product_fails",
    "Carcara.c54_aci_simp_concat_fails",
    "Carcara.c54_aci_simp_cache_fails"
   ],
   "note": "c54_aci_simp_formulas: sound for formulas; c54_aci_simp_partial: sound if the operators at the top are idempotent (and, or, bvand, bvor), or if there is one operator and no repeated operand; c54_normal_form, c54_complete, c54_no_panic. The full claim is false: c54_aci_simp_sum_fails, c54_aci_simp_product_fails, c54_aci_simp_concat_fails (repeated operands are dropped under +, *, concat), c54_aci_simp_cache_fails (the cache is shared by two operators)."
  },
  {
   "property": "C55",
   "status": "partial",
   "theorems": [
    "Carcara.c55_shape",
    "Carcara.c55_bind_let_partial",
    "Carcara.c55_no_panic",
    "Carcara.c55_complete",
    "Carcara.c55_bind_let_fails",
    "Carcara.c55_bind_let_assumption_fails"
   ],
   "note": "c55_bind_let_partial: sound if the subproof has no assumptions and its anchor only declares variables, among them the free variables of the bodies that have the name of a binding; c55_shape, c55_complete, c55_no_panic. The full claim is false: c55_bind_let_fails (an anchor that assigns a value to the bound variable), c55_bind_let_assumption_fails (assumptions of the subproof are forgotten)."
  },
  {
   "property": "C56",
   "status": "partial",
   "theorems": [
    "Carcara.c56_terminates",
    "Carcara.c56_rewrite_meaning",
    "Carcara.c56_rewrite_settled",
    "Carcara.c56_rare_partial",
    "Carcara.c56_rare_first_order_partial",
    "Carcara.c56_complete",
    "Carcara.c56_no_panic_partial",
    "Carcara.c56_rare_fails",
    "Carcara.c56_rewrite_and_fails",
    "Carcara.c56_no_panic_fails",
    "Carcara.c56_no_panic_let_fails"
   ],
   "note": "c56_rare_partial: sound for valid rules without binders whose instance is well-sorted and has no empty conjunction or disjunction; c56_rare_first_order_partial: sound for rules without lists that are valid as written; c56_terminates, c56_rewrite_meaning, c56_rewrite_settled, c56_complete; c56_no_panic_partial for rules without binders whose arguments are declared. The full claim is false: c56_rare_fails ((or) is rewritten to true), c56_rewrite_and_fails ((and) is rewritten to false), c56_no_panic_fails, c56_no_panic_let_fails."
  },
  {
   "property": "C57",
   "status": "partial",
   "theorems": [
    "Carcara.c57_cong",
    "Carcara.c57_cong_refl",
    "Carcara.c57_eq_congruent_partial",
    "Carcara.c57_eq_congruent_rejected",
    "Carcara.c57_eq_congruent_total",
    "Carcara.c57_eq_congruent_fails"
   ],
   "note": "Proved for cong (c57_cong, c57_cong_refl). For eq_congruent elaboration always succeeds (c57_eq_congruent_total) but the full claim is false: c57_eq_congruent_fails. c57_eq_congruent_partial and c57_eq_congruent_rejected: the steps are accepted exactly if no equality that is turned around is there in the other direction."
  },
  {
   "property": "C58",
   "status": "partial",
   "theorems": [
    "Carcara.c58_equality_partial",
    "Carcara.c58_assume_partial",
    "Carcara.c58_nary_equality",
    "Carcara.c58_nary_assume",
    "Carcara.c58_nary_fails",
    "Carcara.c58_left_assoc_fails",
    "Carcara.c58_literals_fails",
    "Carcara.c58_panics"
   ],
   "note": "Proved for terms that differ in the order of equalities, for all nestings of operators, symbols, quantifiers and let (c58_equality_partial, c58_assume_partial). For n-ary expansion at the root the exact condition is proved (c58_nary_equality, c58_nary_assume). The full claim is false: c58_nary_fails, c58_left_assoc_fails, c58_literals_fails, c58_panics."
  },
  {
   "property": "C59",
   "status": "partial",
   "theorems": [
    "Carcara.c59_conclusion",
    "Carcara.c59_not_true",
    "Carcara.c59_arguments",
    "Carcara.c59_exact",
    "Carcara.c59_accepted_partial",
    "Carcara.c59_not_not",
    "Carcara.c59_not_not_partial",
    "Carcara.c59_found",
    "Carcara.c59_rejected_fails",
    "Carcara.c59_repeated_fails",
    "Carcara.c59_panics_fails"
   ],
   "note": "The conclusion is kept (c59_conclusion); (not true) (c59_not_true); for premises without tautologies in which no literal comes back after its complement, the arguments are accepted exactly if there is one pivot for each further premise and none is used twice (c59_arguments, c59_exact, c59_accepted_partial); an added double negation (c59_not_not, c59_not_not_partial). The full claim is false: c59_rejected_fails, c59_repeated_fails, c59_panics_fails."
  },
  {
   "property": "C60",
   "status": "partial",
   "theorems": [
    "Carcara.c60_moved",
    "Carcara.c60_moved_accepted",
    "Carcara.c60_lia_panics",
    "Carcara.c60_lia",
    "Carcara.c60_hole",
    "Carcara.c60_elaborated_partial",
    "Carcara.c60_not_closed_fails",
    "Carcara.c60_names_fails",
    "Carcara.c60_elaborated_fails"
   ],
   "note": "Moved proofs are still accepted (c60_moved, c60_moved_accepted); for lia_generic the subproof is closed and all steps after it are accepted if each assumption is the negation of a literal and assumed once (c60_lia); it panics exactly if there is no empty clause (c60_lia_panics); for hole the closing step is accepted exactly if the assumptions are the negated literals in order (c60_hole); after elaboration, for literals with different atoms (c60_elaborated_partial). The full claim is false: c60_not_closed_fails, c60_names_fails, c60_elaborated_fails."
  },
  {
   "property": "C61",
   "status": "partial",
   "theorems": [
    "Carcara.c61_subproof_partial",
    "Carcara.c61_ite_intro_partial",
    "Carcara.c61_bfun_elim_partial",
    "Carcara.c61_forall_inst_partial",
    "Carcara.c61_refl_partial",
    "Carcara.c61_subproof_fails",
    "Carcara.c61_literals_fails",
    "Carcara.c61_names_fails"
   ],
   "note": "One theorem for each of the five rules, for terms that the equality elaborator handles (C58) and, for refl, terms and anchors without binders. The full claim is false: c61_subproof_fails (panic after an assumption or a subproof), c61_literals_fails (the comparison is not symmetric for literals, so accepted steps cause a panic), c61_names_fails (two steps with one name)."
  },
  {
   "property": "C62",
   "status": "partial",
   "theorems": [
    "Carcara.c62_terminates",
    "Carcara.c62_steps",
    "Carcara.c62_no_panic_partial",
    "Carcara.c62_sorted_partial",
    "Carcara.c62_read_partial",
    "Carcara.c62_last",
    "Carcara.c62_params",
    "Carcara.c62_param_sort",
    "Carcara.c62_sound_partial",
    "Carcara.c62_sorted_fails",
    "Carcara.c62_args_fails",
    "Carcara.c62_scope_fails",
    "Carcara.c62_definition_fails"
   ],
   "note": "Termination, independence of the step counter, no panic on calm input, reading back of rules without type variables, the last rule of a name counts, and soundness of steps from the text of rules that are valid as written. The full claim is false: c62_sorted_fails (widths that are not constant), c62_args_fails (a name in :args that is no parameter makes every step panic), c62_scope_fails (parameters stay declared after their rule), c62_definition_fails (a definition elsewhere replaces a parameter)."
  },
  {
   "property": "C63",
   "status": "partial",
   "theorems": [
    "Carcara.c63_problem_partial",
    "Carcara.c63_term_partial",
    "Carcara.c63_sound_partial",
    "Carcara.c63_capture_fails",
    "Carcara.c63_shadow_fails",
    "Carcara.c63_refuted_fails"
   ],
   "note": "Proved for problems of declarations, definitions of constants and assertions in which no declared or defined name is bound: both readings succeed, the plain one says what SMT-LIB says, and both are satisfiable together; with C01 a refutation of the expanded problem refutes the text. The full claim is false: c63_capture_fails (a name in a body is captured), c63_shadow_fails (a definition hides a bound variable), c63_refuted_fails (a satisfiable problem with an accepted refutation). Missing: definitions with parameters, let, indexed operators."
  },
  {
   "property": "C64",
   "status": "partial",
   "theorems": [
    "Carcara.c64_read",
    "Carcara.c64_negation",
    "Carcara.c64_text_partial",
    "Carcara.c64_sound_partial",
    "Carcara.c64_defined_fails",
    "Carcara.c64_anchor_fails",
    "Carcara.c64_logic_fails",
    "Carcara.c64_redeclared_fails"
   ],
   "note": "Proved, to characters, for clauses whose literals are formulas over the declared functions: the text is written, read back with the same declarations and the negated literals, and has a model exactly if the clause is not valid; with C01 an accepted refutation of it proves the clause. The full claim is false: c64_defined_fails (names from define-fun are not declared), c64_anchor_fails (variables of anchors are not declared), c64_logic_fails (the logic is written without bars), c64_redeclared_fails (a name declared twice: the text is unsatisfiable although the clause is not valid). Missing: logics in which integers are read as reals, let terms, integers in the place of reals."
  },
  {
   "property": "C65",
   "status": "partial",
   "theorems": [
    "Carcara.c65_proof_names",
    "Carcara.c65_problem_names",
    "Carcara.c65_printed_read",
    "Carcara.c65_read_again_partial",
    "Carcara.c65_clash_fails",
    "Carcara.c65_head_fails",
    "Carcara.c65_problem_fails"
   ],
   "note": "Proved, to characters and also in the strict mode (then numbers are read with the operators of SMT-LIB), for both prefixes and every choice of shared terms, for terms in which only variables are applied, if no variable is called like a shared term. The full claim is false: c65_clash_fails (a symbol @p_0 of the problem is read as the shared term), c65_head_fails (a shared lambda term that is applied cannot be read), c65_problem_fails (with the prefix p_ of lia_generic the literals of an invalid clause are read as a tautology). Missing: heads that are not shared but no variables, defined constants, the commands around the terms."
  },
  {
   "property": "C66",
   "status": "partial",
   "theorems": [
    "Carcara.c66_read",
    "Carcara.c66_text_partial",
    "Carcara.c66_sound_partial",
    "Carcara.c66_clash_fails",
    "Carcara.c66_full_fails"
   ],
   "note": "Proved, to characters, for every choice of shared terms, for clauses whose literals are formulas over the declared functions, if nothing is called p_0, p_1, ...: the text is written, read back with the same declarations and the negated literals, and has a model exactly if the clause is not valid; with C01 an accepted refutation of it proves the clause. The full claim is false: c66_clash_fails (a declared symbol p_0: the text is unsatisfiable although the clause is not valid). Missing: let terms, logics in which integers are read as reals, integers in the place of reals."
  },
  {
   "property": "C67",
   "status": "partial",
   "theorems": [
    "Carcara.c67_files",
    "Carcara.c67_together_partial",
    "Carcara.c67_meaning",
    "Carcara.c67_checked_partial",
    "Carcara.c67_fraction_fails",
    "Carcara.c67_full_fails"
   ],
   "note": "Proved, to characters, under the conditions of C64 on declarations and of C52 on proofs: both texts are written and read back, the proof as the sliced proof, the problem with the assumptions in the operators of SMT-LIB (c67_files), which mean the same (c67_meaning); they are the assumptions if these have no negative numbers and fractions (c67_together_partial). Without the option for elaborated proofs, both files are accepted with the result of the slice (c67_checked_partial). The full claim is false: c67_fraction_fails (0.5 is written (/ 1.0 2.0) in the problem and 1/2 in the proof; the slice of an accepted elaborated proof is rejected as an elaborated proof). Missing: sharing, logics in which integers are read as reals."
  },
  {
   "property": "C68",
   "status": "partial",
   "theorems": [
    "Carcara.c68_which",
    "Carcara.c68_distinct",
    "Carcara.c68_text",
    "Carcara.c68_unshared",
    "Carcara.c68_instances_partial",
    "Carcara.c68_instances_unshared_partial",
    "Carcara.c68_nested_fails",
    "Carcara.c68_full_fails"
   ],
   "note": "Proved for all proofs: one problem is written for each step with the rule that is in no subproof, in order, with its id (c68_which), and the ids are different if the proof was read (c68_distinct). Proved under the conditions of C66: each problem is read and has a model exactly if the clause is not valid (c68_text, c68_instances_partial); without sharing also if names like p_0 are declared or other terms than variables are applied (c68_unshared). The full claim is false: c68_nested_fails (steps in subproofs are left out, and the command succeeds). Missing: the conditions; the names of the files."
  }
 ]
}