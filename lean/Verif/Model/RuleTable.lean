import Verif.Model.Checker
import Verif.Model.Subproof
import Verif.Model.Polyeq
import Verif.Model.Cnf
import Verif.Model.Equality
import Verif.Model.Resolution
import Verif.Model.Utils
import Verif.Model.Drup
import Verif.Model.Simplify
import Verif.Model.ArithSimplify
import Verif.Model.Linear
import Verif.Model.Polynomial
import Verif.Model.Quantifier
import Verif.Model.Bitvectors

/-!
# Model: the table of rules

`checker/shared.rs:166-355 get_rule_shared`. Rules that are not modelled are parameters: their names are listed and
what they do is arbitrary.
-/

namespace Carcara

/-- What the modelled rules depend on besides their arguments: the hash function and the order of hash maps (`drup`),
the addresses of terms (`poly_simp`), and the behaviour of the rules that are not modelled. -/
structure TableEnv where
  hash : Term → Nat
  order : Nat → List (Nat × List PLit) → List (Nat × List PLit)
  addr : Term → Nat
  other : String → RuleFn

/-- The rows that do not depend on anything. -/
def plainRows : List (String × Rule) :=
  [("true", trueRule),
   ("false", falseRule),
   ("not_not", notNot),
   ("and_pos", andPos),
   ("and_neg", andNeg),
   ("or_pos", orPos),
   ("or_neg", orNeg),
   ("xor_pos1", xorPos1),
   ("xor_pos2", xorPos2),
   ("xor_neg1", xorNeg1),
   ("xor_neg2", xorNeg2),
   ("implies_pos", impliesPos),
   ("implies_neg1", impliesNeg1),
   ("implies_neg2", impliesNeg2),
   ("equiv_pos1", equivPos1),
   ("equiv_pos2", equivPos2),
   ("equiv_neg1", equivNeg1),
   ("equiv_neg2", equivNeg2),
   ("ite_pos1", itePos1),
   ("ite_pos2", itePos2),
   ("ite_neg1", iteNeg1),
   ("ite_neg2", iteNeg2),
   ("eq_reflexive", eqReflexive),
   ("eq_transitive", eqTransitive),
   ("eq_congruent", eqCongruent),
   ("eq_congruent_pred", eqCongruentPred),
   ("distinct_elim", distinctElim),
   ("la_rw_eq", laRwEq),
   ("la_generic", laGeneric),
   ("la_disequality", laDisequality),
   ("la_totality", laTotality),
   ("la_tautology", laTautology),
   ("poly_simp_rel", polySimpRel),
   ("bv_poly_simp_eq", polySimpRel),
   ("forall_inst", forallInst),
   ("qnt_join", qntJoin),
   ("qnt_rm_unused", qntRmUnused),
   ("trans", trans),
   ("cong", cong),
   ("ho_cong", hoCong),
   ("and_intro", andIntro),
   ("and", andRule),
   ("not_or", notOr),
   ("or", orRule),
   ("not_and", notAnd),
   ("xor1", xor1),
   ("xor2", xor2),
   ("not_xor1", notXor1),
   ("not_xor2", notXor2),
   ("implies", impliesRule),
   ("not_implies1", notImplies1),
   ("not_implies2", notImplies2),
   ("equiv1", equiv1),
   ("equiv2", equiv2),
   ("not_equiv1", notEquiv1),
   ("not_equiv2", notEquiv2),
   ("ite1", ite1),
   ("ite2", ite2),
   ("not_ite1", notIte1),
   ("not_ite2", notIte2),
   ("connective_def", connectiveDef),
   ("ite_simplify", iteSimplify),
   ("eq_simplify", eqSimplify),
   ("and_simplify", andSimplify),
   ("or_simplify", orSimplify),
   ("not_simplify", notSimplify),
   ("implies_simplify", impliesSimplify),
   ("equiv_simplify", equivSimplify),
   ("bool_simplify", boolSimplify),
   ("qnt_simplify", qntSimplify),
   ("div_simplify", divSimplify),
   ("prod_simplify", prodSimplify),
   ("unary_minus_simplify", minusSimplify),
   ("minus_simplify", minusSimplify),
   ("sum_simplify", sumSimplify),
   ("comp_simplify", compSimplify),
   ("nary_elim", naryElim),
   ("ac_simp", acSimp),
   ("qnt_cnf", qntCnf),
   ("miniscope_distribute", miniscopeDistribute),
   ("miniscope_split", miniscopeSplit),
   ("miniscope_ite", miniscopeIte),
   ("reordering", reordering),
   ("shuffle", shuffle),
   ("symm", symm),
   ("not_symm", notSymm),
   ("eq_symmetric", eqSymmetric),
   ("weakening", weakening),
   ("la_mult_pos", laMultPos),
   ("la_mult_neg", laMultNeg),
   ("mod_simplify", modSimplify),
   ("tautology", fun conclusion premises _ => tautology conclusion premises),
   ("contraction", fun conclusion premises _ => contraction conclusion premises),
   ("strict_resolution", strictResolution),
   ("bitblast_const", bbValueRule),
   ("bitblast_var", bbVar),
   ("bitblast_and", bbAnd),
   ("bitblast_or", bbOr),
   ("bitblast_xor", bbXor),
   ("bitblast_xnor", bbXnor),
   ("bitblast_not", bbNot),
   ("bitblast_comp", bbComp),
   ("bitblast_ult", bbUlt),
   ("bitblast_slt", bbSlt),
   ("bitblast_add", bbAdd),
   ("bitblast_mult", bbMult),
   ("bitblast_neg", bbNeg),
   ("bitblast_equal", bbEqual),
   ("bitblast_extract", bbExtract),
   ("bitblast_concat", bbConcat),
   ("bitblast_sign_extend", bbSignExtend)]

/-- The names of the rules that are not modelled. -/
def otherNames : List String :=
  ["refl", "ite_intro", "aci_simp", "bfun_elim", "bind",
   "let", "onepoint", "sko_ex", "sko_forall", "bind_let",
   "evaluate", "rare_rewrite", "concat_eq", "concat_unify", "concat_conflict",
   "concat_csplit_prefix", "concat_csplit_suffix", "concat_split_prefix", "concat_split_suffix", "concat_lprop_prefix",
   "concat_lprop_suffix", "concat_cprop_prefix", "concat_cprop_suffix", "pbblast_bveq", "pbblast_bvult",
   "pbblast_bvugt", "pbblast_bvuge", "pbblast_bvule", "pbblast_bvslt", "pbblast_bvsgt",
   "pbblast_bvsge", "pbblast_bvsle", "pbblast_pbbvar", "pbblast_pbbconst", "pbblast_bvxor",
   "pbblast_bvand", "pbblast_bvxor_ith_bit", "pbblast_bvand_ith_bit", "cp_addition", "cp_multiplication",
   "cp_division", "cp_saturation", "cp_literal", "cp_normalize", "string_decompose",
   "string_length_pos", "string_length_non_empty", "re_inter", "re_kleene_star_unfold_pos", "re_concat_unfold_pos",
   "re_unfold_neg", "re_unfold_neg_concat_fixed_prefix", "re_unfold_neg_concat_fixed_suffix"]

/-- `shared.rs:166-355 get_rule_shared`. -/
def getRule (E : TableEnv) (elaborated : Bool) (name : String) : Option RuleFn :=
  if name = "resolution" ∨ name = "th_resolution" then
    some (Rule.lift (if elaborated then resolutionWithArgs else resolution))
  else if name = "poly_simp" ∨ name = "bv_poly_simp" then some (polySimp E.addr).lift
  else if name = "subproof" then some subproof
  else if name = "drup" then some (Rule.lift (drupRule E.hash E.order false))
  else if name = "drat" then some (Rule.lift (drupRule E.hash E.order true))
  else if name = "hole" ∨ name = "lia_generic" then some fun _ => .ok ()
  else match plainRows.lookup name with
    | some r => some r.lift
    | none => if name ∈ otherNames then some (E.other name) else none

/-- The parameters `check` runs with: `checker/mod.rs:276 get_rule`, `shared.rs:30-80 check_assume_shared`. -/
def TableEnv.params (E : TableEnv) (cfg : Config) : Params where
  rule := getRule E cfg.elaborated
  assumeEq := assumeEq

end Carcara
