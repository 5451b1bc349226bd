import Verif.Props.C46Re
import Verif.Spec.StringWitness

/-! # C46: rules that accept steps that are not sound -/

namespace Carcara

open Spec StringWitness C46

namespace C46

/-- The model: the strings `a`, `b`, `c`, `z` of the variables, `ab` for `t`, and the integers `n` and `5`. -/
noncomputable def M (n : ℤ) : Model := StringWitness.model fun x s =>
  if s = .int then (if x = "n" then .int n else .int 5)
  else if x = "t" then strV ['a', 'b'] else strV x.toList

theorem M_t (n : ℤ) : (M n).val (sv "t") = strV ['a', 'b'] := val_string _ (by simp)

theorem M_a (n : ℤ) : (M n).val (sv "a") = strV ['a'] := val_string _ (by simp)

theorem M_b (n : ℤ) : (M n).val (sv "b") = strV ['b'] := val_string _ (by simp)

theorem M_c (n : ℤ) : (M n).val (sv "c") = strV ['c'] := val_string _ (by simp)

theorem M_n (n : ℤ) : (M n).val (.var "n" .int) = .int n := val_int _ (by simp)

theorem M_L (n : ℤ) : (M n).val (.var "L" .int) = .int 5 := val_int _ (by simp)

theorem M_theory (n : ℤ) : StringTheory (M n).I lang := theory

theorem val_lit {M : Model} (s : String) : M.val (lit s) = strV s.toList := by
  show Val.str s = Val.str (String.ofList s.toList)
  rw [String.ofList_toList]

theorem val_strConcat3 {M : Model} {L : Val M.I.U → Language Char} (hS : StringTheory M.I L) {a b c : Term} {u v w : List Char} (ha : M.val a = strV u)
    (hb : M.val b = strV v) (hc : M.val c = strV w) : M.val (.op .strConcat [a, b, c]) = strV (u ++ v ++ w) := by
  rw [val_strConcat hS (by simp [ha, hb, hc])]; simp [str_of_val ha, str_of_val hb, str_of_val hc]

theorem holds_lenNonzero {M : Model} {L : Val M.I.U → Language Char} (hS : StringTheory M.I L) {a : Term} {w : List Char} (ha : M.val a = strV w)
    (hw : w ≠ []) : M.Holds (.op .not [.op .equals [strLenOf a, intTerm 0]]) := by
  rw [Model.holds_not, Model.holds_eq, val_strLen hS ha, val_intTerm]
  simpa using hw

end C46

/-- **C46**, refuted: `concat_cprop_prefix` compares pieces that are not constants as if they were different strings. -/
theorem c46_concat_cprop_prefix_fails : ¬ SoundStr concatCpropPrefix ComparableStep := by
  intro h
  have hS := M_theory 0
  let oc := skolemPrefix (lit "abc") (intTerm 2)
  have := h [.op .equals [sv "a", .op .strConcat [oc, skolemSuffixRem (sv "a") (strLenOf oc)]]]
    [[.op .equals [.op .strConcat [sv "a", sv "b", sv "c"], lit "abc"]], [.op .not [.op .equals [strLenOf (sv "a"), intTerm 0]]]] []
    (by decide +kernel) (by unfold ClauseOK; decide +kernel) (by unfold ClauseOK; decide +kernel) (by simp)
    (by unfold ComparableStep; decide +kernel) (M 0) (hasStrings _) (by
      simp only [List.mem_cons, List.not_mem_nil, or_false, forall_eq_or_imp, forall_eq, Model.sat_singleton]
      refine ⟨?_, holds_lenNonzero hS (M_a 0) (by simp)⟩
      rw [Model.holds_eq, val_strConcat3 hS (M_a 0) (M_b 0) (M_c 0), val_lit]
      rfl)
  have e1 : (M 0).val oc = strV ['a', 'b'] := (val_skolemPrefix hS (val_lit "abc") (val_intTerm 2)).trans rfl
  have e2 : (M 0).val (skolemSuffixRem (sv "a") (strLenOf oc)) = strV [] :=
    (val_skolemSuffixRem hS (M_a 0) (val_strLen hS e1) (by simp)).trans rfl
  rw [Model.sat_singleton, Model.holds_eq, val_strConcat2 hS e1 e2, M_a, strV_inj] at this
  simp at this

/-- **C46**, refuted: `concat_cprop_suffix` takes the second argument of a concatenation for the last one. -/
theorem c46_concat_cprop_suffix_fails : ¬ SoundStr concatCpropSuffix ComparableStep := by
  intro h
  have hS := M_theory 0
  let oc := skolemSuffix (lit "b") (intTerm 1)
  have := h [.op .equals [sv "c", .op .strConcat [skolemPrefix (sv "c") (.op .sub [strLenOf (sv "c"), strLenOf oc]), oc]]]
    [[.op .equals [.op .strConcat [sv "a", lit "b", sv "c"], .op .strConcat [lit "a", lit "b", lit "c"]]],
      [.op .not [.op .equals [strLenOf (sv "c"), intTerm 0]]]] []
    (by decide +kernel) (by unfold ClauseOK; decide +kernel) (by unfold ClauseOK; decide +kernel) (by simp)
    (by unfold ComparableStep; decide +kernel) (M 0) (hasStrings _) (by
      simp only [List.mem_cons, List.not_mem_nil, or_false, forall_eq_or_imp, forall_eq, Model.sat_singleton]
      refine ⟨?_, holds_lenNonzero hS (M_c 0) (by simp)⟩
      rw [Model.holds_eq, val_strConcat3 hS (M_a 0) (val_lit "b") (M_c 0), val_strConcat3 hS (val_lit "a") (val_lit "b") (val_lit "c")]
      rfl)
  have e1 : (M 0).val oc = strV ['b'] := (val_skolemSuffix hS (val_lit "b") (val_intTerm (1 : ℕ)) (by decide)).trans rfl
  have e2 : (M 0).val (skolemPrefix (sv "c") (.op .sub [strLenOf (sv "c"), strLenOf oc])) = strV [] :=
    (val_skolemPrefix hS (M_c 0) (val_minus (val_strLen hS (M_c 0)) (val_strLen hS e1))).trans rfl
  rw [Model.sat_singleton, Model.holds_eq, val_strConcat2 hS e2 e1, M_c, strV_inj] at this
  simp at this

/-- **C46**, refuted: `string_decompose` does not ask that the length is not negative. -/
theorem c46_string_decompose_negative_fails : ¬ SoundStr stringDecompose fun c p a => ComparableStep c p a ∧ a = [.op .fls []] := by
  intro h
  have hS := M_theory (-1)
  let n : Term := .var "n" .int
  have := h [.op .and [.op .equals [sv "t", .op .strConcat [skolemPrefix (sv "t") n, skolemSuffixRem (sv "t") n]],
      .op .equals [strLenOf (skolemPrefix (sv "t") n), n]]]
    [[.op .ge [strLenOf (sv "t"), n]]] [.op .fls []]
    (by decide +kernel) (by unfold ClauseOK; decide +kernel) (by unfold ClauseOK; decide +kernel) (by simp [sortOf, sortOfL, opSort])
    ⟨by unfold ComparableStep; decide +kernel, rfl⟩ (M (-1)) (hasStrings _) (by
      simp only [List.mem_cons, List.not_mem_nil, or_false, forall_eq, Model.sat_singleton]
      rw [holds_ge (val_strLen hS (M_t _)) (M_n _)]
      simp)
  rw [Model.sat_singleton, Model.holds_and] at this
  have := this (.op .equals [strLenOf (skolemPrefix (sv "t") n), n]) (by simp)
  rw [Model.holds_eq, val_strLen hS (val_skolemPrefix hS (M_t _) (M_n _)), M_n] at this
  simp at this

/-- **C46**, refuted: `string_decompose` asks for the wrong length of the second part. -/
theorem c46_string_decompose_second_fails : ¬ SoundStr stringDecompose fun c p a => ComparableStep c p a ∧ a = [.op .tru []] := by
  intro h
  have hS := M_theory 0
  let n := intTerm 2
  have := h [.op .and [.op .equals [sv "t", .op .strConcat [skolemPrefix (sv "t") n, skolemSuffixRem (sv "t") n]],
      .op .equals [strLenOf (skolemSuffixRem (sv "t") n), n]]]
    [[.op .ge [strLenOf (sv "t"), n]]] [.op .tru []]
    (by decide +kernel) (by unfold ClauseOK; decide +kernel) (by unfold ClauseOK; decide +kernel) (by simp [sortOf, sortOfL, opSort])
    ⟨by unfold ComparableStep; decide +kernel, rfl⟩ (M 0) (hasStrings _) (by
      simp only [List.mem_cons, List.not_mem_nil, or_false, forall_eq, Model.sat_singleton]
      rw [holds_ge (val_strLen hS (M_t _)) (val_intTerm 2)]
      simp)
  rw [Model.sat_singleton, Model.holds_and] at this
  have := this (.op .equals [strLenOf (skolemSuffixRem (sv "t") n), n]) (by simp)
  rw [Model.holds_eq, val_strLen hS (val_skolemSuffixRem hS (M_t _) (val_intTerm 2) (by simp)), val_intTerm] at this
  simp at this

/-- **C46**, refuted: `re_unfold_neg` captures the variable `L`. -/
theorem c46_re_unfold_neg_fails : ¬ SoundStr reUnfoldNeg Always := by
  intro h
  have hS := M_theory 0
  let l : Term := .var "L" .int
  let t : Term := .op .ite [.op .equals [l, intTerm 1], lit "a", lit "b"]
  let r1 : Term := .op .strToRe [lit "a"]
  let r2 : Term := .op .strToRe [lit ""]
  have := h [.binder .all [("L", .int)] (.op .or [.op .lt [l, intTerm 0], .op .lt [strLenOf t, l], notIn (skolemPrefix t l) r1,
      notIn (skolemSuffixRem t l) r2])] [[notIn t (.op .reConcat [r1, r2])]] []
    (by decide +kernel) (by unfold ClauseOK; decide +kernel) (by unfold ClauseOK; decide +kernel) (by simp) trivial (M 0) (hasStrings _) (by
      simp only [List.mem_cons, List.not_mem_nil, or_false, forall_eq, Model.sat_singleton]
      have vt : (M 0).val t = strV ['b'] := by
        rw [Model.val_ite, if_neg]
        · exact val_lit "b"
        · rw [Model.holds_eq, M_L, val_intTerm]; simp
      rw [holds_notIn hS vt (by decide), lang_concat hS (by decide)]
      simp only [List.map_cons, List.map_nil, List.prod_cons, List.prod_nil, mul_one]
      rw [lang_toRe hS (by decide), lang_toRe hS (by decide), Language.mem_mul]
      rintro ⟨x, rfl, y, rfl, e⟩
      rw [str_of_val (val_lit "a"), str_of_val (val_lit "")] at e
      simp at e)
  rw [Model.sat_singleton, holds_allL] at this
  have := this 1
  have vl : (setL (M 0) 1).val l = .int 1 := setL_var 1
  have vt : (setL (M 0) 1).val t = strV ['a'] := by
    rw [Model.val_ite, if_pos]
    · exact val_lit "a"
    · rw [Model.holds_eq, vl, val_intTerm]
  have hS1 : StringTheory (setL (M 0) 1).I lang := theory
  rw [Model.holds_or] at this
  obtain ⟨u, hu, h⟩ := this
  simp only [List.mem_cons, List.not_mem_nil, or_false] at hu
  rcases hu with rfl | rfl | rfl | rfl
  · rw [holds_lt vl (val_intTerm 0)] at h; omega
  · rw [holds_lt (val_strLen hS1 vt) vl] at h; simp at h
  · rw [holds_notIn hS1 (val_skolemPrefix hS1 vt vl) (by decide), lang_toRe hS1 (by decide), str_of_val (val_lit "a")] at h
    exact h rfl
  · rw [holds_notIn hS1 (val_skolemSuffixRem hS1 vt vl (by simp)) (by decide), lang_toRe hS1 (by decide), str_of_val (val_lit "")] at h
    exact h rfl

namespace C46

theorem lang_allChar {M : Model} {L : Val M.I.U → Language Char} (hS : StringTheory M.I L) {w : List Char} :
    w ∈ L (M.val (.op .reAllChar [])) ↔ w.length = 1 := by
  rw [Model.val_op]; exact hS.allChar w

end C46

/-- **C46**, refuted: `re_concat_unfold_pos` puts each component into the language of the whole rest. -/
theorem c46_re_concat_unfold_pos_fails : ¬ SoundStr reConcatUnfoldPos Always := by
  intro h
  have hS := M_theory 0
  let r : Term := .op .reAllChar []
  let k1 := unfoldComponent (sv "t") 1 [] []
  let k0 := unfoldComponent (sv "t") 0 [k1] [reVar 1]
  have := h [.op .and [.op .equals [sv "t", .op .strConcat [k0, k1]],
      .op .and [.op .strInRe [k0, .op .reConcat [r, r]], .op .and [.op .strInRe [k1, r], .op .tru []]]]]
    [[.op .strInRe [sv "t", .op .reConcat [r, r]]]] []
    (by decide +kernel) (by unfold ClauseOK; decide +kernel) (by unfold ClauseOK; decide +kernel) (by simp) trivial (M 0) (hasStrings _) (by
      simp only [List.mem_cons, List.not_mem_nil, or_false, forall_eq, Model.sat_singleton]
      rw [holds_strInRe hS (M_t 0) (by decide), lang_concat hS (by decide)]
      simp only [List.map_cons, List.map_nil, List.prod_cons, List.prod_nil, mul_one]
      exact Language.append_mem_mul (a := ['a']) (b := ['b']) ((lang_allChar hS).2 rfl) ((lang_allChar hS).2 rfl))
  have s0 : sortOf k0 = some .string := by decide +kernel
  have s1 : sortOf k1 = some .string := by decide +kernel
  rw [Model.sat_singleton, Model.holds_and] at this
  simp only [List.mem_cons, List.not_mem_nil, or_false, forall_eq_or_imp, forall_eq, Model.holds_and] at this
  obtain ⟨he, h0, h1, -⟩ := this
  rw [Model.holds_eq, M_t, val_strConcat2 hS (val_str s0) (val_str s1), strV_inj] at he
  rw [holds_strInRe hS (val_str s0) (by decide), lang_concat hS (by decide)] at h0
  rw [holds_strInRe hS (val_str s1) (by decide), lang_allChar hS] at h1
  simp only [List.map_cons, List.map_nil, List.prod_cons, List.prod_nil, mul_one] at h0
  obtain ⟨x, hx, y, hy, hxy⟩ := Language.mem_mul.1 h0
  rw [lang_allChar hS] at hx hy
  have := congrArg List.length he
  rw [List.length_append, ← hxy, List.length_append] at this
  simp at this
  omega

/-- **C46**, refuted: so does `re_kleene_star_unfold_pos`. -/
theorem c46_re_kleene_star_unfold_pos_fails : ¬ SoundStr reKleeneUnfoldPos Always := by
  intro h
  have hS := M_theory 0
  let r : Term := .op .reAllChar []
  let st : Term := .op .reStar [r]
  let k2 := unfoldComponent (sv "t") 2 [] []
  let k1 := unfoldComponent (sv "t") 1 [k2] [reVar 2]
  let k0 := unfoldComponent (sv "t") 0 [k1, k2] [reVar 1, reVar 2]
  have := h [.op .or [.op .equals [sv "t", emptyStr], .op .strInRe [sv "t", r],
      .op .and [.op .and [.op .equals [sv "t", .op .strConcat [k0, k1, k2]], .op .strInRe [k0, .op .reConcat [r, st, r]],
          .op .and [.op .strInRe [k1, .op .reConcat [st, r]], .op .and [.op .strInRe [k2, r], .op .tru []]]],
        .op .not [.op .equals [k0, emptyStr]], .op .not [.op .equals [k2, emptyStr]]]]]
    [[.op .strInRe [sv "t", st]]] []
    (by decide +kernel) (by unfold ClauseOK; decide +kernel) (by unfold ClauseOK; decide +kernel) (by simp) trivial (M 0) (hasStrings _) (by
      simp only [List.mem_cons, List.not_mem_nil, or_false, forall_eq, Model.sat_singleton]
      rw [holds_strInRe hS (M_t 0) (by decide), lang_star hS (by decide)]
      refine Language.mem_kstar.2 ⟨[['a'], ['b']], rfl, ?_⟩
      simp only [List.mem_cons, List.not_mem_nil, or_false, forall_eq_or_imp, forall_eq]
      exact ⟨(lang_allChar hS).2 rfl, (lang_allChar hS).2 rfl⟩)
  have s0 : sortOf k0 = some .string := by decide +kernel
  have s1 : sortOf k1 = some .string := by decide +kernel
  have s2 : sortOf k2 = some .string := by decide +kernel
  rw [Model.sat_singleton, Model.holds_or] at this
  obtain ⟨u, hu, h⟩ := this
  simp only [List.mem_cons, List.not_mem_nil, or_false] at hu
  rcases hu with rfl | rfl | rfl
  · rw [Model.holds_eq, M_t, val_emptyStr, strV_inj] at h; simp at h
  · rw [holds_strInRe hS (M_t 0) (by decide), lang_allChar hS] at h; simp at h
  · simp only [List.mem_cons, List.not_mem_nil, or_false, forall_eq_or_imp, forall_eq, Model.holds_and] at h
    obtain ⟨⟨he, h0, h1, h2, -⟩, -⟩ := h
    rw [Model.holds_eq, M_t, val_strConcat3 hS (val_str s0) (val_str s1) (val_str s2), strV_inj] at he
    rw [holds_strInRe hS (val_str s0) (by decide), lang_concat hS (by decide)] at h0
    rw [holds_strInRe hS (val_str s1) (by decide), lang_concat hS (by decide)] at h1
    rw [holds_strInRe hS (val_str s2) (by decide), lang_allChar hS] at h2
    simp only [List.map_cons, List.map_nil, List.prod_cons, List.prod_nil, mul_one] at h0 h1
    obtain ⟨x, hx, y, hy, hxy⟩ := Language.mem_mul.1 h0
    obtain ⟨y1, -, y2, hy2, hy'⟩ := Language.mem_mul.1 hy
    obtain ⟨z1, -, z2, hz2, hz⟩ := Language.mem_mul.1 h1
    rw [lang_allChar hS] at hx hy2 hz2
    have := congrArg List.length he
    rw [List.length_append, List.length_append, ← hxy, ← hz, ← hy'] at this
    simp at this
    omega

/-- **C46**: `concat_cprop_prefix` and `concat_cprop_suffix` panic if the right-hand side begins, or ends, with the empty string. -/
theorem c46_concat_cprop_panics : ∃ (conclusion : List Term) (premises : List (List Term)), (∀ p ∈ premises, ClauseOK p) ∧ ClauseOK conclusion ∧
    concatCpropPrefix conclusion premises [] = .error .panic ∧ concatCpropSuffix conclusion premises [] = .error .panic := by
  refine ⟨[.op .equals [sv "a", .op .strConcat [sv "a", sv "b"]]],
    [[.op .equals [.op .strConcat [sv "a", sv "b", sv "a"], .op .strConcat [lit "", lit ""]]], [.op .not [.op .equals [strLenOf (sv "a"), intTerm 0]]]],
    ?_, ?_, ?_, ?_⟩
  · unfold ClauseOK; decide +kernel
  · unfold ClauseOK; decide +kernel
  · decide +kernel
  · decide +kernel

end Carcara
