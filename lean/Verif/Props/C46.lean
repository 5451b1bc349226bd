import Verif.Lemmas.StringRules

/-!
# C46: the rules for strings are sound

For every rule of `checker/rules/strings.rs`: in every model of the theory of strings in which the premises of an accepted step hold, the
conclusion holds. The comparison of terms must be sound on the terms of the step (`ComparableStep`, see C07); the rules that do not use it are sound
without that condition. The rules that are not sound are refuted in `C46Fails.lean`.
-/

namespace Carcara

open Spec

namespace C46

/-- A string constant. -/
abbrev lit (s : String) : Term := .const (.str s)

/-- A string variable. -/
abbrev sv (x : String) : Term := .var x .string

/-- An equality. -/
abbrev eqs (a b : Term) : Term := .op .equals [a, b]

/-- A concatenation. -/
abbrev cat (as : List Term) : Term := .op .strConcat as

/-- The rule accepts the step, and it is one its theorem speaks about. -/
def Applies (r : Rule) (C : List Term → List (List Term) → List Term → Prop) (conclusion : List Term) (premises : List (List Term)) (args : List Term) : Prop :=
  r conclusion premises args = .ok () ∧ ClauseOK conclusion ∧ (∀ p ∈ premises, ClauseOK p) ∧ (∀ a ∈ args, (sortOf a).isSome = true) ∧
    C conclusion premises args


/-- The terms of a step. -/
abbrev terms (conclusion : List Term) (premises : List (List Term)) (args : List Term) : List Term :=
  .const (.int 0) :: (conclusion ++ premises.flatten ++ args)

theorem sort_of_clause {t : Term} (h : ClauseOK [t]) : sortOf t = some .bool := h t (by simp)

theorem some_isSome {t : Term} {s : Srt} (h : sortOf t = some s) : (sortOf t).isSome = true := by rw [h]; rfl

theorem built_sub {ts : List Term} {t u : Term} (ht : Built ts t) (hu : u ∈ t.subterms) : Built ts u :=
  fun v hv => ht v (Term.subterms_trans t hu hv)

/-- Membership of a subterm. -/
macro "sub_mem" : tactic => `(tactic| simp [Term.subterms, Term.subtermsL, Term.self_mem_subterms])

theorem ok_one {t : Term} (h : ∀ p ∈ [[t]], ClauseOK p) : sortOf t = some .bool := h [t] (by simp) t (by simp)
theorem ok_fst {t u : Term} (h : ∀ p ∈ [[t], [u]], ClauseOK p) : sortOf t = some .bool := h [t] (by simp) t (by simp)
theorem ok_snd {t u : Term} (h : ∀ p ∈ [[t], [u]], ClauseOK p) : sortOf u = some .bool := h [u] (by simp) u (by simp)
theorem prem_one {M : Model} {t : Term} (h : ∀ p ∈ [[t]], M.Sat p) : M.Holds t := Model.sat_singleton.1 (h [t] (by simp))
theorem prem_fst {M : Model} {t u : Term} (h : ∀ p ∈ [[t], [u]], M.Sat p) : M.Holds t := Model.sat_singleton.1 (h [t] (by simp))
theorem prem_snd {M : Model} {t u : Term} (h : ∀ p ∈ [[t], [u]], M.Sat p) : M.Holds u := Model.sat_singleton.1 (h [u] (by simp))

theorem built_term {ts : List Term} {t : Term} (h : t ∈ ts) : Built ts t := .mem (Term.mem_subtermsL.2 ⟨t, h, Term.self_mem_subterms t⟩)

section
variable {M : Model} {L : Val M.I.U → Language Char}

theorem str_eq {s t : Term} (h : M.Holds (.op .equals [s, t])) : M.str s = M.str t := by
  rw [Model.holds_eq] at h; simp [Model.str, h]

theorem len_eq (hS : StringTheory M.I L) {s t : Term} {r r' : Srt} (hs : sortOf (.op .strLen [s]) = some r) (ht : sortOf (.op .strLen [t]) = some r') :
    M.Holds (.op .equals [.op .strLen [s], .op .strLen [t]]) ↔ (M.str s).length = (M.str t).length := by
  rw [Model.holds_eq]
  have h1 := val_strLen hS (val_str (M := M) (sort_strLen hs).2)
  have h2 := val_strLen hS (val_str (M := M) (sort_strLen ht).2)
  simp only [strLenOf] at h1 h2
  rw [h1, h2]
  simp

theorem asNumber_zero {z : Term} (hz : z.asNumber = some 0) (hs : sortOf z = some .int) : M.val z = .int 0 := by
  have h := Term.asNumber_val hz M
  obtain ⟨n, hn⟩ := (M.I.dom_int _).1 (eval_dom z hs M.env_dom)
  have hn' : M.val z = .int n := hn
  rw [hn'] at h ⊢
  simpa [Val.num] using h

theorem holds_gt_zero {a z : Term} {n : ℤ} (ha : M.val a = .int n) (hz : (M.val z).num = some ((0 : ℚ) : ℝ)) :
    M.Holds (.op .gt [a, z]) ↔ n > 0 := by
  rw [Model.Holds, Model.val_op, List.map_cons, List.map_cons, ha]
  simp [evalOp, stdOp, stdCmp, Val.asNums, hz, Sem.chain]
  simp [Val.num, Sem.chain]

/-- The length premise. -/
theorem lenNonzero (hS : StringTheory M.I L) {t u : Term} (h : matchLenNonzero t = .ok u) (hs : sortOf t = some .bool) :
    sortOf u = some .string ∧ (∀ ts, Built ts t → Built ts u) ∧ (M.Holds t ↔ M.str u ≠ []) := by
  simp only [matchLenNonzero, bind_ok, match1_ok, match2_ok, matchNum, require_ok, ok_inj, Prod.exists] at h
  obtain ⟨e, rfl, l, z, rfl, u', rfl, -, hz, rfl⟩ := h
  have h1 := bool_children (.inl rfl) hs _ (List.mem_singleton.2 rfl)
  obtain ⟨r, h2, h3⟩ := eq_children h1
  obtain ⟨rfl, h4⟩ := sort_strLen h2
  refine ⟨h4, fun ts h => built_sub h (by sub_mem), ?_⟩
  rw [Model.holds_not, Model.holds_eq, asNumber_zero hz h3]
  have := val_strLen hS (val_str (M := M) h4)
  simp only [strLenOf] at this
  rw [this]
  simp

/-- A premise that says that a string is not empty. -/
theorem nonempty {t u : Term} (h : matchNonempty t = .ok u) (hs : sortOf t = some .bool) :
    sortOf u = some .string ∧ (∀ ts, Built ts t → Built ts u) ∧ (M.Holds t ↔ M.str u ≠ []) := by
  simp only [matchNonempty, bind_ok, match1_ok, match2_ok, require_ok, ok_inj, Prod.exists] at h
  obtain ⟨e, rfl, u', z, rfl, -, rfl, rfl⟩ := h
  have h1 := bool_children (.inl rfl) hs _ (List.mem_singleton.2 rfl)
  obtain ⟨r, h2, h3⟩ := eq_children h1
  obtain rfl : Srt.string = r := by simpa [emptyStr, sortOf, Const.sort] using h3
  refine ⟨h2, fun ts h => built_sub h (by sub_mem), ?_⟩
  rw [Model.holds_not, Model.holds_eq, val_emptyStr, val_str h2, strV_inj]

theorem lenPositive (hS : StringTheory M.I L) {t u : Term} (h : matchLenPositive t = .ok u) (hs : sortOf t = some .bool) :
    sortOf u = some .string ∧ (∀ ts, Built ts t → Built ts u) ∧ (M.Holds t ↔ M.str u ≠ []) := by
  simp only [matchLenPositive, bind_ok, match1_ok, match2_ok, matchNum, require_ok, ok_inj, Prod.exists] at h
  obtain ⟨l, z, rfl, u', rfl, -, hz, rfl⟩ := h
  obtain ⟨ss, h1, h2⟩ := sortOf_op (by decide) hs
  obtain ⟨s1, ss', rfl, h3, h1⟩ := sortOfL_cons.1 h1
  obtain ⟨s2, ss', rfl, h4, h1⟩ := sortOfL_cons.1 h1
  obtain rfl := sortOfL_nil.1 h1
  obtain ⟨rfl, h5⟩ := sort_strLen h3
  refine ⟨h5, fun ts h => built_sub h (by sub_mem), ?_⟩
  refine (holds_gt_zero (a := strLenOf _) (val_strLen hS (val_str h5)) (Term.asNumber_val hz M)).trans ?_
  rw [← List.length_pos_iff]
  omega

/-! ### The remainder of the longer of two strings -/

/-- What remains of the longer string after the shorter one. -/
def rem (rev : Bool) (v w : List Char) : List Char :=
  if w.length ≤ v.length then (if rev then v.take (v.length - w.length) else v.drop w.length)
  else (if rev then w.take (w.length - v.length) else w.drop v.length)

theorem rem_length {rev : Bool} {v w : List Char} : (rem rev v w).length = (v.length - w.length) + (w.length - v.length) := by
  cases rev <;> by_cases h : w.length ≤ v.length <;> simp only [rem, h, if_true, if_false, Bool.false_eq_true, List.length_take, List.length_drop] <;> omega

/-- Two prefixes (suffixes) of the same string. -/
theorem rem_left {rev : Bool} {v w x y z : List Char} (hv : z = if rev then x ++ v else v ++ x) (hw : z = if rev then y ++ w else w ++ y)
    (hl : w.length ≤ v.length) : v = if rev then rem rev v w ++ w else w ++ rem rev v w := by
  rw [hv] at hw
  unfold rem
  rw [if_pos hl]
  cases rev with
  | false =>
    simp only [Bool.false_eq_true, if_false] at hw ⊢
    have : w = v.take w.length := by
      have := congrArg (List.take w.length) hw
      rw [List.take_append_of_le_length hl, List.take_left] at this
      exact this.symm
    conv_lhs => rw [← List.take_append_drop w.length v]
    rw [← this]
  | true =>
    simp only [if_true] at hw ⊢
    have : w = v.drop (v.length - w.length) := by
      have := congrArg (List.drop (x.length + (v.length - w.length))) hw
      rw [List.drop_length_add_append] at this
      have e : x.length + (v.length - w.length) = y.length := by
        have := congrArg List.length hw; simp at this; omega
      rw [e, List.drop_left] at this
      exact this.symm
    conv_lhs => rw [← List.take_append_drop (v.length - w.length) v]
    rw [← this]

theorem rem_comm {rev : Bool} {v w : List Char} (h : v.length ≠ w.length) : rem rev v w = rem rev w v := by
  unfold rem
  rcases Nat.lt_or_gt_of_ne h with h | h
  · rw [if_neg (show ¬ w.length ≤ v.length by omega), if_pos (show v.length ≤ w.length by omega)]
  · rw [if_pos (show w.length ≤ v.length by omega), if_neg (show ¬ v.length ≤ w.length by omega)]

variable {rev : Bool} {t s : Term} {v w : List Char}

theorem val_unify (hS : StringTheory M.I L) (ht : M.val t = strV v) (hs : M.val s = strV w) :
    M.val (if rev then skolemUnifySuffix t s else skolemUnifyPrefix t s) = strV (rem rev v w) := by
  unfold rem
  cases rev with
  | false => simpa using val_skolemUnifyPrefix hS ht hs
  | true => simpa using val_skolemUnifySuffix hS ht hs

theorem expOK_unify (ht : ExpOK M t) (hs : ExpOK M s) : ExpOK M (if rev then skolemUnifySuffix t s else skolemUnifyPrefix t s) := by
  cases rev
  · exact ht.unifyPrefix hs
  · exact ht.unifySuffix hs

theorem flatOK_unify (hS : StringTheory M.I L) (ht : M.val t = strV v) (hs : M.val s = strV w) :
    FlatOK M.I M.env (if rev then skolemUnifySuffix t s else skolemUnifyPrefix t s) :=
  flatOK_leaf (by cases rev <;> rfl) (val_unify hS ht hs)

/-- A concatenation in either order. -/
theorem val_concat_rev (hS : StringTheory M.I L) {a b : Term} (ha : M.val a = strV v) (hb : M.val b = strV w) :
    M.val (.op .strConcat (if rev then [a, b] else [b, a])) = strV (if rev then v ++ w else w ++ v) := by
  cases rev
  · exact val_strConcat2 hS hb ha
  · exact val_strConcat2 hS ha hb

theorem expOK_concat_rev (hS : StringTheory M.I L) {a b : Term} (ha : FlatOK M.I M.env a) (hb : FlatOK M.I M.env b) :
    ExpOK M (.op .strConcat (if rev then [a, b] else [b, a])) := by
  cases rev
  · exact .concat2 hS hb ha
  · exact .concat2 hS ha hb

end

end C46

open C46

/-- **C46**, `concat_eq`. -/
theorem c46_concat_eq_partial : SoundStr concatEq ComparableStep := by
  intro conclusion premises args h hc hp ha hcmp M ⟨L, hS⟩ hprem
  simp only [concatEq, premTerm, bind_ok, get1_ok, orErr_ok, match2_ok, assertEq_ok, Prod.exists] at h
  obtain ⟨p, rfl, a, rfl, c, rfl, x, y, hx, term, rfl, rev, hrev, s, t, rfl, ss, ts, hstrip, he⟩ := h
  have hst := prem_one hprem
  obtain ⟨r, hs, ht⟩ := eq_children (ok_one hp)
  rw [Model.sat_singleton, Model.Holds, ← val_expand hS (sort_of_clause hc), ← he]
  change M.Holds _
  rw [Model.holds_eq]
  have bp : Built (terms [c] [[.op .equals [s, t]]] [a]) (.op .equals [s, t]) := built_term (by simp)
  have hstr := strip_str hS hcmp (built_sub bp (by sub_mem)) (built_sub bp (by sub_mem)) (some_isSome hs) (some_isSome ht) (str_eq hst) hstrip
  obtain ⟨ps, qs, h1, h2, h3, -⟩ := strip_ok hstrip
  by_cases hr : r = .string
  · subst hr
    rw [val_concatTerm hS, val_concatTerm hS, hstr]
    · intro u hu; exact flattenStr_sort ht (by rw [h3]; cases rev <;> simp [hu])
    · intro u hu; exact flattenStr_sort hs (by rw [h2]; cases rev <;> simp [hu])
  · rw [flattenStr_other (by rw [hs]; simpa using hr) (some_isSome hs)] at h2
    rw [flattenStr_other (by rw [ht]; simpa using hr) (some_isSome ht)] at h3
    rw [Model.holds_eq] at hst
    cases h1 with
    | nil =>
      have e1 : ss = [s] := by cases rev <;> simpa using h2.symm
      have e2 : ts = [t] := by cases rev <;> simpa using h3.symm
      subst e1; subst e2
      exact hst
    | cons =>
      have e1 : ss = [] := by
        have := congrArg List.length h2
        refine List.eq_nil_of_length_eq_zero ?_
        cases rev <;> simp only [List.length_append, List.length_cons, List.length_nil, if_true, Bool.false_eq_true, if_false] at this <;> omega
      have e2 : ts = [] := by
        have := congrArg List.length h3
        refine List.eq_nil_of_length_eq_zero ?_
        cases rev <;> simp only [List.length_append, List.length_cons, List.length_nil, if_true, Bool.false_eq_true, if_false] at this <;> omega
      subst e1; subst e2
      rfl

example : Applies concatEq ComparableStep [eqs (sv "x") (cat [lit "c", sv "y"])]
    [[eqs (cat [lit "ab", sv "x"]) (cat [lit "a", lit "bc", sv "y"])]] [.op .fls []] :=
  ⟨by decide +kernel, by unfold ClauseOK; decide +kernel, by unfold ClauseOK; decide +kernel, by decide +kernel, by unfold ComparableStep; decide +kernel⟩

example : Applies concatEq ComparableStep [eqs (sv "x") (cat [sv "y", lit "b"])]
    [[eqs (cat [sv "x", lit "c"]) (cat [sv "y", lit "bc"])]] [.op .tru []] :=
  ⟨by decide +kernel, by unfold ClauseOK; decide +kernel, by unfold ClauseOK; decide +kernel, by decide +kernel, by unfold ComparableStep; decide +kernel⟩

/-- **C46**, `concat_unify`. -/
theorem c46_concat_unify_partial : SoundStr concatUnify ComparableStep := by
  intro conclusion premises args h hc hp ha hcmp M ⟨L, hS⟩ hprem
  simp only [concatUnify, premTerm, bind_ok, get1_ok, get2_ok, orErr_ok, match1_ok, match2_ok, assertEq_ok, Prod.exists] at h
  obtain ⟨p, q, rfl, a, rfl, c, rfl, x, y, hx, term, rfl, prefixes, rfl, rev, hrev, s, t, rfl, ls, lt, rfl, s1, rfl, t1, rfl, l, h1, l', h2, he⟩ := h
  have hst := str_eq (prem_fst hprem)
  have hlen := prem_snd hprem
  obtain ⟨r, hs, ht⟩ := eq_children (ok_fst hp)
  obtain ⟨r', hs1, ht1⟩ := eq_children (ok_snd hp)
  rw [len_eq hS hs1 ht1] at hlen
  replace hs1 := (sort_strLen hs1).2
  replace ht1 := (sort_strLen ht1).2
  have bp : Built (terms [c] [[.op .equals [s, t]], [.op .equals [.op .strLen [s1], .op .strLen [t1]]]] [a]) (.op .equals [s, t]) :=
    built_term (by simp)
  have bq : Built (terms [c] [[.op .equals [s, t]], [.op .equals [.op .strLen [s1], .op .strLen [t1]]]] [a])
    (.op .equals [.op .strLen [s1], .op .strLen [t1]]) := built_term (by simp)
  obtain ⟨r1, e1⟩ := isPrefixOrSuffix_str hS hcmp (built_sub bp (by sub_mem)) (built_sub bq (by sub_mem)) (some_isSome hs)
    (some_isSome hs1) (M := M) h1
  obtain ⟨r2, e2⟩ := isPrefixOrSuffix_str hS hcmp (built_sub bp (by sub_mem)) (built_sub bq (by sub_mem)) (some_isSome ht)
    (some_isSome ht1) (M := M) h2
  obtain ⟨rfl, -⟩ := isPrefixOrSuffix_ok h1
  obtain ⟨rfl, -⟩ := isPrefixOrSuffix_ok h2
  rw [Model.sat_singleton, Model.Holds, ← val_expand hS (sort_of_clause hc), ← he]
  change M.Holds _
  rw [Model.holds_eq, val_concatTerm hS fun u hu => flattenStr_sort hs1 hu, val_concatTerm hS fun u hu => flattenStr_sort ht1 hu,
    str_flatten hS (some_isSome hs1), str_flatten hS (some_isSome ht1)]
  rw [e1, e2] at hst
  cases rev with
  | false => rw [(List.append_inj hst hlen).1]
  | true => rw [(List.append_inj' hst hlen).2]

example : Applies concatUnify ComparableStep [eqs (sv "x") (cat [sv "y", sv "z"])]
    [[eqs (cat [sv "x", lit "c"]) (cat [sv "y", sv "z", sv "x"])], [eqs (strLenOf (sv "x")) (strLenOf (cat [sv "y", sv "z"]))]] [.op .fls []] :=
  ⟨by decide +kernel, by unfold ClauseOK; decide +kernel, by unfold ClauseOK; decide +kernel, by decide +kernel, by unfold ComparableStep; decide +kernel⟩

/-- **C46**, `concat_conflict`. -/
theorem c46_concat_conflict_partial : SoundStr concatConflict ComparableStep := by
  intro conclusion premises args h hc hp ha hcmp M ⟨L, hS⟩ hprem
  simp only [concatConflict, premTerm, bind_ok, get1_ok, orErr_ok, match2_ok, Prod.exists] at h
  obtain ⟨p, rfl, a, rfl, c, rfl, term, rfl, rev, hrev, b, hb, -, -, s, t, rfl, ss, ts, hstrip, hcon⟩ := h
  exfalso
  have hst := str_eq (prem_one hprem)
  obtain ⟨r, hs, ht⟩ := eq_children (ok_one hp)
  have bp : Built (terms [c] [[.op .equals [s, t]]] [a]) (.op .equals [s, t]) := built_term (by simp)
  have hstr := strip_str hS hcmp (built_sub bp (by sub_mem)) (built_sub bp (by sub_mem)) (some_isSome hs) (some_isSome ht) hst hstrip
  obtain ⟨ps, qs, -, h2, h3, h4⟩ := strip_ok hstrip
  have ms : ∀ {u}, u ∈ revIf rev ss → u ∈ flattenStr s := by
    intro u hu; rw [h2]; cases rev <;> simp_all [revIf]
  have mt : ∀ {u}, u ∈ revIf rev ts → u ∈ flattenStr t := by
    intro u hu; rw [h3]; cases rev <;> simp_all [revIf]
  have one : ∀ {l : List Term} {ch : Char} {us : List Term}, revIf rev l = charTerm ch :: us →
      ∃ w, M.strs l = if rev then w ++ [ch] else ch :: w := by
    intro l ch us h
    have hch : M.str (charTerm ch) = [ch] := str_of_val (val_charTerm ch)
    cases rev with
    | false => refine ⟨M.strs us, ?_⟩; simp only [revIf, Bool.false_eq_true, if_false] at h; simp [h, hch]
    | true =>
      refine ⟨M.strs us.reverse, ?_⟩
      simp only [revIf, if_true] at h
      have : l = us.reverse ++ [charTerm ch] := by rw [← List.reverse_reverse l, h]; simp
      simp [this, hch]
  have nil : ∀ {l : List Term}, revIf rev l = [] → M.strs l = [] := by
    intro l h; cases rev <;> simp_all [revIf]
  match e1 : revIf rev ss, e2 : revIf rev ts with
  | [], [] => rw [e1, e2] at hcon; simp [checkConflict, err] at hcon
  | u :: us, [] =>
    rw [e1, e2] at hcon
    simp only [checkConflict] at hcon
    obtain ⟨ch, rfl⟩ := checkLengthOne_piece (ms (by rw [e1]; simp)) hcon
    obtain ⟨w, hw⟩ := one e1
    rw [hw, nil e2] at hstr
    cases rev <;> simp at hstr
  | [], u :: us =>
    rw [e1, e2] at hcon
    simp only [checkConflict] at hcon
    obtain ⟨ch, rfl⟩ := checkLengthOne_piece (mt (by rw [e2]; simp)) hcon
    obtain ⟨w, hw⟩ := one e2
    rw [hw, nil e1] at hstr
    cases rev <;> simp at hstr
  | u :: us, v :: vs =>
    rw [e1, e2] at hcon
    simp only [checkConflict, bind_ok] at hcon
    obtain ⟨_, hu, hv⟩ := hcon
    obtain ⟨ch, rfl⟩ := checkLengthOne_piece (ms (by rw [e1]; simp)) hu
    obtain ⟨ch', rfl⟩ := checkLengthOne_piece (mt (by rw [e2]; simp)) hv
    obtain ⟨w, hw⟩ := one e1
    obtain ⟨w', hw'⟩ := one e2
    have hne := h4 _ _ _ _ e1 e2
    rw [hw, hw'] at hstr
    have : ch = ch' := by
      cases rev with
      | false => simpa using (List.cons.inj hstr).1
      | true => simpa using (List.append_inj' hstr rfl).2
    subst this
    rw [polyeq_refl] at hne
    simp at hne

example : Applies concatConflict ComparableStep [.op .fls []]
    [[eqs (cat [lit "abc", sv "x"]) (cat [lit "abd", sv "y"])]] [.op .fls []] :=
  ⟨by decide +kernel, by unfold ClauseOK; decide +kernel, by unfold ClauseOK; decide +kernel, by decide +kernel, by unfold ComparableStep; decide +kernel⟩

example : Applies concatConflict ComparableStep [.op .fls []]
    [[eqs (cat [lit "a", sv "x"]) (sv "x")]] [.op .tru []] :=
  ⟨by decide +kernel, by unfold ClauseOK; decide +kernel, by unfold ClauseOK; decide +kernel, by decide +kernel, by unfold ComparableStep; decide +kernel⟩

/-- **C46**, `concat_csplit_prefix`. -/
theorem c46_concat_csplit_prefix_partial : SoundStr concatCsplitPrefix ComparableStep := by
  intro conclusion premises args h hc hp ha hcmp M ⟨L, hS⟩ hprem
  simp only [concatCsplitPrefix, premTerm, bind_ok, get1_ok, get2_ok, orErr_ok, match2_ok, require_ok, assertEq_ok, Prod.exists] at h
  obtain ⟨p, q, rfl, c, rfl, x, y, hx, eq, rfl, length, rfl, t, s, rfl, t1, hl, -, -, -, -, l, hpre, ch, hch, _, h1, he⟩ := h
  have hst := str_eq (prem_fst hprem)
  obtain ⟨r, ht, hs⟩ := eq_children (ok_fst hp)
  obtain ⟨ht1, bt1, hne⟩ := lenNonzero (M := M) hS hl (ok_snd hp)
  replace hne := hne.1 (prem_snd hprem)
  have bp : Built (terms [c] [[.op .equals [t, s]], [length]] args) (.op .equals [t, s]) := built_term (by simp)
  obtain ⟨r1, e1⟩ := isPrefixOrSuffix_str hS hcmp (built_sub bp (by sub_mem)) (bt1 _ (built_term (by simp))) (some_isSome ht)
    (some_isSome ht1) (M := M) hpre
  obtain ⟨us, hus⟩ := List.head?_eq_some_iff.1 hch
  obtain ⟨d, rfl⟩ := checkLengthOne_piece (t := s) (by rw [hus]; simp) h1
  rw [Model.sat_singleton, Model.Holds, ← val_expand hS (sort_of_clause hc), ← he]
  change M.Holds _
  rw [Model.holds_eq, val_expand hS ht1, val_str ht1]
  refine Eq.trans ?_ (val_strConcat2 hS (val_charTerm d) (val_skolemSuffixRem hS (val_str ht1) (val_intTerm 1) (by decide))).symm
  rw [strV_inj]
  rw [e1, ← str_flatten hS (some_isSome hs), hus, strs_cons, str_of_val (val_charTerm d)] at hst
  match e : M.str t1 with
  | [] => exact absurd e hne
  | d' :: w =>
    rw [e] at hst
    obtain rfl : d' = d := by simpa using (List.cons.inj hst).1
    rfl

example : Applies concatCsplitPrefix ComparableStep [eqs (sv "x") (cat [lit "a", skolemSuffixRem (sv "x") (intTerm 1)])]
    [[eqs (cat [sv "x", sv "y"]) (cat [lit "ab", sv "z"])], [.op .not [eqs (strLenOf (sv "x")) (intTerm 0)]]] [] :=
  ⟨by decide +kernel, by unfold ClauseOK; decide +kernel, by unfold ClauseOK; decide +kernel, by decide +kernel, by unfold ComparableStep; decide +kernel⟩

/-- **C46**, `concat_csplit_suffix`. -/
theorem c46_concat_csplit_suffix_partial : SoundStr concatCsplitSuffix ComparableStep := by
  intro conclusion premises args h hc hp ha hcmp M ⟨L, hS⟩ hprem
  simp only [concatCsplitSuffix, premTerm, bind_ok, get1_ok, get2_ok, orErr_ok, match2_ok, require_ok, assertEq_ok, Prod.exists] at h
  obtain ⟨p, q, rfl, c, rfl, x, y, hx, eq, rfl, length, rfl, t, s, rfl, t1, hl, -, -, -, -, l, hpre, ch, hch, _, h1, he⟩ := h
  have hst := str_eq (prem_fst hprem)
  obtain ⟨r, ht, hs⟩ := eq_children (ok_fst hp)
  obtain ⟨ht1, bt1, hne⟩ := lenNonzero (M := M) hS hl (ok_snd hp)
  replace hne := hne.1 (prem_snd hprem)
  have bp : Built (terms [c] [[.op .equals [t, s]], [length]] args) (.op .equals [t, s]) := built_term (by simp)
  obtain ⟨r1, e1⟩ := isPrefixOrSuffix_str hS hcmp (built_sub bp (by sub_mem)) (bt1 _ (built_term (by simp))) (some_isSome ht)
    (some_isSome ht1) (M := M) hpre
  obtain ⟨us, hus⟩ := List.getLast?_eq_some_iff.1 hch
  obtain ⟨d, rfl⟩ := checkLengthOne_piece (t := s) (by rw [hus]; simp) h1
  rw [Model.sat_singleton, Model.Holds, ← val_expand hS (sort_of_clause hc), ← he]
  change M.Holds _
  rw [Model.holds_eq, val_expand hS ht1, val_str ht1]
  refine Eq.trans ?_ (val_strConcat2 hS (val_skolemPrefix hS (val_str ht1) (val_minus (val_strLen hS (val_str ht1)) (val_intTerm 1)))
    (val_charTerm d)).symm
  rw [strV_inj]
  rw [e1, ← str_flatten hS (some_isSome hs), hus, strs_append, strs_cons, str_of_val (val_charTerm d)] at hst
  obtain ⟨w, d', e⟩ : ∃ w d', M.str t1 = w ++ [d'] := ⟨_, _, (List.dropLast_append_getLast hne).symm⟩
  rw [e] at hst ⊢
  have hd : d' = d := by
    simp only [if_true, strs_nil, List.append_nil, ← List.append_assoc] at hst
    simpa using (List.append_inj' hst rfl).2
  subst hd
  simp

example : Applies concatCsplitSuffix ComparableStep [eqs (sv "y") (cat [skolemPrefix (sv "y") (.op .sub [strLenOf (sv "y"), intTerm 1]), lit "b"])]
    [[eqs (cat [sv "x", sv "y"]) (cat [sv "z", lit "ab"])], [.op .not [eqs (strLenOf (sv "y")) (intTerm 0)]]] [] :=
  ⟨by decide +kernel, by unfold ClauseOK; decide +kernel, by unfold ClauseOK; decide +kernel, by decide +kernel, by unfold ComparableStep; decide +kernel⟩

/-- **C46**, `concat_split_prefix` and `concat_split_suffix`. -/
theorem c46_concat_split_partial (rev : Bool) : SoundStr (concatSplit rev) ComparableStep := by
  intro conclusion premises args h hc hp ha hcmp M ⟨L, hS⟩ hprem
  simp only [concatSplit, premTerm, bind_ok, get1_ok, get2_ok, match1_ok, match2_ok, require_ok, assertEq_ok, Prod.exists] at h
  obtain ⟨p, q, rfl, c, rfl, -, -, e, e', -, _, _, -, _, _, -, eq, rfl, length, rfl, t, s, rfl, len, rfl, lt, ls, rfl, t1, rfl, s1, rfl, -, -, -, -,
    l, h1, l', h2, he⟩ := h
  have hst := str_eq (prem_fst hprem)
  have hlen := prem_snd hprem
  obtain ⟨r, ht, hs⟩ := eq_children (ok_fst hp)
  obtain ⟨r', ht1, hs1⟩ := eq_children (bool_children (.inl rfl) (ok_snd hp) _ (List.mem_singleton.2 rfl))
  rw [Model.holds_not, len_eq hS ht1 hs1] at hlen
  replace hs1 := (sort_strLen hs1).2
  replace ht1 := (sort_strLen ht1).2
  have bp : Built (terms [c] [[.op .equals [t, s]], [.op .not [.op .equals [.op .strLen [t1], .op .strLen [s1]]]]] args) (.op .equals [t, s]) :=
    built_term (by simp)
  have bq : Built (terms [c] [[.op .equals [t, s]], [.op .not [.op .equals [.op .strLen [t1], .op .strLen [s1]]]]] args)
    (.op .not [.op .equals [.op .strLen [t1], .op .strLen [s1]]]) := built_term (by simp)
  obtain ⟨r1, e1⟩ := isPrefixOrSuffix_str hS hcmp (built_sub bp (by sub_mem)) (built_sub bq (by sub_mem)) (some_isSome ht)
    (some_isSome ht1) (M := M) h1
  obtain ⟨r2, e2⟩ := isPrefixOrSuffix_str hS hcmp (built_sub bp (by sub_mem)) (built_sub bq (by sub_mem)) (some_isSome hs)
    (some_isSome hs1) (M := M) h2
  rw [← hst] at e2
  have vt : M.val (expandStr t1) = strV (M.str t1) := (val_expand hS ht1).trans (val_str ht1)
  have vs : M.val (expandStr s1) = strV (M.str s1) := (val_expand hS hs1).trans (val_str hs1)
  have vr := val_unify (rev := rev) hS vt vs
  have fr := flatOK_unify (rev := rev) hS vt vs
  have ft := flatOK_expandStr hS M.env_dom ht1
  have fs := flatOK_expandStr hS M.env_dom hs1
  have hexp : ExpOK M (remainderTerm (.op .or [.op .equals [expandStr t1, .op .strConcat (if rev then [if rev then skolemUnifySuffix (expandStr t1)
      (expandStr s1) else skolemUnifyPrefix (expandStr t1) (expandStr s1), expandStr s1] else [expandStr s1, if rev then skolemUnifySuffix
      (expandStr t1) (expandStr s1) else skolemUnifyPrefix (expandStr t1) (expandStr s1)])], .op .equals [expandStr s1, .op .strConcat (if rev then
      [if rev then skolemUnifySuffix (expandStr t1) (expandStr s1) else skolemUnifyPrefix (expandStr t1) (expandStr s1), expandStr t1] else
      [expandStr t1, if rev then skolemUnifySuffix (expandStr t1) (expandStr s1) else skolemUnifyPrefix (expandStr t1) (expandStr s1)])]])
      (if rev then skolemUnifySuffix (expandStr t1) (expandStr s1) else skolemUnifyPrefix (expandStr t1) (expandStr s1))) :=
    .remainder (.op2 (by decide) (.op2 (by decide) (.idem _) (expOK_concat_rev hS fr fs)) (.op2 (by decide) (.idem _) (expOK_concat_rev hS fr ft)))
      (expOK_unify (.idem _) (.idem _))
  rw [Model.sat_singleton, Model.Holds, ← val_expand hS (sort_of_clause hc), he, show M.val (expandStr _) = M.val _ from hexp]
  change M.Holds _
  rw [holds_remainder hS vr, Model.holds_or]
  refine ⟨?_, ?_⟩
  · simp only [List.mem_cons, List.not_mem_nil, or_false, exists_eq_or_imp, exists_eq_left, Model.holds_eq, vt, vs, val_concat_rev hS vr vs,
      val_concat_rev hS vr vt, strV_inj]
    rcases Nat.le_total (M.str s1).length (M.str t1).length with h | h
    · exact .inl (rem_left e1 e2 h)
    · rw [rem_comm hlen]
      exact .inr (rem_left e2 e1 h)
  · intro h
    have := rem_length (rev := rev) (v := M.str t1) (w := M.str s1)
    rw [h] at this
    simp only [List.length_nil] at this
    omega

example : Applies (concatSplit false) ComparableStep [remainderTerm (.op .or [eqs (sv "x") (cat [sv "z", skolemUnifyPrefix (sv "x") (sv "z")]), eqs (sv "z") (cat [sv "x", skolemUnifyPrefix (sv "x") (sv "z")])])
      (skolemUnifyPrefix (sv "x") (sv "z"))]
    [[eqs (cat [sv "x", sv "y"]) (cat [sv "z", lit "b"])], [.op .not [eqs (strLenOf (sv "x")) (strLenOf (sv "z"))]]] [] :=
  ⟨by decide +kernel, by unfold ClauseOK; decide +kernel, by unfold ClauseOK; decide +kernel, by decide +kernel, by unfold ComparableStep; decide +kernel⟩

example : Applies (concatSplit true) ComparableStep [remainderTerm (.op .or [eqs (sv "x") (cat [skolemUnifySuffix (sv "x") (sv "z"), sv "z"]), eqs (sv "z") (cat [skolemUnifySuffix (sv "x") (sv "z"), sv "x"])])
      (skolemUnifySuffix (sv "x") (sv "z"))]
    [[eqs (cat [sv "y", sv "x"]) (cat [lit "b", sv "z"])], [.op .not [eqs (strLenOf (sv "x")) (strLenOf (sv "z"))]]] [] :=
  ⟨by decide +kernel, by unfold ClauseOK; decide +kernel, by unfold ClauseOK; decide +kernel, by decide +kernel, by unfold ComparableStep; decide +kernel⟩

/-- **C46**, `concat_lprop_prefix` and `concat_lprop_suffix`. -/
theorem c46_concat_lprop_partial (rev : Bool) : SoundStr (concatLprop rev) ComparableStep := by
  intro conclusion premises args h hc hp ha hcmp M ⟨L, hS⟩ hprem
  simp only [concatLprop, premTerm, bind_ok, get1_ok, get2_ok, match1_ok, match2_ok, require_ok, assertEq_ok, Prod.exists] at h
  obtain ⟨p, q, rfl, c, rfl, -, -, _, _, -, eq, rfl, length, rfl, t, s, rfl, lt, ls, rfl, t1, rfl, s1, rfl, -, -, -, -, l, h1, l', h2, he⟩ := h
  have hst := str_eq (prem_fst hprem)
  have hlen := prem_snd hprem
  obtain ⟨r, ht, hs⟩ := eq_children (ok_fst hp)
  obtain ⟨ss, h3, -⟩ := sortOf_op (by decide) (ok_snd hp)
  obtain ⟨_, _, rfl, ht1, h3⟩ := sortOfL_cons.1 h3
  obtain ⟨_, _, rfl, hs1, -⟩ := sortOfL_cons.1 h3
  replace hs1 := (sort_strLen hs1).2
  replace ht1 := (sort_strLen ht1).2
  replace hlen := (holds_gt (val_strLen hS (val_str ht1)) (val_strLen hS (val_str hs1))).1 hlen
  have bp : Built (terms [c] [[.op .equals [t, s]], [.op .gt [.op .strLen [t1], .op .strLen [s1]]]] args) (.op .equals [t, s]) :=
    built_term (by simp)
  have bq : Built (terms [c] [[.op .equals [t, s]], [.op .gt [.op .strLen [t1], .op .strLen [s1]]]] args)
    (.op .gt [.op .strLen [t1], .op .strLen [s1]]) := built_term (by simp)
  obtain ⟨r1, e1⟩ := isPrefixOrSuffix_str hS hcmp (built_sub bp (by sub_mem)) (built_sub bq (by sub_mem)) (some_isSome ht)
    (some_isSome ht1) (M := M) h1
  obtain ⟨r2, e2⟩ := isPrefixOrSuffix_str hS hcmp (built_sub bp (by sub_mem)) (built_sub bq (by sub_mem)) (some_isSome hs)
    (some_isSome hs1) (M := M) h2
  rw [← hst] at e2
  have vt : M.val (expandStr t1) = strV (M.str t1) := (val_expand hS ht1).trans (val_str ht1)
  have vs : M.val (expandStr s1) = strV (M.str s1) := (val_expand hS hs1).trans (val_str hs1)
  have vr := val_unify (rev := rev) hS vt vs
  have hexp : ExpOK M (remainderTerm (.op .equals [expandStr t1, .op .strConcat (if rev then [if rev then skolemUnifySuffix (expandStr t1)
      (expandStr s1) else skolemUnifyPrefix (expandStr t1) (expandStr s1), expandStr s1] else [expandStr s1, if rev then skolemUnifySuffix
      (expandStr t1) (expandStr s1) else skolemUnifyPrefix (expandStr t1) (expandStr s1)])])
      (if rev then skolemUnifySuffix (expandStr t1) (expandStr s1) else skolemUnifyPrefix (expandStr t1) (expandStr s1))) :=
    .remainder (.op2 (by decide) (.idem _) (expOK_concat_rev hS (flatOK_unify hS vt vs) (flatOK_expandStr hS M.env_dom hs1)))
      (expOK_unify (.idem _) (.idem _))
  rw [Model.sat_singleton, Model.Holds, ← val_expand hS (sort_of_clause hc), he, show M.val (expandStr _) = M.val _ from hexp]
  change M.Holds _
  rw [holds_remainder hS vr, Model.holds_eq, vt, val_concat_rev hS vr vs, strV_inj]
  refine ⟨rem_left e1 e2 (by omega), ?_⟩
  intro h
  have := rem_length (rev := rev) (v := M.str t1) (w := M.str s1)
  rw [h] at this
  simp only [List.length_nil] at this
  omega

example : Applies (concatLprop false) ComparableStep [remainderTerm (eqs (sv "x") (cat [sv "z", skolemUnifyPrefix (sv "x") (sv "z")])) (skolemUnifyPrefix (sv "x") (sv "z"))]
    [[eqs (cat [sv "x", sv "y"]) (cat [sv "z", lit "b"])], [.op .gt [strLenOf (sv "x"), strLenOf (sv "z")]]] [] :=
  ⟨by decide +kernel, by unfold ClauseOK; decide +kernel, by unfold ClauseOK; decide +kernel, by decide +kernel, by unfold ComparableStep; decide +kernel⟩

example : Applies (concatLprop true) ComparableStep [remainderTerm (eqs (sv "x") (cat [skolemUnifySuffix (sv "x") (sv "z"), sv "z"])) (skolemUnifySuffix (sv "x") (sv "z"))]
    [[eqs (cat [sv "y", sv "x"]) (cat [lit "b", sv "z"])], [.op .gt [strLenOf (sv "x"), strLenOf (sv "z")]]] [] :=
  ⟨by decide +kernel, by unfold ClauseOK; decide +kernel, by unfold ClauseOK; decide +kernel, by decide +kernel, by unfold ComparableStep; decide +kernel⟩

end Carcara
