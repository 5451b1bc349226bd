import Verif.Props.C46

/-! # C46: constant propagation, decomposition and lengths -/

namespace Carcara

open Spec

namespace C46

/-! ### Overlaps of constants -/

theorem isCompatible_chars : ∀ {x y : List Char}, x <+: y ∨ y <+: x → isCompatible (x.map charTerm) (y.map charTerm) = true
  | [], _, _ => by simp [isCompatible]
  | _ :: _, [], _ => by simp [isCompatible]
  | a :: x, b :: y, h => by
    simp only [List.cons_prefix_cons] at h
    obtain ⟨e, h'⟩ : a = b ∧ (x <+: y ∨ y <+: x) := by
      rcases h with h | h
      · exact ⟨h.1, .inl h.2⟩
      · exact ⟨h.1.symm, .inr h.2⟩
    subst e
    simp only [List.map_cons, isCompatible, if_true]
    exact isCompatible_chars h'

theorem overlap_lt : ∀ {x y : List Char} {j : ℕ}, j < overlap (x.map charTerm) (y.map charTerm) → ¬ (x.drop j <+: y ∨ y <+: x.drop j) := by
  intro x
  induction x with
  | nil => intro y j h; simp [overlap] at h
  | cons a x ih =>
    intro y j h
    cases x with
    | nil => simp [overlap] at h
    | cons b x =>
      simp only [List.map_cons, overlap] at h
      split at h
      · omega
      · next hc =>
        cases j with
        | zero => exact fun hp => hc (isCompatible_chars (x := a :: b :: x) hp)
        | succ j => exact ih (by simp only [List.map_cons]; omega)

theorem overlap_le : ∀ {x y : List Term}, overlap x y ≤ x.length - 1 := by
  intro x
  induction x with
  | nil => simp [overlap]
  | cons a x ih =>
    intro y
    cases x with
    | nil => simp [overlap]
    | cons b x =>
      simp only [overlap]
      split
      · omega
      · have := ih (y := y); simp only [List.length_cons] at this ⊢; omega

/-- The characters before the overlap belong to the first part. -/
theorem overlap_take {u y z x s : List Char} {c : Char} (h : u ++ (y ++ z) = (c :: x) ++ s) (hu : u ≠ []) {v : ℕ}
    (hv : v = 1 + overlap (x.map charTerm) (y.map charTerm)) : v ≤ (c :: x).length ∧ v ≤ u.length ∧ u = (c :: x).take v ++ u.drop v := by
  have h1 := overlap_le (x := x.map charTerm) (y := y.map charTerm)
  rw [List.length_map] at h1
  have hle : v ≤ (c :: x).length := by simp only [List.length_cons]; omega
  have hpos := List.length_pos_iff.2 hu
  have hvu : v ≤ u.length := by
    by_contra hlt
    refine overlap_lt (x := x) (y := y) (j := u.length - 1) (by omega) ?_
    have := congrArg (List.drop u.length) h
    rw [List.drop_left, List.drop_append_of_le_length (by omega)] at this
    have e : (c :: x).drop u.length = x.drop (u.length - 1) := by
      obtain ⟨k, hk⟩ : ∃ k, u.length = k + 1 := ⟨u.length - 1, by omega⟩
      rw [hk]; rfl
    rw [e] at this
    exact List.prefix_or_prefix_of_prefix (l₃ := y ++ z) ⟨s, this.symm⟩ ⟨z, rfl⟩
  refine ⟨hle, hvu, ?_⟩
  have := congrArg (List.take v) h
  rw [List.take_append_of_le_length hvu, List.take_append_of_le_length hle] at this
  rw [← this, List.take_append_drop]

theorem overlap_drop {u y z x s : List Char} {c : Char} (h : (z ++ y) ++ u = s ++ (x ++ [c])) (hu : u ≠ []) {v : ℕ}
    (hv : v = 1 + overlap (x.reverse.map charTerm) (y.reverse.map charTerm)) :
    v ≤ (x ++ [c]).length ∧ v ≤ u.length ∧ u = u.take (u.length - v) ++ (x ++ [c]).drop ((x ++ [c]).length - v) := by
  have h' := congrArg List.reverse h
  simp only [List.reverse_append, List.reverse_cons, List.reverse_nil, List.nil_append] at h'
  obtain ⟨h1, h2, h3⟩ := overlap_take (u := u.reverse) (y := y.reverse) (z := z.reverse) (x := x.reverse) (s := s.reverse) (c := c)
    (by simpa using h') (by simpa using hu) hv
  simp only [List.length_cons, List.length_reverse] at h1 h2
  refine ⟨by simpa using h1, h2, ?_⟩
  have h4 := congrArg List.reverse h3
  rw [List.reverse_reverse, List.reverse_append, List.reverse_drop, List.reverse_reverse, List.length_reverse] at h4
  rw [show c :: x.reverse = (x ++ [c]).reverse by simp, List.reverse_take, List.reverse_reverse, List.length_reverse] at h4
  exact h4

theorem allConstL_iff : ∀ {ts : List Term}, allConstL ts = true ↔ ∀ t ∈ ts, allConst t = true
  | [] => by simp [allConstL]
  | t :: ts => by simp [allConstL, allConstL_iff]

/-- The pieces of a constant. -/
theorem allConst_chars (t : Term) (h : allConst t = true) : ∃ cs : List Char, flattenStr t = cs.map charTerm := by
  induction t using Term.ind with
  | const c =>
    cases c with
    | str s => exact ⟨s.toList, rfl⟩
    | _ => simp [allConst] at h
  | op o as ih =>
    by_cases ho : o = .strConcat
    · subst ho
      simp only [allConst, allConstL_iff] at h
      rw [flattenStr]
      induction as with
      | nil => exact ⟨[], rfl⟩
      | cons a as ih' =>
        obtain ⟨cs, h1⟩ := ih a (by simp) (h a (by simp))
        obtain ⟨ds, h2⟩ := ih' (fun b hb => ih b (by simp [hb])) (fun b hb => h b (by simp [hb]))
        exact ⟨cs ++ ds, by rw [flattenStrL, h1, h2, List.map_append]⟩
    · rw [allConst.eq_def] at h
      cases o <;> first | cases h | exact absurd rfl ho
  | _ => simp [allConst] at h

theorem strs_chars {M : Model} : ∀ cs : List Char, M.strs (cs.map charTerm) = cs
  | [] => rfl
  | c :: cs => by rw [List.map_cons, strs_cons, strs_chars cs, str_of_val (val_charTerm c)]; rfl

theorem charTerm_inj {c d : Char} (h : charTerm c = charTerm d) : c = d := by
  simp only [charTerm, Term.const.injEq, Const.str.injEq] at h
  have := congrArg String.toList h
  simpa using this

theorem slice_chars {cs : List Char} {tail : List Term} (h : sliceFromOne (cs.map charTerm) = .ok tail) : ∃ c x, cs = c :: x ∧ tail = x.map charTerm := by
  cases cs with
  | nil => simp [sliceFromOne, panic] at h
  | cons c x => simp only [List.map_cons, sliceFromOne, ok_inj] at h; exact ⟨c, x, rfl, h.symm⟩

end C46

open C46

/-- **C46**, `concat_cprop_prefix`. -/
theorem c46_concat_cprop_prefix_partial : SoundStr concatCpropPrefix ConstantPrefix := by
  intro conclusion premises args h hc hp ha hcond M ⟨L, hS⟩ hprem
  simp only [concatCpropPrefix, premTerm, bind_ok, get1_ok, get2_ok, orPanic_ok, match2_ok, match3_ok, assertEq_ok, Prod.exists] at h
  obtain ⟨p, q, rfl, c, rfl, _, _, -, _, _, -, eq, rfl, length, rfl, t, s, rfl, t1, hl, a1, a2, a3, rfl, _, e1, ss, hss, s0, hs0, tail, htail, he⟩ := h
  subst e1
  obtain ⟨r, ht, hs⟩ := eq_children (ok_fst hp)
  obtain ⟨rfl, -, has⟩ := sort_strConcat ht
  have hst := str_eq (prem_fst hprem)
  obtain ⟨h1, -, hne⟩ := lenNonzero (M := M) hS hl (ok_snd hp)
  replace hne := hne.1 (prem_snd hprem)
  obtain ⟨hc2, hcs⟩ := hcond _ _ _ _ _ rfl
  have hs0' : s0 = firstPart s ∧ sortOf s0 = some .string ∧ ∃ w, M.str s = M.str s0 ++ w := by
    unfold cpropParts at hss
    split at hss
    · split at hss
      · simp [err] at hss
      · simp only [ok_inj] at hss
        subst hss
        simp only [Bool.false_eq_true, if_false, List.getElem?_cons_zero, Option.some.injEq] at hs0
        subst hs0
        exact ⟨rfl, rfl, [], by simp⟩
    · simp only [ok_inj] at hss
      subst hss
      next as =>
      cases as with
      | nil => simp at hs0
      | cons b as =>
        simp only [List.getElem?_cons_zero, Option.some.injEq] at hs0
        subst hs0
        obtain ⟨-, -, hall⟩ := sort_strConcat hs
        refine ⟨rfl, hall b (by simp), M.strs as, ?_⟩
        rw [str_of_val (val_strConcat hS fun u hu => ⟨_, val_str (hall u hu)⟩)]
        simp
    · simp [err] at hss
  obtain ⟨rfl, hs0s, w, hw⟩ := hs0'
  obtain ⟨y, hy⟩ := allConst_chars _ hc2
  obtain ⟨cs, hcs⟩ := allConst_chars _ hcs
  rw [hcs] at htail
  obtain ⟨d, x, rfl, rfl⟩ := slice_chars htail
  have es0 : M.str (firstPart s) = d :: x := by rw [← str_flatten hS (some_isSome hs0s), hcs, strs_chars]
  have ea2 : M.str a2 = y := by rw [← str_flatten hS (some_isSome (has a2 (by simp))), hy, strs_chars]
  rw [str_of_val (val_strConcat hS fun u hu => ⟨_, val_str (has u hu)⟩), hw, es0] at hst
  simp only [strs_cons, strs_nil, List.append_nil, ea2] at hst
  obtain ⟨h2, h3, h4⟩ := overlap_take hst hne rfl
  rw [← hy] at h2 h3 h4
  have voc : M.val (skolemPrefix (firstPart s) (intTerm ((1 + overlap (x.map charTerm) (flattenStr a2) : ℕ) : ℤ))) =
      strV ((d :: x).take (1 + overlap (x.map charTerm) (flattenStr a2))) := by
    rw [val_skolemPrefix hS ((val_str hs0s).trans (by rw [es0])) (val_intTerm _), Int.toNat_natCast]
  have vr := val_skolemSuffixRem hS (val_str (M := M) h1) (val_strLen hS voc) (by omega)
  have hexp : ExpOK M _ := ExpOK.op2 (M := M) (o := .equals) (by decide) (val_expand hS h1)
    (ExpOK.concat2 hS (flatOK_leaf (by rfl) voc) (flatOK_leaf (by rfl) vr))
  rw [Model.sat_singleton, Model.Holds, ← val_expand hS (sort_of_clause hc), he]
  refine (show _ = M.val _ from hexp) ▸ ?_
  change M.Holds _
  rw [Model.holds_eq, val_strConcat2 hS voc vr, val_str h1, strV_inj, List.length_take, Nat.min_eq_left h2]
  exact h4

example : Applies concatCpropPrefix ConstantPrefix [eqs (sv "x") (cat [skolemPrefix (lit "abc") (intTerm 2), skolemSuffixRem (sv "x") (strLenOf (skolemPrefix (lit "abc") (intTerm 2)))])]
    [[eqs (cat [sv "x", lit "cd", sv "y"]) (lit "abc")], [.op .not [eqs (strLenOf (sv "x")) (intTerm 0)]]] [] :=
  ⟨by decide +kernel, by unfold ClauseOK; decide +kernel, by unfold ClauseOK; decide +kernel, by decide +kernel, by
    intro a b c s rest h
    simp only [List.cons.injEq, Term.op.injEq, true_and, and_true] at h
    obtain ⟨⟨⟨rfl, rfl, rfl⟩, rfl⟩, -⟩ := h
    exact ⟨rfl, rfl⟩⟩

/-- **C46**, `concat_cprop_suffix`. -/
theorem c46_concat_cprop_suffix_partial : SoundStr concatCpropSuffix ConstantSuffix := by
  intro conclusion premises args h hc hp ha hcond M ⟨L, hS⟩ hprem
  simp only [concatCpropSuffix, premTerm, bind_ok, get1_ok, get2_ok, orPanic_ok, match2_ok, match3_ok, assertEq_ok, Prod.exists] at h
  obtain ⟨p, q, rfl, c, rfl, _, _, -, _, _, -, eq, rfl, length, rfl, t, s, rfl, t1, hl, a1, a2, a3, rfl, _, e1, ss, hss, s1, hs1, tail, htail, he⟩ := h
  subst e1
  obtain ⟨r, ht, hs⟩ := eq_children (ok_fst hp)
  obtain ⟨rfl, -, has⟩ := sort_strConcat ht
  have hst := str_eq (prem_fst hprem)
  obtain ⟨h1, -, hne⟩ := lenNonzero (M := M) hS hl (ok_snd hp)
  replace hne := hne.1 (prem_snd hprem)
  obtain ⟨hc2, hcs⟩ := hcond _ _ _ _ _ rfl
  have hs1' : allConst s1 = true ∧ sortOf s1 = some .string ∧ ∃ w, M.str s = w ++ M.str s1 := by
    rcases hcs with ⟨w, rfl⟩ | ⟨x, y, rfl, hy⟩
    · simp only [cpropParts] at hss
      split at hss
      · simp [err] at hss
      · simp only [ok_inj] at hss
        subst hss
        simp only [if_true, List.getElem?_cons_succ, List.getElem?_cons_zero, Option.some.injEq] at hs1
        subst hs1
        exact ⟨rfl, rfl, [], by simp⟩
    · simp only [cpropParts, ok_inj] at hss
      subst hss
      simp only [List.getElem?_cons_succ, List.getElem?_cons_zero, Option.some.injEq] at hs1
      subst hs1
      obtain ⟨-, -, hall⟩ := sort_strConcat hs
      refine ⟨hy, hall y (by simp), M.str x, ?_⟩
      rw [str_of_val (val_strConcat hS fun u hu => ⟨_, val_str (hall u hu)⟩)]
      simp
  obtain ⟨hcs, hs1s, w, hw⟩ := hs1'
  obtain ⟨y, hy⟩ := allConst_chars _ hc2
  obtain ⟨cs, hcs⟩ := allConst_chars _ hcs
  rw [hcs, ← List.map_reverse] at htail
  obtain ⟨d, x, hcr, rfl⟩ := slice_chars htail
  obtain rfl : cs = x.reverse ++ [d] := by rw [← List.reverse_reverse cs, hcr]; simp
  have es1 : M.str s1 = x.reverse ++ [d] := by rw [← str_flatten hS (some_isSome hs1s), hcs, strs_chars]
  have ea2 : M.str a2 = y := by rw [← str_flatten hS (some_isSome (has a2 (by simp))), hy, strs_chars]
  rw [str_of_val (val_strConcat hS fun u hu => ⟨_, val_str (has u hu)⟩), hw, es1] at hst
  simp only [strs_cons, strs_nil, List.append_nil, ea2, ← List.append_assoc] at hst
  obtain ⟨h2, h3, h4⟩ := overlap_drop (x := x.reverse) (s := w) (c := d) (by simpa using hst) hne rfl
  rw [List.reverse_reverse, List.map_reverse, ← hy] at h2 h3 h4
  generalize hv : 1 + overlap (x.map charTerm) (flattenStr a2).reverse = v at *
  have voc : M.val (skolemSuffix s1 (intTerm (v : ℤ))) = strV ((x.reverse ++ [d]).drop ((x.reverse ++ [d]).length - v)) :=
    val_skolemSuffix hS ((val_str hs1s).trans (by rw [es1])) (val_intTerm _) h2
  have vr := val_skolemPrefix hS (val_str (M := M) h1) (val_minus (val_strLen hS (val_str (M := M) h1)) (val_strLen hS voc))
  have hexp : ExpOK M _ := ExpOK.op2 (M := M) (o := .equals) (by decide) (val_expand hS h1)
    (ExpOK.concat2 hS (flatOK_leaf (by rfl) vr) (flatOK_leaf (by rfl) voc))
  rw [Model.sat_singleton, Model.Holds, ← val_expand hS (sort_of_clause hc), he]
  refine (show _ = M.val _ from hexp) ▸ ?_
  change M.Holds _
  rw [Model.holds_eq, val_strConcat2 hS vr voc, val_str h1, strV_inj]
  refine h4.trans ?_
  congr 2
  rw [List.length_drop]
  omega

example : Applies concatCpropSuffix ConstantSuffix [eqs (sv "y") (cat [skolemPrefix (sv "y") (.op .sub [strLenOf (sv "y"), strLenOf (skolemSuffix (lit "abc") (intTerm 2))]), skolemSuffix (lit "abc") (intTerm 2)])]
    [[eqs (cat [sv "x", lit "da", sv "y"]) (cat [sv "z", lit "abc"])], [.op .not [eqs (strLenOf (sv "y")) (intTerm 0)]]] [] :=
  ⟨by decide +kernel, by unfold ClauseOK; decide +kernel, by unfold ClauseOK; decide +kernel, by decide +kernel, by
    intro a b c s rest h
    simp only [List.cons.injEq, Term.op.injEq, true_and, and_true] at h
    obtain ⟨⟨⟨rfl, rfl, rfl⟩, rfl⟩, -⟩ := h
    exact ⟨rfl, .inr ⟨_, _, rfl, rfl⟩⟩⟩

/-- **C46**, `string_decompose`. -/
theorem c46_string_decompose_partial : SoundStr stringDecompose DecomposeFirst := by
  intro conclusion premises args h hc hp ha hcond M hI hprem
  obtain ⟨hcmp, rfl, hcond⟩ := hcond
  simp only [stringDecompose, premTerm, bind_ok, get1_ok, orErr_ok, match1_ok, match2_ok, assertPolyeq_ok, Prod.exists] at h
  obtain ⟨p, rfl, a, ea, c, rfl, term, rfl, rev, hrev, l, n, rfl, t, rfl, _, _, -, _, _, -, _, _, -, _, -, h⟩ := h
  obtain rfl : Term.op .fls [] = a := by simpa using ea
  obtain rfl : false = rev := by simpa [Term.asBool] using hrev
  obtain ⟨k, hk⟩ := hcond _ _ rfl M hI
  obtain ⟨L, hS⟩ := hI
  obtain ⟨ss, h3, h4⟩ := sortOf_op (by decide) (ok_one hp)
  obtain ⟨_, _, rfl, hlt, h3⟩ := sortOfL_cons.1 h3
  obtain ⟨r, _, rfl, hns, h3⟩ := sortOfL_cons.1 h3
  obtain rfl := sortOfL_nil.1 h3
  obtain ⟨rfl, ht⟩ := sort_strLen hlt
  have hr : r = .int := by
    have h1 : M.I.dom r (M.val n) := eval_dom n hns M.env_dom
    simp only [opSort] at h4
    split at h4
    · next h5 =>
      simp at h5
      refine h5.resolve_right ?_
      rintro rfl
      obtain ⟨x, hx⟩ := (M.I.dom_real _).1 h1
      rw [hk] at hx
      cases hx
    · cases h4
  subst hr
  have hsE : sortOf (.op .and [.op .equals [t, .op .strConcat [skolemPrefix t n, skolemSuffixRem t n]], .op .equals [strLenOf (skolemPrefix t n), n]]) =
      some .bool := by
    simp [sortOf, sortOfL, skolemPrefix, skolemSuffixRem, strLenOf, intTerm, Const.sort, opSort, allSort, ht, hns]
  have bp : Built (terms [c] [[.op .ge [.op .strLen [t], n]]] [.op .fls []]) (.op .ge [.op .strLen [t], n]) := built_term (by simp)
  have bt := built_sub (u := t) bp (by sub_mem)
  have bn := built_sub (u := n) bp (by sub_mem)
  have bz : Built (terms [c] [[.op .ge [.op .strLen [t], n]]] [.op .fls []]) (intTerm 0) := built_term (by simp [intTerm])
  have bE : Built (terms [c] [[.op .ge [.op .strLen [t], n]]] [.op .fls []])
      (.op .and [.op .equals [t, .op .strConcat [skolemPrefix t n, skolemSuffixRem t n]], .op .equals [strLenOf (skolemPrefix t n), n]]) := by
    have b1 : Built (terms [c] [[.op .ge [.op .strLen [t], n]]] [.op .fls []]) (skolemPrefix t n) := .op (by decide) (by simp [bt, bn, bz])
    have b2 : Built (terms [c] [[.op .ge [.op .strLen [t], n]]] [.op .fls []]) (strLenOf t) := .op (by decide) (by simp [bt])
    have b3 : Built (terms [c] [[.op .ge [.op .strLen [t], n]]] [.op .fls []]) (skolemSuffixRem t n) :=
      .op (by decide) (by simpa [bt, bn] using Built.op (o := .sub) (as := [strLenOf t, n]) (by decide) (by simp [bn, b2]))
    have b4 : Built (terms [c] [[.op .ge [.op .strLen [t], n]]] [.op .fls []]) (.op .strConcat [skolemPrefix t n, skolemSuffixRem t n]) :=
      .op (by decide) (by simp [b1, b3])
    have b5 : Built (terms [c] [[.op .ge [.op .strLen [t], n]]] [.op .fls []]) (strLenOf (skolemPrefix t n)) := .op (by decide) (by simp [b1])
    have b6 : Built (terms [c] [[.op .ge [.op .strLen [t], n]]] [.op .fls []]) (.op .equals [t, .op .strConcat [skolemPrefix t n, skolemSuffixRem t n]]) :=
      .op (by decide) (by simp [bt, b4])
    have b7 : Built (terms [c] [[.op .ge [.op .strLen [t], n]]] [.op .fls []]) (.op .equals [strLenOf (skolemPrefix t n), n]) :=
      .op (by decide) (by simp [bn, b5])
    exact .op (by decide) (by simp [b6, b7])
  have hval := Built.val (M := M) hcmp (built_term (by simp)) bE (some_isSome (sort_of_clause hc)) (some_isSome hsE) h
  rw [Model.sat_singleton, Model.Holds, hval]
  change M.Holds _
  have hge := (holds_ge (val_strLen hS (val_str ht)) hk).1 (prem_one hprem)
  have vp := val_skolemPrefix hS (val_str ht) hk
  have vs := val_skolemSuffixRem hS (val_str ht) hk (by omega)
  rw [Model.holds_and]
  simp only [List.mem_cons, List.not_mem_nil, or_false, forall_eq_or_imp, forall_eq, Model.holds_eq, val_strConcat2 hS vp vs, val_strLen hS vp, hk]
  refine ⟨?_, ?_⟩
  · rw [List.take_append_drop]; exact val_str ht
  · rw [List.length_take]
    congr 1
    omega

example : Applies stringDecompose DecomposeFirst [.op .and [eqs (sv "x") (cat [skolemPrefix (sv "x") (intTerm 2), skolemSuffixRem (sv "x") (intTerm 2)]), eqs (strLenOf (skolemPrefix (sv "x") (intTerm 2))) (intTerm 2)]]
    [[.op .ge [strLenOf (sv "x"), intTerm 2]]] [.op .fls []] :=
  ⟨by decide +kernel, by unfold ClauseOK; decide +kernel, by unfold ClauseOK; decide +kernel, by decide +kernel, by unfold ComparableStep; decide +kernel, rfl, by
    intro t n h M _
    simp only [List.cons.injEq, Term.op.injEq, true_and, and_true] at h
    obtain ⟨-, rfl⟩ := h
    exact ⟨2, rfl⟩⟩

/-- **C46**, `string_length_pos`. -/
theorem c46_string_length_pos_partial : SoundStr stringLengthPos ComparableStep := by
  intro conclusion premises args h hc hp ha hcmp M ⟨L, hS⟩ hprem
  simp only [stringLengthPos, bind_ok, get1_ok, match1_ok, match2_ok, matchNum, require_ok, Prod.exists] at h
  obtain ⟨t, rfl, c, rfl, x, g, rfl, e, e', rfl, l, z, rfl, t1, rfl, -, hz, t2, em, rfl, -, rfl, t3, h3, _, p1, _, p2, p3⟩ := h
  have hsc := bool_children (.inr (.inr (.inl rfl))) (sort_of_clause hc)
  have hsa := bool_children (.inr (.inl rfl)) (hsc _ (List.mem_cons_self ..))
  obtain ⟨r, sl, sz⟩ := eq_children (hsa _ (List.mem_cons_self ..))
  obtain ⟨rfl, s1⟩ := sort_strLen sl
  obtain ⟨r, s2, se⟩ := eq_children (hsa _ (List.mem_cons_of_mem _ (List.mem_cons_self ..)))
  obtain ⟨s3, b3, hpos⟩ := lenPositive (M := M) hS h3 (hsc _ (List.mem_cons_of_mem _ (List.mem_cons_self ..)))
  have st := ha t (by simp)
  have bc : Built (terms [.op .or [.op .and [.op .equals [.op .strLen [t1], z], .op .equals [t2, emptyStr]], g]] premises [t])
    (.op .or [.op .and [.op .equals [.op .strLen [t1], z], .op .equals [t2, emptyStr]], g]) := built_term (by simp)
  have bt : Built (terms [.op .or [.op .and [.op .equals [.op .strLen [t1], z], .op .equals [t2, emptyStr]], g]] premises [t]) t :=
    built_term (by simp)
  have v1 := Built.val (M := M) hcmp (built_sub bc (by sub_mem)) bt (some_isSome s1) st (assertPolyeq_ok.1 p1)
  have v2 := Built.val (M := M) hcmp (built_sub bc (by sub_mem)) bt (some_isSome s2) st (assertPolyeq_ok.1 p2)
  have v3 := Built.val (M := M) hcmp (b3 _ (built_sub bc (by sub_mem))) bt (some_isSome s3) st (assertPolyeq_ok.1 p3)
  have vt1 := val_str (M := M) s1
  have e1 : M.str t3 = M.str t1 := by simp only [Model.str, v3, v1]
  rw [Model.sat_singleton, Model.holds_or]
  simp only [List.mem_cons, List.not_mem_nil, or_false, exists_eq_or_imp, exists_eq_left, Model.holds_and, forall_eq_or_imp, forall_eq,
    Model.holds_eq, asNumber_zero hz sz, hpos, e1, val_emptyStr, v2, ← v1, show M.val (.op .strLen [t1]) = _ from val_strLen hS vt1]
  rw [vt1, strV_inj]
  by_cases h : M.str t1 = []
  · left; simp [h]
  · right; exact h

example : Applies stringLengthPos ComparableStep [.op .or [.op .and [eqs (strLenOf (sv "x")) (intTerm 0), eqs (sv "x") emptyStr], .op .gt [strLenOf (sv "x"), intTerm 0]]]
    [] [sv "x"] :=
  ⟨by decide +kernel, by unfold ClauseOK; decide +kernel, by unfold ClauseOK; decide +kernel, by decide +kernel, by unfold ComparableStep; decide +kernel⟩

/-- **C46**, `string_length_non_empty`. -/
theorem c46_string_length_non_empty_partial : SoundStr stringLengthNonEmpty ComparableStep := by
  intro conclusion premises args h hc hp ha hcmp M ⟨L, hS⟩ hprem
  simp only [stringLengthNonEmpty, premTerm, bind_ok, get1_ok, assertPolyeq_ok] at h
  obtain ⟨p, rfl, c, rfl, term, rfl, t, ht, u, hu, h⟩ := h
  obtain ⟨st, bt, h1⟩ := nonempty (M := M) ht (ok_one hp)
  obtain ⟨su, bu, h2⟩ := lenNonzero (M := M) hS hu (sort_of_clause hc)
  have hv := Built.val (M := M) hcmp (bu _ (built_term (by simp))) (bt _ (built_term (by simp))) (some_isSome su) (some_isSome st) h
  rw [Model.sat_singleton, h2]
  have := h1.1 (prem_one hprem)
  simpa only [Model.str, hv] using this

example : Applies stringLengthNonEmpty ComparableStep [.op .not [eqs (strLenOf (sv "x")) (intTerm 0)]]
    [[.op .not [eqs (sv "x") emptyStr]]] [] :=
  ⟨by decide +kernel, by unfold ClauseOK; decide +kernel, by unfold ClauseOK; decide +kernel, by decide +kernel, by unfold ComparableStep; decide +kernel⟩

/-- **C46**, `re_inter`. -/
theorem c46_re_inter_partial : SoundStr reInterRule ComparableStep := by
  intro conclusion premises args h hc hp ha hcmp M ⟨L, hS⟩ hprem
  simp only [reInterRule, premTerm, bind_ok, get1_ok, get2_ok, match2_ok, assertEq_ok, Prod.exists] at h
  obtain ⟨p, q, rfl, c, rfl, x, i, rfl, sc, tc, rfl, t1, rfl, t2, rfl, x1, s, rfl, x2, t, rfl, _, p1, _, p2, _, rfl, rfl⟩ := h
  obtain ⟨-, sx, si⟩ := sort_strInRe (sort_of_clause hc)
  obtain ⟨-, sx1, ss⟩ := sort_strInRe (ok_fst hp)
  obtain ⟨-, sx2, st⟩ := sort_strInRe (ok_snd hp)
  have v1 := Built.val (M := M) hcmp (built_sub (built_term (List.mem_cons_of_mem _ (by simp; exact .inl rfl))) (by sub_mem))
    (built_sub (built_term (t := .op .strInRe [x1, sc]) (by simp)) (by sub_mem)) (some_isSome sx) (some_isSome sx1) (assertPolyeq_ok.1 p1)
  have v2 := Built.val (M := M) hcmp (built_sub (built_term (List.mem_cons_of_mem _ (by simp; exact .inl rfl))) (by sub_mem))
    (built_sub (built_term (t := .op .strInRe [x2, tc]) (by simp)) (by sub_mem)) (some_isSome sx) (some_isSome sx2) (assertPolyeq_ok.1 p2)
  have h1 := (holds_strInRe hS ((v1.symm).trans (val_str sx)) ss).1 (prem_fst hprem)
  have h2 := (holds_strInRe hS ((v2.symm).trans (val_str sx)) st).1 (prem_snd hprem)
  rw [Model.sat_singleton, holds_strInRe hS (val_str sx) si, Model.val_op]
  have := (hS.inter [M.val sc, M.val tc] (by
    simp only [List.mem_cons, List.not_mem_nil, or_false, forall_eq_or_imp, forall_eq]
    exact ⟨eval_dom _ ss M.env_dom, eval_dom _ st M.env_dom⟩) (M.str x)).2 (by simpa using ⟨h1, h2⟩)
  exact this

example : Applies reInterRule ComparableStep [.op .strInRe [sv "x", .op .reInter [.op .reAll [], .var "r" .regLan]]]
    [[.op .strInRe [sv "x", .op .reAll []]], [.op .strInRe [sv "x", .var "r" .regLan]]] [] :=
  ⟨by decide +kernel, by unfold ClauseOK; decide +kernel, by unfold ClauseOK; decide +kernel, by decide +kernel, by unfold ComparableStep; decide +kernel⟩

end Carcara
