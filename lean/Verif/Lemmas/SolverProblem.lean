import Verif.Spec.SolverProblem
import Verif.Model.SolverProblem
import Verif.Lemmas.ProofPrinter
import Verif.Lemmas.ExpansionProblem

/-!
# The text of the problem for a clause, and how it is read
-/

namespace Carcara
open PRes Reader

/-! ## Numbers in standard SMT-LIB -/

theorem Term.standardL_eq {ts : List Term} : Term.standardL ts = ts.map Term.standard := by
  induction ts with
  | nil => rfl
  | cons t ts ih => rw [Term.standardL, ih, List.map_cons]

theorem Term.standardB_eq {bs : List (String × Term)} : Term.standardB bs = bs.map fun b => (b.1, b.2.standard) := by
  induction bs with
  | nil => rfl
  | cons b bs ih => obtain ⟨x, t⟩ := b; rw [Term.standardB, ih, List.map_cons]

theorem sortOf_standardFraction (q : Rat) : sortOf (standardFraction q) = some .real := by
  rw [standardFraction]
  split
  · rfl
  · simp [sortOf, sortOfL, Const.sort, opSort, allSort]

theorem Const.sortOf_standard (c : Const) : sortOf c.standard = some c.sort := by
  cases c with
  | int z =>
    rw [Const.standard]
    split
    · simp [sortOf, sortOfL, Const.sort, opSort, allSort]
    · rfl
  | real q =>
    rw [Const.standard]
    split
    · simp [sortOf, sortOfL, sortOf_standardFraction, Const.sort, opSort, allSort]
    · exact sortOf_standardFraction q
  | str s => rfl
  | bv v w => rfl

theorem sortOfL_standard {ts : List Term} (h : ∀ t ∈ ts, sortOf t.standard = sortOf t) : sortOfL (Term.standardL ts) = sortOfL ts := by
  induction ts with
  | nil => rfl
  | cons t ts ih => rw [Term.standardL, sortOfL, sortOfL, h t (by simp), ih fun u hu => h u (by simp [hu])]

theorem sortOfB_standard {bs : List (String × Term)} (h : ∀ b ∈ bs, sortOf b.2.standard = sortOf b.2) : sortOfB (Term.standardB bs) = sortOfB bs := by
  induction bs with
  | nil => rfl
  | cons b bs ih => obtain ⟨x, t⟩ := b; rw [Term.standardB, sortOfB, sortOfB, h (x, t) (by simp), ih fun u hu => h u (by simp [hu])]

theorem sortOf_standard (t : Term) (hs : (sortOf t).isSome = true) : sortOf t.standard = sortOf t := by
  induction t using Term.ind with
  | const c => rw [Term.standard, c.sortOf_standard, sortOf]
  | var x s => rfl
  | app f as hf has =>
    have h := sorted_app hs
    rw [Term.standard, sortOf, sortOf, hf h.1, sortOfL_standard fun a ha => has a ha (h.2 a ha)]
  | op o as has =>
    have h := sortOfL_standard fun a ha => has a ha (sorted_op_mem hs ha)
    rw [Term.standard]
    by_cases ho : o = .bvConst
    · subst ho
      simp only [sortOf] at hs
      split at hs
      · next a w _ =>
        split at hs
        · next hw =>
          have e : Term.standardL [a, .const (.int w)] = [a.standard, .const (.int w)] := by
            simp [Term.standardL, Term.standard, Const.standard, Int.not_lt.2 hw]
          rw [e] at h ⊢
          simp only [sortOf, h]
          simp only [sortOfL] at *
          split <;> simp_all
        · cases hs
      · cases hs
    · rw [sortOf_op_eq ho, sortOf_op_eq ho, h]
  | binder b bs t ht =>
    simp only [Term.standard, sortOf, ht (sorted_binder hs)]
  | let_ bs t hbs ht =>
    have h := sorted_let hs
    rw [Term.standard, sortOf, sortOf, ht h.2, sortOfB_standard fun b hb => hbs b hb (h.1 b hb)]
  | paramOp o ps as _ has =>
    have h := sorted_paramOp hs
    rw [Term.standard, sortOf, sortOf, sortOfL_standard fun a ha => has a ha (h a ha)]


theorem tokens_standardFraction (q : Rat) : (standardFraction q).tokens false [] =
    if q.den = 1 then [.decimal q] else parens [[.symbol "/"], [.decimal q.num], [.decimal q.den]] := by
  rw [standardFraction]
  split
  · rfl
  · rfl

theorem Const.tokens_standard (c : Const) : c.strictTokens = c.standard.tokens false [] := by
  cases c with
  | int z =>
    rw [Const.strictTokens, Const.standard]
    split <;> rfl
  | real q =>
    rw [Const.strictTokens, Const.standard]
    by_cases hq : q < 0
    · simp only [hq, if_true]
      have e := tokens_standardFraction (-q)
      rw [Rat.neg_den] at e
      rw [Term.tokens, named_none rfl]
      simp only [Term.tokensL, e, List.isEmpty_cons, Bool.false_eq_true, if_false, abs_of_neg hq]
      have hn : |(q.num : Rat)| = -q.num := abs_of_neg (by exact_mod_cast Rat.num_neg.2 hq)
      split
      · rfl
      · simp [Op.token, Op.name, hn]
    · simp only [hq, if_false]
      have e := tokens_standardFraction q
      have hn : |(q.num : Rat)| = q.num := abs_of_nonneg (by exact_mod_cast Rat.num_nonneg.2 (not_lt.1 hq))
      rw [e, abs_of_nonneg (not_lt.1 hq), hn]
  | str s => rfl
  | bv v w => rfl

theorem tokensL_standard {ts : List Term} (h : ∀ t ∈ ts, t.tokens true [] = t.standard.tokens false []) :
    Term.tokensL true [] ts = Term.tokensL false [] (Term.standardL ts) := by
  induction ts with
  | nil => rfl
  | cons t ts ih => rw [Term.standardL, Term.tokensL, Term.tokensL, h t (by simp), ih fun u hu => h u (by simp [hu])]

theorem tokensB_standard {bs : List (String × Term)} (h : ∀ b ∈ bs, b.2.tokens true [] = b.2.standard.tokens false []) :
    Term.tokensB true [] bs = Term.tokensB false [] (Term.standardB bs) := by
  induction bs with
  | nil => rfl
  | cons b bs ih => obtain ⟨x, t⟩ := b; rw [Term.standardB, Term.tokensB, Term.tokensB, h (x, t) (by simp), ih fun u hu => h u (by simp [hu])]

theorem tokensL_indices {ps : List Term} (h : ∀ p ∈ ps, ∃ z : Int, 0 ≤ z ∧ p = .const (.int z)) : Term.tokensL true [] ps = Term.tokensL false [] ps := by
  induction ps with
  | nil => rfl
  | cons p ps ih =>
    obtain ⟨z, hz, rfl⟩ := h p (by simp)
    rw [Term.tokensL, Term.tokensL, ih fun q hq => h q (by simp [hq])]
    simp [Term.tokens, named, Const.strictTokens, Const.tokens, Int.not_lt.2 hz]

theorem popSort_indices {o : ParamOp} {ps : List Term} {ss : List Srt} {s : Srt} (h : popSort o ps ss = some s) :
    ∀ p ∈ ps, ∃ z : Int, 0 ≤ z ∧ p = .const (.int z) := by
  unfold popSort at h
  split at h <;> first
    | (split at h
       · next hz =>
         simp only [List.mem_cons, List.not_mem_nil, or_false, forall_eq_or_imp, forall_eq]
         first
         | exact ⟨_, hz, rfl⟩
         | exact ⟨⟨_, by omega, rfl⟩, _, by omega, rfl⟩
       · cases h)
    | cases h

theorem tokens_standard (t : Term) (hs : (sortOf t).isSome = true) : t.tokens true [] = t.standard.tokens false [] := by
  induction t using Term.ind with
  | const c =>
    rw [Term.tokens, named_none rfl, Term.standard]
    exact c.tokens_standard
  | var x s => rfl
  | app f as hf has =>
    have h := sorted_app hs
    rw [Term.standard, Term.tokens, Term.tokens, named_none rfl, named_none rfl, hf h.1, tokensL_standard fun a ha => has a ha (h.2 a ha)]
  | op o as has =>
    have h := tokensL_standard fun a ha => has a ha (sorted_op_mem hs ha)
    have e : (Term.standardL as).isEmpty = as.isEmpty := by cases as <;> rfl
    rw [Term.standard, Term.tokens, Term.tokens, named_none rfl, named_none rfl, h, e]
  | binder b bs t ht => rw [Term.standard, Term.tokens, Term.tokens, named_none rfl, named_none rfl, ht (sorted_binder hs)]
  | let_ bs t hbs ht =>
    have h := sorted_let hs
    rw [Term.standard, Term.tokens, Term.tokens, named_none rfl, named_none rfl, ht h.2, tokensB_standard fun b hb => hbs b hb (h.1 b hb)]
  | paramOp o ps as _ has =>
    have h := tokensL_standard fun a ha => has a ha (sorted_paramOp hs a ha)
    have e : (Term.standardL as).isEmpty = as.isEmpty := by cases as <;> rfl
    have hp : Term.tokensL true [] ps = Term.tokensL false [] ps := by
      simp only [sortOf] at hs
      split at hs
      · obtain ⟨s, hs⟩ := Option.isSome_iff_exists.1 hs
        exact tokensL_indices (popSort_indices hs)
      · cases hs
    rw [Term.standard, Term.tokens, Term.tokens, named_none rfl, named_none rfl, h, e, hp]

theorem smallWidths_standardFraction (q : Rat) : (standardFraction q).smallWidths := by
  rw [standardFraction]
  split
  · intro u hu w e
    simp only [Term.subterms, List.mem_singleton] at hu
    subst hu
    cases e
  · intro u hu w e
    simp only [Term.subterms, Term.subtermsL, List.mem_cons, List.mem_append, List.not_mem_nil, or_false] at hu
    rcases hu with rfl | rfl | rfl
    · simp [sortOf, sortOfL, Const.sort, opSort, allSort] at e
    · cases e
    · cases e

theorem Const.smallWidths_standard (c : Const) (h : (Term.const c).smallWidths) : c.standard.smallWidths := by
  have e : ∀ z, (Term.const (.int z)).smallWidths := fun z u hu w e => by
    simp only [Term.subterms, List.mem_singleton] at hu
    subst hu
    cases e
  cases c with
  | int z =>
    have h2 := Const.sortOf_standard (.int z)
    rw [Const.standard] at h2 ⊢
    split at h2
    · next hz =>
      rw [if_pos hz]
      exact smallWidths_op (fun a ha => by rw [List.mem_singleton.1 ha]; exact e _) fun w hw => by rw [h2] at hw; cases hw
    · next hz => rw [if_neg hz]; exact e _
  | real q =>
    have h2 := Const.sortOf_standard (.real q)
    rw [Const.standard] at h2 ⊢
    split at h2
    · next hz =>
      rw [if_pos hz]
      exact smallWidths_op (fun a ha => by rw [List.mem_singleton.1 ha]; exact smallWidths_standardFraction _) fun w hw => by rw [h2] at hw; cases hw
    · next hz => rw [if_neg hz]; exact smallWidths_standardFraction _
  | str s => exact h
  | bv v w => exact h

theorem smallWidths_standard (t : Term) (hs : (sortOf t).isSome = true) (h : t.smallWidths) : t.standard.smallWidths := by
  have hself := sortOf_standard t hs
  have h0 : ∀ w, sortOf t.standard = some (.bv w) → w < 2 ^ 64 := fun w hw => h t t.self_mem_subterms w (hself ▸ hw)
  induction t using Term.ind with
  | const c => exact c.smallWidths_standard h
  | var x s => exact h
  | app f as hf has =>
    have hs' := sorted_app hs
    have hf' := smallWidths_sub h (subterms_app (f := f) (as := as) (a := f) (.inl rfl))
    refine smallWidths_app (hf hs'.1 hf' (sortOf_standard f hs'.1) ?_) (fun a ha => ?_) h0
    · exact fun w hw => hf' f f.self_mem_subterms w (sortOf_standard f hs'.1 ▸ hw)
    · rw [Term.standardL_eq, List.mem_map] at ha
      obtain ⟨a, ha, rfl⟩ := ha
      have ha' := smallWidths_sub h (subterms_app (f := f) (as := as) (a := a) (.inr ha))
      exact has a ha (hs'.2 a ha) ha' (sortOf_standard a (hs'.2 a ha)) fun w hw => ha' a a.self_mem_subterms w (sortOf_standard a (hs'.2 a ha) ▸ hw)
  | op o as has =>
    have hs' := fun a (ha : a ∈ as) => sorted_op_mem hs ha
    refine smallWidths_op (fun a ha => ?_) h0
    rw [Term.standardL_eq, List.mem_map] at ha
    obtain ⟨a, ha, rfl⟩ := ha
    have ha' := smallWidths_sub h (subterms_op (o := o) ha)
    exact has a ha (hs' a ha) ha' (sortOf_standard a (hs' a ha)) fun w hw => ha' a a.self_mem_subterms w (sortOf_standard a (hs' a ha) ▸ hw)
  | binder b bs t ht =>
    have hs' := sorted_binder hs
    have ht' := smallWidths_sub h (subterms_binder (b := b) (bs := bs) (t := t))
    exact smallWidths_binder (ht hs' ht' (sortOf_standard t hs') fun w hw => ht' t t.self_mem_subterms w (sortOf_standard t hs' ▸ hw)) h0
  | let_ bs t hbs ht =>
    have hs' := sorted_let hs
    intro u hu w hw
    rw [Term.standard] at hu
    simp only [Term.subterms, List.mem_cons, List.mem_append, Term.mem_subtermsB, Term.standardB_eq, List.mem_map] at hu
    rcases hu with rfl | ⟨b, ⟨b, hb, rfl⟩, hu⟩ | hu
    · exact h0 w (by rw [Term.standard, Term.standardB_eq]; exact hw)
    · have hb' := smallWidths_sub h (subterms_let (bs := bs) (t := t) (a := b.2) (.inr ⟨b, hb, rfl⟩))
      exact hbs b hb (hs'.1 b hb) hb' (sortOf_standard b.2 (hs'.1 b hb))
        (fun w hw => hb' b.2 b.2.self_mem_subterms w (sortOf_standard b.2 (hs'.1 b hb) ▸ hw)) u hu w hw
    · have ht' := smallWidths_sub h (subterms_let (bs := bs) (t := t) (a := t) (.inl rfl))
      exact ht hs'.2 ht' (sortOf_standard t hs'.2) (fun w hw => ht' t t.self_mem_subterms w (sortOf_standard t hs'.2 ▸ hw)) u hu w hw
  | paramOp o ps as _ has =>
    have hs' := sorted_paramOp hs
    intro u hu w hw
    rw [Term.standard] at hu
    simp only [Term.subterms, List.mem_cons, List.mem_append, Term.mem_subtermsL, Term.standardL_eq, List.mem_map] at hu
    rcases hu with rfl | hu | ⟨a, ⟨a, ha, rfl⟩, hu⟩
    · exact h0 w (by rw [Term.standard, Term.standardL_eq]; exact hw)
    · exact h u (by simp only [Term.subterms, List.mem_cons, List.mem_append, Term.mem_subtermsL]; exact .inr (.inl hu)) w hw
    · have ha' := smallWidths_sub h (subterms_paramOp (o := o) (ps := ps) ha)
      exact has a ha (hs' a ha) ha' (sortOf_standard a (hs' a ha)) (fun w hw => ha' a a.self_mem_subterms w (sortOf_standard a (hs' a ha) ▸ hw)) u hu w hw

variable {F : List (String × FunDef)}

theorem known_standard (t : Term) : ∀ {E : PEnv}, (sortOf t).isSome = true → t.Known [] F E → t.standard.Known [] F E := by
  induction t using Term.ind with
  | const c =>
    intro E _ h
    rw [Term.standard]
    cases c with
    | int z =>
      rw [Const.standard]
      split
      · simp [Term.Known, Term.KnownL, knownName, Const.Known]
      · exact h
    | real q =>
      rw [Const.standard]
      simp only [standardFraction]
      split <;> split <;> simp [Term.Known, Term.KnownL, knownName, Const.Known]
    | str s => exact h
    | bv v w => exact h
  | var x s => exact fun _ h => h
  | app f as hf has =>
    intro E hs h
    have hs' := sorted_app hs
    rw [Term.Known] at h
    obtain ⟨⟨h0, h1⟩, h2, h3, h4⟩ := knownName_none rfl h
    rw [Term.standard, Term.Known]
    refine ⟨⟨rfl, fun s e => ?_⟩, hf hs'.1 h2, fun e => h3 ?_, ?_⟩
    · cases f with
      | var x s' => exact h1 s e
      | const c =>
        simp only [sortOf, Option.isSome_iff_exists] at hs
        cases c <;> simp [Const.sort] at hs
      | _ => simp [Term.standard] at e
    · cases as with
      | nil => rfl
      | cons a as => cases e
    · rw [Term.knownL_iff, Term.standardL_eq]
      intro a ha
      obtain ⟨a, ha', rfl⟩ := List.mem_map.1 ha
      exact has a ha' (hs'.2 a ha') (Term.knownL_iff.1 h4 a ha')
  | op o as has =>
    intro E hs h
    rw [Term.Known] at h
    obtain ⟨h1, h2⟩ := knownName_none rfl h
    rw [Term.standard, Term.Known]
    refine ⟨fun e => h1 ?_, ?_⟩
    · cases as with
      | nil => rfl
      | cons a as => cases e
    · rw [Term.knownL_iff, Term.standardL_eq]
      intro a ha
      obtain ⟨a, ha', rfl⟩ := List.mem_map.1 ha
      exact has a ha' (sorted_op_mem hs ha') (Term.knownL_iff.1 h2 a ha')
  | binder b bs t ht =>
    intro E hs h
    rw [Term.Known] at h
    obtain ⟨h1, h2⟩ := knownName_none rfl h
    exact ⟨h1, ht (sorted_binder hs) h2⟩
  | let_ bs t hbs ht =>
    intro E hs h
    have hs' := sorted_let hs
    rw [Term.Known] at h
    obtain ⟨h0, h1, h2, h3⟩ := knownName_none rfl h
    have e : letSorts (Term.standardB bs) = letSorts bs := by
      rw [letSorts, letSorts, Term.standardB_eq, List.filterMap_map]
      exact List.filterMap_congr fun b hb => by simp [sortOf_standard b.2 (hs'.1 b hb)]
    rw [Term.standard, Term.Known, e]
    refine ⟨h0, fun e => h1 ?_, ?_, ht hs'.2 h3⟩
    · cases bs with
      | nil => rfl
      | cons b bs => cases e
    · rw [Term.knownB_iff, Term.standardB_eq]
      intro a ha
      obtain ⟨a, ha', rfl⟩ := List.mem_map.1 ha
      exact hbs a ha' (hs'.1 a ha') (Term.knownB_iff.1 h2 a ha')
  | paramOp o ps as _ has =>
    intro E hs h
    rw [Term.Known] at h
    obtain ⟨h1, h2⟩ := knownName_none rfl h
    refine ⟨h1, ?_⟩
    rw [Term.knownL_iff, Term.standardL_eq]
    intro a ha
    obtain ⟨a, ha', rfl⟩ := List.mem_map.1 ha
    exact has a ha' (sorted_paramOp hs a ha') (Term.knownL_iff.1 h2 a ha')

theorem Writable.standard {t : Term} {E : PEnv} (h : Writable [] F E t) : Writable [] F E t.standard :=
  ⟨by rw [sortOf_standard t h.sorted]; exact h.sorted, smallWidths_standard t h.sorted h.small, known_standard t h.sorted h.known⟩

/-! ### Meaning -/

theorem eval_standardFraction (I : Interp) (ρ : Env I.U) (q : Rat) : eval I (standardFraction q) ρ = .real q := by
  rw [standardFraction]
  split
  · rfl
  · have hd : (q.den : ℝ) ≠ 0 := by exact_mod_cast q.den_nz
    simp only [eval, evalL, evalOp, stdOp, evalConst, Val.asNums, Val.num, List.foldl, Interp.rdiv, Option.getD_some]
    rw [if_neg (by simpa using hd)]
    congr 1
    push_cast
    exact (Rat.cast_def q).symm

theorem eval_const_standard (I : Interp) (ρ : Env I.U) (c : Const) : eval I c.standard ρ = evalConst c := by
  cases c with
  | int z =>
    rw [Const.standard]
    split
    · simp [eval, evalL, evalOp, stdOp, stdSub, Val.asInts, evalConst, subL]
    · rfl
  | real q =>
    rw [Const.standard]
    split
    · simp [eval, evalL, evalOp, stdOp, stdSub, Val.asInts, Val.asNums, Val.num, eval_standardFraction, evalConst, subL]
    · exact eval_standardFraction I ρ q
  | str s => rfl
  | bv v w => rfl

theorem eval_standard (I : Interp) (t : Term) : ∀ ρ : Env I.U, eval I t.standard ρ = eval I t ρ := by
  induction t using Term.ind with
  | const c => exact fun ρ => eval_const_standard I ρ c
  | var x s => exact fun _ => rfl
  | app f as hf has =>
    intro ρ
    rw [Term.standard, eval, eval, hf, evalL_eq_map, evalL_eq_map, Term.standardL_eq, List.map_map]
    exact congrArg _ (List.map_congr_left fun a ha => has a ha ρ)
  | op o as has =>
    intro ρ
    rw [Term.standard, eval, eval, evalL_eq_map, evalL_eq_map, Term.standardL_eq, List.map_map]
    exact congrArg _ (List.map_congr_left fun a ha => has a ha ρ)
  | binder b bs t ht =>
    intro ρ
    rw [Term.standard, eval, eval, funext ht]
  | let_ bs t hbs ht =>
    intro ρ
    rw [Term.standard, eval, eval, ht, evalB_eq_map, evalB_eq_map, Term.standardB_eq, List.map_map]
    exact congrArg (fun l => eval I t (I.letMany ρ l)) (List.map_congr_left fun b hb => by simp [hbs b hb ρ])
  | paramOp o ps as _ has =>
    intro ρ
    rw [Term.standard, eval, eval, evalL_eq_map I (Term.standardL as), evalL_eq_map I as, Term.standardL_eq, List.map_map]
    exact congrArg _ (List.map_congr_left fun a ha => has a ha ρ)

end Carcara
