import Verif.Lemmas.NoPanicAttr
import Verif.Lemmas.Greedy
import Verif.Model.RuleTable

/-!
# Rules that do not panic

Facts of the form `x = panic ↔ …` for the building blocks of the rules, collected in the simp set `nopanic`.
-/

namespace Carcara

attribute [nopanic] bind_panic require_panic ok_panic pure_panic err_panic orErr_panic orPanic_panic

@[nopanic] theorem map_panic {α β : Type} {f : α → β} {x : Res α} : (f <$> x) = panic ↔ x = panic := by
  cases x <;> simp [Functor.map, Except.map, panic]

@[nopanic] theorem ite_panic {α : Type} {p : Prop} [Decidable p] {x y : Res α} :
    (if p then x else y) = panic ↔ (p ∧ x = panic) ∨ (¬ p ∧ y = panic) := by
  split <;> simp [*]

@[nopanic] theorem matchOp_panic {o : Op} {t : Term} : matchOp o t = panic ↔ False := by
  unfold matchOp; split <;> simp [nopanic]
@[nopanic] theorem match1_panic {o : Op} {t : Term} : match1 o t = panic ↔ False := by
  unfold match1; split <;> simp [nopanic]
@[nopanic] theorem match2_panic {o : Op} {t : Term} : match2 o t = panic ↔ False := by
  unfold match2; split <;> simp [nopanic]
@[nopanic] theorem match3_panic {o : Op} {t : Term} : match3 o t = panic ↔ False := by
  unfold match3; split <;> simp [nopanic]
@[nopanic] theorem matchBinder_panic {b : Binder} {t : Term} : matchBinder b t = panic ↔ False := by
  unfold matchBinder; split <;> simp [nopanic]
@[nopanic] theorem asQuantErr_panic {t : Term} : asQuantErr t = panic ↔ False := by
  unfold asQuantErr; split <;> simp [nopanic]
@[nopanic] theorem get1_panic {α : Type} {l : List α} : get1 l = panic ↔ False := by
  unfold get1; split <;> simp [nopanic]
@[nopanic] theorem get2_panic {α : Type} {l : List α} : get2 l = panic ↔ False := by
  unfold get2; split <;> simp [nopanic]
@[nopanic] theorem get3_panic {α : Type} {l : List α} : get3 l = panic ↔ False := by
  unfold get3; split <;> simp [nopanic]
@[nopanic] theorem premiseTerm_panic {ps : List (List Term)} : premiseTerm ps = panic ↔ False := by
  simp [premiseTerm, nopanic]
@[nopanic] theorem removeNegErr_panic {t : Term} : t.removeNegErr = panic ↔ False := by
  simp [Term.removeNegErr, nopanic]
@[nopanic] theorem assertEq_panic {a b : Term} : assertEq a b = panic ↔ False := by simp [assertEq, nopanic]
@[nopanic] theorem assertEqs_panic : ∀ {as bs : List Term}, assertEqs as bs = panic ↔ False
  | [], _ => by simp [assertEqs, nopanic]
  | _ :: _, [] => by simp [assertEqs, nopanic]
  | a :: as, b :: bs => by simp [assertEqs, nopanic, assertEqs_panic (as := as) (bs := bs)]
@[nopanic] theorem assertNegs_panic : ∀ {as bs : List Term}, assertNegs as bs = panic ↔ False
  | [], _ => by simp [assertNegs, nopanic]
  | _ :: _, [] => by simp [assertNegs, nopanic]
  | a :: as, b :: bs => by simp [assertNegs, nopanic, assertNegs_panic (as := as) (bs := bs)]
@[nopanic] theorem matchNeq_panic {t : Term} : matchNeq t = panic ↔ False := by simp [matchNeq, nopanic]
@[nopanic] theorem premiseEq_panic {c : List Term} : premiseEq c = panic ↔ False := by simp [premiseEq, nopanic]

theorem collectRes_panic {α β : Type} {f : α → Res β} : ∀ {l : List α}, (∀ a ∈ l, f a ≠ panic) →
    collectRes f l ≠ panic
  | [], _ => by simp [collectRes, nopanic]
  | a :: l, h => by
    have ih := collectRes_panic (f := f) (l := l) fun b hb => h b (by simp [hb])
    simp [collectRes, nopanic, h a (by simp), ih]

theorem mapRes_panic {α β : Type} {f : α → Res β} : ∀ {l : List α}, (∀ a ∈ l, f a ≠ panic) →
    mapRes f l ≠ panic
  | [], _ => by simp [mapRes, nopanic]
  | a :: l, h => by
    have ih := mapRes_panic (f := f) (l := l) fun b hb => h b (by simp [hb])
    simp [mapRes, nopanic, h a (by simp), ih]

@[nopanic] theorem collectEq_panic {l : List Term} : collectRes (match2 .equals) l = panic ↔ False :=
  iff_false_intro (collectRes_panic (by simp [nopanic]))
@[nopanic] theorem collectNeq_panic {l : List Term} : collectRes matchNeq l = panic ↔ False :=
  iff_false_intro (collectRes_panic (by simp [nopanic]))
@[nopanic] theorem collectNeg_panic {l : List Term} : collectRes Term.removeNegErr l = panic ↔ False :=
  iff_false_intro (collectRes_panic (by simp [nopanic]))
@[nopanic] theorem collectPremise_panic {l : List (List Term)} : collectRes premiseEq l = panic ↔ False :=
  iff_false_intro (collectRes_panic (by simp [nopanic]))

@[nopanic] theorem findChain_panic : ∀ {n : Nat} {a b : Term} {ps : List (Term × Term)},
    findChain n a b ps = panic ↔ False := by
  intro n
  induction n with
  | zero => intro a b ps; unfold findChain; split <;> [skip; split] <;> simp_all [nopanic]
  | succ n ih => intro a b ps; unfold findChain; split <;> [skip; split] <;> simp_all [nopanic]

@[nopanic] theorem sameHead_panic {t u : Term} : sameHead t u = panic ↔ False := by
  unfold sameHead; split <;> simp [nopanic]
@[nopanic] theorem congArgs_panic {t u : Term} : congArgs t u = panic ↔ False := by
  unfold congArgs; split <;> simp [nopanic]
@[nopanic] theorem predPair_panic {t u : Term} : predPair t u = panic ↔ False := by
  unfold predPair; split <;> simp [nopanic]
@[nopanic] theorem justify_panic : ∀ {ps : List (Term × Term)} {as bs : List Term}, justify ps as bs = panic ↔ False := by
  intro ps as bs
  induction ps generalizing as bs with
  | nil => simp [justify, nopanic]
  | cons p ps ih => cases as <;> cases bs <;> simp [justify, nopanic, ih]
@[nopanic] theorem genericCongruent_panic {es : List Term} {p q : Term} : genericCongruent es p q = panic ↔ False := by
  simp [genericCongruent, nopanic]
@[nopanic] theorem checkCong_panic : ∀ {as bs : List Term} {ps : List (Term × Term)},
    checkCong ps as bs = panic ↔ False := by
  intro as
  induction as with
  | nil => intro bs ps; cases ps <;> simp [checkCong, nopanic]
  | cons a as ih =>
    intro bs ps
    cases bs <;> cases ps <;> simp [checkCong, nopanic, ih]
@[nopanic] theorem congGeneral_panic {ps : List (Term × Term)} {p q : Term} : congGeneral ps p q = panic ↔ False := by
  simp [congGeneral, nopanic]
@[nopanic] theorem andIntroLoop_panic : ∀ {ts : List Term} {ps : List (List Term)},
    andIntroLoop ts ps = panic ↔ False := by
  intro ts ps
  induction ts generalizing ps with
  | nil => simp [andIntroLoop, nopanic]
  | cons t ts ih =>
    cases ps with
    | nil => simp [andIntroLoop, nopanic]
    | cons p ps =>
      simp only [andIntroLoop]
      split <;> simp [nopanic, ih]

@[nopanic] theorem matchMini_panic {q : Binder} {o : Op} {c : Term} : matchMini q o c = panic ↔ False := by
  simp [matchMini, nopanic]
@[nopanic] theorem miniDistLoop_panic {q : Binder} {bs : List (String × Srt)} : ∀ {as cs : List Term},
    miniDistLoop q bs as cs = panic ↔ False := by
  intro as cs
  induction as generalizing cs with
  | nil => simp [miniDistLoop, nopanic]
  | cons a as ih => cases cs <;> simp [miniDistLoop, nopanic, ih]
@[nopanic] theorem removeBindings_panic : ∀ {bs set : List (String × Srt)}, removeBindings set bs = panic ↔ False := by
  intro bs
  induction bs with
  | nil => intro set; simp [removeBindings, nopanic]
  | cons b bs ih => intro set; simp [removeBindings, nopanic, ih]
@[nopanic] theorem miniSplitLoop_panic {q : Binder} : ∀ {as cs : List Term} {set : List (String × Srt)},
    miniSplitLoop q set as cs = panic ↔ False := by
  intro as cs
  induction as generalizing cs with
  | nil => simp [miniSplitLoop, nopanic]
  | cons a as ih => intro set; cases cs <;> simp [miniSplitLoop, nopanic, ih]
@[nopanic] theorem integerLiteral_panic {t : Term} : integerLiteral t = panic ↔ False := by
  simp [integerLiteral, nopanic]
@[nopanic] theorem tryOr_panic {x y : Res Unit} : tryOr x y = panic ↔ x = panic ∨ (x = err ∧ y = panic) := by
  unfold tryOr; split <;> simp [nopanic, err] <;> simp [panic]
@[nopanic] theorem minusCheck_panic {t u v : Term} : minusCheck t u v = panic ↔ False := by
  unfold minusCheck; simp only [nopanic]; split <;> simp [nopanic]

/-- A rule does not panic, whatever the step. -/
def NeverPanics (r : Rule) : Prop := ∀ conclusion premises args, r conclusion premises args ≠ panic

/-- The tactic for rules built from the blocks above. -/
macro "no_panic" d:ident : tactic =>
  `(tactic| (
    intro c p a
    unfold $d
    simp [nopanic] <;> intros <;> (repeat (first | split | (simp [nopanic]; done) | (simp [nopanic]; intros))) <;>
      simp_all [nopanic]))

theorem neverPanics_trueRule : NeverPanics trueRule := by no_panic trueRule
theorem neverPanics_falseRule : NeverPanics falseRule := by no_panic falseRule
theorem neverPanics_notNot : NeverPanics notNot := by no_panic notNot
theorem neverPanics_andNeg : NeverPanics andNeg := by no_panic andNeg
theorem neverPanics_orPos : NeverPanics orPos := by no_panic orPos
theorem neverPanics_xorPos1 : NeverPanics xorPos1 := by no_panic xorPos1
theorem neverPanics_xorPos2 : NeverPanics xorPos2 := by no_panic xorPos2
theorem neverPanics_xorNeg1 : NeverPanics xorNeg1 := by no_panic xorNeg1
theorem neverPanics_xorNeg2 : NeverPanics xorNeg2 := by no_panic xorNeg2
theorem neverPanics_impliesPos : NeverPanics impliesPos := by no_panic impliesPos
theorem neverPanics_impliesNeg1 : NeverPanics impliesNeg1 := by no_panic impliesNeg1
theorem neverPanics_impliesNeg2 : NeverPanics impliesNeg2 := by no_panic impliesNeg2
theorem neverPanics_equivPos1 : NeverPanics equivPos1 := by no_panic equivPos1
theorem neverPanics_equivPos2 : NeverPanics equivPos2 := by no_panic equivPos2
theorem neverPanics_equivNeg1 : NeverPanics equivNeg1 := by no_panic equivNeg1
theorem neverPanics_equivNeg2 : NeverPanics equivNeg2 := by no_panic equivNeg2
theorem neverPanics_itePos1 : NeverPanics itePos1 := by no_panic itePos1
theorem neverPanics_itePos2 : NeverPanics itePos2 := by no_panic itePos2
theorem neverPanics_iteNeg1 : NeverPanics iteNeg1 := by no_panic iteNeg1
theorem neverPanics_iteNeg2 : NeverPanics iteNeg2 := by no_panic iteNeg2
theorem neverPanics_eqReflexive : NeverPanics eqReflexive := by no_panic eqReflexive
theorem neverPanics_eqTransitive : NeverPanics eqTransitive := by
  intro c p a
  unfold eqTransitive
  simp [nopanic]
  rintro h rfl
  simp at h
theorem neverPanics_eqCongruent : NeverPanics eqCongruent := by
  intro c p a
  unfold eqCongruent
  simp [nopanic]
  rintro h rfl
  simp at h
theorem neverPanics_eqCongruentPred : NeverPanics eqCongruentPred := by no_panic eqCongruentPred
theorem neverPanics_laRwEq : NeverPanics laRwEq := by no_panic laRwEq
theorem neverPanics_laDisequality : NeverPanics laDisequality := by no_panic laDisequality
theorem neverPanics_laTotality : NeverPanics laTotality := by no_panic laTotality
theorem neverPanics_qntJoin : NeverPanics qntJoin := by no_panic qntJoin
theorem neverPanics_qntRmUnused : NeverPanics qntRmUnused := by no_panic qntRmUnused
theorem neverPanics_trans : NeverPanics trans := by no_panic trans
theorem neverPanics_cong : NeverPanics cong := by no_panic cong
theorem neverPanics_hoCong : NeverPanics hoCong := by no_panic hoCong
theorem neverPanics_andIntro : NeverPanics andIntro := by no_panic andIntro
theorem neverPanics_orRule : NeverPanics orRule := by no_panic orRule
theorem neverPanics_notAnd : NeverPanics notAnd := by no_panic notAnd
theorem neverPanics_xor1 : NeverPanics xor1 := by no_panic xor1
theorem neverPanics_xor2 : NeverPanics xor2 := by no_panic xor2
theorem neverPanics_notXor1 : NeverPanics notXor1 := by no_panic notXor1
theorem neverPanics_notXor2 : NeverPanics notXor2 := by no_panic notXor2
theorem neverPanics_impliesRule : NeverPanics impliesRule := by no_panic impliesRule
theorem neverPanics_notImplies1 : NeverPanics notImplies1 := by no_panic notImplies1
theorem neverPanics_notImplies2 : NeverPanics notImplies2 := by no_panic notImplies2
theorem neverPanics_equiv1 : NeverPanics equiv1 := by no_panic equiv1
theorem neverPanics_equiv2 : NeverPanics equiv2 := by no_panic equiv2
theorem neverPanics_notEquiv1 : NeverPanics notEquiv1 := by no_panic notEquiv1
theorem neverPanics_notEquiv2 : NeverPanics notEquiv2 := by no_panic notEquiv2
theorem neverPanics_ite1 : NeverPanics ite1 := by no_panic ite1
theorem neverPanics_ite2 : NeverPanics ite2 := by no_panic ite2
theorem neverPanics_notIte1 : NeverPanics notIte1 := by no_panic notIte1
theorem neverPanics_notIte2 : NeverPanics notIte2 := by no_panic notIte2
theorem neverPanics_connectiveDef : NeverPanics connectiveDef := by no_panic connectiveDef
theorem neverPanics_acSimp : NeverPanics acSimp := by no_panic acSimp
theorem neverPanics_qntSimplify : NeverPanics qntSimplify := by no_panic qntSimplify
theorem neverPanics_miniscopeDistribute : NeverPanics miniscopeDistribute := by
  intro c p a
  unfold miniscopeDistribute
  simp only [ne_eq, nopanic, and_false, exists_false, or_false, false_or]
  rintro ⟨x, -, h⟩
  split at h <;> simp [nopanic] at h
theorem neverPanics_miniscopeSplit : NeverPanics miniscopeSplit := by
  intro c p a
  unfold miniscopeSplit
  simp only [ne_eq, nopanic, and_false, exists_false, or_false, false_or]
  rintro ⟨x, -, h⟩
  split at h <;> simp [nopanic] at h
theorem neverPanics_miniscopeIte : NeverPanics miniscopeIte := by no_panic miniscopeIte
theorem neverPanics_reordering : NeverPanics reordering := by no_panic reordering
theorem neverPanics_shuffle : NeverPanics shuffle := by no_panic shuffle
theorem neverPanics_symm : NeverPanics symm := by no_panic symm
theorem neverPanics_notSymm : NeverPanics notSymm := by no_panic notSymm
theorem neverPanics_eqSymmetric : NeverPanics eqSymmetric := by no_panic eqSymmetric
theorem neverPanics_weakening : NeverPanics weakening := by no_panic weakening
theorem neverPanics_modSimplify : NeverPanics modSimplify := by no_panic modSimplify
theorem neverPanics_minusSimplify : NeverPanics minusSimplify := by no_panic minusSimplify
theorem simplifyFix_panic {f : Term → Res (Option Term)} (hf : ∀ t, f t ≠ panic) {goal : Term} :
    ∀ {n : Nat} {seen : List Term} {t : Term}, simplifyFix f goal n seen t ≠ panic := by
  intro n
  induction n with
  | zero => intro seen t; simp [simplifyFix, nopanic]
  | succ n ih =>
    intro seen t
    simp only [simplifyFix, ne_eq, nopanic, and_false, false_or, hf, not_and, not_exists]
    intro _ a _
    split <;> simp [nopanic, ih]

theorem neverPanics_genericSimplify {f : Term → Res (Option Term)} (hf : ∀ t, f t ≠ panic) :
    NeverPanics (genericSimplify f) := by
  intro c p a
  simp [genericSimplify, nopanic, simplifyFix_panic hf]

theorem neverPanics_andOr {k : Op} {b : Bool} : NeverPanics (andOrSimplify k b) := by no_panic andOrSimplify

theorem neverPanics_naryElim : NeverPanics naryElim := by
  intro c p a
  simp only [naryElim, ne_eq, nopanic, and_false, exists_false, or_false, false_or]
  rintro ⟨x, -, y, -, h⟩
  split at h
  · next o args _ =>
    simp only [nopanic, and_false, exists_false, or_false, false_or, require_ok] at h
    obtain ⟨-, hl, h⟩ := h
    match args, hl with
    | a :: b :: l, _ =>
      have hr : ∀ (l : List Term) (t : Term), expandRight .implies (t :: l) ≠ panic := by
        intro l
        induction l with
        | nil => intro t; simp [expandRight, nopanic]
        | cons u l ih => intro t; simp [expandRight, nopanic]; simpa using ih u
      unfold naryExpected at h
      split at h <;> simp [nopanic, expandLeft, hr] at h
  · simp [nopanic] at h

theorem parsePivots_panic : ∀ (n : Nat) (args : List Term), args.length = 2 * n → parsePivots args ≠ panic
  | 0, args, h => by
    have : args = [] := by simpa using h
    subst this; simp [parsePivots, nopanic]
  | n + 1, [], h => by simp at h
  | n + 1, [_], h => by simp at h; omega
  | n + 1, a :: b :: l, h => by
    have ih := parsePivots_panic n l (by simp at h; omega)
    simp [parsePivots, nopanic, ih]

@[nopanic] theorem binaryResolution_panic {C : Type} [ClauseColl C] {c : C} {n : List Term} {l : Lit} {b : Bool} :
    binaryResolution c n l b = panic ↔ False := by
  unfold binaryResolution
  simp [nopanic]

@[nopanic] theorem resolveAll_panic {C : Type} [ClauseColl C] : ∀ {l : List (List Term × (Lit × Bool))} {c : C},
    resolveAll c l = panic ↔ False := by
  intro l
  induction l with
  | nil => intro c; simp [resolveAll, nopanic]
  | cons x l ih => intro c; obtain ⟨n, l, b⟩ := x; simp [resolveAll, nopanic, ih]

@[nopanic] theorem applyGenericResolution_panic {C : Type} [ClauseColl C] {ps : List (List Term)} {args : List Term} :
    applyGenericResolution C ps args = panic ↔ False := by
  simp only [applyGenericResolution, nopanic, require_ok, exists_const, false_or, iff_false]
  rintro ⟨hl, ha, h | ⟨x, hx, h⟩⟩
  · exact parsePivots_panic (ps.length - 1) args (by omega) h
  · cases ps with
    | nil => simp at hl
    | cons p ps => simp [nopanic] at h

theorem neverPanics_resolutionWithArgs : NeverPanics resolutionWithArgs := by no_panic resolutionWithArgs
theorem neverPanics_strictResolution : NeverPanics strictResolution := by no_panic strictResolution
theorem neverPanics_resolution : NeverPanics resolution := by
  intro c p a
  simp only [resolution, ne_eq, nopanic, and_false, or_false, false_or, not_or, not_and, not_exists]
  refine ⟨fun _ => neverPanics_resolutionWithArgs c p a, fun _ _ _ _ h => ?_⟩
  split at h
  · simp [nopanic] at h
  · next he => exact greedyResolution_no_panic c p false he
  · simp [nopanic] at h
theorem neverPanics_tautology : NeverPanics (fun c p _ => tautology c p) := by no_panic tautology
theorem neverPanics_contraction : NeverPanics (fun c p _ => contraction c p) := by no_panic contraction


end Carcara
