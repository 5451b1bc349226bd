import Verif.Props.C01
import Verif.Props.C23
import Verif.Lemmas.CheckerContext

/-!
# C01: acceptance means unsatisfiability, for proofs with contexts

The checking loop with its context stack (`checkCtx`): the rules `refl`, `bind`, `let`, `onepoint`, `sko_ex` and `sko_forall` are in the table, and
the substitutions are computed on demand and remember earlier results.
-/

namespace Carcara

open Spec

/-- **C01.** The claim for the loop with its context stack, for proofs that come from the parser and contain well-sorted clauses and anchors only. -/
def C01Contexts (E : TableEnv) (cfg : Config) : Prop :=
  ∀ (rs : List RawCommand) (proof : List Command) (prem : List Term), parseProof rs = .ok proof →
    (∀ F Γ c cl, Occ proof F Γ c → c.clause = .ok cl → ClauseOK cl) → (∀ F Γ c, Occ proof F Γ c → ∀ as ∈ Γ, ∀ a ∈ as, a.ok = true) →
    (∀ t ∈ prem, sortOf t = some .bool) → checkCtx E cfg prem proof = .ok false → ¬ ∃ M : Model, ∀ t ∈ prem, M.Holds t

/-- The steps that close a subproof with the anchor `as` inside the anchors `Γ` and for which soundness is proved: the conditions are those of C23. -/
inductive Closes (Γ : List (List AnchorArg)) (as : List AnchorArg) : String → List Term → Prop where
  | bind {b : Binder} {bs1 bs2 : List (String × Srt)} {phi phi' : Term} (ha : BindAnchor bs1 bs2 as) (hN : phi.noLet = true)
      (hfv : ∀ x ∈ bs1, x ∈ phi'.fv → x ∈ bs2) : Closes Γ as "bind" [.op .equals [.binder b bs1 phi, .binder b bs2 phi']]
  | let_ {bs : List (String × Term)} {u u' : Term} (ha : LetAnchor bs u u' as) : Closes Γ as "let" [.op .equals [.let_ bs u, u']]
  | onepoint {q : Binder} {lbs rbs : List (String × Srt)} {phi right psi : Term} (hphi : phi.substSafe = true)
      (hright : onepointRight q right = .ok (rbs, psi)) (ho : OnepointOK Γ as phi psi (decide (q = .ex))) :
      Closes Γ as "onepoint" [.op .equals [.binder q lbs phi, right]]
  | sko {q : Binder} {name : String} {bs : List (String × Srt)} {phi psi : Term} (hn : (q, name) = (.ex, "sko_ex") ∨ (q, name) = (.all, "sko_forall"))
      (hphi : phi.substSafe = true) (ha : SkoAnchor Γ bs psi as)
      (hsafe : ∀ C, CleanHistory (Γ ++ [as]) C → ∀ cur C1 m, C.applyPrevious phi = .ok (cur, C1) → letMappings as [] = .ok m →
        skoSafe q m bs cur = true) : Closes Γ as name [.op .equals [.binder q bs phi, psi]]

/-- A step for which soundness is proved: as in `Step.vouched` if it does not close an anchor with arguments; a reflexivity step whose comparisons
can be trusted; or a step that closes an anchor. -/
inductive Step.vouchedCtx (E : TableEnv) (cfg : Config) : Frames → List (List AnchorArg) → Step → Prop where
  | plain {F Γ s} (h : s.vouched E cfg F Γ) (hend : F.isEnd → Γ.getLast? = some []) : Step.vouchedCtx E cfg F Γ s
  | refl {F Γ s l r} (hn : s.rule = "refl") (hend : ¬ F.isEnd) (hc : s.clause = [.op .equals [l, r]])
      (hs : cfg.elaborated = true ∨ ∀ C, CleanHistory Γ C → reflSafe C l r = true) : Step.vouchedCtx E cfg F Γ s
  | close {F Γ as s} (hend : F.isEnd) (h : Closes Γ as s.rule s.clause) : Step.vouchedCtx E cfg F (Γ ++ [as]) s

/-- The conditions of `c01_contexts_partial`. -/
structure VouchedCtx (E : TableEnv) (cfg : Config) (prem : List Term) (proof : List Command) : Prop where
  sorts : ∀ F Γ c cl, Occ proof F Γ c → c.clause = .ok cl → ClauseOK cl
  anchors : ∀ F Γ c, Occ proof F Γ c → FreshAnchors Γ
  premises : ∀ F Γ s, Occ proof F Γ (.step s) → s.freshPremises F Γ
  terms : ∀ F Γ s, Occ proof F Γ (.step s) → ∀ t ∈ ctxTerms s.rule s.clause, t.substSafe = true
  assumes : cfg.elaborated = true ∨ ∀ (i : Nat) id t, proof[i]? = some (.assume id t) → ∀ u ∈ prem, Comparable true t u
  steps : ∀ F Γ s, Occ proof F Γ (.step s) → s.vouchedCtx E cfg F Γ

section
variable {E : TableEnv} {cfg : Config} {prem : List Term} {proof : List Command}

/-- The stacks in which the substitution is only applied to safe terms inside anchors that do not interfere. -/
private abbrev cleanOk : List (List AnchorArg) → Term → Prop := fun Γ t => FreshAnchors Γ ∧ t.substSafe = true

/-- The names of the rules that use the stack. -/
private def ctxNames : List String := ["refl", "bind", "let", "onepoint", "sko_ex", "sko_forall"]

private theorem lookup_ctxRows {e : Bool} {n : String} {r : CtxRule} (h : (ctxRows e).lookup n = some r) : n ∈ ctxNames := by
  have := mem_of_rowLookup h
  simp only [ctxRows, List.mem_cons, List.not_mem_nil, or_false, Prod.mk.injEq] at this
  simp only [ctxNames, List.mem_cons, List.not_mem_nil, or_false]
  rcases this with ⟨h, _⟩ | ⟨h, _⟩ | ⟨h, _⟩ | ⟨h, _⟩ | ⟨h, _⟩ | ⟨h, _⟩ <;> simp [h]

private theorem vouched_ctxName {F : Frames} {Γ : List (List AnchorArg)} {s : Step} {a : RuleArgs} (hn : s.rule ∈ ctxNames)
    (h : s.vouched E cfg F Γ) (ha : F.argsFor Γ s a) : Entails a.premises s.clause := by
  rcases h with h | ⟨h | h, -⟩ | ⟨h, -⟩ | ⟨h, -⟩ | ⟨-, h⟩
  · exfalso
    have : ∀ n ∈ ctxNames, n ∉ soundNames := by decide +kernel
    exact this _ hn h
  · exfalso; rw [h] at hn; revert hn; decide
  · exfalso; rw [h] at hn; revert hn; decide
  · exfalso; rw [h] at hn; revert hn; decide
  · exfalso; rw [h] at hn; revert hn; decide
  · exact h a ha

theorem VouchedCtx.soundSteps (hv : VouchedCtx E cfg prem proof) {rs : List RawCommand} (hp : parseProof rs = .ok proof)
    (h : check (ctxParams E cfg cleanOk) cfg prem proof = .ok false) : SoundSteps (ctxParams E cfg cleanOk) prem proof where
  wf := c04_parse_wf hp
  inScope := fun _ _ _ ho => c04_parse_scoped hp ho
  anchors := fun F Γ c ho as has a ha => freshArgs_ok (hv.anchors F Γ c ho) a (List.mem_flatten.2 ⟨as, has, ha⟩)
  sorts := hv.sorts
  fresh := hv.premises
  assume := fun i id t hi I ρ hρ hprem => by
    rcases c03_every_assume_checked (c04_parse_wf hp) h hi with hm | ⟨he, u, hu, heq⟩
    · exact hprem t hm
    · rcases hv.assumes with hc | hc
      · rw [hc] at he; cases he
      · have := polyeqWith_sound rfl heq (hc i id t hi u hu)
        unfold Interp.True
        rw [this I ρ hρ]
        exact hprem u hu
  step := fun F Γ s r a ho hne hr ha hrun => by
    have hsc := c04_parse_scoped hp ho
    have hcl : ClauseOK s.clause := hv.sorts _ _ _ _ ho rfl
    have hpc := premises_sorts hv.sorts ho hsc ha
    have hterms := hv.terms _ _ _ ho
    have hvs := hv.steps _ _ _ ho
    simp only [ctxParams] at hr
    cases hl : (ctxRows cfg.elaborated).lookup s.rule with
    | none =>
      rw [hl] at hr
      cases hvs with
      | plain hvv _ =>
        intro I ρ hρ _ hps
        rcases vouched_entails hvv hcl hpc hr ha hrun with he | he
        · exact absurd hrun (vouched_not_close he hne hr ha)
        · exact he ⟨I, ρ, hρ⟩ hps
      | refl hn => rw [hn] at hl; cases hl
      | close hend => exact absurd hend hne
    | some r' =>
      rw [hl] at hr
      cases hr
      cases hvs with
      | plain hvv _ => exact fun I ρ hρ _ hps => vouched_ctxName (lookup_ctxRows hl) hvv ha ⟨I, ρ, hρ⟩ hps
      | close hend => exact absurd hend hne
      | @refl _ _ l r hn _ hc hs =>
        rw [hn] at hl
        cases hl
        obtain ⟨C, C', hC, hok⟩ := CtxRule.some_ok.1 hrun
        rw [ha.2.2.1] at hC
        have e1 := ha.1
        rw [hc] at e1
        rw [hn, hc] at hterms
        simp only [ctxTerms, if_true, List.mem_cons, List.not_mem_nil, or_false, forall_eq_or_imp, forall_eq] at hterms
        simp only [e1] at hok
        have hf := hv.anchors _ _ _ ho
        have : LocalSound Γ [] s.clause := by
          rw [hc]
          split at hok
          · exact c23_strict_refl_partial Γ C C' l r hC hf hterms.1 hok
          · next hne => exact c23_refl_partial Γ C C' l r hC hf hterms.1 hterms.2 ((hs.resolve_left hne) C hC) hok
        exact fun I ρ hρ hreach _ => this I ρ hρ hreach (fun p hp => absurd hp List.not_mem_nil)
  close := fun j cs F Γ as s r a prev ho hend hr ha hrun hdis hprev => by
    have hsc := c04_parse_scoped hp ho
    have hcl : ClauseOK s.clause := hv.sorts _ _ _ _ ho rfl
    have hpc := premises_sorts hv.sorts ho hsc ha
    have hvs := hv.steps _ _ _ ho
    obtain ⟨⟨_, _, _, _, _, hsub, _⟩, _⟩ := c02_not_holey_verified (c04_parse_wf hp) h ho
    have hf := hv.anchors _ _ _ ho
    simp only [ctxParams] at hr
    cases hl : (ctxRows cfg.elaborated).lookup s.rule with
    | none =>
      rw [hl] at hr
      generalize hΓ : Γ ++ [as] = Γ' at hvs
      cases hvs with
      | plain hvv hlast =>
        have := hlast hend
        rw [← hΓ] at this
        simp only [List.getLast?_append, List.getLast?_singleton, Option.some_or, Option.some.injEq] at this
        subst this
        subst hΓ
        exact vouched_close hvv hcl hpc hr ha hrun hdis hprev hsub
      | refl _ hne => exact absurd hend hne
      | close _ hcs =>
        generalize s.rule = n at hcs hl
        generalize s.clause = c at hcs
        cases hcs with
        | bind => cases hl
        | let_ => cases hl
        | onepoint => cases hl
        | sko hn => rcases hn with hn | hn <;> cases hn <;> cases hl
    | some r' =>
      rw [hl] at hr
      cases hr
      have hn := lookup_ctxRows hl
      have hnone : assumptions cs = [] := no_assumptions hdis hsub (by intro e; rw [e] at hn; revert hn; decide)
      rw [hnone]
      generalize hΓ : Γ ++ [as] = Γ' at hvs
      cases hvs with
      | plain hvv hlast =>
        have := hlast hend
        rw [← hΓ] at this
        simp only [List.getLast?_append, List.getLast?_singleton, Option.some_or, Option.some.injEq] at this
        subst this
        subst hΓ
        intro I ρ hρ _ hps _
        refine vouched_ctxName hn hvv ha ⟨I, ρ, hρ⟩ fun p hp => ?_
        rcases hps p hp with h | h
        · exact h
        · exact h ρ rfl fun t ht => absurd ht List.not_mem_nil
      | refl _ hne => exact absurd hend hne
      | @close _ Γ1 as1 _ hcs =>
        obtain ⟨rfl, h2⟩ := List.append_inj' hΓ rfl
        cases h2
        obtain ⟨C, C', hC, hok⟩ := CtxRule.some_ok.1 hrun
        rw [ha.2.2.1] at hC
        have e1 := ha.1
        have hprevOK : ClauseOK prev := by
          rcases ha.2.2.2.2.2 with ⟨_, i, cs', F', c, cl, e, hc, hcc, hp'⟩ | ⟨hne, _⟩
          · rw [hprev] at hp'
            cases hp'
            have := congrArg List.head? e
            simp only [List.head?_cons, Option.some.injEq, Prod.mk.injEq] at this
            obtain ⟨rfl, rfl⟩ := this
            clear hok hC hf hl hsc hpc
            generalize Γ ++ [as] = Γ2 at ho
            cases ho with
            | top => exact absurd hend id
            | sub ho' hj => exact hv.sorts _ _ _ _ (.sub ho' hc) hcc
          · exact absurd hend hne
        have hargs : C.stack.map (·.1) = Γ ++ [as] := hC.args
        generalize s.rule = n at hcs hl
        generalize s.clause = c at hcs hcl e1
        cases hcs with
        | bind hb hN hfv =>
          cases hl
          simp only [e1, hprev, hargs] at hok
          obtain ⟨_, hok, _⟩ := bind_ok.1 hok
          exact c23_bind_partial Γ as _ _ _ _ _ prev a.premises hb hN hfv hcl hok
        | let_ hb =>
          cases hl
          simp only [e1, hprev, hargs] at hok
          obtain ⟨_, hok, _⟩ := bind_ok.1 hok
          exact c23_let_partial Γ as _ _ _ prev a.premises hb hprevOK hok
        | onepoint hphi hright hop =>
          cases hl
          simp only [e1, hprev] at hok
          exact c23_onepoint_partial Γ as C C' _ _ _ _ _ _ prev a.premises hC hf hphi hright hop hcl hok
        | sko hq hphi hb hsafe =>
          rcases hq with hq | hq
          · cases hq
            cases hl
            simp only [e1, hprev] at hok
            exact c23_sko_partial Γ as C C' _ _ _ _ prev a.premises hC hf hphi hb (hsafe C hC) hcl hok
          · cases hq
            cases hl
            simp only [e1, hprev] at hok
            exact c23_sko_partial Γ as C C' _ _ _ _ prev a.premises hC hf hphi hb (hsafe C hC) hcl hok

/-- **C01**, partial: an accepted proof, possibly with contexts, in which every step is vouched for, is a refutation. -/
theorem c01_contexts_partial {rs : List RawCommand} (hp : parseProof rs = .ok proof) (hv : VouchedCtx E cfg prem proof)
    (h : checkCtx E cfg prem proof = .ok false) : ¬ ∃ M : Model, ∀ t ∈ prem, M.Holds t := by
  have h' : check (ctxParams E cfg cleanOk) cfg prem proof = .ok false :=
    checkCtx_sim (c04_parse_wf hp) (fun F Γ s ho t ht => ⟨hv.anchors F Γ _ ho, hv.terms F Γ s ho t ht⟩) h
  exact c01_refutation_partial (hv.soundSteps hp h') h'

end

/-! ## Example -/

section
private abbrev x : Term := .var "x" .int
private abbrev y : Term := .var "y" .int
private abbrev z : Term := .var "z" .int
private abbrev w : Term := .var "w" .int
private abbrev eq (a b : Term) : Term := .op .equals [a, b]
private abbrev all (v : String) (t : Term) : Term := .binder .all [(v, .int)] t
private abbrev A : Term := all "x" (.op .lt [x, z])
private abbrev B : Term := all "y" (.op .lt [y, w])
private def E0 : TableEnv := ⟨fun _ => 0, fun _ db => db, fun _ => 0, fun _ _ => err⟩

/-- `∀ x. x < z`, `z = w` and `¬ ∀ y. y < w`. -/
private def exPrem : List Term := [A, eq z w, .op .not [B]]
private def exText : List RawCommand :=
  [.assume "h1" A, .assume "h2" (eq z w), .assume "h3" (.op .not [B]),
   .anchor "t1" [.var "y" .int, .assign "x" .int y],
   .step ⟨"t1.1", [eq x y], "refl", [], [], []⟩,
   .step ⟨"t1.2", [eq (.op .lt [x, z]) (.op .lt [y, w])], "cong", ["t1.1", "h2"], [], []⟩,
   .step ⟨"t1", [eq A B], "bind", [], [], []⟩,
   .step ⟨"t2", [.op .not [A], B], "equiv1", ["t1"], [], []⟩,
   .step ⟨"t3", [], "resolution", ["t2", "h1", "h3"], [A, .fls, B, .tru], []⟩]

private def exSub : List Command :=
  [.step ⟨"t1.1", [eq x y], "refl", [], [], []⟩,
   .step ⟨"t1.2", [eq (.op .lt [x, z]) (.op .lt [y, w])], "cong", [(1, 0), (0, 1)], [], []⟩,
   .step ⟨"t1", [eq A B], "bind", [], [], []⟩]
private def exProof : List Command :=
  [.assume "h1" A, .assume "h2" (eq z w), .assume "h3" (.op .not [B]),
   .subproof exSub [.var "y" .int, .assign "x" .int y] 0,
   .step ⟨"t2", [.op .not [A], B], "equiv1", [(0, 3)], [], []⟩,
   .step ⟨"t3", [], "resolution", [(0, 4), (0, 0), (0, 2)], [A, .fls, B, .tru], []⟩]

example : parseProof exText = .ok exProof := by decide +kernel
set_option maxRecDepth 10000 in
example : checkCtx E0 { elaborated := true } exPrem exProof = .ok false := by rw [checkCtx, checkCtxLoop_start]; decide +kernel

private def steps : Command → List Step
  | .step s => [s]
  | _ => []

/-- The proof meets the conditions of `c01_contexts_partial`. -/
example : VouchedCtx E0 { elaborated := true } exPrem exProof where
  sorts := fun _ _ _ _ => clauses_ok (by decide +kernel)
  anchors := by
    have : ∀ o ∈ allPositions exProof, freshArgs [] o.ctx.flatten = true := by decide +kernel
    exact fun F Γ c ho => this ⟨F, Γ, c⟩ (allPositions_iff.2 ho)
  premises := by
    have : ∀ o ∈ allPositions exProof, ∀ s ∈ steps o.cmd, ∀ p ∈ s.premises, ∀ c ∈ (o.frames.lookup p).toList,
        ∀ t ∈ c.clause.toOption.getD [], ∀ as ∈ o.ctx.drop p.1, ∀ a ∈ as, a.key ∉ t.fv := by decide +kernel
    intro F Γ s ho p hp c cl hc hcl t ht
    refine this ⟨F, Γ, .step s⟩ (allPositions_iff.2 ho) s (List.mem_singleton_self _) p hp c ?_ t (by rw [hcl]; exact ht)
    simp [hc]
  terms := by
    have : ∀ o ∈ allPositions exProof, ∀ s ∈ steps o.cmd, ∀ t ∈ ctxTerms s.rule s.clause, t.substSafe = true := by decide +kernel
    exact fun F Γ s ho => this ⟨F, Γ, .step s⟩ (allPositions_iff.2 ho) s (List.mem_singleton_self _)
  assumes := .inl rfl
  steps := by
    have : ∀ o ∈ allPositions exProof, ∀ s ∈ steps o.cmd,
        (s.rule ∈ soundNames ∧ ¬ o.frames.iter.isEndStep = true) ∨ (s.rule = "resolution" ∧ ¬ o.frames.iter.isEndStep = true) ∨
        (s.rule = "refl" ∧ ¬ o.frames.iter.isEndStep = true ∧ s.clause = [eq x y]) ∨
        (s.rule = "bind" ∧ o.frames.iter.isEndStep = true ∧ s.clause = [eq A B] ∧ o.ctx = [[.var "y" .int, .assign "x" .int y]]) := by
      decide +kernel
    intro F Γ s ho
    rcases this ⟨F, Γ, .step s⟩ (allPositions_iff.2 ho) s (List.mem_singleton_self _) with ⟨h, he⟩ | ⟨h, he⟩ | ⟨h, he, hc⟩ | ⟨h, he, hc, hΓ⟩
    · exact .plain (.inl h) fun h => absurd ((isEndStep_iff F).2 h) he
    · exact .plain (.inr (.inl ⟨.inl h, .inl rfl⟩)) fun h => absurd ((isEndStep_iff F).2 h) he
    · exact .refl h (fun h => absurd ((isEndStep_iff F).2 h) he) hc (.inl rfl)
    · simp only at hΓ
      rw [hΓ]
      refine .close (Γ := []) ((isEndStep_iff F).1 he) ?_
      rw [h, hc]
      exact .bind ⟨.cons rfl .nil, by decide, by decide, by decide, [(("x", .int), ("y", .int))], by decide, by decide, by decide⟩ (by decide)
        (by decide)

end

/-! ## Refutation -/

namespace C01Ctx
abbrev x : Term := .var "x" .int
abbrev y : Term := .var "y" .int
abbrev isZero (t : Term) : Term := .op .equals [t, .const (.int 0)]
abbrev eq (a b : Term) : Term := .op .equals [a, b]
/-- `∃ y. ∀ x. y = 0`: valid. -/
abbrev A : Term := .binder .ex [("y", .int)] (.binder .all [("x", .int)] (isZero y))
/-- `∃ x. ∀ x. x = 0`: unsatisfiable. -/
abbrev B : Term := .binder .ex [("x", .int)] (.binder .all [("x", .int)] (isZero x))
/-- A valid problem. -/
abbrev prem : List Term := [A, .op .not [B]]
/-- A proof that the checker accepts. The step `t1.t1` fills the memo table of the substitution, from which the step `t1.t2.t1` gets a result
that is no longer right: `x` is declared again. -/
abbrev text (e : Bool) : List RawCommand :=
  [.assume "h1" A, .assume "h2" (.op .not [B]),
   .anchor "t1" [.var "y" .int, .assign "x" .int y],
   .step ⟨"t1.t1", [eq (isZero x) (isZero y)], "refl", [], [], []⟩,
   .anchor "t1.t2" [.var "x" .int],
   .step ⟨"t1.t2.t1", [eq (isZero x) (isZero y)], "refl", [], [], []⟩,
   .step ⟨"t1.t2", [eq (.binder .all [("x", .int)] (isZero x)) (.binder .all [("x", .int)] (isZero y))], "bind", [], [], []⟩,
   .step ⟨"t1", [eq B A], "bind", [], [], []⟩,
   .step ⟨"t2", [B, .op .not [A]], "equiv2", ["t1"], [], []⟩,
   .step ⟨"t3", [], "resolution", ["t2", "h1", "h2"], if e then [A, .fls, B, .tru] else [], []⟩]
abbrev proof (e : Bool) : List Command :=
  [.assume "h1" A, .assume "h2" (.op .not [B]),
   .subproof [.step ⟨"t1.t1", [eq (isZero x) (isZero y)], "refl", [], [], []⟩,
      .subproof [.step ⟨"t1.t2.t1", [eq (isZero x) (isZero y)], "refl", [], [], []⟩,
        .step ⟨"t1.t2", [eq (.binder .all [("x", .int)] (isZero x)) (.binder .all [("x", .int)] (isZero y))], "bind", [], [], []⟩]
        [.var "x" .int] 1,
      .step ⟨"t1", [eq B A], "bind", [], [], []⟩] [.var "y" .int, .assign "x" .int y] 0,
   .step ⟨"t2", [B, .op .not [A]], "equiv2", [(0, 2)], [], []⟩,
   .step ⟨"t3", [], "resolution", [(0, 3), (0, 0), (0, 1)], if e then [A, .fls, B, .tru] else [], []⟩]

theorem upd {I : Interp} {ρ : Env I.U} (h : I.EnvOK ρ) (x : String) (k : Int) : Upd I [(x, .int)] ρ (ρ.set x .int (.int k)) :=
  Upd.setMany (I := I) (bs := [(x, .int)]) h (vs := [.int k]) (.cons ((I.dom_int _).2 ⟨k, rfl⟩) .nil)

theorem valid (M : Model) : ∀ t ∈ prem, M.Holds t := by
  intro t ht
  simp only [List.mem_cons, List.not_mem_nil, or_false] at ht
  rcases ht with rfl | rfl
  · refine (tr_ex M.env_dom).2 ⟨_, upd M.env_dom "y" 0, (tr_all (upd M.env_dom "y" 0).1).2 fun ρ' h => true_eq.2 ?_⟩
    simp [eval, evalConst, h.2 "y" .int (by simp), Env.set]
  · refine (M.holds_not _).2 fun h => ?_
    obtain ⟨ρ, hρ, h⟩ := (tr_ex M.env_dom).1 h
    have := true_eq.1 ((tr_all hρ.1).1 h _ (upd hρ.1 "x" 1))
    simp [eval, evalConst, Env.set] at this

end C01Ctx

set_option maxRecDepth 10000 in
open C01Ctx in
/-- **C01.** The claim is false, in both modes: the steps `refl` and `bind` suffice to refute a valid problem. -/
theorem c01_contexts_fails (E : TableEnv) (e : Bool) : ¬ C01Contexts E { elaborated := e } := by
  intro h
  refine h (text e) (proof e) prem (by clear h; revert e; decide +kernel) (fun _ _ _ _ => clauses_ok (by clear h; revert e; decide +kernel)) ?_ (by decide +kernel) ?_
    ⟨Witness.allTrue, valid _⟩
  · have : ∀ e, ∀ o ∈ allPositions (proof e), ∀ as ∈ o.ctx, ∀ a ∈ as, a.ok = true := by decide +kernel
    exact fun F Γ c ho => this e ⟨F, Γ, c⟩ (allPositions_iff.2 ho)
  · rw [checkCtx, checkCtxLoop_start]
    cases e
    · with_unfolding_all rfl
    · with_unfolding_all rfl

end Carcara
