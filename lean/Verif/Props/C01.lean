import Verif.Lemmas.Scope
import Verif.Model.RuleTable
import Verif.Props.C05
import Verif.Props.C07
import Verif.Props.C08
import Verif.Props.C10
import Verif.Props.C12
import Verif.Props.C13
import Verif.Props.C14
import Verif.Props.C15
import Verif.Props.C16
import Verif.Props.C17
import Verif.Props.C18
import Verif.Props.C22

/-!
# C01: acceptance means unsatisfiability

The claim is false: some rules are unsound. What holds is that the checking loop adds no unsoundness of its own:
`c01_refutation_partial` reduces the claim to a condition on each single step, and `c01_partial` discharges the condition
for the rules that are proved sound.
-/

namespace Carcara

open Spec

/-- **C01.** The claim, for proofs that come from the parser and contain well-sorted clauses only. -/
def C01Full (E : TableEnv) (cfg : Config) : Prop :=
  ∀ (rs : List RawCommand) (proof : List Command) (prem : List Term), parseProof rs = .ok proof →
    (∀ F Γ c cl, Occ proof F Γ c → c.clause = .ok cl → ClauseOK cl) → (∀ t ∈ prem, sortOf t = some .bool) →
    check (E.params cfg) cfg prem proof = .ok false → ¬ ∃ M : Model, ∀ t ∈ prem, M.Holds t

/-- **C01**, partial: whatever the rules are, an accepted proof whose steps are sound in their context (`SoundSteps`)
is a refutation. -/
theorem c01_refutation_partial {P : Params} {cfg : Config} {prem : List Term} {proof : List Command}
    (hs : SoundSteps P prem proof) (h : check P cfg prem proof = .ok false) : ¬ ∃ M : Model, ∀ t ∈ prem, M.Holds t :=
  fun ⟨M, hM⟩ => hs.refutes h M hM

/-- The rules that are sound without further conditions. -/
def soundNames : List String :=
  ["true", "false", "not_not", "and_pos", "and_neg",
   "or_pos", "or_neg", "xor_pos1", "xor_pos2", "xor_neg1",
   "xor_neg2", "implies_pos", "implies_neg1", "implies_neg2", "equiv_pos1",
   "equiv_pos2", "equiv_neg1", "equiv_neg2", "ite_pos1", "ite_pos2",
   "ite_neg1", "ite_neg2", "eq_reflexive", "eq_transitive", "eq_congruent",
   "eq_congruent_pred", "distinct_elim", "la_rw_eq", "la_disequality", "la_totality",
   "qnt_join", "trans", "cong", "ho_cong", "and_intro",
   "and", "not_or", "or", "not_and", "xor1",
   "xor2", "not_xor1", "not_xor2", "implies", "not_implies1",
   "not_implies2", "equiv1", "equiv2", "not_equiv1", "not_equiv2",
   "ite1", "ite2", "not_ite1", "not_ite2", "connective_def",
   "ite_simplify", "eq_simplify", "and_simplify", "or_simplify", "not_simplify",
   "implies_simplify", "equiv_simplify", "bool_simplify", "qnt_simplify", "unary_minus_simplify",
   "minus_simplify", "nary_elim", "ac_simp", "miniscope_distribute", "reordering",
   "shuffle", "symm", "not_symm", "eq_symmetric", "weakening",
   "la_mult_pos", "la_mult_neg", "mod_simplify",
   "tautology", "contraction", "strict_resolution",
   "bitblast_const", "bitblast_var", "bitblast_and", "bitblast_or", "bitblast_xor",
   "bitblast_xnor", "bitblast_not", "bitblast_comp", "bitblast_ult", "bitblast_slt",
   "bitblast_add", "bitblast_mult", "bitblast_neg", "bitblast_equal", "bitblast_extract",
   "bitblast_concat", "bitblast_sign_extend"]

theorem soundNames_sound (E : TableEnv) (e : Bool) : ∀ n ∈ soundNames, ∃ r : Rule, getRule E e n = some r.lift ∧ SoundRule r := by
  simp only [soundNames, List.forall_mem_cons, List.not_mem_nil, false_implies, implies_true, and_true]
  exact ⟨⟨_, rfl, c12_true⟩,
    ⟨_, rfl, c12_false⟩,
    ⟨_, rfl, c12_not_not⟩,
    ⟨_, rfl, c12_and_pos⟩,
    ⟨_, rfl, c12_and_neg⟩,
    ⟨_, rfl, c12_or_pos⟩,
    ⟨_, rfl, c12_or_neg⟩,
    ⟨_, rfl, c12_xor_pos1⟩,
    ⟨_, rfl, c12_xor_pos2⟩,
    ⟨_, rfl, c12_xor_neg1⟩,
    ⟨_, rfl, c12_xor_neg2⟩,
    ⟨_, rfl, c12_implies_pos⟩,
    ⟨_, rfl, c12_implies_neg1⟩,
    ⟨_, rfl, c12_implies_neg2⟩,
    ⟨_, rfl, c12_equiv_pos1⟩,
    ⟨_, rfl, c12_equiv_pos2⟩,
    ⟨_, rfl, c12_equiv_neg1⟩,
    ⟨_, rfl, c12_equiv_neg2⟩,
    ⟨_, rfl, c12_ite_pos1⟩,
    ⟨_, rfl, c12_ite_pos2⟩,
    ⟨_, rfl, c12_ite_neg1⟩,
    ⟨_, rfl, c12_ite_neg2⟩,
    ⟨_, rfl, c13_eq_reflexive⟩,
    ⟨_, rfl, c13_eq_transitive⟩,
    ⟨_, rfl, c13_eq_congruent⟩,
    ⟨_, rfl, c13_eq_congruent_pred⟩,
    ⟨_, rfl, c12_distinct_elim⟩,
    ⟨_, rfl, c17_la_rw_eq⟩,
    ⟨_, rfl, c17_la_disequality⟩,
    ⟨_, rfl, c17_la_totality⟩,
    ⟨_, rfl, c22_qnt_join⟩,
    ⟨_, rfl, c13_trans⟩,
    ⟨_, rfl, c13_cong⟩,
    ⟨_, rfl, c13_ho_cong⟩,
    ⟨_, rfl, c11_and_intro⟩,
    ⟨_, rfl, c12_and⟩,
    ⟨_, rfl, c12_not_or⟩,
    ⟨_, rfl, c12_or⟩,
    ⟨_, rfl, c12_not_and⟩,
    ⟨_, rfl, c12_xor1⟩,
    ⟨_, rfl, c12_xor2⟩,
    ⟨_, rfl, c12_not_xor1⟩,
    ⟨_, rfl, c12_not_xor2⟩,
    ⟨_, rfl, c12_implies⟩,
    ⟨_, rfl, c12_not_implies1⟩,
    ⟨_, rfl, c12_not_implies2⟩,
    ⟨_, rfl, c12_equiv1⟩,
    ⟨_, rfl, c12_equiv2⟩,
    ⟨_, rfl, c12_not_equiv1⟩,
    ⟨_, rfl, c12_not_equiv2⟩,
    ⟨_, rfl, c12_ite1⟩,
    ⟨_, rfl, c12_ite2⟩,
    ⟨_, rfl, c12_not_ite1⟩,
    ⟨_, rfl, c12_not_ite2⟩,
    ⟨_, rfl, c12_connective_def⟩,
    ⟨_, rfl, c14_ite_simplify⟩,
    ⟨_, rfl, c14_eq_simplify⟩,
    ⟨_, rfl, c14_and_simplify⟩,
    ⟨_, rfl, c14_or_simplify⟩,
    ⟨_, rfl, c14_not_simplify⟩,
    ⟨_, rfl, c14_implies_simplify⟩,
    ⟨_, rfl, c14_equiv_simplify⟩,
    ⟨_, rfl, c14_bool_simplify⟩,
    ⟨_, rfl, c22_qnt_simplify⟩,
    ⟨_, rfl, c15_minus_simplify⟩,
    ⟨_, rfl, c15_minus_simplify⟩,
    ⟨_, rfl, c12_nary_elim⟩,
    ⟨_, rfl, c14_ac_simp⟩,
    ⟨_, rfl, c22_miniscope_distribute⟩,
    ⟨_, rfl, c11_reordering⟩,
    ⟨_, rfl, c13_shuffle⟩,
    ⟨_, rfl, c13_symm⟩,
    ⟨_, rfl, c13_not_symm⟩,
    ⟨_, rfl, c13_eq_symmetric⟩,
    ⟨_, rfl, c11_weakening⟩,
    ⟨_, rfl, c17_la_mult_pos⟩,
    ⟨_, rfl, c17_la_mult_neg⟩,
    ⟨_, rfl, c15_mod_simplify⟩,
    ⟨_, rfl, fun _ _ _ h _ _ M _ => (c11_tautology h).1 M⟩,
    ⟨_, rfl, fun _ _ _ h _ _ => (c11_contraction h).choose_spec.2.2.2⟩,
    ⟨_, rfl, fun _ _ _ h _ _ => c08_strict_resolution h⟩,
    ⟨_, rfl, c18_value⟩,
    ⟨_, rfl, c18_var⟩,
    ⟨_, rfl, c18_and⟩,
    ⟨_, rfl, c18_or⟩,
    ⟨_, rfl, c18_xor⟩,
    ⟨_, rfl, c18_xnor⟩,
    ⟨_, rfl, c18_not⟩,
    ⟨_, rfl, c18_comp⟩,
    ⟨_, rfl, c18_ult⟩,
    ⟨_, rfl, c18_slt⟩,
    ⟨_, rfl, c18_add⟩,
    ⟨_, rfl, c18_mult⟩,
    ⟨_, rfl, c18_neg⟩,
    ⟨_, rfl, c18_equal⟩,
    ⟨_, rfl, c18_extract⟩,
    ⟨_, rfl, c18_concat⟩,
    ⟨_, rfl, c18_sign_extend⟩⟩

/-- A step for which soundness is proved: by its rule, by its rule and a condition on its terms, or because its clause is
entailed anyway. -/
def Step.vouched (E : TableEnv) (cfg : Config) (F : Frames) (Γ : List (List AnchorArg)) (s : Step) : Prop :=
  s.rule ∈ soundNames ∨
  ((s.rule = "resolution" ∨ s.rule = "th_resolution") ∧
    (cfg.elaborated = true ∨ s.args ≠ [] ∨ ∀ a, F.argsFor Γ s a → NoTautology a.premises ∧ NoReturn a.premises)) ∨
  (s.rule = "drup" ∧ (∀ i db, (E.order i db).Perm db) ∧
    ∀ a, F.argsFor Γ s a → NoCollision E.hash a.conclusion a.premises a.args) ∨
  (s.rule = "subproof" ∧ ∀ a, F.argsFor Γ s a → Compatible false a.subproofTerms) ∨
  (s.rule ≠ "subproof" ∧ ∀ a, F.argsFor Γ s a → Entails a.premises s.clause)

/-- The conditions of `c01_partial`: the steps are vouched for, the anchors have no arguments, and the assumptions can be
compared with the premises. -/
structure Vouched (E : TableEnv) (cfg : Config) (prem : List Term) (proof : List Command) : Prop where
  sorts : ∀ F Γ c cl, Occ proof F Γ c → c.clause = .ok cl → ClauseOK cl
  anchors : ∀ F Γ c, Occ proof F Γ c → ∀ as ∈ Γ, as = []
  assumes : cfg.elaborated = true ∨ ∀ (i : Nat) id t, proof[i]? = some (.assume id t) → ∀ u ∈ prem, Comparable true t u
  steps : ∀ F Γ s, Occ proof F Γ (.step s) → s.vouched E cfg F Γ

section
variable {E : TableEnv} {cfg : Config} {prem : List Term} {proof : List Command}

theorem vouched_entails {F : Frames} {Γ : List (List AnchorArg)} {s : Step} {r : RuleFn} {a : RuleArgs} (hv : s.vouched E cfg F Γ) (hc : ClauseOK s.clause) (hps : ∀ p ∈ a.premises, ClauseOK p)
    (hr : getRule E cfg.elaborated s.rule = some r) (ha : F.argsFor Γ s a) (h : r a = .ok ()) :
    s.rule = "subproof" ∨ Entails a.premises s.clause := by
  have e1 := ha.1
  rcases hv with hn | ⟨hn, hn'⟩ | ⟨hn, h1, h2⟩ | ⟨hn, -⟩ | ⟨-, he⟩
  · right
    obtain ⟨r', hr', hsound⟩ := soundNames_sound E cfg.elaborated s.rule hn
    rw [hr'] at hr
    cases hr
    rw [← e1]
    exact hsound _ _ _ h (e1 ▸ hc) hps
  · right
    rw [getRule, if_pos hn] at hr
    cases hr
    rw [← e1]
    simp only [Rule.lift] at h
    split at h
    · exact c08_resolution_with_args h
    · next hne =>
      rcases hn' with hn' | hn' | hn'
      · exact absurd hn' hne
      · exact c08_resolution (ha.2.1 ▸ hn') h
      · by_cases hargs : a.args = []
        · rw [hargs] at h
          exact c09_resolution_partial h (hn' a ha).1 (hn' a ha).2
        · exact c08_resolution hargs h
  · right
    rw [hn] at hr
    cases hr
    rw [← e1]
    exact c10_drup h1 (h2 a ha) h
  · exact .inl hn
  · exact .inr (he a ha)

theorem premises_sorts (hs : ∀ F Γ c cl, Occ proof F Γ c → c.clause = .ok cl → ClauseOK cl) {F Γ s a} (ho : Occ proof F Γ (.step s))
    (hsc : s.wellScoped F) (ha : F.argsFor Γ s a) : ∀ p ∈ a.premises, ClauseOK p := by
  intro p hp
  obtain ⟨q, hq, c, hc, hcl⟩ := forall₂_right ha.2.2.2.1 hp
  obtain ⟨j, cs, c', h1, h2, h3⟩ := hsc q (List.mem_append_left _ hq)
  obtain ⟨A, B, rfl, hB⟩ := reverse_split h1
  have : c = c' := by
    simp only [Frames.lookup, h1] at hc
    exact Option.some.inj (hc.symm.trans h3)
  subst this
  exact hs _ _ _ _ (ho.enclosing h3) hcl

theorem enters_nil {I : Interp} {as : List AnchorArg} (h : as = []) {ρ ρ' : Env I.U} : I.Enters as ρ ρ' ↔ ρ' = ρ := by
  subst h; exact Iff.rfl

theorem vouched_not_close {F : Frames} {Γ : List (List AnchorArg)} {s : Step} {r : RuleFn} {a : RuleArgs} (he : s.rule = "subproof") (hne : ¬ F.isEnd) (hr : getRule E cfg.elaborated s.rule = some r)
    (ha : F.argsFor Γ s a) : ¬ r a = .ok () := by
  intro hrun
  rw [he] at hr
  cases hr
  obtain ⟨prev, _, _, hprev, _⟩ := subproof_ok hrun
  rcases ha.2.2.2.2.2 with ⟨hend, _⟩ | ⟨_, hn⟩
  · exact hne hend
  · rw [hn] at hprev; cases hprev

theorem no_assumptions {j cs F} {s : Step} (hdis : Frames.discharged ((j, cs) :: F) s) (hsub : s.discharge ≠ [] → s.rule = "subproof")
    (he : s.rule ≠ "subproof") : assumptions cs = [] := by
  refine List.eq_nil_iff_forall_not_mem.2 fun t ht => ?_
  obtain ⟨c, hc, hct⟩ := List.mem_filterMap.1 ht
  cases c with
  | assume id t' =>
    obtain ⟨k, hk⟩ := List.mem_iff_getElem?.1 hc
    exact he (hsub (List.ne_nil_of_mem (hdis _ _ _ rfl k id _ hk)))
  | step => cases hct
  | subproof => cases hct

theorem vouched_close {j : Nat} {cs : List Command} {F : Frames} {Γ : List (List AnchorArg)} {s : Step} {r : RuleFn} {a : RuleArgs} {prev : List Term} (hv : s.vouched E cfg ((j, cs) :: F) (Γ ++ [[]])) (hc : ClauseOK s.clause)
    (hpc : ∀ p ∈ a.premises, ClauseOK p) (hr : getRule E cfg.elaborated s.rule = some r)
    (ha : Frames.argsFor ((j, cs) :: F) (Γ ++ [[]]) s a) (hrun : r a = .ok ()) (hdis : Frames.discharged ((j, cs) :: F) s)
    (hprev : a.previous = some prev) (hsub : s.discharge ≠ [] → s.rule = "subproof") :
    CloseSound Γ [] (assumptions cs) prev a.premises s.clause := by
  intro I ρ hρ _ hps hpr
  simp only [enters_nil rfl, forall_eq] at hps hpr
  by_cases he : s.rule = "subproof"
  · have hcomp : Compatible false a.subproofTerms := by
      rcases hv with hn | ⟨hn | hn, _⟩ | ⟨hn, _⟩ | ⟨_, hn⟩ | ⟨hn, _⟩
      · rw [he] at hn; exact absurd hn (by decide)
      · rw [he] at hn; exact absurd hn (by decide)
      · rw [he] at hn; exact absurd hn (by decide)
      · rw [he] at hn; exact absurd hn (by decide)
      · exact hn a ha
      · exact absurd he hn
    rw [he] at hr
    cases hr
    rw [← ha.1]
    refine c05_subproof_sound_partial hrun hcomp ⟨I, ρ, hρ⟩ fun hall => ⟨prev, hprev, hpr fun t ht => ?_⟩
    obtain ⟨c, hc, hct⟩ := List.mem_filterMap.1 ht
    cases c with
    | assume id t' =>
      cases hct
      obtain ⟨k, hk⟩ := List.mem_iff_getElem?.1 hc
      have hin := hdis _ _ _ rfl k id _ hk
      obtain ⟨d, hd, hlook⟩ := forall₂_left ha.2.2.2.2.1 hin
      have : Frames.lookup ((j, cs) :: F) (((j, cs) :: F).length - 1, k) = some (.assume id t) := by
        simp [Frames.lookup, hk]
      rw [this] at hlook
      cases hlook
      exact hall id t hd
    | step => cases hct
    | subproof => cases hct
  · -- without assumptions, nothing changes between inside and outside
    refine ((vouched_entails hv hc hpc hr ha hrun).resolve_left he) ⟨I, ρ, hρ⟩ fun p hp => ?_
    rw [no_assumptions hdis hsub he] at hps
    rcases hps p hp with h | h
    · exact h
    · exact h fun t ht => absurd ht (List.not_mem_nil)

theorem Vouched.soundSteps (hv : Vouched E cfg prem proof) {rs : List RawCommand} (hp : parseProof rs = .ok proof)
    (h : check (E.params cfg) cfg prem proof = .ok false) : SoundSteps (E.params cfg) prem proof where
  wf := c04_parse_wf hp
  inScope := fun _ _ _ ho => c04_parse_scoped hp ho
  anchors := fun F Γ c ho as has a ha => by rw [hv.anchors F Γ c ho as has] at ha; cases ha
  sorts := hv.sorts
  fresh := fun F Γ s ho p _ c cl _ _ t _ as has a ha => by
    rw [hv.anchors F Γ _ ho as (List.mem_of_mem_drop has)] at ha; cases ha
  assume := fun i id t hi I ρ hρ hprem => by
    rcases c03_every_assume_checked (c04_parse_wf hp) h hi with hm | ⟨he, u, hu, heq⟩
    · exact hprem t hm
    · rcases hv.assumes with hc | hc
      · rw [hc] at he; cases he
      · have := polyeqWith_sound rfl heq (hc i id t hi u hu)
        unfold Interp.True
        rw [this I ρ hρ]
        exact hprem u hu
  step := fun F Γ s r a ho hne hr ha hrun I ρ hρ _ hps => by
    have hsc := c04_parse_scoped hp ho
    rcases vouched_entails (hv.steps _ _ _ ho) (hv.sorts _ _ _ _ ho rfl) (premises_sorts hv.sorts ho hsc ha) hr ha hrun with he | he
    · exact absurd hrun (vouched_not_close he hne hr ha)
    · exact he ⟨I, ρ, hρ⟩ hps
  close := fun j cs F Γ as s r a prev ho hend hr ha hrun hdis hprev => by
    obtain rfl : as = [] := hv.anchors _ _ _ ho as (by simp)
    obtain ⟨⟨_, _, _, _, _, hsub, _⟩, _⟩ := c02_not_holey_verified (c04_parse_wf hp) h ho
    exact vouched_close (hv.steps _ _ _ ho) (hv.sorts _ _ _ _ ho rfl) (premises_sorts hv.sorts ho (c04_parse_scoped hp ho) ha) hr ha hrun hdis
      hprev hsub

/-- **C01**, partial: an accepted proof without anchor arguments, in which every step is vouched for, is a refutation. -/
theorem c01_partial {rs : List RawCommand} (hp : parseProof rs = .ok proof) (hv : Vouched E cfg prem proof)
    (h : check (E.params cfg) cfg prem proof = .ok false) : ¬ ∃ M : Model, ∀ t ∈ prem, M.Holds t :=
  c01_refutation_partial (hv.soundSteps hp h) h

/-- **C01**, partial, with conditions that only mention the rules and the terms: the elaborated mode, and only rules that
are sound. -/
theorem c01_elaborated_partial {rs : List RawCommand} (hp : parseProof rs = .ok proof) (he : cfg.elaborated = true)
    (hsorts : ∀ F Γ c cl, Occ proof F Γ c → c.clause = .ok cl → ClauseOK cl)
    (hanchors : ∀ F Γ c, Occ proof F Γ c → ∀ as ∈ Γ, as = [])
    (hrules : ∀ F Γ s, Occ proof F Γ (.step s) → s.rule ∈ "resolution" :: "th_resolution" :: soundNames)
    (h : check (E.params cfg) cfg prem proof = .ok false) : ¬ ∃ M : Model, ∀ t ∈ prem, M.Holds t := by
  refine c01_partial hp ⟨hsorts, hanchors, .inl he, fun F Γ s ho => ?_⟩ h
  have := hrules F Γ s ho
  simp only [List.mem_cons] at this
  rcases this with h | h | h
  · exact .inr (.inl ⟨.inl h, .inl he⟩)
  · exact .inr (.inl ⟨.inr h, .inl he⟩)
  · exact .inl h

end

/-! ## Examples -/

section
private abbrev p : Term := .var "p" .bool
private abbrev q : Term := .var "q" .bool
private abbrev a : Term := .var "a" .int
private abbrev b : Term := .var "b" .int
private abbrev f (t : Term) : Term := .app (.var "f" (.fn [.int] .int)) [t]

private def E0 : TableEnv := ⟨fun _ => 0, fun _ db => db, fun _ => 0, fun _ _ => err⟩

/-- `a = b`, `p ∨ ¬(f a = f b)`, and `¬p` proved in a subproof from `p → ⊥`. -/
private def exPrem : List Term :=
  [.op .equals [a, b], .op .or [q, .op .not [.op .equals [f a, f b]]], .op .implies [q, .fls]]
private def exText : List RawCommand :=
  [.assume "h1" (.op .equals [b, a]),
   .assume "h2" (.op .or [q, .op .not [.op .equals [f a, f b]]]),
   .assume "h3" (.op .implies [q, .fls]),
   .step ⟨"t1", [.op .equals [f b, f a]], "cong", ["h1"], [], []⟩,
   .step ⟨"t2", [.op .equals [f a, f b]], "symm", ["t1"], [], []⟩,
   .step ⟨"t3", [q, .op .not [.op .equals [f a, f b]]], "or", ["h2"], [], []⟩,
   .anchor "t4" [],
   .assume "t4.h" q,
   .step ⟨"t4.1", [.op .not [q], .fls], "implies", ["h3"], [], []⟩,
   .step ⟨"t4.2", [.fls], "resolution", ["t4.1", "t4.h"], [q, .fls], []⟩,
   .step ⟨"t4", [.op .not [q], .fls], "subproof", [], [], ["t4.h"]⟩,
   .step ⟨"t5", [.op .not [.fls]], "false", [], [], []⟩,
   .step ⟨"t6", [], "resolution", ["t3", "t2", "t4", "t5"], [.op .equals [f a, f b], .fls, q, .tru, .fls, .tru], []⟩]

private def exSub : List Command :=
  [.assume "t4.h" q,
   .step ⟨"t4.1", [.op .not [q], .fls], "implies", [(0, 2)], [], []⟩,
   .step ⟨"t4.2", [.fls], "resolution", [(1, 1), (1, 0)], [q, .fls], []⟩,
   .step ⟨"t4", [.op .not [q], .fls], "subproof", [], [], [(1, 0)]⟩]
private def exProof : List Command :=
  [.assume "h1" (.op .equals [b, a]),
   .assume "h2" (.op .or [q, .op .not [.op .equals [f a, f b]]]),
   .assume "h3" (.op .implies [q, .fls]),
   .step ⟨"t1", [.op .equals [f b, f a]], "cong", [(0, 0)], [], []⟩,
   .step ⟨"t2", [.op .equals [f a, f b]], "symm", [(0, 3)], [], []⟩,
   .step ⟨"t3", [q, .op .not [.op .equals [f a, f b]]], "or", [(0, 1)], [], []⟩,
   .subproof exSub [] 0,
   .step ⟨"t5", [.op .not [.fls]], "false", [], [], []⟩,
   .step ⟨"t6", [], "resolution", [(0, 5), (0, 4), (0, 6), (0, 7)],
     [.op .equals [f a, f b], .fls, q, .tru, .fls, .tru], []⟩]

example : parseProof exText = .ok exProof := by decide +kernel
set_option maxRecDepth 10000 in
example : check (E0.params {}) {} exPrem exProof = .ok false := by rw [check, checkLoop_start]; decide +kernel

private theorem exSubTerms {a : RuleArgs} (h : Frames.argsFor [(3, exSub), (6, exProof)] [[]]
    ⟨"t4", [.op .not [q], .fls], "subproof", [], [], [(1, 0)]⟩ a) :
    a.subproofTerms = [.op .not [q], .fls, .fls, q] := by
  obtain ⟨h1, -, -, -, h5, h6⟩ := h
  rcases h6 with ⟨-, i, cs, F, c, cl, e, hc, hcl, hp⟩ | ⟨hn, -⟩
  · cases e
    cases hc
    cases hcl
    cases hd : a.discharge with
    | nil => rw [hd] at h5; cases h5
    | cons d ds =>
      rw [hd] at h5
      cases h5 with
      | cons ha hb =>
        cases hb
        cases ha
        simp [RuleArgs.subproofTerms, h1, hp, hd]
  · exact absurd rfl hn

private def steps : Command → List Step
  | .step s => [s]
  | _ => []

/-- The proof meets the conditions of `c01_partial`. -/
example : Vouched E0 {} exPrem exProof where
  sorts := by
    have : ∀ o ∈ allPositions exProof, ∀ l ∈ (o.cmd.clause.toOption.getD []), sortOf l = some .bool := by decide +kernel
    intro F Γ c cl ho hcl l hl
    refine this ⟨F, Γ, c⟩ (allPositions_iff.2 ho) l ?_
    simp only [hcl]
    exact hl
  anchors := by
    have : ∀ o ∈ allPositions exProof, ∀ as ∈ o.ctx, as = [] := by decide +kernel
    exact fun F Γ c ho => this ⟨F, Γ, c⟩ (allPositions_iff.2 ho)
  assumes := by
    right
    have : ∀ c ∈ exProof, ∀ t ∈ assumptions [c], ∀ u ∈ exPrem,
        ((sortOf t).isSome = true ∧ (sortOf u).isSome = true) ∧ (t.clean true ∧ u.clean true) ∧ t.separate u := by
      decide +kernel
    intro i id t hi u hu
    obtain ⟨⟨h1, h2⟩, ⟨h3, h4⟩, h5⟩ := this _ (List.mem_of_getElem? hi) t (List.mem_singleton_self _) u hu
    exact ⟨h1, h2, h3, h4, h5⟩
  steps := by
    have : ∀ o ∈ allPositions exProof, ∀ s ∈ steps o.cmd,
        s.rule ∈ soundNames ∨ (s.rule = "resolution" ∧ s.args ≠ []) ∨
          (s.rule = "subproof" ∧ s = ⟨"t4", [.op .not [q], .fls], "subproof", [], [], [(1, 0)]⟩ ∧
            o.frames = [(3, exSub), (6, exProof)] ∧ o.ctx = [[]]) := by
      decide +kernel
    intro F Γ s ho
    rcases this ⟨F, Γ, .step s⟩ (allPositions_iff.2 ho) s (List.mem_singleton_self _) with h | ⟨h1, h2⟩ | ⟨h1, rfl, rfl, rfl⟩
    · exact .inl h
    · exact .inr (.inl ⟨.inl h1, .inr (.inl h2)⟩)
    · refine .inr (.inr (.inr (.inl ⟨rfl, fun a ha => ?_⟩)))
      rw [exSubTerms ha]
      decide

end

/-! ## Refutation -/

namespace C01
abbrev p : Term := .var "p" .bool
abbrev q : Term := .var "q" .bool
/-- A satisfiable problem. -/
abbrev prem : List Term := [p, .op .or [.op .not [p], q], .op .or [p, .op .not [q]]]
/-- A proof that the checker accepts. -/
abbrev text : List RawCommand :=
  [.assume "h1" p, .assume "h2" (.op .or [.op .not [p], q]), .assume "h3" (.op .or [p, .op .not [q]]),
   .step ⟨"t1", [.op .not [p], q], "or", ["h2"], [], []⟩,
   .step ⟨"t2", [p, .op .not [q]], "or", ["h3"], [], []⟩,
   .step ⟨"t3", [], "resolution", ["h1", "t1", "t2"], [], []⟩]
abbrev proof : List Command :=
  [.assume "h1" p, .assume "h2" (.op .or [.op .not [p], q]), .assume "h3" (.op .or [p, .op .not [q]]),
   .step ⟨"t1", [.op .not [p], q], "or", [(0, 1)], [], []⟩,
   .step ⟨"t2", [p, .op .not [q]], "or", [(0, 2)], [], []⟩,
   .step ⟨"t3", [], "resolution", [(0, 0), (0, 3), (0, 4)], [], []⟩]

abbrev x : Term := .var "x" .int
abbrev one : Term := .const (.int 1)
abbrev half : Term := .const (.real (1 / 2))
/-- The same in the elaborated mode: `x ≥ 1` and `x ≤ 1`. -/
abbrev prem' : List Term := [.op .not [.op .lt [x, one]], .op .not [.op .gt [x, one]]]
abbrev text' : List RawCommand :=
  [.assume "h1" (.op .not [.op .lt [x, one]]), .assume "h2" (.op .not [.op .gt [x, one]]),
   .step ⟨"t1", [.op .lt [x, one], .op .gt [x, one]], "la_generic", [], [half, half], []⟩,
   .step ⟨"t2", [], "resolution", ["t1", "h1", "h2"], [.op .lt [x, one], .tru, .op .gt [x, one], .tru], []⟩]
abbrev proof' : List Command :=
  [.assume "h1" (.op .not [.op .lt [x, one]]), .assume "h2" (.op .not [.op .gt [x, one]]),
   .step ⟨"t1", [.op .lt [x, one], .op .gt [x, one]], "la_generic", [], [half, half], []⟩,
   .step ⟨"t2", [], "resolution", [(0, 2), (0, 0), (0, 1)], [.op .lt [x, one], .tru, .op .gt [x, one], .tru], []⟩]
end C01

theorem clauses_ok {proof : List Command}
    (h : ∀ o ∈ allPositions proof, ∀ l ∈ (o.cmd.clause.toOption.getD []), sortOf l = some .bool) {F Γ c cl}
    (ho : Occ proof F Γ c) (hcl : c.clause = .ok cl) : ClauseOK cl := fun l hl =>
  h ⟨F, Γ, c⟩ (allPositions_iff.2 ho) l (by simp only [hcl]; exact hl)

set_option maxRecDepth 10000 in
open C01 in
/-- **C01.** The claim is false in the default configuration: the resolution rule without arguments accepts a refutation of
a satisfiable problem. -/
theorem c01_fails (E : TableEnv) : ¬ C01Full E {} := by
  intro h
  refine h text proof prem (by decide +kernel) (fun _ _ _ _ => clauses_ok (by decide +kernel)) (by decide +kernel) ?_
    ⟨Witness.allTrue, ?_⟩
  · rw [check, checkLoop_start]; rfl
  · have hp := Witness.allTrue_var "p"
    have hq := Witness.allTrue_var "q"
    simp only [List.forall_mem_cons]
    refine ⟨hp, ?_, ?_, by simp⟩ <;> rw [Model.holds_or]
    · exact ⟨q, by simp, hq⟩
    · exact ⟨p, by simp, hp⟩

set_option maxRecDepth 10000 in
open C01 in
/-- **C01.** It is also false in the elaborated mode, because of `la_generic`. -/
theorem c01_elaborated_fails (E : TableEnv) : ¬ C01Full E { elaborated := true } := by
  intro h
  refine h text' proof' prem' (by decide +kernel) (fun _ _ _ _ => clauses_ok (by decide +kernel)) (by decide +kernel) ?_
    ⟨C16.M, ?_⟩
  · rw [check, checkLoop_start]; with_unfolding_all rfl
  · simp only [List.forall_mem_cons, Model.holds_not]
    norm_num [Model.Holds, Model.val, eval, evalL_eq_map, C16.env_x, evalConst, evalOp, stdOp, stdCmp, Val.asNums, Val.num,
      Sem.chain]

end Carcara
