import Verif.Lemmas.Subproof
import Verif.Lemmas.Checker
import Verif.Spec.Witness
import Verif.Props.C03

/-!
# C05: local assumptions are always discharged

The soundness part is partial: the `subproof` rule compares terms with `assert_polyeq`, which is sound for
`Compatible` terms only (`Verif.Props.C07`), and the claim is about subproofs without anchor arguments.
-/

namespace Carcara

variable {P : Params} {cfg : Config} {prem : List Term} {proof : List Command} {b : Bool}

/-- **C05.** In an accepted proof, the closing step of a subproof discharges every assumption that is a direct
command of the subproof, unless the configuration exempts its rule. -/
theorem c05_assumptions_discharged (hwf : Command.wfL proof = true) (h : check P cfg prem proof = .ok b)
    {F : Frames} {Γ : List (List AnchorArg)} {i : Nat} {cs : List Command} {s : Step}
    (ho : Occ proof ((i, cs) :: F) Γ (.step s)) (hF : F ≠ []) (he : i + 1 = cs.length) :
    (∀ j id t, cs[j]? = some (.assume id t) → (F.length, j) ∈ s.discharge) ∨
      s.rule ∈ cfg.allowed ∨ (P.rule s.rule = none ∧ cfg.ignoreUnknown = true) := by
  rcases c03_every_step_checked hwf h ho with hv | h
  · left
    obtain ⟨r, a, -, -, -, -, hd⟩ := hv
    have hend : Frames.isEnd ((i, cs) :: F) := by
      cases F with
      | nil => exact absurd rfl hF
      | cons f F => exact he
    intro j id t hj
    simpa using hd hend i cs F rfl j id t hj
  · exact Or.inr h

/-- **C05.** Only the `subproof` rule may discharge; so a subproof with local assumptions is closed by `subproof`,
unless the configuration exempts the rule of the closing step. -/
theorem c05_closed_by_subproof (hwf : Command.wfL proof = true) (h : check P cfg prem proof = .ok b)
    {F : Frames} {Γ : List (List AnchorArg)} {i : Nat} {cs : List Command} {s : Step}
    (ho : Occ proof ((i, cs) :: F) Γ (.step s)) (hF : F ≠ []) (he : i + 1 = cs.length)
    (ha : ∃ id t, Command.assume id t ∈ cs) :
    s.rule = "subproof" ∨ s.rule ∈ cfg.allowed ∨ (P.rule s.rule = none ∧ cfg.ignoreUnknown = true) := by
  obtain ⟨id, t, hm⟩ := ha
  obtain ⟨j, hj⟩ := List.mem_iff_getElem?.1 hm
  rcases c05_assumptions_discharged hwf h ho hF he with hd | h'
  · have hne : s.discharge ≠ [] := List.ne_nil_of_mem (hd j id t hj)
    rcases c03_every_step_checked hwf h ho with hv | h'
    · obtain ⟨_, _, _, _, _, hs, _⟩ := hv
      exact Or.inl (hs hne)
    · exact Or.inr h'
  · exact Or.inr h'

/-- **C05.** The `subproof` rule accepts only conclusions in which the literal at the position of each discharged
command is the negation of that assumption (up to `assert_polyeq`), followed by one more literal. -/
theorem c05_conclusion_has_negations {a : RuleArgs} (h : subproof a = .ok ()) :
    a.conclusion.length = a.discharge.length + 1 ∧
    ∀ (j : Nat) (d : Command), a.discharge[j]? = some d →
      ∃ id t u, d = Command.assume id t ∧ a.conclusion[j]? = some (Term.op .not [u]) ∧ polyeq t u = .ok true := by
  obtain ⟨_, _, _, _, _, _, _, h1, h2⟩ := subproof_ok h
  exact ⟨h1, h2⟩

/-- The terms an application of the `subproof` rule looks at. -/
def RuleArgs.subproofTerms (a : RuleArgs) : List Term :=
  a.conclusion ++ a.previous.getD [] ++ a.discharge.filterMap (fun | .assume _ t => some t | _ => none)

/-- **C05**, partial: if the last clause of the subproof follows from the discharged assumptions, then the conclusion
of an accepted `subproof` step holds outright. -/
theorem c05_subproof_sound_partial {a : RuleArgs} (h : subproof a = .ok ()) (hc : Compatible false a.subproofTerms)
    (M : Model) (hM : (∀ id t, Command.assume id t ∈ a.discharge → M.Holds t) →
      ∃ prev, a.previous = some prev ∧ M.Sat prev) :
    M.Sat a.conclusion := by
  obtain ⟨prev, phi, l, hp, hphi, hl, heq, hlen, hd⟩ := subproof_ok h
  by_cases hall : ∀ id t, Command.assume id t ∈ a.discharge → M.Holds t
  · obtain ⟨_, hp', hs⟩ := hM hall
    rw [hp] at hp'
    cases hp'
    have hlm : l ∈ a.conclusion := List.mem_of_mem_getLast? hl
    refine ⟨l, hlm, ?_⟩
    obtain ⟨t, ht, hh⟩ := hs
    match prev, hphi, ht with
    | [u], hphi, ht =>
      simp only [subproofPhi, ok_inj] at hphi
      subst hphi
      rw [List.mem_singleton] at ht
      subst ht
      have := polyeqWith_sound rfl heq (hc.comparable (by simp [RuleArgs.subproofTerms, hlm])
        (by simp [RuleArgs.subproofTerms, hp]))
      exact (this.holds M).2 hh
    | _ :: _ :: _, hphi, _ => simp [subproofPhi] at hphi
  · simp only [not_forall] at hall
    obtain ⟨id, t, hm, hn⟩ := hall
    obtain ⟨j, hj⟩ := List.mem_iff_getElem?.1 hm
    obtain ⟨_, _, u, he, hcj, hpe⟩ := hd j _ hj
    cases he
    have hum := List.mem_of_getElem? hcj
    refine ⟨.op .not [u], hum, ?_⟩
    have hcmp : Comparable false t (.op .not [u]) := hc.comparable
      (by simp only [RuleArgs.subproofTerms, List.mem_append, List.mem_filterMap]; exact Or.inr ⟨_, hm, rfl⟩)
      (by simp [RuleArgs.subproofTerms, hum])
    have := polyeqWith_sound rfl hpe (hcmp.sub hcmp.sort_left (sorted_op_mem hcmp.sort_right (by simp))
      (fun _ h => h) (subterms_op (by simp)))
    rw [Model.holds_not]
    exact fun h => hn ((this.holds M).2 h)

/-- **C05**, partial, for a whole proof: in an accepted proof, let `s` close a subproof with the rule `subproof`. If
in a model the command before `s` follows from the assumptions that are direct commands of the subproof, the clause
of `s` is true in that model, without any assumption. -/
theorem c05_scope_partial (hP : P.rule "subproof" = some subproof) (hwf : Command.wfL proof = true)
    (h : check P cfg prem proof = .ok false) {F : Frames} {Γ : List (List AnchorArg)} {i : Nat} {cs : List Command}
    {s : Step} (ho : Occ proof ((i + 1, cs) :: F) Γ (.step s)) (hF : F ≠ []) (he : i + 2 = cs.length)
    (hs : s.rule = "subproof")
    (hc : ∀ a, Frames.argsFor ((i + 1, cs) :: F) Γ s a → Compatible false a.subproofTerms)
    {c : Command} (hprev : cs[i]? = some c) {cl : List Term} (hcl : c.clause = .ok cl)
    (M : Model) (hM : (∀ id t, Command.assume id t ∈ cs → M.Holds t) → M.Sat cl) :
    M.Sat s.clause := by
  obtain ⟨⟨r, a, hr, ha, hrun, -, hdis⟩, -⟩ := c02_not_holey_verified hwf h ho
  have hend : Frames.isEnd ((i + 1, cs) :: F) := by
    cases F with
    | nil => exact absurd rfl hF
    | cons f F => exact he
  rw [hs, hP] at hr
  cases hr
  have hcomp := hc a ha
  obtain ⟨h1, -, -, -, hds, hpr⟩ := ha
  rw [← h1]
  refine c05_subproof_sound_partial hrun hcomp M fun hall => ⟨cl, ?_, hM fun id t hm => ?_⟩
  · rcases hpr with ⟨-, i', cs', F', c', cl', e, hc', hcl', hp⟩ | ⟨hn, -⟩
    · cases e
      rw [hprev] at hc'
      cases hc'
      rw [hcl] at hcl'
      cases hcl'
      exact hp
    · exact absurd hend hn
  · obtain ⟨j, hj⟩ := List.mem_iff_getElem?.1 hm
    have hin := hdis hend _ _ _ rfl j id t hj
    simp only [List.length_cons, Nat.add_sub_cancel] at hin
    obtain ⟨k, hk⟩ := List.mem_iff_getElem?.1 hin
    have hlen := hds.length_eq
    have hkl : k < a.discharge.length := hlen ▸ (List.getElem?_eq_some_iff.1 hk).1
    have := List.forall₂_iff_get.1 hds
    have hlk := this.2 k (hlen ▸ hkl) hkl
    have hget : s.discharge.get ⟨k, hlen ▸ hkl⟩ = (F.length, j) := by
      have := (List.getElem?_eq_some_iff.1 hk).2
      simpa using this
    rw [hget] at hlk
    have hlook : Frames.lookup ((i + 1, cs) :: F) (F.length, j) = some (.assume id t) := by
      simp [Frames.lookup, hj]
    rw [hlook] at hlk
    refine hall id t ?_
    rw [Option.some.inj hlk]
    exact List.get_mem _ _

/-! ## Examples -/

section
private abbrev p : Term := .var "p" .bool
private abbrev x : Term := .var "x" .int
private abbrev zero : Term := .const (.int 0)

/-- Discharging `(= x 0)` (with the sides flipped in the conclusion) and `p`. -/
private def exArgs : RuleArgs where
  conclusion := [.op .not [.op .equals [zero, x]], .op .not [p], .op .and [p, .op .equals [x, zero]]]
  previous := some [.op .and [p, .op .equals [x, zero]]]
  discharge := [.assume "h1" (.op .equals [x, zero]), .assume "h2" p]

example : subproof exArgs = .ok () ∧ Compatible false exArgs.subproofTerms := ⟨by decide, by decide⟩
/-- An assumption may not be left out of the conclusion … -/
example : subproof { exArgs with conclusion := [.op .not [p], .op .and [p, .op .equals [x, zero]]] } = err := by decide
/-- … nor be replaced by another one. -/
example : subproof { exArgs with
    conclusion := [.op .not [p], .op .not [p], .op .and [p, .op .equals [x, zero]]] } = err := by decide
/-- An empty last clause becomes `false`. -/
example : subproof { conclusion := [.op .not [p], .fls], previous := some [], discharge := [.assume "h" p] } = .ok () ∧
    subproof { conclusion := [.op .not [p]], previous := some [], discharge := [.assume "h" p] } = err := by decide

private def table : Params where
  rule n := if n = "subproof" then some subproof else if n = "any" then some (fun _ => .ok ()) else none
  assumeEq := assumeEq
private def sub : List Command :=
  [.assume "t1.h" p, .step ⟨"t1.a", [p], "any", [(1, 0)], [], []⟩,
   .step ⟨"t1", [.op .not [p], p], "subproof", [], [], [(1, 0)]⟩]
private def prf : List Command := [.subproof sub [] 0, .step ⟨"t2", [], "any", [(0, 0)], [], []⟩]
/-- A proof that meets the hypotheses of `c05_scope_partial`. -/
example : table.rule "subproof" = some subproof ∧ Command.wfL prf = true ∧ check table {} [] prf = .ok false ∧
    Occ prf [(2, sub), (0, prf)] [[]] (.step ⟨"t1", [.op .not [p], p], "subproof", [], [], [(1, 0)]⟩) :=
  ⟨rfl, by decide, by rw [check, checkLoop_start]; decide, .sub (Γ := []) (as := []) (n := 0) (.top rfl) rfl⟩
end

end Carcara
