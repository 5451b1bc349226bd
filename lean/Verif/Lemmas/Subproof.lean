import Verif.Model.Subproof
import Verif.Lemmas.Polyeq
import Verif.Lemmas.Holds

/-! # The `subproof` rule: helper lemmas -/

namespace Carcara

theorem Compatible.comparable {n : Bool} {ts : List Term} (h : Compatible n ts) {a b : Term} (ha : a ∈ ts)
    (hb : b ∈ ts) : Comparable n a b :=
  ⟨(h.1 a ha).1, (h.1 b hb).1, (h.1 a ha).2, (h.1 b hb).2, h.2 a ha b hb⟩

theorem assertPolyeq_ok {a b : Term} : assertPolyeq a b = .ok () ↔ polyeq a b = .ok true := by
  simp only [assertPolyeq, bind_ok, require_ok]
  constructor
  · rintro ⟨r, h, rfl⟩; exact h
  · exact fun h => ⟨true, h, rfl⟩

theorem Same.holds {a b : Term} (h : Same a b) (M : Model) : M.Holds a ↔ M.Holds b := by
  simp only [Model.Holds, Model.val, h M.I M.env M.env_dom]

/-- What an accepted loop over the discharges establishes. -/
theorem dischargeLoop_ok : ∀ {ds : List Command} {ls : List Term}, dischargeLoop ds ls = .ok () →
    ds.length ≤ ls.length → ∀ (j : Nat) (d : Command), ds[j]? = some d →
      ∃ id t u, d = Command.assume id t ∧ ls[j]? = some (Term.op .not [u]) ∧ polyeq t u = .ok true
  | [], _, _, _, j, d, hj => by simp at hj
  | _ :: _, [], _, hl, _, _, _ => by simp at hl
  | c :: ds, l :: ls, h, hl, j, d, hj => by
    cases c with
    | assume id t =>
      simp only [dischargeLoop, bind_ok, Term.removeNegErr_ok] at h
      obtain ⟨u, rfl, _, h1, h2⟩ := h
      cases j with
      | zero =>
        simp only [List.getElem?_cons_zero, Option.some.injEq] at hj
        exact ⟨id, t, u, hj.symm, by simp, assertPolyeq_ok.1 h1⟩
      | succ j =>
        simp only [List.getElem?_cons_succ] at hj ⊢
        exact dischargeLoop_ok h2 (by simpa using hl) j d hj
    | step _ => simp [dischargeLoop] at h
    | subproof _ _ _ => simp [dischargeLoop] at h

/-- The shape of an accepted `subproof` step. -/
theorem subproof_ok {a : RuleArgs} (h : subproof a = .ok ()) :
    ∃ prev phi l, a.previous = some prev ∧ subproofPhi prev = .ok phi ∧ a.conclusion.getLast? = some l ∧
      polyeq l phi = .ok true ∧ a.conclusion.length = a.discharge.length + 1 ∧
      ∀ (j : Nat) (d : Command), a.discharge[j]? = some d →
        ∃ id t u, d = Command.assume id t ∧ a.conclusion[j]? = some (Term.op .not [u]) ∧ polyeq t u = .ok true := by
  simp only [subproof, bind_ok, orErr_ok, require_ok, orPanic_ok, assertPolyeq_ok] at h
  obtain ⟨prev, h1, _, h2, _, h3, phi, h4, l, h5, h6⟩ := h
  exact ⟨prev, phi, l, h1, h4, h5, h6, h2, dischargeLoop_ok h3 (by omega)⟩

end Carcara
