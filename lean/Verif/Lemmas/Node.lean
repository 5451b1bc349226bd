import Verif.Model.Node
import Verif.Spec.Elab

/-! # Comparing nodes, for concrete cases -/

namespace Carcara

deriving instance DecidableEq for AnchorArg

mutual
/-- A check that two nodes are equal. -/
def Node.same : Node → Node → Bool
  | .assume i d t, .assume i' d' t' => i == i' && d == d' && t == t'
  | .step d ps ds p, .step d' ps' ds' p' => decide (d = d') && sames ps ps' && sames ds ds' && sameOpt p p'
  | .subproof l as es, .subproof l' as' es' => same l l' && decide (as = as') && sames es es'
  | _, _ => false
def Node.sames : List Node → List Node → Bool
  | [], [] => true
  | a :: as, b :: bs => same a b && sames as bs
  | _, _ => false
def Node.sameOpt : Option Node → Option Node → Bool
  | none, none => true
  | some a, some b => same a b
  | _, _ => false
end

mutual
theorem Node.same_eq : ∀ {a b : Node}, Node.same a b = true → a = b
  | .assume _ _ _, .assume _ _ _, h => by
    simp only [Node.same, Bool.and_eq_true, beq_iff_eq] at h
    obtain ⟨⟨rfl, rfl⟩, rfl⟩ := h
    rfl
  | .step _ _ _ _, .step _ _ _ _, h => by
    simp only [Node.same, Bool.and_eq_true, decide_eq_true_eq] at h
    obtain ⟨⟨⟨rfl, h1⟩, h2⟩, h3⟩ := h
    rw [sames_eq h1, sames_eq h2, sameOpt_eq h3]
  | .subproof _ _ _, .subproof _ _ _, h => by
    simp only [Node.same, Bool.and_eq_true, decide_eq_true_eq] at h
    obtain ⟨⟨h1, rfl⟩, h2⟩ := h
    rw [same_eq h1, sames_eq h2]
  | .assume _ _ _, .step _ _ _ _, h => by simp [Node.same] at h
  | .assume _ _ _, .subproof _ _ _, h => by simp [Node.same] at h
  | .step _ _ _ _, .assume _ _ _, h => by simp [Node.same] at h
  | .step _ _ _ _, .subproof _ _ _, h => by simp [Node.same] at h
  | .subproof _ _ _, .assume _ _ _, h => by simp [Node.same] at h
  | .subproof _ _ _, .step _ _ _ _, h => by simp [Node.same] at h
theorem Node.sames_eq : ∀ {a b : List Node}, Node.sames a b = true → a = b
  | [], [], _ => rfl
  | _ :: _, _ :: _, h => by
    simp only [Node.sames, Bool.and_eq_true] at h
    rw [same_eq h.1, sames_eq h.2]
  | [], _ :: _, h => by simp [Node.sames] at h
  | _ :: _, [], h => by simp [Node.sames] at h
theorem Node.sameOpt_eq : ∀ {a b : Option Node}, Node.sameOpt a b = true → a = b
  | none, none, _ => rfl
  | some _, some _, h => congrArg some (same_eq (by simpa only [Node.sameOpt] using h))
  | none, some _, h => by simp [Node.sameOpt] at h
  | some _, none, h => by simp [Node.sameOpt] at h
end

theorem Node.ok_of_same {r : Res Node} {n : Node} (h : (match r with | .ok m => m.same n | .error _ => false) = true) : r = .ok n := by
  split at h
  · rw [Node.same_eq h]
  · simp at h

theorem panic_of_eval {α : Type} {r : Res α} (h : (match r with | .error .panic => true | _ => false) = true) : r = panic := by
  split at h
  · rfl
  · simp at h

theorem ok_of_eval {α : Type} {r : Res α} (h : (match r with | .ok _ => true | _ => false) = true) : ∃ a, r = .ok a := by
  split at h
  · exact ⟨_, rfl⟩
  · simp at h

open Spec in
/-- If a rule only looks at the conclusion, the premises and the arguments, `StepOK` is about that rule. -/
theorem Spec.StepOK.rule {E : TableEnv} {el : Bool} {d : NodeData} {ps : List Node} {r : Rule} (h : StepOK E el d ps)
    (hr : getRule E el d.rule = some r.lift) : r d.clause (ps.map Node.clause) d.args = .ok () := by
  obtain ⟨r', h1, h2⟩ := h
  rw [hr, Option.some.injEq] at h1
  have := congrFun h1 { conclusion := d.clause, premises := ps.map Node.clause, args := d.args }
  exact (show r d.clause _ d.args = r' d.clause _ d.args from this).trans h2

end Carcara
