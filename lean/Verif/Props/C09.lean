import Verif.Lemmas.RupExact

/-! # C09: what the fallback of `resolution` decides -/

namespace Carcara

open Spec

/-- **C09.** The reverse unit propagation fallback accepts exactly if unit propagation, from the premises and the negations of the literals
of the conclusion, refutes all literals of some clause. -/
theorem c09_rup_exact (conclusion : List Term) (premises : List (List Term)) : rupResolution conclusion premises = true ↔
    Conflict (premises.map (fun p => p.map Term.removeAllNegationsPol) ++ conclusion.map fun t => [PLit.neg t.removeAllNegationsPol]) :=
  rupResolution_exact conclusion premises

/-- **C09.** In particular a conclusion that contains all literals of a premise is always accepted. -/
theorem c09_rup_weaker {conclusion p : List Term} {premises : List (List Term)} (hp : p ∈ premises) (h : ∀ t ∈ p, t ∈ conclusion) :
    rupResolution conclusion premises = true := by
  rw [c09_rup_exact]
  refine ⟨_, List.mem_append_left _ (List.mem_map_of_mem hp), fun k hk => ?_⟩
  obtain ⟨t, ht, rfl⟩ := List.mem_map.1 hk
  refine .mk [PLit.neg t.removeAllNegationsPol] _ (List.mem_append_right _ (List.mem_map.2 ⟨t, h t ht, rfl⟩)) (by simp) ?_
  intro j hj hne
  exact absurd (List.mem_singleton.1 hj) hne

section
private abbrev p : Term := .var "p" .bool
private abbrev q : Term := .var "q" .bool
private abbrev neg (t : Term) : Term := .op .not [t]

/-- Both answers are given: the four clauses over `p` and `q` have no conflict by unit propagation, three of them with `p` do. -/
example : rupResolution [] [[p, q], [p, neg q], [neg p, q], [neg p, neg q]] = false ∧ rupResolution [] [[p], [neg p, q], [neg p, neg q]] = true ∧
    ¬ Conflict [[(true, p), (true, q)], [(true, p), (false, q)], [(false, p), (true, q)], [(false, p), (false, q)]] := by
  refine ⟨by decide, by decide, ?_⟩
  have := c09_rup_exact [] [[p, q], [p, neg q], [neg p, q], [neg p, neg q]]
  intro h
  exact absurd (this.2 h) (by decide)
example : rupResolution [q, p] [[neg q], [p]] = true := c09_rup_weaker (p := [p]) (by simp) (by simp)
end

end Carcara
