import Verif.Lemmas.ElabReordering
import Verif.Lemmas.ResolutionStrict
import Verif.Props.C08
import Verif.Props.C13
import Verif.Spec.Elab

/-!
# C37: removing reorderings preserves clauses as multisets

The claim holds for proofs in which the conclusions of `contraction` and `resolution` are the ones computed literally. It fails for
others the checker accepts: `contraction` may leave repetitions, and `resolution` ignores them.
-/

namespace Carcara

open Spec

/-- **C37.** If every step by a rule about clauses has the conclusion its rule computes, up to order, then the pass succeeds, and the
clause of the result is a permutation of the original one. The result has no `reordering` steps and again has this property. As the
hypothesis is inherited by the premises, this holds of every node. The full claim asks only that the steps are accepted, see below. -/
theorem c37_partial {n : Node} (h : AllSteps ExactStep n) :
    ∃ n', removeReorderings n = .ok n' ∧ n'.clause.Perm n.clause ∧
      AllSteps (fun d ps => ExactStep d ps ∧ d.rule ≠ "reordering") n' := by
  obtain ⟨n', h1, h2, h3, -⟩ := removeReorderings_ok n h
  exact ⟨n', h1, h2, h3⟩

/-- **C37.** Whatever the steps are, the pass replaces a `reordering` step by a node with the clause its premise gets. -/
theorem c37_reordering {d : NodeData} {ps dis : List Node} {prev : Option Node} {n' : Node} (hr : d.rule = "reordering")
    (h : removeReorderings (.step d ps dis prev) = .ok n') : ∃ p ∈ ps, removeReorderings p = .ok n' := by
  rw [removeReorderings] at h
  simp only [bind_ok, reorderStep, if_pos hr, orPanic_ok] at h
  obtain ⟨ps', h1, _, -, _, -, h4⟩ := h
  cases ps with
  | nil => cases h1; simp at h4
  | cons p ps =>
    rw [removeReorderingsL] at h1
    simp only [bind_ok] at h1
    obtain ⟨p', hp, _, -, h1⟩ := h1
    cases h1
    simp only [List.head?_cons, Option.some.injEq] at h4
    subst h4
    exact ⟨p, by simp, hp⟩

/-! ## The rules that force the hypothesis -/

/-- **C37.** Accepted `reordering`, `weakening` and `strict_resolution` steps have the conclusion their rule computes. -/
theorem c37_exact_of_accepted {d : NodeData} {ps : List Node} :
    (d.rule = "reordering" → reordering d.clause (ps.map Node.clause) d.args = .ok () → ExactStep d ps) ∧
    (d.rule = "weakening" → weakening d.clause (ps.map Node.clause) d.args = .ok () → ExactStep d ps) ∧
    (d.rule = "strict_resolution" → strictResolution d.clause (ps.map Node.clause) d.args = .ok () → ExactStep d ps) := by
  refine ⟨fun hr h => ?_, fun hr h => ?_, fun hr h => ?_⟩
  · rw [c11_reordering_exact] at h
    obtain ⟨p, hp, h⟩ := h
    obtain ⟨n, rfl, rfl⟩ := List.map_eq_singleton_iff.1 hp
    exact ⟨fun _ => ⟨n, rfl, h⟩, by simp [hr], by simp [hr], by simp [hr]⟩
  · rw [c11_weakening_exact] at h
    obtain ⟨p, hp, h⟩ := h
    obtain ⟨n, rfl, rfl⟩ := List.map_eq_singleton_iff.1 hp
    exact ⟨by simp [hr], fun _ => ⟨n, rfl, h⟩, by simp [hr], by simp [hr]⟩
  · cases ps with
    | nil => simp [strictResolution, applyGenericResolution, require, err, bind, Except.bind] at h
    | cons p ps =>
      rw [List.map_cons, strictResolution_exact] at h
      refine ⟨by simp [hr], by simp [hr], by simp [hr], fun _ => ?_⟩
      cases ps with
      | nil => simp at h
      | cons q rest => exact ⟨p, q, rest, d.clause, rfl, h.2, .refl _⟩

/-! ## The full claim fails -/

section
private abbrev a : Term := .var "a" .bool
private abbrev b : Term := .var "b" .bool
private abbrev na : Term := .op .not [a]

/-- `(or b a)` as a clause, reordered, weakened, resolved and contracted: the hypothesis of `c37_partial` holds and the pass changes
the order in three clauses. -/
private def chain : Node :=
  let t0 := Node.mk ⟨"t0", 0, [b, a], "or", []⟩ [.assume "h1" 0 (.op .or [b, a])]
  let t1 := Node.mk ⟨"t1", 0, [a, b], "reordering", []⟩ [t0]
  let t2 := Node.mk ⟨"t2", 0, [a, b, b], "weakening", []⟩ [t1]
  let t3 := Node.mk ⟨"t3", 0, [b, b], "resolution", [a, .tru]⟩ [t2, .assume "h2" 0 na]
  Node.mk ⟨"t4", 0, [b], "contraction", []⟩ [t3]

example : AllSteps ExactStep chain := by
  have hor : ∀ ps, ExactStep ⟨"t0", 0, [b, a], "or", []⟩ ps := fun ps => ⟨by simp, by simp, by simp, by simp⟩
  refine ⟨⟨by simp, by simp, fun _ => ⟨_, rfl, by decide, fun t => ?_⟩, by simp⟩, ⟨⟨⟨by simp, by simp, by simp, fun _ => ?_⟩,
    ⟨⟨⟨by simp, fun _ => ⟨_, rfl, [b], rfl⟩, by simp, by simp⟩, ⟨⟨⟨fun _ => ⟨_, rfl, ?_⟩, by simp, by simp, by simp⟩,
      ⟨⟨hor _, ⟨trivial, trivial⟩, trivial, trivial⟩, trivial⟩, trivial, trivial⟩, trivial⟩, trivial, trivial⟩, ⟨trivial, trivial⟩⟩,
    trivial, trivial⟩, trivial⟩, trivial, trivial⟩
  · simp [Node.mk, Node.clause]
  · exact ⟨_, _, _, [b, b], rfl, by decide, .refl _⟩
  · exact List.Perm.swap _ _ _

/-- `(cl a)`, weakened to `(cl a a a)`, contracted to `(cl a a)`. -/
private def contracted : Node :=
  .mk ⟨"t2", 0, [a, a], "contraction", []⟩ [.mk ⟨"t1", 0, [a, a, a], "weakening", []⟩ [.assume "h1" 0 a]]

/-- **C37 fails.** `contraction` accepts a conclusion that still has repetitions; then the assertion of `recompute_contraction` fails and
the pass panics, although every step is accepted and there is nothing to remove. -/
theorem c37_contraction_fails (E : TableEnv) (el : Bool) :
    Derived E el [.assume "h1" 0 a] contracted ∧ removeReorderings contracted = panic := by
  refine ⟨.step (fun p hp => ?_) ⟨fun c ps _ => contraction c ps, rfl, by decide +kernel⟩, rfl⟩
  rw [List.mem_singleton] at hp
  subst hp
  exact .step (fun p hp => .given hp) ⟨weakening, rfl, by decide⟩

/-- `(cl a b)` and `(cl (not a) b)` resolved to `(cl b)`. -/
private def resolved : Node :=
  .mk ⟨"t3", 0, [b], "resolution", [a, .tru]⟩
    [.mk ⟨"t1", 0, [a, b], "weakening", []⟩ [.assume "h1" 0 a], .mk ⟨"t2", 0, [na, b], "weakening", []⟩ [.assume "h2" 0 na]]

/-- **C37 fails.** `resolution` ignores repetitions, but the pass computes the conclusion without removing them: `(cl b)` becomes
`(cl b b)`. -/
theorem c37_resolution_fails (E : TableEnv) (el : Bool) :
    Derived E el [.assume "h1" 0 a, .assume "h2" 0 na] resolved ∧
      ∃ n', removeReorderings resolved = .ok n' ∧ n'.clause = [b, b] ∧ ¬ n'.clause.Perm resolved.clause := by
  refine ⟨.step (fun p hp => ?_) ?_, _, rfl, rfl, by decide⟩
  · rcases List.mem_cons.1 hp with rfl | hp
    · exact .step (fun p hp => .given (by simp_all)) ⟨weakening, rfl, by decide⟩
    · rw [List.mem_singleton] at hp
      subst hp
      exact .step (fun p hp => .given (by simp_all)) ⟨weakening, rfl, by decide⟩
  · cases el with
    | false => exact ⟨resolution, rfl, by decide +kernel⟩
    | true => exact ⟨resolutionWithArgs, rfl, by decide +kernel⟩

end

end Carcara
