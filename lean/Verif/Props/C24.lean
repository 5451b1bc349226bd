import Verif.Lemmas.Alpha
import Verif.Spec.Witness

/-!
# C24: alpha-equivalence

`alpha_equiv` identifies terms with different meanings, so the general claim is refuted below, in three ways.
`c24_alpha_equiv_partial` proves it for well-sorted terms without `let` in which no name is bound again or used both
free and bound, and whose corresponding binders have equally long lists. Nothing is assumed about the relation between
the names of the two terms: they may be permuted, or be free in one term and bound in the other.
-/

namespace Carcara

open Classical Val

/-- The claim of **C24** without restrictions on the binders (`Comparable` keeps out the defects of the literal
comparison refuted under C07). -/
def C24Full : Prop := ∀ a b : Term, Comparable false a b → alphaEquiv a b = .ok true → Same a b

/-- **C24**, partial: terms that compare equal modulo renaming have the same meaning if names are used consistently
in each of them. -/
theorem c24_alpha_equiv_partial {a b : Term} (h : alphaEquiv a b = .ok true) (hc : Comparable false a b)
    (hl : a.aligned b = true) (ha : a.barendregt = true) (hb : b.barendregt = true) : Same a b :=
  alphaWith_sound rfl rfl h hc hl ha hb

/-- The same for the comparison modulo renaming only. -/
theorem c24_alpha_only_partial {a b : Term} (h : polyeqWith { reorder := false, alpha := true } a b = .ok true)
    (hc : Comparable false a b) (hl : a.aligned b = true) (ha : a.barendregt = true) (hb : b.barendregt = true) :
    Same a b :=
  alphaWith_sound rfl rfl h hc hl ha hb

section Examples

private def X : Term := .var "x" .int
private def Y : Term := .var "y" .int
private def int (n : Int) : Term := .const (.int n)

/-- `(or (= x y) (forall ((u Int)) (exists ((v Int)) (= u v))))` with swapped names and a flipped equality; the names
of the two terms overlap. -/
example :
    let a : Term := .op .or [.op .equals [X, Y], .binder .all [("u", .int)] (.binder .ex [("v", .int)]
      (.op .lt [.var "u" .int, .var "v" .int, X]))]
    let b : Term := .op .or [.op .equals [Y, X], .binder .all [("v", .int)] (.binder .ex [("u", .int)]
      (.op .lt [.var "v" .int, .var "u" .int, X]))]
    alphaEquiv a b = .ok true ∧ Comparable false a b ∧ a.aligned b = true ∧ a.barendregt = true ∧
      b.barendregt = true :=
  ⟨by decide +kernel, ⟨by decide +kernel, by decide +kernel, by decide +kernel, by decide +kernel, by decide +kernel⟩, by decide +kernel, by decide +kernel, by decide +kernel⟩

/-- Not everything is accepted: a bound variable is not confused with a free one, nor two bound variables. -/
example :
    let a : Term := .binder .all [("u", .int), ("v", .int)] (.op .lt [.var "u" .int, .var "v" .int])
    let b : Term := .binder .all [("u", .int), ("v", .int)] (.op .lt [.var "v" .int, .var "u" .int])
    let c : Term := .binder .all [("u", .int), ("w", .int)] (.op .lt [.var "u" .int, .var "v" .int])
    alphaEquiv a b = .ok false ∧ alphaEquiv a c = .ok false := by decide +kernel

/-- The comparison of `x = y` outside the binder is reused inside it, where the names mean something else:
`(or (= x y) (forall ((x Int)) (=> (= x 0) (= x y))))` is identified with
`(or (= y x) (forall ((y Int)) (=> (= y 0) (= y x))))`. -/
theorem c24_alpha_equiv_fails : ¬ C24Full := by
  intro h
  let a : Term := .op .or [.op .equals [X, Y], .binder .all [("x", .int)]
    (.op .implies [.op .equals [X, int 0], .op .equals [X, Y]])]
  let b : Term := .op .or [.op .equals [Y, X], .binder .all [("y", .int)]
    (.op .implies [.op .equals [Y, int 0], .op .equals [Y, X]])]
  have hs := h a b ⟨by decide +kernel, by decide +kernel, by decide +kernel, by decide +kernel, by decide +kernel⟩ (by decide +kernel)
  let M := Witness.model fun n _ => if n = "x" then .int 1 else .int 0
  have ex : M.env "x" .int = .int 1 := by
    simp [M, Witness.model, Witness.coerce, Witness.valSort]; rfl
  have ey : M.env "y" .int = .int 0 := by
    simp [M, Witness.model, Witness.coerce, Witness.valSort]; rfl
  have := hs M.I M.env M.env_dom
  have h1 : eval M.I (.binder .all [("x", .int)] (.op .implies [.op .equals [X, int 0], .op .equals [X, Y]])) M.env =
      .bool true := by
    simp only [eval, evalBinder, Val.prop]
    simp only [Val.bool.injEq]
    refine decide_eq_true ?_
    intro vs hvs
    match vs, hvs with
    | [v], _ =>
      simp [Env.setMany, Env.set, X, Y, int, eval, evalL_eq_map, evalOp, stdOp, ey, Val.T, Val.prop, Sem.chain, Sem.impl,
        evalConst]
  have h2 : eval M.I (.binder .all [("y", .int)] (.op .implies [.op .equals [Y, int 0], .op .equals [Y, X]])) M.env =
      .bool false := by
    simp only [eval, evalBinder, Val.prop]
    simp only [Val.bool.injEq]
    refine decide_eq_false ?_
    intro hall
    have := hall [.int 0] (.cons ((M.I.dom_int _).2 ⟨0, rfl⟩) .nil)
    simp [Env.setMany, Env.set, X, Y, int, eval, evalL_eq_map, evalOp, stdOp, ex, Val.T, Val.prop, Sem.chain, Sem.impl,
      evalConst] at this
  simp only [a, b, eval, evalL_eq_map, List.map_cons, List.map_nil] at this
  simp only [eval, evalL_eq_map, List.map_cons, List.map_nil] at h1 h2
  rw [h1, h2] at this
  simp [X, Y, eval, ex, ey, evalOp, stdOp, Val.T, Val.prop, Sem.chain] at this

/-- Binding lists of different lengths are compared only as far as the shorter one goes:
`(forall ((x Int)) (= y 0))` is identified with `(forall ((x Int) (y Int)) (= y 0))`. The names are used consistently
in both terms. -/
theorem c24_binding_lists_fails : ∃ a b : Term, Comparable false a b ∧ a.barendregt = true ∧ b.barendregt = true ∧
    alphaEquiv a b = .ok true ∧ ¬ Same a b := by
  refine ⟨.binder .all [("x", .int)] (.op .equals [Y, int 0]), .binder .all [("x", .int), ("y", .int)]
    (.op .equals [Y, int 0]), ⟨by decide +kernel, by decide +kernel, by decide +kernel, by decide +kernel, by decide +kernel⟩, by decide +kernel, by decide +kernel, by decide +kernel,
    fun hs => ?_⟩
  let M := Witness.model fun _ _ => .int 0
  have ey : M.env "y" .int = .int 0 := by
    simp [M, Witness.model, Witness.coerce, Witness.valSort]; rfl
  have := hs M.I M.env M.env_dom
  have h1 : eval M.I (.binder .all [("x", .int)] (.op .equals [Y, int 0])) M.env = .bool true := by
    simp only [eval, evalBinder, Val.prop]
    simp only [Val.bool.injEq]
    refine decide_eq_true ?_
    intro vs hvs
    match vs, hvs with
    | [v], _ => simp [Env.setMany, Env.set, Y, int, eval, evalL_eq_map, evalOp, stdOp, ey, Val.T, Val.prop, Sem.chain, evalConst]
  have h2 : eval M.I (.binder .all [("x", .int), ("y", .int)] (.op .equals [Y, int 0])) M.env = .bool false := by
    simp only [eval, evalBinder, Val.prop]
    simp only [Val.bool.injEq]
    refine decide_eq_false ?_
    intro hall
    have := hall [.int 0, .int 1] (.cons ((M.I.dom_int _).2 ⟨0, rfl⟩) (.cons ((M.I.dom_int _).2 ⟨1, rfl⟩) .nil))
    simp [Env.setMany, Env.set, Y, int, eval, evalL_eq_map, evalOp, stdOp, Val.T, Val.prop, Sem.chain, evalConst] at this
  rw [h1, h2] at this
  cases this

/-- The bindings of a `let` are compared one after the other, so that a value may refer to a variable of the same
`let`: `(let ((x y) (z x)) (= z y))`, whose `z` is the outer `x`, is identified with
`(let ((x y) (z x)) (= z y))` with the first variable renamed: `(let ((w y) (z w)) (= z y))`, whose `z` is an outer
`w`. -/
theorem c24_let_fails : ∃ a b : Term, Comparable false a b ∧ alphaEquiv a b = .ok true ∧ ¬ Same a b := by
  let Z : Term := .var "z" .int
  let W : Term := .var "w" .int
  refine ⟨.let_ [("x", Y), ("z", X)] (.op .equals [Z, Y]), .let_ [("w", Y), ("z", W)] (.op .equals [Z, Y]),
    ⟨by decide +kernel, by decide +kernel, by decide +kernel, by decide +kernel, by decide +kernel⟩, by decide +kernel, fun hs => ?_⟩
  let M := Witness.model fun n _ => if n = "x" then .int 1 else .int 0
  have ex : M.env "x" .int = .int 1 := by
    simp [M, Witness.model, Witness.coerce, Witness.valSort]; rfl
  have ey : M.env "y" .int = .int 0 := by
    simp [M, Witness.model, Witness.coerce, Witness.valSort]; rfl
  have ew : M.env "w" .int = .int 0 := by
    simp [M, Witness.model, Witness.coerce, Witness.valSort]; rfl
  have := hs M.I M.env M.env_dom
  have d0 : M.I.dom .int (.int 0) := (M.I.dom_int _).2 ⟨0, rfl⟩
  have d1 : M.I.dom .int (.int 1) := (M.I.dom_int _).2 ⟨1, rfl⟩
  simp [Z, W, X, Y, eval, ex, ey, ew, evalOp, stdOp, Val.prop, Sem.chain, Interp.letMany, Interp.letSet, d0, d1] at this

end Examples

end Carcara
