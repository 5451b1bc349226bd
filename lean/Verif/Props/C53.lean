import Verif.Lemmas.CtxAgree
import Verif.Props.C01Contexts

/-!
# C53: the verdict on a step does not depend on the steps checked before it

The substitutions of the context stack are computed on demand, are handed on to inner contexts and remember their results. None of this should be
visible: what a rule says about a step should depend on the step and on the anchors around it only.
-/

namespace Carcara

/-- **C53.** The rules that use the context stack end in the same way, whatever happened to the stack before. -/
def C53Rules (e : Bool) : Prop :=
  ∀ (n : String) (r : CtxRule), (n, r) ∈ ctxRows e → ∀ (Γ : List (List AnchorArg)) (C D : CtxStack) (a : RuleArgs), AnyHistory Γ C → AnyHistory Γ D →
    a.context = Γ → (∀ as ∈ Γ, ∀ b ∈ as, b.ok = true) → (∀ t ∈ a.conclusion, (sortOf t).isSome = true) → (r C a).drop = (r D a).drop

/-- **C53** for whole proofs: the checker ends as it would if every step were checked with a new stack. -/
def C53Checker (E : TableEnv) (cfg : Config) : Prop :=
  ∀ (rs : List RawCommand) (proof : List Command) (prem : List Term), parseProof rs = .ok proof →
    (∀ F Γ c cl, Occ proof F Γ c → c.clause = .ok cl → ClauseOK cl) → (∀ F Γ c, Occ proof F Γ c → ∀ as ∈ Γ, ∀ a ∈ as, a.ok = true) →
    checkCtx E cfg prem proof = check (freshParams E cfg) cfg prem proof

section
variable {ok : List (List AnchorArg) → Term → Prop} {Γ : List (List AnchorArg)} {C D : CtxStack}

/-- **C53**, partial: on terms without binders, inside anchors without binders that do not declare an assigned variable again, the substitution of the
context is the replacement that the anchors describe. Nothing is assumed about what happened before. -/
theorem c53_apply_partial (h : CtxHistory ok Γ C) (hΓ : PlainAnchors Γ) {t : Term} (ht : t.plain = true) :
    ∃ C', C.apply t = .ok (t.put (anchorsValue Γ), C') := h.ctxPlain.apply.2 hΓ ht

/-- **C53**, partial: the same for the substitution of the context around the innermost anchor. -/
theorem c53_apply_previous_partial (h : CtxHistory ok Γ C) (hΓ : PlainAnchors Γ) {t : Term} (ht : t.plain = true) :
    ∃ C', C.applyPrevious t = .ok (t.put (anchorsValue Γ.dropLast), C') := h.ctxPlain.applyPrevious.2 hΓ ht

/-- **C53**, partial: the rules end in the same way with any two stacks. Missing: terms and anchors with binders, and anchors that declare an assigned
variable again (for which the claim is false). -/
theorem c53_rules_partial {e : Bool} {n : String} {r : CtxRule} (hr : (n, r) ∈ ctxRows e) {a : RuleArgs} (hC : CtxHistory ok Γ C) (hD : CtxHistory ok Γ D)
    (ht : ∀ t ∈ ctxTerms n a.conclusion, PlainAnchors Γ ∧ t.plain = true) : (r C a).drop = (r D a).drop := by
  have := ctxRows_agree hr (a := a) ⟨hC.ctxPlain, hD.ctxPlain⟩ ht
  generalize r C a = x at this ⊢
  generalize r D a = y at this ⊢
  cases x <;> cases y <;> first | exact this.elim | exact rfl | exact congrArg Except.error this

end

/-- **C53**, partial: whole proofs. -/
theorem c53_checker_partial {E : TableEnv} {cfg : Config} {rs : List RawCommand} {proof : List Command} (prem : List Term)
    (hp : parseProof rs = .ok proof)
    (ht : ∀ F Γ s, Occ proof F Γ (.step s) → ∀ t ∈ ctxTerms s.rule s.clause, PlainAnchors Γ ∧ t.plain = true) :
    checkCtx E cfg prem proof = check (freshParams E cfg) cfg prem proof := checkCtx_same (c04_parse_wf hp) ht

/-! ## Examples -/

namespace C53
abbrev x : Term := .var "x" .int
abbrev y : Term := .var "y" .int
abbrev z : Term := .var "z" .int
abbrev isZero (t : Term) : Term := .op .equals [t, .const (.int 0)]
abbrev eq (a b : Term) : Term := .op .equals [a, b]

/-- `y` and `x := y + 1` outside, `z` and `y := x + z` inside. -/
abbrev Γ0 : List (List AnchorArg) :=
  [[.var "y" .int, .assign "x" .int (.op .add [y, .const (.int 1)])], [.var "z" .int, .assign "y" .int (.op .add [x, z])]]

example : PlainAnchors Γ0 := by unfold PlainAnchors; decide +kernel
example : (Term.op .add [x, y]).put (anchorsValue Γ0) =
    .op .add [.op .add [y, .const (.int 1)], .op .add [.op .add [y, .const (.int 1)], z]] := by decide +kernel

/-- A history: the outer substitution is used, an inner context is opened and closed, and only then the anchors of interest are entered. -/
def used : Res (Term × CtxStack) := do
  let (_, C) ← (CtxStack.empty.push (Γ0.headD [])).apply (.op .add [x, y])
  let (_, C) ← (C.push [.var "w" .int]).apply (.op .add [x, x])
  (C.pop.push (Γ0.getLastD [])).apply (.op .add [x, y])
example : used.isOk = true ∧ (used.toOption.map (·.1)) = some ((Term.op .add [x, y]).put (anchorsValue Γ0)) := by decide +kernel

/-- A subproof that meets the conditions of `c53_checker_partial`. -/
abbrev sub : List Command :=
  [.step ⟨"t1.1", [eq x y], "refl", [], [], []⟩,
   .step ⟨"t1", [eq (.binder .all [("x", .int)] x) (.binder .all [("y", .int)] y)], "bind", [], [], []⟩]
example : ∀ o ∈ allPositions [.subproof sub [.var "y" .int, .assign "x" .int y] 0],
    (match o.cmd with | .step s => ctxTerms s.rule s.clause | _ => []).all fun t => plainArgs [] o.ctx.flatten && t.plain := by decide +kernel

/-! ## Refutations -/

/-- The anchors of the refutation: `x := y` outside, a new `x` inside. -/
abbrev Γ1 : List (List AnchorArg) := [[.var "y" .int, .assign "x" .int y], [.var "x" .int]]
abbrev args : RuleArgs := { conclusion := [eq (isZero x) (isZero y)], premises := [], args := [], context := Γ1, previous := none, discharge := [] }

/-- The stack after the outer substitution was used. -/
def outer : CtxStack := match (CtxStack.empty.push [.var "y" .int, .assign "x" .int y]).apply (isZero x) with
  | .ok r => r.2
  | .error _ => .empty

theorem outer_history : AnyHistory [[.var "y" .int, .assign "x" .int y]] outer :=
  .apply (t := isZero x) (t' := isZero y) (CtxHistory.empty.push [.var "y" .int, .assign "x" .int y]) (by decide +kernel) (by decide +kernel)

end C53

open C53 in
/-- **C53.** The claim about rules is false in both modes: what `refl` says depends on whether the substitution was used outside. -/
theorem c53_rules_fails (e : Bool) : ¬ C53Rules e := by
  intro h
  have := h "refl" _ (List.mem_cons_self ..) Γ1 (outer.push [.var "x" .int]) (freshStack Γ1) args (outer_history.push _) (freshStack_history _) rfl
    (by decide +kernel) (by decide +kernel)
  clear h
  revert this e
  decide +kernel

set_option maxRecDepth 10000 in
open C01Ctx in
/-- **C53.** The claim about whole proofs is false in both modes. -/
theorem c53_checker_fails (E : TableEnv) (e : Bool) : ¬ C53Checker E { elaborated := e } := by
  intro h
  have := h (text e) (proof e) prem (by clear h; revert e; decide +kernel) (fun _ _ _ _ => clauses_ok (by clear h; revert e; decide +kernel)) (by
    have : ∀ e, ∀ o ∈ allPositions (proof e), ∀ as ∈ o.ctx, ∀ a ∈ as, a.ok = true := by decide +kernel
    exact fun F Γ c ho => this e ⟨F, Γ, c⟩ (allPositions_iff.2 ho))
  have h1 : checkCtx E { elaborated := e } prem (proof e) = .ok false := by
    rw [checkCtx, checkCtxLoop_start]
    cases e
    · with_unfolding_all rfl
    · with_unfolding_all rfl
  have h2 : check (freshParams E { elaborated := e }) { elaborated := e } prem (proof e) = err := by
    rw [check, checkLoop_start]
    cases e
    · with_unfolding_all rfl
    · with_unfolding_all rfl
  rw [h1, h2] at this
  cases this

end Carcara
