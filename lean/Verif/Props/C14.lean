import Verif.Lemmas.Simplify
import Verif.Lemmas.PolyFuel

/-!
# C14: Boolean simplification rules are sound, and their rewriting loop terminates
-/

namespace Carcara
open Classical

/-- **C14.** -/
theorem c14_ite_simplify : SoundRule iteSimplify := genericSimplify_sound iteRewrites_ok
/-- **C14.** -/
theorem c14_eq_simplify : SoundRule eqSimplify := genericSimplify_sound eqRewrites_ok
/-- **C14.** -/
theorem c14_not_simplify : SoundRule notSimplify := genericSimplify_sound notRewrites_ok
/-- **C14.** -/
theorem c14_implies_simplify : SoundRule impliesSimplify := genericSimplify_sound impliesRewrites_ok
/-- **C14.** -/
theorem c14_equiv_simplify : SoundRule equivSimplify := genericSimplify_sound equivRewrites_ok
/-- **C14.** -/
theorem c14_bool_simplify : SoundRule boolSimplify := genericSimplify_sound boolRewrites_ok
/-- **C14.** -/
theorem c14_and_simplify : SoundRule andSimplify := andOrSimplify_sound (Or.inl ⟨rfl, rfl⟩)
/-- **C14.** -/
theorem c14_or_simplify : SoundRule orSimplify := andOrSimplify_sound (Or.inr ⟨rfl, rfl⟩)

/-- **C14.** -/
theorem c14_ac_simp : SoundRule acSimp := by
  intro c ps as h hc hps M hM
  simp only [acSimp, bind_ok, get1_ok, match2_ok, assertEq_ok, Prod.exists] at h
  obtain ⟨_, rfl, l, _, rfl, rfl⟩ := h
  obtain ⟨-, s, hl, hr⟩ := sort_equals.1 (hc _ (List.mem_singleton_self _))
  rw [Model.sat_singleton, M.holds_eq]
  exact ((acSimpTerm_ok l s hl).2 M.I M.env M.env_dom).symm

namespace C14
/-- A Boolean variable. -/
abbrev p : Term := .var "p" .bool
/-- A Boolean variable. -/
abbrev q : Term := .var "q" .bool
/-- An integer variable. -/
abbrev x : Term := .var "x" .int
/-- An integer variable. -/
abbrev y : Term := .var "y" .int
/-- An equality. -/
abbrev eq (a b : Term) : List Term := [.op .equals [a, b]]
end C14
open C14

example : iteSimplify (eq (.op .ite [.op .not [p], x, .op .ite [p, .const (.int 5), y]])
    (.op .ite [p, .const (.int 5), x])) [] [] = .ok () := by decide
example : eqSimplify (eq (.op .equals [.const (.int 5), .op .sub [.const (.int 5)]]) .fls) [] [] = .ok () := by
  decide +kernel
example : notSimplify (eq (.op .not [.op .not [.op .not [.op .fls []]]]) .tru) [] [] = .ok () := by decide
example : impliesSimplify (eq (.op .implies [.op .implies [p, q], q]) (.op .or [p, q])) [] [] = .ok () := by decide
example : equivSimplify (eq (.op .equals [.op .not [p], .op .not [.tru]]) p) [] [] = .ok () := by decide
example : boolSimplify (eq (.op .not [.op .implies [p, q]]) (.op .and [p, .op .not [q]])) [] [] = .ok () := by decide
example : andSimplify (eq (.op .and [.op .and [p, .tru, q, p]]) (.op .and [p, q])) [] [] = .ok () := by decide
example : andSimplify (eq (.op .and [p, q, .op .not [.op .not [.op .not [p]]]]) .fls) [] [] = .ok () := by decide
example : orSimplify (eq (.op .or [p, .op .not [p]]) .tru) [] [] = .ok () := by decide
example : acSimp (eq (.op .and [p, .op .and [q, .op .or [p]], q]) (.op .and [p, q])) [] [] = .ok () := by decide

/-! ## The rewriting loop -/

/-- The functions iterated by the rules of this file. -/
def simplifiers : List (Term → Res (Option Term)) :=
  [iteRewrites, eqRewrites, notRewrites, impliesRewrites, equivRewrites, boolRewrites].map
    fun rs t => .ok (firstOf rs t)

theorem decreases_firstOf {rs : List Rewrite} {μ : Term → Nat}
    (h : ∀ r ∈ rs, ∀ t u, r t = some u → μ u < μ t) : Decreases (fun t => .ok (firstOf rs t)) μ := by
  intro t u e
  simp only [firstOf, ok_inj] at e
  obtain ⟨r, hr, e⟩ := List.exists_of_findSome?_eq_some e
  exact h r hr t u e

/-- Splits the definition of a rewrite. -/
macro "rewrite_split" : tactic => `(tactic| (
  intro t u h
  beta_reduce at h
  repeat' split at h
  all_goals first
    | (cases h; done)
    | (simp only [Option.some.injEq] at h; subst h)))

theorem iteRewrites_decreases : Decreases (fun t => .ok (firstOf iteRewrites t))
    (fun t => match t with | .op .ite _ => t.size | _ => 0) := by
  have hle : ∀ t : Term, (match t with | .op .ite _ => t.size | _ => 0) ≤ t.size := by
    intro t; split <;> simp
  refine decreases_firstOf fun r hr => ?_
  simp only [iteRewrites, List.mem_cons, List.not_mem_nil, or_false] at hr
  rcases hr with rfl | rfl | rfl | rfl | rfl | rfl | rfl | rfl | rfl | rfl | rfl | rfl
  all_goals rewrite_split
  all_goals first
    | (simp only [Term.size, Term.sizeL]; omega)
    | (refine Nat.lt_of_le_of_lt (hle _) ?_; simp only [Term.size, Term.sizeL]; omega)

theorem size_decreases {rs : List Rewrite} (h : ∀ r ∈ rs, ∀ t u, r t = some u → u.size < t.size) :
    Decreases (fun t => .ok (firstOf rs t)) Term.size := decreases_firstOf h

theorem eqRewrites_decreases : Decreases (fun t => .ok (firstOf eqRewrites t)) Term.size := by
  refine size_decreases fun r hr => ?_
  simp only [eqRewrites, List.mem_cons, List.not_mem_nil, or_false] at hr
  rcases hr with rfl | rfl | rfl
  all_goals rewrite_split
  all_goals (simp only [Term.size, Term.sizeL]; grind [Term.size_pos])

theorem notRewrites_decreases : Decreases (fun t => .ok (firstOf notRewrites t)) Term.size := by
  refine size_decreases fun r hr => ?_
  simp only [notRewrites, List.mem_cons, List.not_mem_nil, or_false] at hr
  rcases hr with rfl | rfl | rfl
  all_goals rewrite_split
  all_goals (simp only [Term.size, Term.sizeL]; grind [Term.size_pos])

theorem impliesRewrites_decreases : Decreases (fun t => .ok (firstOf impliesRewrites t)) Term.size := by
  refine size_decreases fun r hr => ?_
  simp only [impliesRewrites, List.mem_cons, List.not_mem_nil, or_false] at hr
  rcases hr with rfl | rfl | rfl | rfl | rfl | rfl | rfl | rfl
  all_goals rewrite_split
  all_goals (simp only [Term.size, Term.sizeL]; grind [Term.size_pos])

theorem equivRewrites_decreases : Decreases (fun t => .ok (firstOf equivRewrites t)) Term.size := by
  refine size_decreases fun r hr => ?_
  simp only [equivRewrites, List.mem_cons, List.not_mem_nil, or_false] at hr
  rcases hr with rfl | rfl | rfl | rfl | rfl | rfl | rfl | rfl
  all_goals rewrite_split
  all_goals (simp only [Term.size, Term.sizeL]; grind [Term.size_pos])

/-- Length of the chain of implications on the right. -/
def rightSpine : Term → Nat
  | .op .implies [_, b] => rightSpine b + 1
  | _ => 0

/-- The measure for `bool_simplify`. -/
def boolMeasure : Term → Nat
  | .op .not as => (Term.op .not as).size + 2
  | .op .implies as => rightSpine (.op .implies as)
  | .op .and as => (Term.op .and as).size
  | _ => 0

theorem rightSpine_le (t : Term) : rightSpine t ≤ t.size := by
  induction t using rightSpine.induct with
  | case1 a b ih => simp only [rightSpine, Term.size, Term.sizeL]; omega
  | case2 t h => rw [rightSpine]; · omega
                 · exact h

theorem boolMeasure_le (t : Term) : boolMeasure t ≤ t.size + 2 := by
  unfold boolMeasure
  split
  · exact Nat.le_refl _
  · exact Nat.le_add_right_of_le (rightSpine_le _)
  · omega
  · omega

theorem boolRewrites_decreases : Decreases (fun t => .ok (firstOf boolRewrites t)) boolMeasure := by
  refine decreases_firstOf fun r hr => ?_
  simp only [boolRewrites, List.mem_cons, List.not_mem_nil, or_false] at hr
  rcases hr with rfl | rfl | rfl | rfl | rfl | rfl | rfl
  all_goals rewrite_split
  all_goals (simp only [boolMeasure, rightSpine, Term.size, Term.sizeL]; grind [Term.size_pos])

/-- Every function iterated by the rules decreases a measure bounded by the size of the term. -/
theorem simplifiers_decrease : ∀ f ∈ simplifiers, ∃ μ : Term → Nat, Decreases f μ ∧ ∀ t, μ t ≤ t.size + 2 := by
  intro f hf
  simp only [simplifiers, List.map_cons, List.map_nil, List.mem_cons, List.not_mem_nil, or_false] at hf
  rcases hf with rfl | rfl | rfl | rfl | rfl | rfl
  · exact ⟨_, iteRewrites_decreases, fun t => by split <;> simp⟩
  · exact ⟨_, eqRewrites_decreases, fun t => Nat.le_add_right _ _⟩
  · exact ⟨_, notRewrites_decreases, fun t => Nat.le_add_right _ _⟩
  · exact ⟨_, impliesRewrites_decreases, fun t => Nat.le_add_right _ _⟩
  · exact ⟨_, equivRewrites_decreases, fun t => Nat.le_add_right _ _⟩
  · exact ⟨_, boolRewrites_decreases, boolMeasure_le⟩

/-- **C14.** No infinite sequence of rewrites exists. -/
theorem c14_rewriting_terminates : ∀ f ∈ simplifiers, WellFounded fun u t => f t = .ok (some u) := by
  intro f hf
  obtain ⟨μ, h, -⟩ := simplifiers_decrease f hf
  exact h.wf

/-- **C14.** The bound on the number of rounds in the model of the loop is never reached: any larger bound gives the
same result. -/
theorem c14_loop_terminates {f : Term → Res (Option Term)} (hf : f ∈ simplifiers) (goal t : Term) {n : Nat}
    (hn : simplifyRounds t ≤ n) : simplifyFix f goal n [] t = simplifyFix f goal (simplifyRounds t) [] t := by
  obtain ⟨μ, h, hle⟩ := simplifiers_decrease f hf
  have := hle t
  unfold simplifyRounds at hn ⊢
  exact h.rounds goal (by omega) (by omega)

end Carcara
