import Verif.Lemmas.Greedy
import Verif.Lemmas.Utils
import Verif.Lemmas.ResolutionExact
import Verif.Spec.Witness

/-!
# C08, C09, C11: resolution, contraction and tautology
-/

namespace Carcara

open Spec

/-! ## C08 -/

/-- **C08.** `resolution_with_args` (the rule `resolution`/`th_resolution` with pivots, and `resolution` in
elaborated proofs) is sound. -/
theorem c08_resolution_with_args {conclusion : List Term} {premises : List (List Term)} {args : List Term}
    (h : resolutionWithArgs conclusion premises args = .ok ()) : Entails premises conclusion := by
  intro M hM
  simp only [resolutionWithArgs, bind_ok, require_ok] at h
  obtain ⟨r, h1, -, -, h3⟩ := h
  obtain ⟨l, hl, ht⟩ := applyGeneric_sound M h1 hM
  have := h3 l hl
  simp only [mem_setOf, List.mem_map] at this
  obtain ⟨t, htc, rfl⟩ := this
  exact ⟨t, htc, (M.holds_removeAll t).1 ht⟩

/-- **C08.** `strict_resolution` is sound. -/
theorem c08_strict_resolution {conclusion : List Term} {premises : List (List Term)} {args : List Term}
    (h : strictResolution conclusion premises args = .ok ()) : Entails premises conclusion := by
  intro M hM
  simp only [strictResolution, bind_ok, require_ok] at h
  obtain ⟨r, h1, -, hlen, h3⟩ := h
  obtain ⟨l, hl, ht⟩ := applyGeneric_sound M h1 hM
  obtain ⟨i, hi, rfl⟩ := List.mem_iff_getElem.1 hl
  change i < r.lits.length at hi
  have hic : i < conclusion.length := by omega
  have hz : (r.lits[i], conclusion[i]) ∈ r.lits.zip conclusion := by
    rw [List.mem_iff_getElem]
    exact ⟨i, by simp; omega, by simp⟩
  refine ⟨conclusion[i], List.getElem_mem _, ?_⟩
  change M.HoldsLit r.lits[i] at ht
  rcases h3 _ hz with h | h
  · simp only at h
    rw [h] at ht
    exact (M.holds_removeAll _).1 ht
  · simp only at h
    rw [← h]
    exact (M.holds_literalToTerm _).2 ht

/-- **C08.** `resolution` called with a non-empty argument list is sound. -/
theorem c08_resolution {conclusion : List Term} {premises : List (List Term)} {args : List Term}
    (ha : args ≠ []) (h : resolution conclusion premises args = .ok ()) : Entails premises conclusion := by
  rw [resolution, if_pos ha] at h
  exact c08_resolution_with_args h

/-- **C08.** `resolution_with_args` accepts exactly when there are at least two premises and the chain of
resolutions on the given pivots is defined and gives the literals of the conclusion: every pivot occurs with the
given polarity in the clause obtained so far and with the other one in the next premise. -/
theorem c08_resolution_with_args_exact (conclusion first : List Term) (rest : List (List Term))
    (args : List Term) :
    resolutionWithArgs conclusion (first :: rest) args = .ok () ↔
      rest ≠ [] ∧ ResChain (· ∈ first) rest args (· ∈ conclusion) :=
  resolutionWithArgs_exact conclusion first rest args

section
private abbrev p : Term := .var "p" .bool
private abbrev q : Term := .var "q" .bool
private abbrev r : Term := .var "r" .bool

/-- A chain of two resolutions with a doubly negated literal is accepted. -/
example : resolutionWithArgs [q, r] [[p, q], [.neg (.neg (.neg p)), .neg p], [.neg (.neg p), r]]
    [p, .tru, .neg (.neg p), .fls] = .ok () := by decide
example : strictResolution [q, r] [[p, q], [.neg p, r]] [p, .tru] = .ok () := by decide
/-- The order of the literals matters for `strict_resolution`. -/
example : strictResolution [r, q] [[p, q], [.neg p, r]] [p, .tru] = err := by decide
/-- A pivot that is not in the first clause is not accepted, although the conclusion is entailed. -/
example : resolutionWithArgs [q, r] [[q], [.neg p, r]] [p, .tru] = err := by decide
example : ResChain (· ∈ [p, q]) [[.neg p, r]] [p, .tru] (· ∈ [q, r]) :=
  ((c08_resolution_with_args_exact [q, r] [p, q] [[.neg p, r]] [p, .tru]).1 (by decide)).2
/-- A clause that still contains the pivot is not accepted. -/
example : resolutionWithArgs [] [[p], [.neg p, .neg p]] [p, .tru] = err := by decide
end

/-! ## C09

The statement "if `resolution` without arguments accepts then the conclusion is entailed" is false of the code.
-/

/-- **C09 fails.** `resolution` without arguments accepts the empty clause from satisfiable premises. -/
theorem c09_resolution_fails :
    ∃ premises, resolution [] premises [] = .ok () ∧ ¬ Entails premises [] ∧ ∀ c ∈ premises, ClauseOK c := by
  refine ⟨[[p], [.neg p, q], [p, .neg q]], by decide, fun h => ?_, by simp [ClauseOK, sortOf, sortOfL, opSort]⟩
  have := h Witness.allTrue ?_
  · exact Model.sat_nil this
  · intro c hc
    simp only [List.mem_cons, List.not_mem_nil, or_false] at hc
    rcases hc with rfl | rfl | rfl
    · exact ⟨p, by simp, Witness.allTrue_var _⟩
    · exact ⟨q, by simp, Witness.allTrue_var _⟩
    · exact ⟨p, by simp, Witness.allTrue_var _⟩

/-- **C09 fails** even for two premises, if they are tautologies. -/
theorem c09_resolution_two_premises_fails :
    ∃ c d, resolution [] [c, d] [] = .ok () ∧ ¬ Entails [c, d] [] := by
  refine ⟨[p, .neg p], [p, .neg p], by decide, fun h => ?_⟩
  have := h Witness.allTrue ?_
  · exact Model.sat_nil this
  · intro c hc
    simp only [List.mem_cons, List.not_mem_nil, or_false, or_self] at hc
    subst hc
    exact ⟨p, by simp, Witness.allTrue_var _⟩

/-- **C09, partial.** `resolution` without arguments is sound if no premise is a tautology and no literal comes
back after its complement. Missing for the full statement: the two side conditions (without them it is false,
`c09_resolution_fails`). -/
theorem c09_resolution_partial {conclusion : List Term} {premises : List (List Term)}
    (h : resolution conclusion premises [] = .ok ())
    (hnt : NoTautology premises) (hnr : NoReturn premises) : Entails premises conclusion := by
  intro M hM
  simp only [resolution, ne_eq, not_true_eq_false, if_false] at h
  split at h
  · next hc =>
    obtain ⟨-, rfl⟩ := hc
    obtain ⟨l, hl, ht⟩ := hM [.op .not [.tru]] (by simp)
    simp only [List.mem_singleton] at hl
    subst hl
    exact absurd (M.holds_tru) ((M.holds_not _).1 ht)
  · simp only [bind_ok, require_ok] at h
    obtain ⟨-, hlen, h⟩ := h
    split at h
    · next hg =>
      refine greedyResolution_sound hg ?_ hnt hnr hM
      rintro rfl
      simp at hlen
    · simp at h
    · split at h
      · next hr => exact rupResolution_sound M hr hM
      · simp at h

/-- **C09, partial.** For two premises only the absence of tautologies is needed. -/
theorem c09_resolution_two_premises_partial {conclusion c d : List Term}
    (h : resolution conclusion [c, d] [] = .ok ()) (hnt : NoTautology [c, d]) : Entails [c, d] conclusion := by
  refine c09_resolution_partial h hnt ?_
  intro i j k c' d' e hij hjk hc hd he
  have : k < [c, d].length := (List.getElem?_eq_some_iff.1 he).1
  simp at this
  omega

/-- **C09, partial.** Whenever the reverse unit propagation fallback accepts, the conclusion is entailed,
without side conditions. -/
theorem c09_rup {conclusion : List Term} {premises : List (List Term)}
    (h : rupResolution conclusion premises = true) : Entails premises conclusion :=
  fun M hM => rupResolution_sound M h hM

/-- **C09.** The iteration bound used in the model of `rup_resolution` is never exhausted: more iterations do
not change the answer. -/
theorem c09_rup_terminates (clauses : List (List PLit)) (n : Nat) :
    rupLoop (clauses.length + 1 + n) clauses = rupLoop (clauses.length + 1) clauses := by
  induction n with
  | zero => rfl
  | succ n ih => rw [← ih, ← Nat.add_assoc, ← rupLoop_fuel _ _ (by omega)]

/-- The hypotheses of the partial theorems are met by ordinary resolution steps, including implicit removal of
`false` and an added double negation. -/
example : resolution [q, r] [[p, q], [.neg p, r]] [] = .ok () ∧ NoTautology [[p, q], [.neg p, r]] := by
  refine ⟨by decide, ?_⟩
  simp [NoTautology, Complementary]
example : resolution [] [[p, .fls], [.neg p]] [] = .ok () := by decide
example : resolution [.neg (.neg q)] [[p, q], [.neg p]] [] = .ok () := by decide
example : rupResolution [r] [[p, q], [.neg p, q], [.neg q, .neg (.neg r)]] = true := by decide

/-! ## C11 (first part: contraction and tautology) -/

/-- **C11.** `contraction` is sound, in both directions: premise and conclusion have the same literals. -/
theorem c11_contraction {conclusion : List Term} {premises : List (List Term)}
    (h : contraction conclusion premises = .ok ()) :
    ∃ p, premises = [p] ∧ (∀ l, l ∈ conclusion ↔ l ∈ p) ∧ (∀ l, conclusion.count l ≤ p.count l) ∧
      Entails premises conclusion := by
  simp only [contraction, bind_ok, require_ok, get1_ok] at h
  obtain ⟨p, rfl, -, h1, h2⟩ := h
  have w1 := MultiSet.WF.ofList p
  have w2 := MultiSet.WF.ofList conclusion
  have a : ∀ l ∈ p, l ∈ conclusion := by
    intro l hl
    have hc : (MultiSet.ofList p).get l ≠ 0 := by
      rw [MultiSet.get_ofList]; have := List.count_pos_iff.2 hl; omega
    have := (h1 _ (MultiSet.mem_of_get w1 hc)).1
    simp only [MultiSet.get_ofList] at this
    exact List.count_pos_iff.1 (by omega)
  have b : ∀ l, conclusion.count l ≤ p.count l := by
    intro l
    by_cases hc : (MultiSet.ofList conclusion).get l = 0
    · rw [MultiSet.get_ofList] at hc; omega
    · have := h2 _ (MultiSet.mem_of_get w2 hc)
      simp only [MultiSet.get_ofList] at this
      omega
  refine ⟨p, rfl, fun l => ⟨fun hl => ?_, a l⟩, b, ?_⟩
  · have := List.count_pos_iff.2 hl
    exact List.count_pos_iff.1 (by have := b l; omega)
  · intro M hM
    exact Model.sat_mono (hM p (by simp)) a

theorem tautologyLoop_spec (seen ls : List PLit) (h : tautologyLoop seen ls = true) :
    ∃ l, (l ∈ seen ∨ l ∈ ls) ∧ l.neg ∈ ls := by
  induction ls generalizing seen with
  | nil => simp [tautologyLoop] at h
  | cons l ls ih =>
    simp only [tautologyLoop] at h
    split at h
    · next hl =>
      refine ⟨l.neg, Or.inl hl, ?_⟩
      simp [PLit.neg]
    · obtain ⟨k, hk, hn⟩ := ih _ h
      refine ⟨k, ?_, List.mem_cons_of_mem _ hn⟩
      rcases hk with hk | hk
      · rcases mem_setInsert.1 hk with hk | rfl
        · exact Or.inl hk
        · exact Or.inr (by simp)
      · exact Or.inr (List.mem_cons_of_mem _ hk)

/-- **C11.** `tautology` concludes `true`, and only from a clause that is indeed valid. -/
theorem c11_tautology {conclusion : List Term} {premises : List (List Term)}
    (h : tautology conclusion premises = .ok ()) :
    Valid conclusion ∧ ∃ p, premises = [p] ∧ Valid p := by
  simp only [tautology, bind_ok, require_ok, get1_ok] at h
  obtain ⟨p, rfl, c, rfl, -, hc, h⟩ := h
  simp only [Term.isBoolTrue, decide_eq_true_eq] at hc
  subst hc
  refine ⟨fun M => ⟨.tru, by simp, M.holds_tru⟩, p, rfl, fun M => ?_⟩
  obtain ⟨l, hl, hn⟩ := tautologyLoop_spec _ _ h
  simp only [List.not_mem_nil, false_or, List.mem_map] at hl hn
  obtain ⟨t, ht, rfl⟩ := hl
  obtain ⟨u, hu, hue⟩ := hn
  by_cases hh : M.Holds t
  · exact ⟨t, ht, hh⟩
  · refine ⟨u, hu, ?_⟩
    rw [← M.holdsP_iff u, hue, M.holdsP_neg, M.holdsP_iff]
    exact hh

example : contraction [p, q] [[p, q, p]] = .ok () := by decide
example : contraction [p, p, q] [[p, q]] = err := by decide
example : tautology [.tru] [[p, q, .neg (.neg (.neg p))]] = .ok () := by decide

end Carcara
