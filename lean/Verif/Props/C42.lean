import Verif.Lemmas.ResolutionStrict
import Verif.Props.C08
import Verif.Model.Context

/-!
# C42: the strict rules

`strict_resolution` and `strict_refl` accept only what their premises, arguments and context determine, and the `elaborated`
configuration accepts no `resolution` step that the normal one rejects.
-/

namespace Carcara

open Spec

/-! ## `strict_resolution` -/

/-- **C42.** `strict_resolution` accepts exactly the result of resolving the premises, as lists, on the given pivots. -/
theorem c42_strict_resolution_exact (conclusion first : List Term) (rest : List (List Term)) (args : List Term) :
    strictResolution conclusion (first :: rest) args = .ok () ↔
      rest ≠ [] ∧ orderedResolve first rest args = some conclusion :=
  strictResolution_exact conclusion first rest args

/-- **C42.** The premises and the arguments determine the conclusion. -/
theorem c42_strict_resolution_determined {c c' : List Term} {premises : List (List Term)} {args : List Term}
    (h : strictResolution c premises args = .ok ()) (h' : strictResolution c' premises args = .ok ()) : c = c' := by
  cases premises with
  | nil => simp [strictResolution, applyGenericResolution, require, err, bind, Except.bind] at h
  | cons first rest =>
    rw [c42_strict_resolution_exact] at h h'
    simpa [h.2] using h'.2

/-- **C42.** The conclusion is entailed. -/
theorem c42_strict_resolution_entailed {c : List Term} {premises : List (List Term)} {args : List Term}
    (h : strictResolution c premises args = .ok ()) : Entails premises c := c08_strict_resolution h

section
private abbrev p : Term := .var "p" .bool
private abbrev q : Term := .var "q" .bool
private abbrev r : Term := .var "r" .bool

example : orderedResolve [q, p, q] [[r, .op .not [p], q]] [p, .tru] = some [q, q, r, q] := by decide

/-- The title of C42 read literally fails: `strict_resolution` accepts a step, with a repeated pivot, that `resolution` rejects with
the same arguments, because `resolution` removes every copy of the pivot. -/
theorem c42_strict_resolution_accepts_more_fails : ∃ c premises args, strictResolution c premises args = .ok () ∧
    resolutionWithArgs c premises args ≠ .ok () ∧ resolution c premises args ≠ .ok () :=
  ⟨[p], [[p, p], [.op .not [p]]], [p, .tru], by decide, by decide, by decide⟩

end

/-! ## `resolution` under the `elaborated` configuration -/

/-- **C42.** What `resolution` accepts under the `elaborated` configuration it accepts under the normal one, and it is entailed. -/
theorem c42_resolution_elaborated {c : List Term} {premises : List (List Term)} {args : List Term}
    (h : resolutionWithArgs c premises args = .ok ()) : resolution c premises args = .ok () ∧ Entails premises c := by
  refine ⟨?_, c08_resolution_with_args h⟩
  have ha : args ≠ [] := by
    simp only [resolutionWithArgs, applyGenericResolution, bind_ok, require_ok] at h
    obtain ⟨_, ⟨_, h1, _, h2, -⟩, -⟩ := h
    rintro rfl
    simp at h2
    omega
  rw [resolution, if_pos ha]
  exact h

/-- It is stricter: without arguments it accepts nothing. -/
example : resolution [q] [[p, q], [.op .not [p]]] [] = .ok () ∧ resolutionWithArgs [q] [[p, q], [.op .not [p]]] [] ≠ .ok () := by
  decide +kernel

/-! ## `strict_refl` -/

/-- **C42.** `strict_refl` accepts exactly an equality of a term with itself or, inside a subproof, with its value under the
substitution of the context. -/
theorem c42_strict_refl_exact (C C' : CtxStack) (conclusion : List Term) :
    strictRefl C conclusion = .ok C' ↔ ∃ l r, conclusion = [.op .equals [l, r]] ∧
      ((l = r ∧ C' = C) ∨ (l ≠ r ∧ C.stack ≠ [] ∧ C.apply l = .ok (r, C'))) := by
  simp only [strictRefl, bind_ok, get1_ok, match2_ok, Prod.exists]
  constructor
  · rintro ⟨_, rfl, l, r, rfl, h⟩
    refine ⟨l, r, rfl, ?_⟩
    split at h
    · next e => cases h; exact .inl ⟨e, rfl⟩
    · next e =>
      simp only [bind_ok, require_ok, Prod.exists] at h
      obtain ⟨_, h1, l', C'', h2, _, rfl, h3⟩ := h
      cases h3
      exact .inr ⟨e, fun e => h1 (by rw [e]; rfl), h2⟩
  · rintro ⟨l, r, rfl, h⟩
    refine ⟨_, rfl, l, r, rfl, ?_⟩
    rcases h with ⟨rfl, rfl⟩ | ⟨h1, h2, h3⟩
    · rw [if_pos rfl]
    · rw [if_neg h1]
      refine bind_ok.2 ⟨(), require_ok.2 (fun e => h2 (List.length_eq_zero_iff.1 e)), bind_ok.2 ⟨_, h3, ?_⟩⟩
      exact bind_ok.2 ⟨(), require_ok.2 rfl, rfl⟩

theorem alphaEquiv_self (a : Term) : alphaEquiv a a = .ok true := by
  unfold alphaEquiv polyeqWith
  rw [polyRc, if_pos ⟨by decide, rfl⟩]
  rfl

/-- Inside an anchor `(:= x q)` the step `(= x q)` is accepted. -/
example : ∃ C : CtxStack, C.stack ≠ [] ∧ ((strictRefl C [.op .equals [p, q]]).isOk && (alphaEquiv p q).isOk) = true :=
  ⟨⟨[([.assign "p" .bool q], none)], 0⟩, by simp, by decide +kernel⟩

/-- **C42.** What `strict_refl` accepts `refl` accepts, unless comparing the two sides up to renaming panics. -/
theorem c42_strict_refl_refl {C C' : CtxStack} {l r : Term} {b : Bool} (h : strictRefl C [.op .equals [l, r]] = .ok C')
    (hb : alphaEquiv l r = .ok b) : ∃ C'', refl C [.op .equals [l, r]] = .ok C'' := by
  obtain ⟨_, _, e, h⟩ := (c42_strict_refl_exact C C' _).1 h
  cases e
  cases b with
  | true => exact ⟨C, bind_ok.2 ⟨_, rfl, bind_ok.2 ⟨(l, r), rfl, bind_ok.2 ⟨_, hb, rfl⟩⟩⟩⟩
  | false =>
    rcases h with ⟨rfl, -⟩ | ⟨h1, h2, h3⟩
    · rw [alphaEquiv_self] at hb; cases hb
    · refine ⟨C', bind_ok.2 ⟨_, rfl, bind_ok.2 ⟨(l, r), rfl, bind_ok.2 ⟨_, hb, ?_⟩⟩⟩⟩
      simp only [Bool.false_eq_true, if_false]
      refine bind_ok.2 ⟨(), require_ok.2 (fun e => h2 (List.length_eq_zero_iff.1 e)), bind_ok.2 ⟨_, h3, ?_⟩⟩
      exact bind_ok.2 ⟨_, alphaEquiv_self r, rfl⟩

end Carcara
