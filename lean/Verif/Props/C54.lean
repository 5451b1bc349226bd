import Verif.Lemmas.AciNormal
import Verif.Props.C15

/-!
# C54: `aci_simp`

The rule is sound for conjunction and disjunction, of truth values and of bit-vectors. For the other operators it is
not: it drops repeated operands although the operators are not idempotent, and the results of one side are reused for
the other side although they were computed for another operator. It is sound when one operator is involved and no
operand is repeated.
-/

namespace Carcara
/-- **C54, what holds.** An accepted equality is valid if the operators at the top of the two sides are idempotent, or if
there is only one such operator and neither side has a repeated operand. (A side whose operator is not one of the ten
the rule knows satisfies both conditions.) The full claim is `SoundRule aciSimp`; it is refuted below. -/
theorem c54_aci_simp_partial {l r : Term} {ps : List (List Term)} {as : List Term}
    (h : aciSimp [.op .equals [l, r]] ps as = .ok ()) {s : Srt} (hl : sortOf l = some s) (hr : sortOf r = some s)
    (hsafe : (∀ t ∈ [l, r], ∀ o, aciTop t = some o → o = .and ∨ o = .or ∨ o = .bvAnd ∨ o = .bvOr) ∨
      (∃ o, ∀ t ∈ [l, r], ∀ o', aciTop t = some o' → o' = o ∧ (properOperands o s t).Nodup))
    (M : Model) : M.Holds (.op .equals [l, r]) := by
  simp only [aciSimp, bind_ok, get1_ok, match2_ok, Prod.exists] at h
  obtain ⟨_, e, l', r', e', c1, u, h1, c2, v, h2, h3⟩ := h
  cases e
  cases e'
  rw [M.holds_eq]
  rcases hsafe with hs | ⟨o, hs⟩
  · have top : ∀ t ∈ [l, r], Model.IdemTop t := by
      intro t ht
      match t with
      | .op o as =>
        intro ha
        have := hs _ ht o (by revert ha; cases o <;> simp [aciAssoc, aciTop])
        rcases this with rfl | rfl | rfl | rfl <;> rfl
      | .const _ | .var _ _ | .app _ _ | .paramOp _ _ _ | .binder _ _ _ | .let_ _ _ => trivial
    by_cases hn : aciTop l = none ∧ aciTop r = none
    · exact aciSimp_distinct (o := .and) hl hr (by simp [hn.1]) (by simp [hn.2]) h1 h2 h3 M
    · have hb : s = .bool ∨ ∃ w, s = .bv w := by
        have key : ∀ t ∈ [l, r], sortOf t = some s → aciTop t ≠ none → s = .bool ∨ ∃ w, s = .bv w := by
          intro t ht hts hne
          obtain ⟨o, ho⟩ := Option.ne_none_iff_exists'.1 hne
          have hi := hs t ht o ho
          obtain ⟨-, as, rfl⟩ := aciTop_some ho
          have : ∃ b, o.idem = some b := by rcases hi with rfl | rfl | rfl | rfl <;> exact ⟨_, rfl⟩
          obtain ⟨b, hb⟩ := this
          exact (Model.idem_sorts hb hts).2.2.1
        by_cases h1 : aciTop l = none
        · exact key r (by simp) hr fun h2 => hn ⟨h1, h2⟩
        · exact key l (by simp) hl h1
      exact aciSimp_idem hl hr (top l (by simp)) (top r (by simp)) hb h1 h2 h3 M
  · exact aciSimp_distinct hl hr (hs l (by simp)) (hs r (by simp)) h1 h2 h3 M

/-- **C54.** For formulas the rule is sound, without further conditions. -/
theorem c54_aci_simp_formulas {l r : Term} {ps : List (List Term)} {as : List Term}
    (h : aciSimp [.op .equals [l, r]] ps as = .ok ()) (hl : sortOf l = some .bool) (hr : sortOf r = some .bool)
    (M : Model) : M.Holds l ↔ M.Holds r := by
  have := c54_aci_simp_partial h hl hr (.inl ?_) M
  · rw [M.holds_eq] at this
    simp [Model.Holds, this]
  · intro t ht o ho
    obtain ⟨-, as, rfl⟩ := aciTop_some ho
    have hs : sortOf (.op o as) = some .bool := by
      simp only [List.mem_cons, List.not_mem_nil, or_false] at ht
      rcases ht with rfl | rfl
      · exact hl
      · exact hr
    have har : o = .add ∨ o = .mult → False := by
      intro ho
      obtain ⟨-, -, h3⟩ := folds_sorts (by rcases ho with rfl | rfl <;> rfl) hs
      rcases ho with rfl | rfl <;> simp [opSort, allSort] at h3
    have hbv : o = .bvAdd ∨ o = .bvMul ∨ o = .bvAnd ∨ o = .bvOr ∨ o = .bvXor → False := by
      intro ho
      obtain ⟨w, e, -⟩ := sort_bvNary ho hs
      cases e
    have hcc : o = .bvConcat → False := by
      rintro rfl
      obtain ⟨ss, -, h2⟩ := sortOf_op (by decide) hs
      simp [opSort] at h2
    revert ho
    cases o <;> simp_all [aciTop]

/-- **C54.** What is computed: with a cache that no other operator has used, the result is the application of the
operator to the distinct operands that are not its neutral element, in the order of their first occurrence; if only one
is left, it is that operand. -/
theorem c54_normal_form {o : Op} {ts : List Term} {s : Srt} (ho : aciTop (.op o ts) = some o)
    (hs : sortOf (.op o ts) = some s) : ∃ cache u, aciSide [] (.op o ts) = .ok (cache, u) ∧
      (u = .op o (dedup (properOperands o s (.op o ts))) ∨ dedup (properOperands o s (.op o ts)) = [u]) := by
  obtain ⟨c, h, -⟩ := aciSide_normal hs ho (cache := []) (by simp [NormalCache])
  refine ⟨c, _, h, ?_⟩
  rw [aciNormal, if_pos rfl, aciBuild_eq]
  have e : kept (neutral o s) (operandsL o ts) = dedup (properOperands o s (.op o ts)) := by
    rw [kept, properOperands, operands_op]
  rw [e]
  split
  · next a ha => exact .inr ha
  · exact .inl rfl

/-- **C54.** Completeness: two applications of the same operator whose distinct operands other than the neutral element
are the same up to order (in the same order, for concatenation) are accepted. -/
theorem c54_complete {o : Op} {ts us : List Term} {s : Srt} (ho : aciTop (.op o ts) = some o)
    (hl : sortOf (.op o ts) = some s) (hr : sortOf (.op o us) = some s)
    (h : (dedup (properOperands o s (.op o ts))).Perm (dedup (properOperands o s (.op o us))))
    (hcat : o = .bvConcat → dedup (properOperands o s (.op o ts)) = dedup (properOperands o s (.op o us)))
    (ps : List (List Term)) (as : List Term) :
    aciSimp [.op .equals [.op o ts, .op o us]] ps as = .ok () := by
  have ho' : aciTop (.op o us) = some o := by
    revert ho; cases o <;> simp [aciTop]
  obtain ⟨c, h1, h2⟩ := aciSide_normal hl ho (cache := []) (by simp [NormalCache])
  obtain ⟨c', h3, -⟩ := aciSide_normal hr ho' h2
  simp only [aciSimp, bind_ok, get1_ok, match2_ok, Prod.exists]
  refine ⟨_, rfl, _, _, rfl, _, _, h1, _, _, h3, ?_⟩
  have e : ∀ vs, aciNormal o (neutral o s) (.op o vs) =
      match dedup (properOperands o s (.op o vs)) with | [a] => a | as => .op o as := by
    intro vs
    rw [aciNormal, if_pos rfl, aciBuild_eq, kept, properOperands, operands_op]
    rfl
  have same : dedup (properOperands o s (.op o ts)) = dedup (properOperands o s (.op o us)) →
      aciCompare (aciNormal o (neutral o s) (.op o ts)) (aciNormal o (neutral o s) (.op o us)) = .ok () := by
    intro hs
    rw [e, e, hs]
    generalize (match dedup (properOperands o s (.op o us)) with | [a] => a | as => Term.op o as) = t
    match t with
    | .op o' vs =>
      simp only [aciCompare]
      split
      · rw [require_ok, MultiSet.eq_iff (.ofList _) (.ofList _), MultiSet.ofList_perm]
      · exact assertEq_ok.2 rfl
    | .const _ | .var _ _ | .app _ _ | .paramOp _ _ _ | .binder _ _ _ | .let_ _ _ => exact assertEq_ok.2 rfl
  by_cases hc : o = .bvConcat
  · exact same (hcat hc)
  by_cases hlen : (dedup (properOperands o s (.op o ts))).length = 1
  · obtain ⟨a, ha⟩ := List.length_eq_one_iff.1 hlen
    refine same ?_
    rw [ha] at h ⊢
    exact (List.perm_singleton.1 h.symm).symm
  · have f : ∀ l : List Term, l.length ≠ 1 → (match l with | [a] => a | as => Term.op o as) = .op o l := by
      intro l hl
      split
      · simp at hl
      · rfl
    rw [e, e, f _ hlen, f _ (by rwa [← h.length_eq]), aciCompare, if_pos ⟨(aciTop_some ho).1, hc, rfl⟩, require_ok,
      MultiSet.eq_iff (.ofList _) (.ofList _), MultiSet.ofList_perm]
    exact h

/-- **C54.** The rule does not panic on equalities between sorted terms. -/
theorem c54_no_panic {c : List Term} (hc : ClauseOK c) (ps : List (List Term)) (as : List Term) :
    aciSimp c ps as ≠ .error .panic := by
  have side : ∀ (cache : AciCache) (t : Term) (s : Srt), sortOf t = some s → ∃ r, aciSide cache t = .ok r := by
    intro cache t s hs
    cases ht : aciTop t with
    | none => exact ⟨_, aciSide_none hs ht cache⟩
    | some o =>
      obtain ⟨ho, ts, rfl⟩ := aciTop_some ht
      simp only [aciSide, aciIdentity_neutral ho hs]
      exact ⟨_, rfl⟩
  have cmp : ∀ l r, aciCompare l r ≠ .error .panic := by
    intro l r
    unfold aciCompare
    split
    · split
      · simp only [require]; split <;> simp [pure, Except.pure, err]
      · simp only [assertEq, require]; split <;> simp [pure, Except.pure, err]
    · simp only [assertEq, require]; split <;> simp [pure, Except.pure, err]
  intro hp
  match c with
  | [] => cases hp
  | _ :: _ :: _ => cases hp
  | [t] =>
    by_cases hq : ∃ l r, t = .op .equals [l, r]
    · obtain ⟨l, r, rfl⟩ := hq
      obtain ⟨-, s, hl, hr⟩ := sort_equals.1 (hc _ (List.mem_singleton_self _))
      obtain ⟨⟨c1, u⟩, h1⟩ := side [] l s hl
      obtain ⟨⟨c2, v⟩, h2⟩ := side c1 r s hr
      have e : aciSimp [.op .equals [l, r]] ps as = aciCompare u v := by
        simp [aciSimp, get1, match2, h1, h2, bind, Except.bind, pure, Except.pure]
      exact cmp u v (e ▸ hp)
    · have : aciSimp [t] ps as = err := by
        have hm : match2 .equals t = err := by
          unfold match2
          split
          · next o a b =>
            split
            · next e => subst e; exact absurd ⟨_, _, rfl⟩ hq
            · rfl
          · rfl
        simp [aciSimp, get1, hm, bind, Except.bind, err, pure, Except.pure]
      rw [this] at hp
      cases hp

/-! ## What does not hold -/

namespace C54
/-- An integer variable. -/
abbrev x : Term := .var "x" .int
/-- An integer variable. -/
abbrev y : Term := .var "y" .int
/-- A bit-vector variable. -/
abbrev a : Term := .var "a" (.bv 1)
/-- A bit-vector variable. -/
abbrev b : Term := .var "b" (.bv 1)
/-- A formula. -/
abbrev p : Term := .var "p" .bool
/-- A formula. -/
abbrev q : Term := .var "q" .bool
/-- A number. -/
abbrev n (z : Int) : Term := .const (.int z)
/-- An equality. -/
abbrev eq (l r : Term) : List Term := [.op .equals [l, r]]
end C54
open C54

set_option maxRecDepth 10000 in
/-- **C54.** The rule accepts `(= (+ 1 1) 1)`: repeated operands of a sum are dropped. -/
theorem c54_aci_simp_sum_fails : ¬ SoundRule aciSimp := by
  refine not_sound_of (c := C54.eq (.op .add [n 1, n 1]) (n 1)) (ps := []) (as := []) (by decide +kernel)
    (by simp [ClauseOK]; decide +kernel) (by simp) C15.M (by simp) ?_
  refute_eval

set_option maxRecDepth 10000 in
/-- **C54.** The rule accepts `(= (* 2 2) 2)`. -/
theorem c54_aci_simp_product_fails : aciSimp (C54.eq (.op .mult [n 2, n 2]) (n 2)) [] [] = .ok () ∧
    ClauseOK (C54.eq (.op .mult [n 2, n 2]) (n 2)) ∧ ∃ M : Model, ¬ M.Sat (C54.eq (.op .mult [n 2, n 2]) (n 2)) := by
  refine ⟨by decide +kernel, by simp [ClauseOK]; decide +kernel, C15.M, ?_⟩
  refute_eval

/-- Two bit-vector literals. -/
abbrev C54.bit (z : Int) : Term := .const (.bv z 1)

set_option maxRecDepth 10000 in
/-- **C54.** The rule accepts `(= (concat #b0 #b0 #b1) (concat #b0 #b1 #b1))`. -/
theorem c54_aci_simp_concat_fails :
    let c := C54.eq (.op .bvConcat [bit 0, bit 0, bit 1]) (.op .bvConcat [bit 0, bit 1, bit 1])
    aciSimp c [] [] = .ok () ∧ ClauseOK c ∧ ∃ M : Model, ¬ M.Sat c := by
  refine ⟨by decide +kernel, by simp [ClauseOK]; decide +kernel, C15.M, ?_⟩
  simp only [Model.Sat, List.mem_singleton, exists_eq_left, Model.holds_eq]
  simp only [Model.val, eval, evalL_eq_map, List.map_cons, List.map_nil, evalConst, evalOp, stdOp, bvConcat,
    List.foldl_cons, List.foldl_nil, concatStep, Option.getD]
  intro h
  injection h with _ h
  revert h
  decide

set_option maxRecDepth 10000 in
/-- **C54.** Even if no side has a repeated operand, two operators at once are not safe: `(= (* 1 2) (+ (* 1 2) 2))` is
accepted. The result `2` for `(* 1 2)` is taken from the left side, which makes it a repeated operand of the sum. -/
theorem c54_aci_simp_cache_fails : aciSimp (C54.eq (.op .mult [n 1, n 2]) (.op .add [.op .mult [n 1, n 2], n 2])) [] []
      = .ok () ∧ (properOperands .mult .int (.op .mult [n 1, n 2])).Nodup ∧
    (properOperands .add .int (.op .add [.op .mult [n 1, n 2], n 2])).Nodup ∧
    ∃ M : Model, ¬ M.Sat (C54.eq (.op .mult [n 1, n 2]) (.op .add [.op .mult [n 1, n 2], n 2])) := by
  refine ⟨by decide +kernel, by decide +kernel, by decide +kernel, C15.M, ?_⟩
  refute_eval

/-! ## Examples -/

set_option maxRecDepth 10000

example : aciSimp (C54.eq (.op .and [p, .op .and [q, .op .tru [], p]]) (.op .and [q, p])) [] [] = .ok () := by
  decide +kernel
example : sortOf (.op .and [p, .op .and [q, .op .tru [], p]]) = some .bool := by decide +kernel
example : aciSimp (C54.eq (.op .add [x, .op .add [y, n 0]]) (.op .add [y, x])) [] [] = .ok () ∧
    (properOperands .add .int (.op .add [x, .op .add [y, n 0]])).Nodup ∧
    aciTop (.op .add [y, x]) = some .add := by decide +kernel
example : aciSimp (C54.eq (.op .bvAnd [a, .const (.bv 1 1), a]) a) [] [] = .ok () := by decide +kernel
example : aciSimp (C54.eq (.op .bvConcat [a, b]) (.op .bvConcat [b, a])) [] [] ≠ .ok () := by decide +kernel
example : aciSimp (C54.eq (.op .add [x, y]) (.op .add [x, n 1])) [] [] ≠ .ok () := by decide +kernel
example : (dedup (properOperands .bvXor (.bv 1) (.op .bvXor [a, .op .bvXor [b, a], .const (.bv 0 1)]))).Perm
    (dedup (properOperands .bvXor (.bv 1) (.op .bvXor [b, a]))) := by decide +kernel

end Carcara
