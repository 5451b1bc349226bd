import Verif.Model.Polyeq
import Verif.Spec.SolverProblem

/-!
# Comparing a term with its standard form
-/

namespace Carcara

mutual
/-- No left-associative operator is applied to a single argument. -/
def Term.NoUnary : Term → Prop
  | .const _ => True
  | .var _ _ => True
  | .app f as => f.NoUnary ∧ Term.NoUnaryL as
  | .op o as => (as.length = 1 → o.naryCase ≠ some .leftAssoc) ∧ Term.NoUnaryL as
  | .binder _ _ t => t.NoUnary
  | .let_ bs t => Term.NoUnaryB bs ∧ t.NoUnary
  | .paramOp _ _ as => Term.NoUnaryL as
/-- The same for a list. -/
def Term.NoUnaryL : List Term → Prop
  | [] => True
  | t :: ts => t.NoUnary ∧ Term.NoUnaryL ts
/-- The same for the bindings of a `let`. -/
def Term.NoUnaryB : List (String × Term) → Prop
  | [] => True
  | (_, t) :: bs => t.NoUnary ∧ Term.NoUnaryB bs
end

/-- The comparison answers yes, in every state with an open scope, and leaves a scope open. -/
def Poly.Yes (p : Poly) : Prop := ∀ s : PolyState, s.cache.scopes ≠ [] → ∃ s' : PolyState, p s = .ok (true, s') ∧ s'.cache.scopes ≠ []

namespace Poly.Yes

theorem pure : (Poly.pure true).Yes := fun s hs => ⟨s, rfl, hs⟩

theorem and {p q : Poly} (hp : p.Yes) (hq : q.Yes) : (p.and q).Yes := fun s hs => by
  obtain ⟨s1, e1, h1⟩ := hp s hs
  obtain ⟨s2, e2, h2⟩ := hq s1 h1
  refine ⟨s2, ?_, h2⟩
  simp only [Poly.and, e1]
  exact e2

theorem or_left {p q : Poly} (hp : p.Yes) : (p.or q).Yes := fun s hs => by
  obtain ⟨s1, e1, h1⟩ := hp s hs
  refine ⟨s1, ?_, h1⟩
  simp only [Poly.or, e1]
  rfl

theorem or_right {p : Poly} (hp : p.Yes) : ((Poly.pure false).or p).Yes := hp

theorem rc {cfg : PolyConfig} {tm : Term → Term → Poly} {a b : Term} (h : (tm a b).Yes) : (polyRc cfg tm a b).Yes := fun s hs => by
  unfold polyRc
  split
  · exact ⟨s, rfl, hs⟩
  split
  · exact ⟨s, rfl, hs⟩
  obtain ⟨s1, e1, h1⟩ := h s hs
  have hl : ∃ l, s1.cache.scopes.getLast? = some l := ⟨_, List.getLast?_eq_getLast_of_ne_nil h1⟩
  obtain ⟨l, hl⟩ := hl
  refine ⟨{ s1 with cache := ⟨s1.cache.scopes.dropLast ++ [mapInsert l (a, b) ()]⟩ }, ?_, by simp⟩
  rw [e1]
  show (do
    let c ← s1.cache.insert (a, b) ()
    .ok (true, { s1 with cache := c }) : Res (Bool × PolyState)) = _
  simp only [HashMapStack.insert, hl]
  rfl

theorem rc_self {cfg : PolyConfig} (hc : cfg.alpha = false) {tm : Term → Term → Poly} {a : Term} : (polyRc cfg tm a a).Yes := fun s hs =>
  ⟨s, by simp [polyRc, hc], hs⟩

theorem zip {α : Type} {f : α → α → Poly} : ∀ {as bs : List α}, List.Forall₂ (fun a b => (f a b).Yes) as bs → (polyZip f as bs).Yes
  | [], [], _ => pure
  | _ :: _, _ :: _, .cons h hs => and h (zip hs)

theorem list {α : Type} {f : α → α → Poly} {as bs : List α} (h : List.Forall₂ (fun a b => (f a b).Yes) as bs) : (polyList f as bs).Yes := by
  unfold polyList
  rw [if_pos h.length_eq]
  exact zip h

end Poly.Yes

theorem singletonEq_long {cfg : PolyConfig} {tm : Term → Term → Poly} {o : Op} {as : List Term} (h : as.length = 1 → o.naryCase ≠ some .leftAssoc)
    (other : Term) : singletonEq cfg tm (.op o as) other = .pure false := by
  match as with
  | [] => rfl
  | [a] => simp [singletonEq, h rfl]
  | _ :: _ :: _ => rfl

theorem Poly.false_or (p : Poly) : (Poly.pure false).or p = p := rfl

/-- The configuration for assumptions. -/
abbrev assumeCfg : PolyConfig := { reorder := true, nary := true }

theorem ratio_self (q : Rat) : ((q.num : Rat) / ((q.den : Int) : Rat)) = q := by
  have := Rat.num_div_den q
  simpa using this

theorem quotientEq_self (q : Rat) : quotientEq [.const (.real q.num), .const (.real q.den)] q = .pure true := by
  have h0 : (q.den : Int) ≠ 0 := by exact_mod_cast q.den_nz
  have h1 : ((q.den : Rat)).num = (q.den : Int) := by simp
  have h2 : ((q.den : Rat)).den = 1 := by simp
  have h3 : ((q.num : Rat)).num = q.num := by simp
  have h4 : ((q.num : Rat)).den = 1 := by simp
  simp only [quotientEq, divArgs, h1, h2, h3, h4, and_self, if_true, ratioEq, h0, if_false, ratio_self, decide_true]

theorem const_yes (n : Nat) (c : Const) : (polyRc assumeCfg (polyGo assumeCfg (n + 2)) (.const c) c.standard).Yes := by
  cases c with
  | int z =>
    simp only [Const.standard]
    split
    · next hz =>
      refine .rc ?_
      have h1 : singletonEq assumeCfg (polyGo assumeCfg (n + 1)) (.op .sub [.const (.int (-z))]) (.const (.int z)) = .pure false := by
        have hne : -z ≠ z := by omega
        simp [singletonEq, Op.naryCase, hne, polyGo, polyTerm, constEq]
      show ((Poly.pure false).or ((singletonEq assumeCfg (polyGo assumeCfg (n + 1)) (.op .sub [.const (.int (-z))]) (.const (.int z))).or
        (negIntEq [.const (.int (-z))] z))).Yes
      rw [h1, Poly.false_or, Poly.false_or]
      simp only [negIntEq, hz, if_true, decide_true]
      exact .pure
    · exact .rc_self rfl
  | real q =>
    simp only [Const.standard]
    split
    · next hq =>
      refine .rc ?_
      have h1 : singletonEq assumeCfg (polyGo assumeCfg (n + 1)) (.op .sub [standardFraction (-q)]) (.const (.real q)) = .pure false := by
        unfold standardFraction
        split
        · have hne : -q ≠ q := by intro h; linarith
          simp [singletonEq, Op.naryCase, hne, polyGo, polyTerm, constEq]
        · have hn : ¬ 0 < q := by linarith
          simp [singletonEq, Op.naryCase, polyGo, polyTerm, polyTail, divLiteralEq, divArgs, hn, Poly.false_or]
      show ((Poly.pure false).or ((singletonEq assumeCfg (polyGo assumeCfg (n + 1)) (.op .sub [standardFraction (-q)]) (.const (.real q))).or
        (negRealEq [standardFraction (-q)] q))).Yes
      rw [h1, Poly.false_or, Poly.false_or]
      by_cases hd : (-q).den = 1
      · simp only [standardFraction, if_pos hd, negRealEq, hq, if_true, decide_true]
        exact .pure
      · simp only [standardFraction, if_neg hd, negRealEq, hq, if_true]
        rw [quotientEq_self]
        exact .pure
    · unfold standardFraction
      split
      · exact .rc_self rfl
      · refine .rc ?_
        show ((Poly.pure false).or ((Poly.pure false).or (quotientEq [.const (.real q.num), .const (.real q.den)] q))).Yes
        rw [quotientEq_self]
        exact .pure
  | _ => exact .rc_self rfl

theorem Term.one_le_size_standard (t : Term) : 1 ≤ t.size := by cases t <;> simp [Term.size]

mutual
theorem standard_yes (n : Nat) : ∀ (t : Term), t.NoUnary → t.size < n → (polyRc assumeCfg (polyGo assumeCfg n) t t.standard).Yes
  | .const c, _, hn => by
    obtain ⟨m, rfl⟩ : ∃ m, n = m + 2 := ⟨n - 2, by simp only [Term.size] at hn; omega⟩
    exact const_yes m c
  | .var x s, _, _ => by
    simp only [Term.standard]
    exact .rc_self rfl
  | .app f as, h, hn => by
    obtain ⟨m, rfl⟩ : ∃ m, n = m + 1 := ⟨n - 1, by omega⟩
    simp only [Term.NoUnary, Term.size] at h hn
    simp only [Term.standard]
    exact .rc (.and (standard_yes m f h.1 (by omega)) (.list (standardL_yes m as h.2 (by omega))))
  | .op o as, h, hn => by
    obtain ⟨m, rfl⟩ : ∃ m, n = m + 1 := ⟨n - 1, by omega⟩
    simp only [Term.NoUnary, Term.size] at h hn
    simp only [Term.standard]
    have hl := standardL_yes m as h.2 (by omega)
    have hlen : (Term.standardL as).length = 1 → o.naryCase ≠ some .leftAssoc := fun e => h.1 (hl.length_eq.trans e)
    refine .rc ?_
    show ((singletonEq assumeCfg (polyGo assumeCfg m) (.op o as) (.op o (Term.standardL as))).or
      ((singletonEq assumeCfg (polyGo assumeCfg m) (.op o (Term.standardL as)) (.op o as)).or
        (compareOp assumeCfg (polyRc assumeCfg (polyGo assumeCfg m)) m o as o (Term.standardL as)))).Yes
    rw [singletonEq_long h.1, singletonEq_long hlen, Poly.false_or, Poly.false_or]
    generalize Term.standardL as = bs at hl
    simp only [compareOp, if_true]
    split
    · cases hl with
      | cons h1 hl => cases hl with
        | cons h2 _ => exact .or_left (.and h1 h2)
    · simp only [compareNary, ne_eq, not_true, if_false, hl.length_eq]
      exact .list hl
  | .binder q xs t, h, hn => by
    obtain ⟨m, rfl⟩ : ∃ m, n = m + 1 := ⟨n - 1, by omega⟩
    simp only [Term.NoUnary, Term.size] at h hn
    simp only [Term.standard]
    refine .rc ?_
    show (if q = q then compareBinder assumeCfg (polyRc assumeCfg (polyGo assumeCfg m)) (fun s t => .pure (decide (s = t))) xs xs t t.standard
      else .pure false).Yes
    rw [if_pos rfl]
    simp only [compareBinder, Bool.false_eq_true, if_false]
    refine .and (.list ?_) (standard_yes m t h (by omega))
    refine List.forall₂_same.2 fun x _ => ?_
    simp only [if_true, decide_true]
    exact .pure
  | .let_ bs t, h, hn => by
    obtain ⟨m, rfl⟩ : ∃ m, n = m + 1 := ⟨n - 1, by omega⟩
    simp only [Term.NoUnary, Term.size] at h hn
    simp only [Term.standard]
    refine .rc ?_
    show (compareBinder assumeCfg (polyRc assumeCfg (polyGo assumeCfg m)) (polyRc assumeCfg (polyGo assumeCfg m)) bs (Term.standardB bs) t
      t.standard).Yes
    simp only [compareBinder, Bool.false_eq_true, if_false]
    exact .and (.list (standardB_yes m bs h.1 (by omega))) (standard_yes m t h.2 (by omega))
  | .paramOp o ps as, h, hn => by
    obtain ⟨m, rfl⟩ : ∃ m, n = m + 1 := ⟨n - 1, by omega⟩
    simp only [Term.NoUnary, Term.size] at h hn
    simp only [Term.standard]
    refine .rc ?_
    show (if o = o ∧ ps = ps then polyList (polyRc assumeCfg (polyGo assumeCfg m)) as (Term.standardL as) else .pure false).Yes
    rw [if_pos ⟨rfl, rfl⟩]
    exact .list (standardL_yes m as h (by omega))
theorem standardL_yes (n : Nat) : ∀ (as : List Term), Term.NoUnaryL as → Term.sizeL as < n →
    List.Forall₂ (fun a b => (polyRc assumeCfg (polyGo assumeCfg n) a b).Yes) as (Term.standardL as)
  | [], _, _ => .nil
  | t :: ts, h, hn => by
    simp only [Term.NoUnaryL, Term.sizeL] at h hn
    exact .cons (standard_yes n t h.1 (by omega)) (standardL_yes n ts h.2 (by omega))
theorem standardB_yes (n : Nat) : ∀ (bs : List (String × Term)), Term.NoUnaryB bs → Term.sizeB bs < n →
    List.Forall₂ (fun p q => (if p.1 = q.1 then polyRc assumeCfg (polyGo assumeCfg n) p.2 q.2 else .pure false).Yes) bs (Term.standardB bs)
  | [], _, _ => .nil
  | (x, t) :: bs, h, hn => by
    simp only [Term.NoUnaryB, Term.sizeB] at h hn
    refine .cons ?_ (standardB_yes n bs h.2 (by omega))
    simp only [if_true]
    exact standard_yes n t h.1 (by omega)
end

theorem assumeEq_standard {t : Term} (h : t.NoUnary) : assumeEq t t.standard = .ok true := by
  have hp := Term.one_le_size_standard t.standard
  obtain ⟨s, e, _⟩ := standard_yes (t.size + t.standard.size) t h (by omega) {} (by simp [HashMapStack.new])
  simp only [assumeEq, polyeqWith]
  rw [show polyRc { reorder := true, nary := true } (polyGo { reorder := true, nary := true } (t.size + t.standard.size)) t t.standard {} =
    .ok (true, s) from e]
  rfl

end Carcara
