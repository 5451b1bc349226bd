import Verif.Lemmas.BfunAssign
import Verif.Lemmas.Quantifier
import Verif.Lemmas.Polyeq
import Verif.Lemmas.Simplify

/-! # Facts about `bfun_elim` -/

namespace Carcara
open Classical

/-! ## What is kept by the transformations -/

/-- All literals of the result occur in the term, and quotients of literals only stem from such quotients. -/
structure KeptBy (t r : Term) : Prop where
  consts : ∀ k, .const k ∈ r.subterms → .const k ∈ t.subterms
  clean : t.clean false → r.clean false
  lit : ∀ k, r = .const k → t = .const k

theorem KeptBy.refl (t : Term) : KeptBy t t := ⟨fun _ h => h, id, fun _ h => h⟩

theorem KeptBy.trans {t u r : Term} (h : KeptBy t u) (h' : KeptBy u r) : KeptBy t r :=
  ⟨fun k hk => h.consts k (h'.consts k hk), fun hc => h'.clean (h.clean hc), fun k hk => h.lit k (h'.lit k hk)⟩

theorem cleanNode_op_congr {o : Op} {as as' : List Term} (h : List.Forall₂ KeptBy as as') (hc : (Term.op o as).cleanNode false = true) :
    (Term.op o as').cleanNode false = true := by
  rw [Term.cleanNode.eq_def]
  split
  · next heq =>
    cases heq
    cases h with
    | cons h1 h =>
      cases h with
      | cons h2 h =>
        cases h with
        | cons h3 h =>
          rw [h1.lit _ rfl, h2.lit _ rfl] at hc
          exact hc
  · rfl
  · rfl

theorem Forall₂.exists_left {α β : Type} {R : α → β → Prop} {as : List α} {bs : List β} (h : List.Forall₂ R as bs) {b : β} (hb : b ∈ bs) :
    ∃ a ∈ as, R a b := by
  induction h with
  | nil => cases hb
  | cons h _ ih =>
    rcases List.mem_cons.1 hb with rfl | hb
    · exact ⟨_, List.mem_cons_self .., h⟩
    · obtain ⟨a, ha, h⟩ := ih hb
      exact ⟨a, List.mem_cons_of_mem _ ha, h⟩

theorem KeptBy.op {o : Op} {as as' : List Term} (h : List.Forall₂ KeptBy as as') : KeptBy (.op o as) (.op o as') := by
  refine ⟨fun k hk => ?_, fun hc u hu => ?_, fun k hk => by cases hk⟩
  · simp only [Term.subterms, List.mem_cons, reduceCtorEq, false_or, Term.mem_subtermsL] at hk ⊢
    obtain ⟨a', ha', hk⟩ := hk
    obtain ⟨a, ha, hr⟩ := Forall₂.exists_left h ha'
    exact ⟨a, ha, hr.consts k hk⟩
  · simp only [Term.subterms, List.mem_cons, Term.mem_subtermsL] at hu
    rcases hu with rfl | ⟨a', ha', hu⟩
    · exact cleanNode_op_congr h (hc _ (Term.self_mem_subterms _))
    · obtain ⟨a, ha, hr⟩ := Forall₂.exists_left h ha'
      exact hr.clean (fun w hw => hc w (subterms_op ha w hw)) u hu

theorem KeptBy.app {f f' : Term} {as as' : List Term} (hf : KeptBy f f') (h : List.Forall₂ KeptBy as as') : KeptBy (.app f as) (.app f' as') := by
  refine ⟨fun k hk => ?_, fun hc u hu => ?_, fun k hk => by cases hk⟩
  · simp only [Term.subterms, List.mem_cons, reduceCtorEq, false_or, List.mem_append, Term.mem_subtermsL] at hk ⊢
    rcases hk with hk | ⟨a', ha', hk⟩
    · exact .inl (hf.consts k hk)
    · obtain ⟨a, ha, hr⟩ := Forall₂.exists_left h ha'
      exact .inr ⟨a, ha, hr.consts k hk⟩
  · simp only [Term.subterms, List.mem_cons, List.mem_append, Term.mem_subtermsL] at hu
    rcases hu with rfl | hu | ⟨a', ha', hu⟩
    · rfl
    · exact hf.clean (fun w hw => hc w (subterms_app (.inl rfl) w hw)) u hu
    · obtain ⟨a, ha, hr⟩ := Forall₂.exists_left h ha'
      exact hr.clean (fun w hw => hc w (subterms_app (.inr ha) w hw)) u hu

theorem KeptBy.paramOp {o : ParamOp} {ps as as' : List Term} (h : List.Forall₂ KeptBy as as') : KeptBy (.paramOp o ps as) (.paramOp o ps as') := by
  refine ⟨fun k hk => ?_, fun hc u hu => ?_, fun k hk => by cases hk⟩
  · simp only [Term.subterms, List.mem_cons, reduceCtorEq, false_or, List.mem_append, Term.mem_subtermsL] at hk ⊢
    rcases hk with hk | ⟨a', ha', hk⟩
    · exact .inl hk
    · obtain ⟨a, ha, hr⟩ := Forall₂.exists_left h ha'
      exact .inr ⟨a, ha, hr.consts k hk⟩
  · simp only [Term.subterms, List.mem_cons, List.mem_append, Term.mem_subtermsL] at hu
    rcases hu with rfl | ⟨a, ha, hu⟩ | ⟨a', ha', hu⟩
    · rfl
    · refine hc u ?_
      simp only [Term.subterms, List.mem_cons, List.mem_append, Term.mem_subtermsL]
      exact .inr (.inl ⟨a, ha, hu⟩)
    · obtain ⟨a, ha, hr⟩ := Forall₂.exists_left h ha'
      exact hr.clean (fun w hw => hc w (subterms_paramOp ha w hw)) u hu

theorem KeptBy.binder {b b' : Binder} {bs bs' : List (String × Srt)} {t r : Term} (h : KeptBy t r) : KeptBy (.binder b bs t) (.binder b' bs' r) := by
  refine ⟨fun k hk => ?_, fun hc u hu => ?_, fun k hk => by cases hk⟩
  · simp only [Term.subterms, List.mem_cons, reduceCtorEq, false_or] at hk ⊢
    exact h.consts k hk
  · simp only [Term.subterms, List.mem_cons] at hu
    rcases hu with rfl | hu
    · rfl
    · exact h.clean (fun w hw => hc w (subterms_binder w hw)) u hu

theorem KeptBy.boolConst {c : Term} (hc : IsBoolConst c) (t : Term) : KeptBy t c := by
  rcases hc with rfl | rfl
  · refine ⟨fun k hk => ?_, fun _ u hu => ?_, fun k hk => by cases hk⟩
    · simp [Term.tru, Term.subterms, Term.subtermsL] at hk
    · simp only [Term.tru, Term.subterms, Term.subtermsL, List.mem_singleton] at hu
      subst hu
      rfl
  · refine ⟨fun k hk => ?_, fun _ u hu => ?_, fun k hk => by cases hk⟩
    · simp [Term.fls, Term.subterms, Term.subtermsL] at hk
    · simp only [Term.fls, Term.subterms, Term.subtermsL, List.mem_singleton] at hu
      subst hu
      rfl

theorem forall₂_map_right {α β : Type} {R : α → β → Prop} {f : α → β} : ∀ {as : List α}, (∀ a ∈ as, R a (f a)) → List.Forall₂ R as (as.map f)
  | [], _ => .nil
  | a :: _, h => .cons (h a (by simp)) (forall₂_map_right fun b hb => h b (List.mem_cons_of_mem _ hb))

theorem kept_assign {v : String × Srt} {c : Term} (hc : IsBoolConst c) (t : Term) : KeptBy t (Term.assign v c t) := by
  induction t using Term.ind with
  | const k => exact .refl _
  | var x s =>
    rw [Term.assign]
    split
    · exact .boolConst hc _
    · exact .refl _
  | app f as ihf ih =>
    rw [Term.assign, Term.assignL_eq]
    exact .app ihf (forall₂_map_right ih)
  | op o as ih =>
    rw [Term.assign, Term.assignL_eq]
    exact .op (forall₂_map_right ih)
  | binder b bs t ih =>
    rw [Term.assign]
    split
    · exact .refl _
    · exact .binder ih
  | let_ bs t _ _ => exact .refl _
  | paramOp o ps as _ ih =>
    rw [Term.assign, Term.assignL_eq]
    exact .paramOp (forall₂_map_right ih)

/-! ## The depth of the recursion -/

mutual
/-- The number of nested calls; quantifiers need two. -/
def Term.bfunDepth : Term → Nat
  | .const _ => 1
  | .var _ _ => 1
  | .app _ as => Term.bfunDepthL as + 1
  | .op _ as => Term.bfunDepthL as + 1
  | .binder _ _ t => t.bfunDepth + 2
  | .let_ _ t => t.bfunDepth + 1
  | .paramOp _ _ _ => 1
/-- The largest of a list. -/
def Term.bfunDepthL : List Term → Nat
  | [] => 0
  | t :: ts => max t.bfunDepth (Term.bfunDepthL ts)
end

theorem bfunDepthL_le {ts : List Term} {n : Nat} : Term.bfunDepthL ts ≤ n ↔ ∀ t ∈ ts, t.bfunDepth ≤ n := by
  induction ts with
  | nil => simp [Term.bfunDepthL]
  | cons t ts ih => simp [Term.bfunDepthL, ih]

theorem bfunDepth_pos (t : Term) : 0 < t.bfunDepth := by
  cases t <;> simp [Term.bfunDepth]

theorem bfunDepth_le_size (t : Term) : t.bfunDepth ≤ 2 * t.size := by
  have hL : ∀ as : List Term, (∀ a ∈ as, a.bfunDepth ≤ 2 * a.size) → Term.bfunDepthL as ≤ 2 * Term.sizeL as := fun as h =>
    bfunDepthL_le.2 fun a ha => Nat.le_trans (h a ha) (by have := Term.size_le_sizeL ha; omega)
  induction t using Term.ind with
  | const k => simp [Term.bfunDepth, Term.size]
  | var x s => simp [Term.bfunDepth, Term.size]
  | app f as _ ih =>
    have := hL as ih
    simp only [Term.bfunDepth, Term.size]
    omega
  | op o as ih =>
    have := hL as ih
    simp only [Term.bfunDepth, Term.size]
    omega
  | binder b bs t ih =>
    simp only [Term.bfunDepth, Term.size]
    omega
  | let_ bs t _ ih =>
    simp only [Term.bfunDepth, Term.size]
    omega
  | paramOp o ps as _ _ =>
    simp only [Term.bfunDepth, Term.size]
    omega

theorem bfunDepth_assign {v : String × Srt} {c : Term} (hc : IsBoolConst c) (t : Term) : (Term.assign v c t).bfunDepth ≤ t.bfunDepth := by
  have hL : ∀ as : List Term, (∀ a ∈ as, (Term.assign v c a).bfunDepth ≤ a.bfunDepth) →
      Term.bfunDepthL (Term.assignL v c as) ≤ Term.bfunDepthL as := by
    intro as h
    induction as with
    | nil => exact Nat.le_refl _
    | cons a as ih =>
      have h1 := h a (by simp)
      have h2 := ih fun b hb => h b (List.mem_cons_of_mem _ hb)
      simp only [Term.assignL, Term.bfunDepthL]
      omega
  induction t using Term.ind with
  | const k => exact Nat.le_refl _
  | var x s =>
    rw [Term.assign]
    split
    · rcases hc with rfl | rfl <;> simp [Term.bfunDepth, Term.tru, Term.fls, Term.bfunDepthL]
    · exact Nat.le_refl _
  | app f as _ ih =>
    have := hL as ih
    simp only [Term.assign, Term.bfunDepth]
    omega
  | op o as ih =>
    have := hL as ih
    simp only [Term.assign, Term.bfunDepth]
    omega
  | binder b bs t ih =>
    rw [Term.assign]
    split
    · exact Nat.le_refl _
    · simp only [Term.bfunDepth]
      omega
  | let_ bs t _ _ => exact Nat.le_refl _
  | paramOp o ps as _ _ => exact Nat.le_refl _

/-! ## Instances of the body of a quantifier -/

variable {I : Interp}

theorem substEnv_set {x : String} {c : Term} {ρ : Env I.U} {b : Bool} (hc : eval I c ρ = .bool b) :
    I.substEnv [(.var x .bool, c)] ρ = ρ.set x .bool (.bool b) := by
  funext y s
  simp only [Interp.substEnv, substOf, List.find?, Env.set, Term.var.injEq]
  by_cases h : x = y ∧ Srt.bool = s
  · obtain ⟨rfl, rfl⟩ := h
    simp [hc]
  · rw [decide_eq_false h]
    simp only
    rw [if_neg fun h' => h ⟨h'.1.symm, h'.2.symm⟩]
    rfl

theorem envOK_set_bool {ρ : Env I.U} (h : I.EnvOK ρ) (x : String) (b : Bool) : I.EnvOK (ρ.set x .bool (.bool b)) := by
  intro y s
  rw [Env.set]
  split
  · next e =>
    rw [e.2]
    exact (I.dom_bool _).2 ⟨b, rfl⟩
  · exact h y s

theorem forall_upd_cons {x : String} {B : List (String × Srt)} {ρ : Env I.U} (hρ : I.EnvOK ρ) {P : Env I.U → Prop} :
    (∀ ρ', Upd I ((x, .bool) :: B) ρ ρ' → P ρ') ↔
      ∀ ρ', Upd I B ρ ρ' → P (ρ'.set x .bool (.bool false)) ∧ P (ρ'.set x .bool (.bool true)) := by
  constructor
  · intro h ρ' hu
    have key : ∀ b, Upd I ((x, .bool) :: B) ρ (ρ'.set x .bool (.bool b)) := by
      refine fun b => ⟨envOK_set_bool hu.1 x b, fun y s hy => ?_⟩
      rw [List.mem_cons, not_or, Prod.mk.injEq] at hy
      rw [Env.set, if_neg hy.1]
      exact hu.2 y s hy.2
    exact ⟨h _ (key _), h _ (key _)⟩
  · intro h ρ' hu
    obtain ⟨b0, e0⟩ := (I.dom_bool _).1 (hρ x .bool)
    obtain ⟨b, e⟩ := (I.dom_bool _).1 (hu.1 x .bool)
    have key : Upd I B ρ (ρ'.set x .bool (.bool b0)) := by
      refine ⟨envOK_set_bool hu.1 x b0, fun y s hy => ?_⟩
      rw [Env.set]
      split
      · next e => rw [e.1, e.2, e0]
      · next e =>
        refine hu.2 y s ?_
        rw [List.mem_cons, not_or, Prod.mk.injEq]
        exact ⟨e, hy⟩
    have back : (ρ'.set x .bool (.bool b0)).set x .bool (.bool b) = ρ' := by
      funext y s
      simp only [Env.set]
      split
      · next e' => rw [e'.1, e'.2, e]
      · rfl
    have := h _ key
    cases b
    · rw [back] at this
      exact this.1
    · rw [back] at this
      exact this.2

/-- The variables of sort `Bool`. -/
def boolVars (bs : List (String × Srt)) : List (String × Srt) := bs.filter fun p => decide (p.2 = .bool)

/-- What the instances of a term are. -/
structure Instances (bs : List (String × Srt)) (t : Term) (l : List Term) : Prop where
  ne : l ≠ []
  nice : ∀ u ∈ l, u.Nice
  sort : ∀ u ∈ l, sortOf u = sortOf t
  depth : ∀ u ∈ l, u.bfunDepth ≤ t.bfunDepth
  kept : ∀ u ∈ l, KeptBy t u
  sem : ∀ (I : Interp) (ρ : Env I.U) (Q : Val I.U → Prop), I.EnvOK ρ →
    ((∀ ρ', Upd I (boolVars bs) ρ ρ' → Q (eval I t ρ')) ↔ ∀ u ∈ l, Q (eval I u ρ))

theorem bfunInstances_ok : ∀ (bs : List (String × Srt)) (t : Term), t.Nice → ∃ l, bfunInstances bs t = .ok l ∧ Instances bs t l
  | [], t, h => by
    refine ⟨[t], rfl, by simp, ?_, ?_, ?_, ?_, ?_⟩
    · intro u hu; rw [List.mem_singleton.1 hu]; exact h
    · intro u hu; rw [List.mem_singleton.1 hu]
    · intro u hu; rw [List.mem_singleton.1 hu]
    · intro u hu; rw [List.mem_singleton.1 hu]; exact .refl _
    · intro I ρ Q hρ
      simp only [List.mem_singleton, forall_eq]
      refine ⟨fun h => h ρ (.refl hρ), fun h ρ' hu => ?_⟩
      have : ρ' = ρ := by
        funext x s
        exact hu.2 x s (by simp [boolVars])
      rwa [this]
  | (x, s) :: bs, t, h => by
    by_cases hs : s = .bool
    · subst hs
      obtain ⟨n0, s0, m0, σ0, σ0', w0, a0⟩ := nice_assign (v := (x, .bool)) (c := .fls) (.inr rfl) rfl h
      obtain ⟨n1, s1, m1, σ1, σ1', w1, a1⟩ := nice_assign (v := (x, .bool)) (c := .tru) (.inl rfl) rfl h
      obtain ⟨l0, e0, i0⟩ := bfunInstances_ok bs _ n0
      obtain ⟨l1, e1, i1⟩ := bfunInstances_ok bs _ n1
      refine ⟨l0 ++ l1, ?_, ?_, ?_, ?_, ?_, ?_, ?_⟩
      · rw [bfunInstances, if_pos rfl]
        exact bind_ok.2 ⟨_, w0, bind_ok.2 ⟨_, a0, bind_ok.2 ⟨_, e0, bind_ok.2 ⟨_, w1, bind_ok.2 ⟨_, a1, bind_ok.2 ⟨_, e1, rfl⟩⟩⟩⟩⟩⟩
      · simp [i0.ne]
      · intro u hu
        exact (List.mem_append.1 hu).elim (i0.nice u) (i1.nice u)
      · intro u hu
        exact (List.mem_append.1 hu).elim (fun h => (i0.sort u h).trans s0) (fun h => (i1.sort u h).trans s1)
      · intro u hu
        exact (List.mem_append.1 hu).elim (fun h => Nat.le_trans (i0.depth u h) (bfunDepth_assign (.inr rfl) t))
          (fun h => Nat.le_trans (i1.depth u h) (bfunDepth_assign (.inl rfl) t))
      · intro u hu
        exact (List.mem_append.1 hu).elim (fun h => (kept_assign (.inr rfl) t).trans (i0.kept u h))
          (fun h => (kept_assign (.inl rfl) t).trans (i1.kept u h))
      · intro I ρ Q hρ
        have hb : boolVars ((x, .bool) :: bs) = (x, .bool) :: boolVars bs := by simp [boolVars]
        rw [hb, forall_upd_cons (P := fun ρ' => Q (eval I t ρ')) hρ]
        simp only [List.mem_append, or_imp, forall_and]
        rw [← i0.sem I ρ Q hρ, ← i1.sem I ρ Q hρ]
        refine and_congr (forall_congr' fun ρ' => forall_congr' fun hu => ?_) (forall_congr' fun ρ' => forall_congr' fun hu => ?_)
        · rw [m0 I ρ' hu.1, substEnv_set (b := false)]
          simp [Term.fls, eval, evalOp, stdOp]
        · rw [m1 I ρ' hu.1, substEnv_set (b := true)]
          simp [Term.tru, eval, evalOp, stdOp]
    · obtain ⟨l, e, i⟩ := bfunInstances_ok bs t h
      refine ⟨l, by rw [bfunInstances, if_neg hs]; exact e, i.ne, i.nice, i.sort, i.depth, i.kept, ?_⟩
      have hb : boolVars ((x, s) :: bs) = boolVars bs := by simp [boolVars, hs]
      rw [hb]
      exact i.sem

/-- Other variables can be changed first. -/
theorem forall_upd_split {bs : List (String × Srt)} {ρ : Env I.U} (hρ : I.EnvOK ρ) {P : Env I.U → Prop} :
    (∀ ρ', Upd I bs ρ ρ' → P ρ') ↔
      ∀ ρ1, Upd I (bs.filter fun p => decide (p.2 ≠ .bool)) ρ ρ1 → ∀ ρ2, Upd I (boolVars bs) ρ1 ρ2 → P ρ2 := by
  constructor
  · intro h ρ1 h1 ρ2 h2
    refine h ρ2 ⟨h2.1, fun x s hx => ?_⟩
    rw [h2.2 x s fun hm => hx (List.mem_of_mem_filter hm), h1.2 x s fun hm => hx (List.mem_of_mem_filter hm)]
  · intro h ρ' hu
    refine h (fun x s => if s = .bool then ρ x s else ρ' x s) ⟨fun x s => ?_, fun x s hx => ?_⟩ ρ' ⟨hu.1, fun x s hx => ?_⟩
    · simp only
      split
      · exact hρ x s
      · exact hu.1 x s
    · simp only
      split
      · rfl
      · next hs => exact hu.2 x s fun hm => hx (List.mem_filter.2 ⟨hm, by simpa using hs⟩)
    · simp only
      split
      · next hs => exact hu.2 x s fun hm => hx (List.mem_filter.2 ⟨hm, by simpa using hs⟩)
      · rfl

/-! ## The result -/

theorem forall₂_self {α : Type} {R : α → α → Prop} (h : ∀ a, R a a) : ∀ l : List α, List.Forall₂ R l l
  | [] => .nil
  | a :: l => .cons (h a) (forall₂_self h l)

/-- What holds of a term and the result of `apply_bfun_elim`. -/
structure BfunPost (t r : Term) : Prop where
  same : Same t r
  sort : sortOf r = sortOf t
  kept : KeptBy t r
  const : ∀ k, t = .const k → r = .const k

theorem sortOfL_congr {as as' : List Term} (h : List.Forall₂ (fun a a' => sortOf a' = sortOf a) as as') : sortOfL as' = sortOfL as := by
  induction h with
  | nil => rfl
  | cons h _ ih => rw [sortOfL, sortOfL, h, ih]

theorem bfun_sort_op {as as' : List Term} (h : List.Forall₂ BfunPost as as') {o : Op} (hs : (sortOf (.op o as)).isSome = true) :
    sortOf (.op o as') = sortOf (.op o as) := by
  have hl := sortOfL_congr (h.imp fun _ _ h => h.sort)
  by_cases ho : o = .bvConst
  · subst ho
    obtain ⟨s, hs'⟩ := Option.isSome_iff_exists.1 hs
    simp only [sortOf] at hs'
    split at hs'
    · next a w hl' =>
      cases h with
      | cons h1 h =>
        cases h with
        | cons h2 h =>
          cases h
          rw [h2.const _ rfl] at hl ⊢
          simp only [sortOf, hl, hl']
    · cases hs'
  · rw [sortOf_op_eq ho, sortOf_op_eq ho, hl]

theorem map_eval_congr {as as' : List Term} (h : List.Forall₂ BfunPost as as') {ρ : Env I.U} (hρ : I.EnvOK ρ) :
    as.map (eval I · ρ) = as'.map (eval I · ρ) := by
  induction h with
  | nil => rfl
  | cons h _ ih => rw [List.map_cons, List.map_cons, ih, h.same I ρ hρ]

theorem sortOf_app_congr {f : Term} {as as' : List Term} (h : sortOfL as' = sortOfL as) : sortOf (.app f as') = sortOf (.app f as) := by
  simp only [sortOf, h]

theorem forall₂_append_cons {R : Term → Term → Prop} (hr : ∀ t, R t t) {a b : Term} (h : R a b) (done as : List Term) :
    List.Forall₂ R (done ++ a :: as) (done ++ b :: as) := by
  induction done with
  | nil => exact .cons h (forall₂_self hr _)
  | cons d done ih => exact .cons (hr d) ih

theorem KeptBy.ite {x a t e : Term} (ha : ∀ u ∈ a.subterms, u ∈ x.subterms) (ht : KeptBy x t) (he : KeptBy x e) : KeptBy x (.op .ite [a, t, e]) := by
  refine ⟨fun k hk => ?_, fun hc u hu => ?_, fun k hk => by cases hk⟩
  · simp only [Term.subterms, List.mem_cons, reduceCtorEq, false_or, Term.mem_subtermsL, exists_eq_or_imp, List.not_mem_nil, or_false,
      exists_eq_left] at hk
    rcases hk with hk | hk | hk
    · exact ha _ hk
    · exact ht.consts k hk
    · exact he.consts k hk
  · simp only [Term.subterms, List.mem_cons, Term.mem_subtermsL, exists_eq_or_imp, List.not_mem_nil, or_false,
      exists_eq_left] at hu
    rcases hu with rfl | hu | hu | hu
    · rfl
    · exact hc u (ha u hu)
    · exact ht.clean hc u hu
    · exact he.clean hc u hu

theorem sortOf_tru : sortOf .tru = some .bool := rfl
theorem sortOf_fls : sortOf .fls = some .bool := rfl

theorem bfunExpand_ok (f : Term) : ∀ (done rest : List Term), (sortOf (.app f (done ++ rest))).isSome = true →
    ∃ r, bfunExpand f done rest = .ok r ∧ Same (.app f (done ++ rest)) r ∧ sortOf r = sortOf (.app f (done ++ rest)) ∧
      KeptBy (.app f (done ++ rest)) r
  | done, [], h => ⟨_, rfl, by rw [List.append_nil]; exact fun _ _ _ => rfl, by rw [List.append_nil], by rw [List.append_nil]; exact .refl _⟩
  | done, a :: as, h => by
    obtain ⟨s, hs⟩ := Option.isSome_iff_exists.1 ((sorted_app h).2 a (by simp))
    rw [bfunExpand, hs]
    simp only [orPanic, bind, Except.bind]
    split
    · next hb =>
      obtain ⟨rfl, -, -⟩ := hb
      have hL : ∀ c, sortOf c = some .bool → sortOf (.app f ((done ++ [c]) ++ as)) = sortOf (.app f (done ++ a :: as)) := by
        intro c hc
        rw [List.append_assoc, List.singleton_append]
        exact sortOf_app_congr (sortOfL_congr (forall₂_append_cons (R := fun a a' => sortOf a' = sortOf a) (fun _ => rfl) (hc.trans hs.symm) done as))
      obtain ⟨t, et, mt, st, kt⟩ := bfunExpand_ok f (done ++ [.tru]) as (by rw [hL _ sortOf_tru]; exact h)
      obtain ⟨e, ee, me, se, ke⟩ := bfunExpand_ok f (done ++ [.fls]) as (by rw [hL _ sortOf_fls]; exact h)
      have kap : ∀ c, IsBoolConst c → KeptBy (.app f (done ++ a :: as)) (.app f ((done ++ [c]) ++ as)) := by
        intro c hc
        rw [List.append_assoc, List.singleton_append]
        exact .app (.refl _) (forall₂_append_cons KeptBy.refl (.boolConst hc a) done as)
      refine ⟨.op .ite [a, t, e], by rw [et, ee], ?_, ?_, ?_⟩
      · intro I ρ hρ
        obtain ⟨b, hb⟩ := (I.dom_bool _).1 (eval_dom a hs hρ)
        have key : ∀ c, eval I c ρ = .bool b → eval I (.app f (done ++ a :: as)) ρ = eval I (.app f ((done ++ [c]) ++ as)) ρ := by
          intro c hc
          simp [eval, evalL_eq_map, hc, hb]
        have hi : eval I (.op .ite [a, t, e]) ρ = if (eval I a ρ).T then eval I t ρ else eval I e ρ := Model.val_ite ⟨I, ρ, hρ⟩ a t e
        cases b
        · rw [hi, if_neg (by rw [hb]; simp), ← me I ρ hρ]
          exact key _ (by simp [Term.fls, eval, evalOp, stdOp])
        · rw [hi, if_pos (by rw [hb]; simp), ← mt I ρ hρ]
          exact key _ (by simp [Term.tru, eval, evalOp, stdOp])
      · obtain ⟨s', hs'⟩ := Option.isSome_iff_exists.1 h
        rw [hs']
        exact sort_ite.2 ⟨hs, by rw [st, hL _ sortOf_tru, hs'], by rw [se, hL _ sortOf_fls, hs']⟩
      · exact .ite (subterms_app (.inr (by simp))) ((kap _ (.inl rfl)).trans kt) ((kap _ (.inr rfl)).trans ke)
    · have := bfunExpand_ok f (done ++ [a]) as (by simpa using h)
      simpa using this

theorem bfunList_ok {g : Term → Res Term} : ∀ {as : List Term}, (∀ a ∈ as, ∃ r, g a = .ok r ∧ BfunPost a r) →
    ∃ rs, bfunList g as = .ok rs ∧ List.Forall₂ BfunPost as rs
  | [], _ => ⟨[], rfl, .nil⟩
  | a :: as, h => by
    obtain ⟨r, e, p⟩ := h a (by simp)
    obtain ⟨rs, es, ps⟩ := bfunList_ok (g := g) (as := as) fun b hb => h b (List.mem_cons_of_mem _ hb)
    exact ⟨r :: rs, by rw [bfunList, e]; simp only [bind, Except.bind, es], .cons p ps⟩

theorem bfunJoin_cases (o : Op) {l : List Term} : (∃ t, l = [t] ∧ bfunJoin o l = t) ∨ bfunJoin o l = .op o l := by
  unfold bfunJoin
  split
  · exact .inl ⟨_, rfl, rfl⟩
  · exact .inr rfl

theorem boolVars_reverse {bs : List (String × Srt)} {ρ ρ' : Env I.U} : Upd I (boolVars bs.reverse) ρ ρ' ↔ Upd I (boolVars bs) ρ ρ' := by
  constructor <;> intro h <;> exact h.mono fun b hb => by simpa [boolVars] using hb

theorem bfunQuant_ok {g : Term → Res Term} {n : Nat} {q : Binder} {o : Op} (hq : (q = .all ∧ o = .and) ∨ (q = .ex ∧ o = .or))
    (hg : ∀ t, t.bfunDepth ≤ n → t.Nice → ∃ r, g t = .ok r ∧ BfunPost t r) {bs : List (String × Srt)} {t : Term}
    (hd : t.bfunDepth + 1 ≤ n) (hn : (Term.binder q bs t).Nice) :
    ∃ r, bfunQuant g o q bs t = .ok r ∧ BfunPost (.binder q bs t) r := by
  have hq' : q = .all ∨ q = .ex := hq.imp And.left And.left
  have ho' : o = .and ∨ o = .or := hq.imp And.right And.right
  obtain ⟨s, hs⟩ := Option.isSome_iff_exists.1 hn.sorted
  obtain ⟨rfl, hne, ht⟩ := (sort_quant hq').1 hs
  obtain ⟨hs1, hs2, hs3⟩ := Term.quoteSafe_binder.1 hn.safe
  obtain ⟨l, el, il⟩ := bfunInstances_ok bs.reverse t ⟨by rw [ht]; rfl, hs3⟩
  have hls : ∀ u ∈ l, sortOf u = some .bool := fun u hu => (il.sort u hu).trans ht
  have hos : sortOf (.op o l) = some .bool := by
    rcases ho' with rfl | rfl
    · exact sort_and.2 ⟨rfl, il.ne, hls⟩
    · exact sort_or.2 ⟨rfl, il.ne, hls⟩
  have hj : (bfunJoin o l).Nice ∧ sortOf (bfunJoin o l) = some .bool ∧ (bfunJoin o l).bfunDepth ≤ n ∧ KeptBy (.binder q bs t) (.binder q bs (bfunJoin o l)) := by
    rcases bfunJoin_cases o (l := l) with ⟨u, rfl, e⟩ | e
    · rw [e]
      have hu : u ∈ [u] := by simp
      exact ⟨il.nice u hu, hls u hu, Nat.le_trans (il.depth u hu) (by omega), .binder (il.kept u hu)⟩
    · rw [e]
      refine ⟨⟨by rw [hos]; rfl, ?_⟩, hos, ?_, ?_⟩
      · rw [Term.quoteSafe]
        exact Term.quoteSafeL_iff.2 fun u hu => (il.nice u hu).safe
      · rw [Term.bfunDepth]
        have := bfunDepthL_le.2 il.depth
        omega
      · refine ⟨fun k hk => ?_, fun hc u hu => ?_, fun k hk => by cases hk⟩
        · simp only [Term.subterms, List.mem_cons, reduceCtorEq, false_or, Term.mem_subtermsL] at hk ⊢
          obtain ⟨u, hu, hk⟩ := hk
          exact (il.kept u hu).consts k hk
        · simp only [Term.subterms, List.mem_cons, Term.mem_subtermsL] at hu
          rcases hu with rfl | rfl | ⟨w, hw, hu⟩
          · rfl
          · rcases ho' with rfl | rfl <;> rfl
          · exact (il.kept w hw).clean (fun v hv => hc v (subterms_binder v hv)) u hu
  obtain ⟨hj1, hj2, hj3, hj4⟩ := hj
  obtain ⟨r, er, pr⟩ := hg _ hj3 hj1
  have hrs : sortOf r = some .bool := pr.sort.trans hj2
  have sem : ∀ (I : Interp) (ρ : Env I.U), I.EnvOK ρ →
      ((eval I (.binder q bs t) ρ).T ↔ (eval I (.binder q (bs.filter fun p => decide (p.2 ≠ .bool)) r) ρ).T) := by
    intro I ρ hρ
    rcases hq with ⟨rfl, rfl⟩ | ⟨rfl, rfl⟩
    · have hjs : ∀ ρ1, (eval I (bfunJoin .and l) ρ1).T ↔ ∀ u ∈ l, (eval I u ρ1).T := by
        intro ρ1
        rcases bfunJoin_cases .and (l := l) with ⟨u, rfl, e⟩ | e
        · rw [e]; simp
        · rw [e, tr_and]
      rw [tr_all hρ, tr_all hρ, forall_upd_split (P := fun ρ' => (eval I t ρ').T) hρ]
      refine forall_congr' fun ρ1 => forall_congr' fun h1 => ?_
      rw [← pr.same I ρ1 h1.1, hjs, ← il.sem I ρ1 (fun v => v.T) h1.1]
      simp only [boolVars_reverse]
    · have hjs : ∀ ρ1, (eval I (bfunJoin .or l) ρ1).T ↔ ∃ u ∈ l, (eval I u ρ1).T := by
        intro ρ1
        rcases bfunJoin_cases .or (l := l) with ⟨u, rfl, e⟩ | e
        · rw [e]; simp
        · rw [e, tr_or]
      rw [tr_ex hρ, tr_ex hρ, ← not_iff_not]
      simp only [not_exists, not_and]
      rw [forall_upd_split (P := fun ρ' => ¬ (eval I t ρ').T) hρ]
      refine forall_congr' fun ρ1 => forall_congr' fun h1 => ?_
      rw [← pr.same I ρ1 h1.1, hjs]
      simp only [not_exists, not_and]
      rw [← il.sem I ρ1 (fun v => ¬ v.T) h1.1]
      simp only [boolVars_reverse]
  have same_of : ∀ r', sortOf r' = some .bool → (∀ (I : Interp) (ρ : Env I.U), I.EnvOK ρ →
      ((eval I (.binder q bs t) ρ).T ↔ (eval I r' ρ).T)) → Same (.binder q bs t) r' := by
    intro r' hr' h I ρ hρ
    let M : Model := ⟨I, ρ, hρ⟩
    exact ((M.isBool_of_sort hs).val_eq (M.isBool_of_sort hr')).2 (h I ρ hρ)
  refine ⟨_, by rw [bfunQuant, el]; simp only [bind, Except.bind, er]; rfl, ?_⟩
  split
  · next he =>
    rw [List.isEmpty_iff] at he
    refine ⟨same_of r hrs fun I ρ hρ => ?_, hrs.trans hs.symm, ?_, fun k hk => by cases hk⟩
    · rw [sem I ρ hρ, he]
      rcases hq' with rfl | rfl
      · rw [tr_all hρ]
        refine ⟨fun h => h ρ (.refl hρ), fun h ρ' hu => ?_⟩
        have : ρ' = ρ := funext fun x => funext fun s => hu.2 x s (by simp)
        rwa [this]
      · rw [tr_ex hρ]
        refine ⟨fun ⟨ρ', hu, h⟩ => ?_, fun h => ⟨ρ, .refl hρ, h⟩⟩
        have : ρ' = ρ := funext fun x => funext fun s => hu.2 x s (by simp)
        rwa [this] at h
    · have := hj4.trans (.binder (b' := q) (bs' := bs) pr.kept)
      refine ⟨fun k hk => this.consts k (subterms_binder _ hk), fun hc u hu => this.clean hc u (subterms_binder _ hu), fun k hk => ?_⟩
      subst hk
      cases k <;> simp [sortOf, Const.sort] at hrs
  · next he =>
    rw [List.isEmpty_iff] at he
    have hbs : sortOf (.binder q (bs.filter fun p => decide (p.2 ≠ .bool)) r) = some .bool := (sort_quant hq').2 ⟨rfl, he, hrs⟩
    exact ⟨same_of _ hbs sem, hbs.trans hs.symm, hj4.trans (.binder pr.kept), fun k hk => by cases hk⟩

theorem bfunGo_ok : ∀ (n : Nat) (t : Term), t.bfunDepth ≤ n → t.Nice → ∃ r, bfunGo n t = .ok r ∧ BfunPost t r
  | 0, t, hd, _ => by
    have := bfunDepth_pos t
    omega
  | n + 1, t, hd, hn => by
    have ih := bfunGo_ok n
    have self : ∀ t, BfunPost t t := fun t => ⟨fun _ _ _ => rfl, rfl, .refl _, fun _ h => h⟩
    cases t with
    | const k => exact ⟨_, rfl, self _⟩
    | var x s => exact ⟨_, rfl, self _⟩
    | paramOp o ps as => exact ⟨_, rfl, self _⟩
    | let_ bs t =>
      have := hn.noLet
      simp [Term.noLet] at this
    | app f as =>
      obtain ⟨h1, h2⟩ := hn
      simp only [Term.quoteSafe, Bool.and_eq_true, Term.quoteSafeL_iff] at h2
      have hL := (bfunDepthL_le (ts := as) (n := n)).1 (by rw [Term.bfunDepth] at hd; omega)
      obtain ⟨rs, e, p⟩ := bfunList_ok (g := bfunGo n) (as := as) fun a ha => ih a (hL a ha) ⟨(sorted_app h1).2 a ha, h2.2 a ha⟩
      have hs := sortOf_app_congr (f := f) (sortOfL_congr (p.imp fun _ _ h => h.sort))
      obtain ⟨r, er, m, s, k⟩ := bfunExpand_ok f [] rs (by rw [List.nil_append, hs]; exact h1)
      rw [List.nil_append] at m s k
      refine ⟨r, by rw [bfunGo, e]; exact er, ?_, s.trans hs, (KeptBy.app (.refl f) (p.imp fun _ _ h => h.kept)).trans k, fun k hk => by cases hk⟩
      intro I ρ hρ
      rw [← m I ρ hρ]
      simp only [eval, evalL_eq_map, map_eval_congr p hρ]
    | op o as =>
      obtain ⟨h1, h2⟩ := hn
      simp only [Term.quoteSafe, Term.quoteSafeL_iff] at h2
      have hL := (bfunDepthL_le (ts := as) (n := n)).1 (by rw [Term.bfunDepth] at hd; omega)
      obtain ⟨rs, e, p⟩ := bfunList_ok (g := bfunGo n) (as := as) fun a ha => ih a (hL a ha) ⟨sorted_op_mem h1 ha, h2 a ha⟩
      refine ⟨.op o rs, by rw [bfunGo, e]; rfl, ?_, bfun_sort_op p h1, .op (p.imp fun _ _ h => h.kept), fun k hk => by cases hk⟩
      intro I ρ hρ
      simp only [eval, evalL_eq_map, map_eval_congr p hρ]
    | binder b bs t =>
      rw [Term.bfunDepth] at hd
      have other : (∃ r, (do let t' ← bfunGo n t; .ok (.binder b bs t')) = Except.ok r ∧ BfunPost (.binder b bs t) r) := by
        obtain ⟨r, e, p⟩ := ih t (by omega) ⟨sorted_binder hn.sorted, (Term.quoteSafe_binder.1 hn.safe).2.2⟩
        refine ⟨.binder b bs r, by rw [e]; rfl, ?_, ?_, .binder p.kept, fun k hk => by cases hk⟩
        · intro I ρ hρ
          simp only [eval]
          exact evalBinder_congr (fun ρ' hρ' => p.same I ρ' hρ') hρ
        · exact sort_binder_congr (forall₂_self (R := fun b b' : String × Srt => b'.2 = b.2) (fun _ => rfl) _) p.sort
      cases b with
      | all => exact bfunQuant_ok (.inl ⟨rfl, rfl⟩) ih (by omega) hn
      | ex => exact bfunQuant_ok (.inr ⟨rfl, rfl⟩) ih (by omega) hn
      | choice => exact other
      | lambda => exact other

theorem bfunElimTerm_ok {t : Term} (h : t.Nice) : ∃ r, bfunElimTerm t = .ok r ∧ BfunPost t r :=
  bfunGo_ok _ t (bfunDepth_le_size t) h

end Carcara
