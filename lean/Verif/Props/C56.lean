import Verif.Lemmas.RareTerms
import Verif.Lemmas.NoPanic
import Verif.Spec.Witness

/-!
# C56: `rare_rewrite`

A step gives arguments for the parameters of a rule supplied by the user. The instance is rewritten by five equations: lists
are dissolved, and `(or true)`, `(or)`, `(and)`, `(and false)` are replaced by constants. Two of these equations are
wrong: the empty disjunction is false, and the empty conjunction is true.
-/

namespace Carcara

/-- The claim of **C56**: with valid rules, accepted steps are sound. -/
def C56Full : Prop :=
  ∀ rules : List (String × RareRule), (∀ p ∈ rules, p.2.Valid) → SoundRule (checkRare rules)

/-! ## Rewriting -/

/-- **C56.** Rewriting ends for every term, and the result does not depend on the number of steps provided. -/
theorem c56_terminates (t : Term) :
    (∃ u, rewriteMeta t = .ok u) ∧ ∀ n u, rewriteGo n t = .ok u → rewriteMeta t = .ok u := by
  obtain ⟨u, hu⟩ := rewriteGo_total t.metaSize t (Nat.le_refl _)
  refine ⟨⟨u, hu⟩, fun n v h => ?_⟩
  have := rewriteGo_eq h hu
  rw [this]
  exact hu

/-- **C56.** Rewriting does not change the value of a term in which lists stand for their elements, if no conjunction or
disjunction is then empty. -/
theorem c56_rewrite_meaning {t u : Term} (h : rewriteMeta t = .ok u) (hf : t.splice.filled = true) (M : Model) :
    M.val u.splice = M.val t.splice := (rewriteGo_same h hf).2 M.I M.env

/-- **C56.** Terms to which no equation applies are not changed. -/
theorem c56_rewrite_settled {t : Term} (h : t.settled = true) : rewriteMeta t = .ok t :=
  rewriteGo_settled _ _ (Nat.le_refl _) h

/-! ## Soundness -/

/-- **C56, what holds for rules with lists.** A step is sound if the rule is valid, has no binders, its instance is well-sorted
and has no empty conjunctions and disjunctions, and no lists are left in the clauses of the step. The full claim is
`C56Full`, refuted below. -/
theorem c56_rare_partial {rules : List (String × RareRule)} {name : String} {r : RareRule}
    (hr : mapGet rules name = some r) (hv : r.Valid) (hplain : ∀ t ∈ r.conclusion :: r.premises, t.plain = true)
    {conclusion : List Term} {premises : List (List Term)} {args : List Term}
    (hinst : ∀ t ∈ r.conclusion :: r.premises, sortOf (t.put (r.inst args)).splice = some .bool ∧
      (t.put (r.inst args)).splice.filled = true)
    (hlist : ∀ c ∈ conclusion :: premises, ∀ t ∈ c, t.listFree = true)
    (h : checkRare rules conclusion premises (.const (.str name) :: args) = .ok ()) : Entails premises conclusion := by
  obtain ⟨hl, ⟨c, rfl, hc⟩, ⟨m, hm, hs⟩, hp⟩ := (checkRare_iff hr hplain).1 h
  have val : ∀ (M : Model) {t u : Term}, rewriteMeta (t.put (r.inst args)) = .ok u → t ∈ r.conclusion :: r.premises →
      u.listFree = true → (M.Holds u ↔ M.Holds (t.put (r.inst args)).splice) := by
    intro M t u ht hm hu
    have := c56_rewrite_meaning ht (hinst t hm).2 M
    rw [Term.splice_listFree u hu] at this
    unfold Model.Holds
    rw [this]
  intro M hM
  rw [Model.sat_singleton, val M hc (List.mem_cons_self ..) (hlist _ (List.mem_cons_self ..) c (List.mem_singleton_self _))]
  refine hv (r.inst args) M (fun v hv => if_neg hv) (fun t ht => (hinst t ht).1) ?_
  have key : ∀ {rs : List Term} {ps : List (List Term)},
      List.Forall₂ (fun q p => ∃ t, p = [t] ∧ rewriteMeta (q.put (r.inst args)) = .ok t ∧ rewriteMeta t = .ok t) rs ps →
      (∀ q ∈ rs, q ∈ r.conclusion :: r.premises) → (∀ c ∈ ps, ∀ t ∈ c, t.listFree = true) → (∀ p ∈ ps, M.Sat p) →
      ∀ q ∈ rs, M.Holds (q.put (r.inst args)).splice := by
    intro rs ps h
    induction h with
    | nil => intro _ _ _ q hq; cases hq
    | cons h _ ih =>
      obtain ⟨t, rfl, ht, _⟩ := h
      intro h1 h2 h3
      refine List.forall_mem_cons.2 ⟨?_, ih (fun q h => h1 q (List.mem_cons_of_mem _ h))
        (fun c h => h2 c (List.mem_cons_of_mem _ h)) fun p h => h3 p (List.mem_cons_of_mem _ h)⟩
      rw [← val M ht (h1 _ (List.mem_cons_self ..)) (h2 _ (List.mem_cons_self ..) t (List.mem_singleton_self _)),
        ← Model.sat_singleton]
      exact h3 _ (List.mem_cons_self ..)
  exact key hp (fun q h => List.mem_cons_of_mem _ h) (fun c h => hlist c (List.mem_cons_of_mem _ h)) hM

/-- **C56, what holds for rules without lists.** If a rule that is no schema is valid as it is written, then every accepted
step is sound, if its arguments have no lists and no empty conjunctions and disjunctions. -/
theorem c56_rare_first_order_partial {rules : List (String × RareRule)} {name : String} {r : RareRule}
    (hr : mapGet rules name = some r) (hf : r.FirstOrder)
    (hv : ∀ M : Model, (∀ p ∈ r.premises, M.Holds p) → M.Holds r.conclusion)
    {conclusion : List Term} {premises : List (List Term)} {args : List Term}
    (hargs : ∀ a ∈ args, a.listFree = true ∧ a.filled = true)
    (h : checkRare rules conclusion premises (.const (.str name) :: args) = .ok ()) : Entails premises conclusion := by
  have hplain : ∀ t ∈ r.conclusion :: r.premises, t.plain = true := fun t ht => (hf.2 t ht).2.1
  obtain ⟨hl, ⟨c, rfl, hc⟩, ⟨m, hm, hs⟩, hp⟩ := (checkRare_iff hr hplain).1 h
  obtain ⟨m1, m2, m3⟩ := rareMap_spec hl hm
  -- what a parameter stands for
  have hinst : ∀ v, r.inst args v = .var v.1 v.2 ∨ (r.inst args v ∈ args ∧ sortOf (r.inst args v) = some v.2) := by
    rintro ⟨y, s⟩
    unfold RareRule.inst
    have := m1 y s
    split
    · next he =>
      rw [if_pos he] at this
      cases ha : argOf r.args args y with
      | none => exact .inl rfl
      | some t =>
        rw [ha] at this
        have hmem := mem_of_mapGet this
        obtain ⟨x, q, _, hq, e, ht⟩ := m3 _ hmem
        refine .inr ⟨ht, ?_⟩
        rcases hs _ hmem with h | h
        · rw [Option.getD_some, ← h]; rfl
        · exfalso
          cases e
          simp only [rarePoly, hq, Option.map_some, Option.getD_some] at h
          rw [hf.1 _ (mem_of_mapGet hq)] at h
          cases h
    · exact .inl rfl
  have hterm : ∀ v, (r.inst args v).listFree = true ∧ (r.inst args v).filled = true := by
    intro v
    rcases hinst v with e | ⟨h, _⟩
    · rw [e]; exact ⟨rfl, rfl⟩
    · exact hargs _ h
  have val : ∀ (M : Model) {t u : Term}, rewriteMeta (t.put (r.inst args)) = .ok u → t ∈ r.conclusion :: r.premises →
      M.val u = eval M.I t (fun x s => eval M.I (r.inst args (x, s)) M.env) := by
    intro M t u ht hm
    obtain ⟨h1, h2, h3, h4⟩ := hf.2 t hm
    have hlf := Term.put_listFree (fun v => (hterm v).1) t h3
    have hsp := Term.splice_listFree _ hlf
    have := c56_rewrite_meaning ht (by rw [hsp]; exact Term.put_filled (fun v => (hterm v).2) t h4) M
    rw [hsp, Term.splice_listFree u (rewriteGo_listFree ht hlf)] at this
    rw [this]
    exact eval_put t h2 (by rw [h1]; rfl)
  intro M hM
  let N : Model := ⟨M.I, fun x s => eval M.I (r.inst args (x, s)) M.env, fun x s => by
    rcases hinst (x, s) with e | ⟨_, e⟩
    · rw [e]; exact M.env_dom x s
    · exact eval_dom _ e M.env_dom⟩
  have holds : ∀ {t u : Term}, rewriteMeta (t.put (r.inst args)) = .ok u → t ∈ r.conclusion :: r.premises →
      (M.Holds u ↔ N.Holds t) := by
    intro t u ht hm
    unfold Model.Holds
    rw [val M ht hm]
    rfl
  rw [Model.sat_singleton, holds hc (List.mem_cons_self ..)]
  refine hv N ?_
  have key : ∀ {rs : List Term} {ps : List (List Term)},
      List.Forall₂ (fun q p => ∃ t, p = [t] ∧ rewriteMeta (q.put (r.inst args)) = .ok t ∧ rewriteMeta t = .ok t) rs ps →
      (∀ q ∈ rs, q ∈ r.conclusion :: r.premises) → (∀ p ∈ ps, M.Sat p) → ∀ q ∈ rs, N.Holds q := by
    intro rs ps h
    induction h with
    | nil => intro _ _ q hq; cases hq
    | cons h _ ih =>
      obtain ⟨t, rfl, ht, _⟩ := h
      intro h1 h3
      refine List.forall_mem_cons.2 ⟨?_, ih (fun q h => h1 q (List.mem_cons_of_mem _ h))
        fun p h => h3 p (List.mem_cons_of_mem _ h)⟩
      rw [← holds ht (h1 _ (List.mem_cons_self ..)), ← Model.sat_singleton]
      exact h3 _ (List.mem_cons_self ..)
  exact key hp (fun q h => List.mem_cons_of_mem _ h) hM

/-! ## Accepted steps and panics -/

/-- **C56.** What is accepted: if the arguments have the sorts of the parameters and no equation applies to the instance, then the
premises and the conclusion of the instance make an accepted step. -/
theorem c56_complete {rules : List (String × RareRule)} {name : String} {r : RareRule} (hr : mapGet rules name = some r)
    (hplain : ∀ t ∈ r.conclusion :: r.premises, t.plain = true) {args : List Term} (hl : r.args.length = args.length)
    (hdecl : ∀ x ∈ r.args, (mapGet r.params x).isSome = true)
    (hsort : ∀ x p, mapGet r.params x = some p → ∀ t, argOf r.args args x = some t → sortOf t = some p.sort ∨ p.poly = true)
    (hset : ∀ t ∈ r.conclusion :: r.premises, (t.put (r.inst args)).settled = true) :
    checkRare rules [r.conclusion.put (r.inst args)] (r.premises.map fun t => [t.put (r.inst args)])
      (.const (.str name) :: args) = .ok () := by
  obtain ⟨m, hm⟩ := rareMap_total (params := r.params) (xs := r.args.reverse) (ts := args.reverse) (m0 := []) (by simp [hl])
    (by simpa using hdecl)
  obtain ⟨m1, m2, m3⟩ := rareMap_spec hl hm
  refine (checkRare_iff hr hplain).2 ⟨hl, ⟨_, rfl, c56_rewrite_settled (hset _ (List.mem_cons_self ..))⟩, ⟨m, hm, ?_⟩, ?_⟩
  · intro p hp
    obtain ⟨x, q, _, hq, e, _⟩ := m3 p hp
    obtain ⟨k, v⟩ := p
    cases e
    have hg := m1 x q.sort
    rw [(mapGet_eq_some_of_mem m2).2 hp, if_pos (by rw [hq]; rfl)] at hg
    rcases hsort x q hq v hg.symm with h | h
    · left; exact h.symm
    · right; simp [rarePoly, hq, h]
  · have key : ∀ rs : List Term, (∀ t ∈ rs, (t.put (r.inst args)).settled = true) →
        List.Forall₂ (fun q p => ∃ t, p = [t] ∧ rewriteMeta (q.put (r.inst args)) = .ok t ∧ rewriteMeta t = .ok t) rs
          (rs.map fun t => [t.put (r.inst args)]) := by
      intro rs h
      induction rs with
      | nil => exact .nil
      | cons t rs ih =>
        have ht := c56_rewrite_settled (h t (List.mem_cons_self ..))
        exact .cons ⟨_, rfl, ht, ht⟩ (ih fun t h' => h t (List.mem_cons_of_mem _ h'))
    exact key _ fun t h => hset t (List.mem_cons_of_mem _ h)

private theorem rewriteMeta_calm (t : Term) : rewriteMeta t ≠ panic := by
  obtain ⟨⟨u, hu⟩, _⟩ := c56_terminates t
  rw [hu]
  intro h
  cases h

private theorem rareSorts_calm {params : List (String × RareParam)} {m : List (Term × Term)} : rareSorts params m ≠ panic := by
  induction m with
  | nil => simp [rareSorts, nopanic]
  | cons p m ih => simp [rareSorts, nopanic, ih]

private theorem rareStable_calm {ps : List (List Term)} : rareStable ps ≠ panic := by
  induction ps with
  | nil => simp [rareStable, nopanic]
  | cons p ps ih => simp [rareStable, nopanic, ih, rewriteMeta_calm]

private theorem rarePremises_calm {f : String × Srt → Term} {rs : List Term} : ∀ {ps : List (List Term)} {σ : Subst},
    PutOK f σ → (∀ r ∈ rs, r.plain = true) →
    rarePremises σ rs ps ≠ panic ∧ ∀ σ', rarePremises σ rs ps = .ok σ' → PutOK f σ' := by
  induction rs with
  | nil =>
    intro ps σ h _
    refine ⟨by simp [rarePremises, nopanic], fun σ' e => ?_⟩
    cases ps <;> (cases e; exact h)
  | cons r rs ih =>
    intro ps σ h hp
    cases ps with
    | nil => exact ⟨by simp [rarePremises, nopanic], fun σ' e => by cases e; exact h⟩
    | cons p ps =>
      obtain ⟨σ1, e1, h1⟩ := h.apply (hp r (List.mem_cons_self ..))
      have := ih (ps := ps) h1 fun r h => hp r (List.mem_cons_of_mem _ h)
      refine ⟨?_, fun σ' e => ?_⟩
      · simp only [rarePremises, e1]
        simp [nopanic, rewriteMeta_calm, this.1]
      · simp only [rarePremises, bind_ok, e1, ok_inj, Prod.exists, Prod.mk.injEq] at e
        obtain ⟨_, _, _, _, ⟨rfl, rfl⟩, _, _, _, _, e⟩ := e
        exact this.2 σ' e

/-- **C56.** With rules without binders whose arguments are declared, no step makes the rule panic. -/
theorem c56_no_panic_partial {rules : List (String × RareRule)}
    (hrules : ∀ p ∈ rules, (∀ x ∈ p.2.args, (mapGet p.2.params x).isSome = true) ∧
      ∀ t ∈ p.2.conclusion :: p.2.premises, t.plain = true)
    (conclusion : List Term) (premises : List (List Term)) (args : List Term) :
    checkRare rules conclusion premises args ≠ panic := by
  unfold checkRare
  split
  · next name args =>
    cases hr : mapGet rules name with
    | none => simp [orErr, nopanic]
    | some r =>
      obtain ⟨hd, hp⟩ := hrules _ (mem_of_mapGet hr)
      by_cases hl : r.args.length = args.length
      · obtain ⟨m, hm⟩ := rareMap_total (params := r.params) (xs := r.args.reverse) (ts := args.reverse) (m0 := [])
          (by simp [hl]) (by simpa using hd)
        have hput := rareMap_put hl hm
        have hm' : rareMap r.params r.args.reverse (args.reverse ++ [.const (.str name)]) [] = .ok m := by
          rw [rareMap_tail (by simp [hl]), hm]
        obtain ⟨c1, c2⟩ := rarePremises_calm (ps := premises) hput fun t h => hp t (List.mem_cons_of_mem _ h)
        have c3 : ∀ σ, rarePremises ⟨m, none, []⟩ r.premises premises = .ok σ → ∃ q, σ.apply r.conclusion = .ok q := by
          intro σ h
          obtain ⟨σ', e, _⟩ := (c2 σ h).apply (hp _ (List.mem_cons_self ..))
          exact ⟨_, e⟩
        simp only [orErr, bind_panic, require_panic, get1_panic, ok_panic, false_or, ok_inj, exists_eq_left', List.reverse_cons,
          rareSorts_calm, rareStable_calm, rewriteMeta_calm, assertEq_panic, hm', and_false, exists_false, or_false, c1, Ne]
        rintro ⟨_, _, _, _, _, _, _, _, σ, hσ, h⟩
        obtain ⟨q, e⟩ := c3 σ hσ
        rw [e] at h
        obtain ⟨got, σ'⟩ := q
        simp [ok_panic, bind_panic, rareStable_calm, rewriteMeta_calm, assertEq_panic] at h
      · simp [orErr, nopanic, hl]
  · simp [nopanic]

/-! ## Examples and refutations -/

private def pv : Term := .var "p" .bool
private def qv : Term := .var "q" .bool
private def eq (a b : Term) : Term := .op .equals [a, b]
private def name (s : String) : Term := .const (.str s)
private def T : Srt := .atom "@T" []

/-- `(declare-rare-rule symm ((a Int) (b Int)) :premises ((= a b)) :args (a b) :conclusion (= b a))`. -/
private def eqSymm : RareRule where
  params := [("a", ⟨.int, false⟩), ("b", ⟨.int, false⟩)]
  args := ["a", "b"]
  premises := [eq (.var "a" .int) (.var "b" .int)]
  conclusion := eq (.var "b" .int) (.var "a" .int)

/-- `(declare-rare-rule bool-or-false ((@T Type) (xs @T :list) (ys @T :list)) :args (xs ys)
:conclusion (= (or xs false ys) (or xs ys)))`. -/
private def orFalse : RareRule where
  params := [("xs", ⟨T, true⟩), ("ys", ⟨T, true⟩)]
  args := ["xs", "ys"]
  premises := []
  conclusion := eq (.op .or [.var "xs" T, .op .fls [], .var "ys" T]) (.op .or [.var "xs" T, .var "ys" T])

private theorem orFalse_valid : orFalse.Valid := by
  intro f M _ _ _
  have e : (orFalse.conclusion.put f).splice =
      .op .equals [.op .or (Term.spliceL [f ("xs", T)] ++ .op .fls [] :: Term.spliceL [f ("ys", T)]),
        .op .or (Term.spliceL [f ("xs", T)] ++ Term.spliceL [f ("ys", T)])] := by
    show Term.splice (.op .equals [.op .or ([f ("xs", T)] ++ .op .fls [] :: [f ("ys", T)]),
      .op .or ([f ("xs", T)] ++ [f ("ys", T)])]) = _
    rw [Term.splice, Term.spliceL_term rfl, Term.spliceL_term rfl, Term.splice, Term.splice, Term.spliceL_append,
      Term.spliceL_append, Term.spliceL_term (a := .op .fls []) rfl]
    rfl
  rw [e, M.holds_eq]
  simp only [M.val_op, evalOp, stdOp, Option.getD_some]
  congr 1
  simp only [List.map_append, List.map_cons, List.mem_append, List.mem_cons, eq_iff_iff]
  have hf : ¬ (M.val (.op .fls [])).T := by simp [M.val_op, evalOp, stdOp]
  constructor
  · rintro ⟨v, hv | rfl | hv, ht⟩
    · exact ⟨v, .inl hv, ht⟩
    · exact absurd ht hf
    · exact ⟨v, .inr hv, ht⟩
  · rintro ⟨v, hv | hv, ht⟩
    · exact ⟨v, .inl hv, ht⟩
    · exact ⟨v, .inr (.inr hv), ht⟩

/-- The conditions of the first-order theorem hold of a rule with a premise: from `(= (+ 1 x) 2)` the rule gives
`(= 2 (+ 1 x))`. -/
example :
    let x : Term := .var "x" .int
    let a : Term := .op .add [.const (.int 1), x]
    let b : Term := .const (.int 2)
    checkRare [("eq-symm", eqSymm)] [eq b a] [[eq a b]] [name "eq-symm", a, b] = .ok () ∧ eqSymm.FirstOrder ∧
      (∀ M : Model, (∀ p ∈ eqSymm.premises, M.Holds p) → M.Holds eqSymm.conclusion) ∧
      ∀ c ∈ [a, b], c.listFree = true ∧ c.filled = true := by
  refine ⟨by decide +kernel, ⟨by decide, by decide⟩, fun M h => ?_, by decide⟩
  have := h _ (List.mem_singleton_self _)
  rw [eq, M.holds_eq] at this
  exact (M.holds_eq _ _).2 this.symm

/-- The conditions of the theorem for lists: `(= (or p false q) (or p q))`, where `xs` is the list of `p` and `ys` that of `q`. -/
example :
    let args := [Term.op .rareList [pv], .op .rareList [qv]]
    let c := eq (.op .or [pv, .op .fls [], qv]) (.op .or [pv, qv])
    checkRare [("bool-or-false", orFalse)] [c] [] (name "bool-or-false" :: args) = .ok () ∧ orFalse.Valid ∧
      (∀ t ∈ orFalse.conclusion :: orFalse.premises, t.plain = true ∧ sortOf (t.put (orFalse.inst args)).splice = some .bool ∧
        (t.put (orFalse.inst args)).splice.filled = true) ∧ c.listFree = true :=
  ⟨by decide +kernel, orFalse_valid, by decide +kernel, by decide⟩

/-- `c56_complete` applies to the rule with a premise. -/
example :
    let args : List Term := [.const (.int 1), .const (.int 2)]
    (∀ x ∈ eqSymm.args, (mapGet eqSymm.params x).isSome = true) ∧
      (∀ t ∈ eqSymm.conclusion :: eqSymm.premises, (t.put (eqSymm.inst args)).settled = true) := by decide

/-- **C56 is false.** With the valid rule `bool-or-false` and two empty lists, `(= (or false) true)` is accepted: the instance is
`(= (or false) (or))`, and `(or)` is rewritten to `true`. -/
theorem c56_rare_fails : ¬ C56Full := by
  intro h
  let M := Witness.allFalse
  have := h [("bool-or-false", orFalse)] (by intro p hp; rw [List.mem_singleton.1 hp]; exact orFalse_valid)
    [eq (.op .or [.op .fls []]) (.op .tru [])] [] [name "bool-or-false", .op .rareList [], .op .rareList []]
    (by decide +kernel) (by unfold ClauseOK; decide) (fun _ h => by cases h) M (fun _ h => by cases h)
  rw [Model.sat_singleton, eq, M.holds_eq] at this
  simp [M.val_op, evalOp, stdOp, Val.prop] at this

/-- The other wrong equation: the conjunction of an empty list is rewritten to `false`. -/
theorem c56_rewrite_and_fails :
    ∃ t : Term, rewriteMeta t = .ok (.op .fls []) ∧ ∀ M : Model, M.Holds t.splice ∧ ¬ M.Holds (.op .fls []) := by
  refine ⟨.op .and [.op .rareList []], by decide +kernel, fun M => ⟨?_, ?_⟩⟩
  · show M.Holds (.op .and [])
    simp
  · simp

/-- A rule may use a name in `:args` that is no parameter. Every step with this rule makes the checker panic. -/
theorem c56_no_panic_fails : ∃ rules conclusion args, checkRare rules conclusion [] args = panic ∧
    ∀ p ∈ rules, ∀ t ∈ p.2.conclusion :: p.2.premises, t.plain = true :=
  ⟨[("r", ⟨[], ["x"], [], pv⟩)], [pv], [name "r", pv], by decide +kernel, by decide⟩

/-- A rule whose conclusion contains `let` makes the checker panic too, although its parameters are declared. -/
theorem c56_no_panic_let_fails : ∃ rules conclusion args, checkRare rules conclusion [] args = panic ∧
    ∀ p ∈ rules, ∀ x ∈ p.2.args, (mapGet p.2.params x).isSome = true :=
  ⟨[("r", ⟨[("p", ⟨.bool, false⟩)], ["p"], [], .let_ [("x", pv)] pv⟩)], [pv], [name "r", pv], by decide +kernel, by decide⟩

end Carcara
