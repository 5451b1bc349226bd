import Verif.Lemmas.ElabPolyeq

/-!
# C58: assumptions that match a premise of the problem only modulo reordering are elaborated into accepted steps

The property holds if the two terms differ only in the order of equalities (and, outside elaborated mode, in the notation of literals), for
terms without indexed operators, `choice` and `lambda`. It fails for assumptions that match a premise modulo n-ary expansion, and for the
terms left out.
-/

namespace Carcara

open Spec

/-! ## Equality modulo reordering -/

theorem polyElab_new_inv {E : TableEnv} {el : Bool} (id : String) (depth : Nat) : (PolyElab.new (.new id) depth).Inv E el := by
  refine ⟨by simp [PolyElab.new, HashMapStack.new], by simp [PolyElab.new, HashMapStack.new, IdHelper.new], ?_⟩
  intro i scope hs e he
  obtain rfl : scope = [] := by
    have := List.mem_of_getElem? hs
    simpa [PolyElab.new, HashMapStack.new] using this
  simp at he

theorem elaborateEq_works {E : TableEnv} {el : Bool} {a b : Term} (h : polyeq a b = .ok true) (ha : elaborable el a) (hb : elaborable el b)
    (hs : el = true → a.separate b) (id : String) (depth : Nat) :
    Works E el (elaborateEq a b (.new (.new id) depth)) a b (.new (.new id) depth) := by
  obtain ⟨r, e, hr⟩ := ElabPair.poly ha hb
  rw [h] at e
  cases e
  exact elabEq_ok _ (Nat.le_refl _) ⟨hr.1 rfl, ha, hb, hs⟩ (polyElab_new_inv id depth)

/-- Two terms that the comparison modulo reordering accepts: the elaborator does not panic and produces a proof of their equality, at the
depth it was asked for, in which every step is accepted.

Missing: terms with indexed operators, `choice`, `lambda`, applications of terms that are not symbols, quotients by zero (the elaborator
panics, see below), and, in elaborated mode, literals in different notations (rejected, see below). -/
theorem c58_equality_partial (E : TableEnv) (el : Bool) {a b : Term} (h : polyeq a b = .ok true) (ha : elaborable el a)
    (hb : elaborable el b) (hs : el = true → a.separate b) (id : String) (depth : Nat) :
    ∃ n p, elaborateEq a b (.new (.new id) depth) = .ok (n, p) ∧ n.clause = [.op .equals [a, b]] ∧ n.depth = depth ∧ Accepted E el [] n := by
  obtain ⟨n, p, h1, _, _, h4⟩ := elaborateEq_works (E := E) h ha hb hs id depth
  refine ⟨n, p, h1, h4.clause, ?_, h4.ok⟩
  have h5 := h4.low
  have h6 := h4.high
  simp only [PolyElab.new, PolyElab.depth, HashMapStack.new, HashMapStack.height, List.length_singleton] at h5 h6
  omega

theorem findPremise_first {t q : Term} (h : assumeEq t q = .ok true) : ∀ {before after : List Term}, (∀ x ∈ before, assumeEq t x = .ok false) →
    findPremise t (before ++ q :: after) = .ok q
  | [], after, _ => by
    rw [List.nil_append, findPremise, h]; rfl
  | x :: before, after, hb => by
    rw [List.cons_append, findPremise, hb x (by simp)]
    simp only [bind, Except.bind]
    rw [if_neg (by simp)]
    exact findPremise_first h fun y hy => hb y (by simp [hy])

theorem Spec.Accepted.mono {E : TableEnv} {el : Bool} {ps qs : List Node} {n : Node} (h : Accepted E el ps n) (hs : ∀ p ∈ ps, p ∈ qs) :
    Accepted E el qs n := by
  induction h with
  | given h => exact .given (hs _ h)
  | step _ h1 h2 ih => exact .step ih h1 h2
  | refl h1 h2 => exact .refl h1 h2
  | bind h1 _ h2 h3 h4 ih => exact .bind h1 ih h2 h3 h4
  | bindLet h1 _ h2 _ h3 h4 h5 ih1 ih2 => exact .bindLet h1 ih1 h2 ih2 h3 h4 h5

theorem resolution_assume (q t : Term) : resolutionWithArgs [t] [[q], [.op .not [q], t]] [q, .tru] = .ok () := by
  rw [resolutionWithArgs_exact]
  refine ⟨by simp, .pos (e := (· ∈ [t])) ⟨by simp, by simp, fun x => ?_⟩ (.done fun _ => Iff.rfl)⟩
  simp

/-- An assumption whose first match among the premises of the problem differs from it only in the order of equalities: the elaborated proof
assumes the premise itself and derives the assumption from it by accepted steps.

Missing: matches modulo n-ary expansion, for which it fails (below), and the terms left out in `c58_equality_partial`. -/
theorem c58_assume_partial (E : TableEnv) (el : Bool) {t q : Term} {before after : List Term} (hbefore : ∀ x ∈ before, assumeEq t x = .ok false)
    (hq : assumeEq t q = .ok true) (h : polyeq q t = .ok true) (hq' : elaborable el q) (ht : elaborable el t) (hs : el = true → q.separate t)
    (id : String) (depth : Nat) :
    ∃ n, elabAssume (before ++ q :: after) id depth t = .ok n ∧ n.clause = [t] ∧ n.depth = depth ∧ Accepted E el [.assume id depth q] n := by
  obtain ⟨n, p, h1, h2, h3, h4⟩ := c58_equality_partial E el h hq' ht hs id depth
  obtain ⟨_, p', h1', hi, _⟩ := elaborateEq_works (E := E) h hq' ht hs id depth
  rw [h1] at h1'
  cases h1'
  obtain ⟨id1, ids1, e1, hl1⟩ := IdHelper.nextId_same hi.ids_ne
  obtain ⟨id2, ids2, e2, -⟩ := IdHelper.nextId_same (h := ids1)
    (by intro h; rw [h] at hl1; exact hi.ids_ne (List.length_eq_zero_iff.1 hl1.symm))
  unfold elabAssume
  rw [findPremise_first hq hbefore]
  simp only [bind, Except.bind]
  rw [h1]
  simp only
  rw [e1]
  simp only
  rw [e2]
  refine ⟨_, rfl, rfl, rfl, .step ?_ ?_ (stepOK_resolution rfl ?_)⟩
  · intro m hm
    simp only [List.mem_cons, List.not_mem_nil, or_false] at hm
    rcases hm with rfl | rfl
    · exact .given (by simp)
    · refine .step (by simpa using h4.mono (by simp)) (by simp [h3]) ⟨equiv1, rfl, ?_⟩
      rw [List.map_cons, List.map_nil, h2]
      simp [equiv1, get1, get2, match2, Term.removeNegErr, Term.removeNegation, assertEq, require, bind, Except.bind, orErr]
  · intro m hm
    simp only [List.mem_cons, List.not_mem_nil, or_false] at hm
    rcases hm with rfl | rfl <;> exact Nat.le_refl _
  · exact resolution_assume q t

/-! ## N-ary expansion -/

theorem nested_ne_nil {o : Op} {right : Bool} {as : List Term} {t : Term} (h : Nested o right as t) : as ≠ [] := by
  cases h <;> simp

theorem nested_expandRight {o : Op} {as : List Term} {t : Term} (h : Nested o true as t) : expandRight o as = .ok t := by
  induction h with
  | one a => rfl
  | @toRight a t as _ h ih =>
    obtain ⟨b, bs, rfl⟩ := List.exists_cons_of_ne_nil (nested_ne_nil h)
    rw [expandRight, ih]
    · rfl
    · simp
  | toLeft h => simp at h

theorem nested_expandLeft {o : Op} {as : List Term} {t : Term} (h : Nested o false as t) : expandLeft o as = .ok t := by
  induction h with
  | one a => rfl
  | toRight h => simp at h
  | @toLeft a t as _ h ih =>
    obtain ⟨b, bs, rfl⟩ := List.exists_cons_of_ne_nil (nested_ne_nil h)
    rw [expandLeft] at ih
    cases ih
    rw [List.cons_append, expandLeft, List.foldl_append]
    rfl

theorem assocPremises_right {go : ElabCall} {o : Op} (ho : o.naryCase = some .rightAssoc) {as : List Term} {t : Term} (h : Nested o true as t)
    (p : PolyElab) : ∃ l, assocPremises go o as t p = .ok ([], l, p) := by
  induction h with
  | one a => exact ⟨[a], by simp [assocPremises, differing, bind, Except.bind]⟩
  | @toRight a t as _ h ih =>
    obtain ⟨b, bs, rfl⟩ := List.exists_cons_of_ne_nil (nested_ne_nil h)
    obtain ⟨l, hl⟩ := ih
    refine ⟨l ++ [a], ?_⟩
    rw [assocPremises]
    · simp only [assocParts, ho, if_true, bind, Except.bind, differing]
      rw [hl]
      rfl
    · simp
  | toLeft h => simp at h

theorem assocPremises_left {go : ElabCall} {o : Op} (ho : o.naryCase = some .leftAssoc) {as : List Term} {t : Term} (h : Nested o false as t)
    (p : PolyElab) : ∃ l, assocPremises go o as.reverse t p = .ok ([], l, p) := by
  induction h with
  | one a => exact ⟨[a], by simp [assocPremises, differing, bind, Except.bind]⟩
  | toRight h => simp at h
  | @toLeft a t as _ h ih =>
    have hne : as.reverse ≠ [] := by simpa using nested_ne_nil h
    obtain ⟨l, hl⟩ := ih
    refine ⟨l ++ [a], ?_⟩
    obtain ⟨b, bs, hb⟩ := List.exists_cons_of_ne_nil hne
    have hno : ¬ (some NaryCase.leftAssoc = some NaryCase.rightAssoc) := by simp
    rw [hb] at hl
    rw [List.reverse_append, List.reverse_singleton, List.singleton_append, hb, assocPremises]
    · simp only [assocParts, ho, if_true, if_neg hno, bind, Except.bind, differing]
      rw [hl]
      rfl
    · simp

theorem elabAssoc_nested {go : ElabCall} {o : Op} {right : Bool} (ho : o.naryCase = some (if right then .rightAssoc else .leftAssoc))
    {as : List Term} {t : Term} (h : Nested o right as t) (p : PolyElab) :
    elabAssoc go o as t p = p.addStep [.op .equals [.op o as, t]] "nary_elim" [] := by
  cases right with
  | true =>
    have hc : o.naryCase = some .rightAssoc := ho
    obtain ⟨l, hl⟩ := assocPremises_right (go := go) hc h p
    simp only [elabAssoc, hc, true_or, if_true, bind, Except.bind, hl, List.isEmpty_nil]
  | false =>
    have hc : o.naryCase = some .leftAssoc := ho
    obtain ⟨l, hl⟩ := assocPremises_left (go := go) hc h p
    have : ¬ (some NaryCase.leftAssoc = some NaryCase.rightAssoc) := by simp
    simp only [elabAssoc, hc, or_true, if_true, if_neg this, bind, Except.bind, hl, List.isEmpty_nil]

theorem nested_binary {o : Op} {right : Bool} {as : List Term} {t : Term} (h : Nested o right as t) (hl : 2 < as.length) :
    ∃ x y, t = .op o [x, y] := by
  cases h with
  | one a => simp at hl
  | toRight => exact ⟨_, _, rfl⟩
  | toLeft => exact ⟨_, _, rfl⟩

theorem swapped_not_equals {o : Op} (h : o ≠ .equals) (as : List Term) (t : Term) : swapped (.op o as) t = .ok false := by
  unfold swapped
  split
  · next he => exact absurd (Term.op.inj he).1 h
  · rfl

theorem assoc_not_equals {o : Op} {right : Bool} (ho : o.naryCase = some (if right then .rightAssoc else .leftAssoc)) : o ≠ .equals := by
  rintro rfl
  cases right <;> cases ho

/-- What the elaborator does with a nested application on either side. -/
theorem elabEq_nested {o : Op} {right : Bool} {as : List Term} {a b t : Term}
    (ho : o.naryCase = some (if right then .rightAssoc else .leftAssoc)) (hn : Nested o right as t) (hl : 2 < as.length)
    (hab : a = .op o as ∧ b = t ∨ a = t ∧ b = .op o as) (id : String) (depth : Nat) :
    ∃ i p, elaborateEq a b (.new (.new id) depth) =
      .ok (.step ⟨i, depth, [.op .equals [.op o as, t]], "nary_elim", []⟩ [] [] none, p) ∧ p.ids.stack ≠ [] := by
  obtain ⟨x, y, rfl⟩ := nested_binary hn hl
  obtain ⟨i, ids, e1, hids⟩ := IdHelper.nextId_same (h := IdHelper.new id) (by simp [IdHelper.new])
  have e : (PolyElab.new (.new id) depth).addStep [.op .equals [.op o as, .op o [x, y]]] "nary_elim" [] =
      .ok (.step ⟨i, depth, [.op .equals [.op o as, .op o [x, y]]], "nary_elim", []⟩ [] [] none, .new ids depth) := by
    have hd : (PolyElab.new (.new id) depth).depth = depth := by simp [PolyElab.new, PolyElab.depth, HashMapStack.new, HashMapStack.height]
    unfold PolyElab.addStep
    rw [show (PolyElab.new (.new id) depth).ids = .new id from rfl, e1, hd]
    rfl
  have hne : Term.op o as ≠ .op o [x, y] := by
    intro h
    cases h
    simp at hl
  have key : ∀ k, elabImpl (elabEq k) a b (.new (.new id) depth) =
      (PolyElab.new (.new id) depth).addStep [.op .equals [.op o as, .op o [x, y]]] "nary_elim" [] := by
    intro k
    rcases hab with ⟨rfl, rfl⟩ | ⟨rfl, rfl⟩
    · unfold elabImpl
      rw [if_neg hne, swapped_not_equals (assoc_not_equals ho)]
      simp only [bind, Except.bind]
      rw [if_neg (by simp)]
      simp only [elabShapes, elabOps]
      rw [if_neg (by simp), if_pos (by simp; omega), if_neg (by omega), if_pos (by simp), if_pos hl, elabAssoc_nested ho hn]
    · unfold elabImpl
      rw [if_neg (Ne.symm hne), swapped_not_equals (assoc_not_equals ho)]
      simp only [bind, Except.bind]
      rw [if_neg (by simp)]
      simp only [elabShapes, elabOps]
      rw [if_neg (by simp), if_pos (by simp; omega), if_pos (by simp), if_pos hl, elabAssoc_nested ho hn]
  have hsz : 0 < a.size := by
    rcases hab with ⟨rfl, rfl⟩ | ⟨rfl, rfl⟩ <;> simp [Term.size]
  obtain ⟨k, hk⟩ : ∃ k, a.size + b.size = k + 1 := ⟨a.size + b.size - 1, by omega⟩
  have hg : (PolyElab.new (.new id) depth).cache.get (a, b) = none := rfl
  refine ⟨i, ⟨ids, depth, ⟨[[((a, b), .step ⟨i, depth, [.op .equals [.op o as, .op o [x, y]]], "nary_elim", []⟩ [] [] none)]]⟩⟩, ?_, ?_⟩
  rotate_left
  · intro h
    rw [h] at hids
    simp [IdHelper.new] at hids
  unfold elaborateEq
  rw [hk, elabEq, hg]
  simp only [bind, Except.bind]
  rw [key, e]
  rfl

/-- A step of a rule that is not in `given` is accepted as a step. -/
theorem Spec.Accepted.step_inv {E : TableEnv} {el : Bool} {given : List Node} {d : NodeData} {ps : List Node}
    (h : Accepted E el given (.step d ps [] none)) (hg : .step d ps [] none ∉ given) (hr : d.rule ≠ "refl") :
    (∀ p ∈ ps, Accepted E el given p) ∧ StepOK E el d ps := by
  cases h with
  | given h => exact absurd h hg
  | step h1 _ h2 => exact ⟨h1, h2⟩
  | refl h => exact absurd h hr

theorem naryElim_nested {o : Op} {right : Bool} (ho : o.naryCase = some (if right then .rightAssoc else .leftAssoc)) {as : List Term} {t : Term}
    (h : Nested o right as t) (hl : 2 < as.length) :
    naryElim [.op .equals [.op o as, t]] [] [] = .ok () ↔ o ∈ [Op.add, .sub, .mult, .implies] := by
  have hlen : 2 ≤ as.length := by omega
  have hr : naryElim [.op .equals [.op o as, t]] [] [] = (do let e ← naryExpected o as; require (t = e)) := by
    simp [naryElim, get1, match2, require, hlen, bind, Except.bind]
  rw [hr]
  cases right with
  | true =>
    have hc : o.naryCase = some .rightAssoc := ho
    have := nested_expandRight h
    cases o <;> simp_all [Op.naryCase, naryExpected, bind, Except.bind, require]
  | false =>
    have hc : o.naryCase = some .leftAssoc := ho
    have := nested_expandLeft h
    cases o <;> simp_all [Op.naryCase, naryExpected, bind, Except.bind, require, err]

/-- An n-ary application and its nested form, in any order: the elaborator produces a `nary_elim` step, which is accepted only for the four
operators that the checker's `nary_elim` knows, and always states the equality from the n-ary to the nested form. -/
theorem c58_nary_equality {o : Op} {right : Bool} {as : List Term} {a b t : Term}
    (ho : o.naryCase = some (if right then .rightAssoc else .leftAssoc)) (hn : Nested o right as t) (hl : 2 < as.length)
    (hab : a = .op o as ∧ b = t ∨ a = t ∧ b = .op o as) (id : String) (depth : Nat) :
    ∃ n p, elaborateEq a b (.new (.new id) depth) = .ok (n, p) ∧ n.clause = [.op .equals [.op o as, t]] ∧
      ∀ E el, Accepted E el [] n ↔ o ∈ [Op.add, .sub, .mult, .implies] := by
  obtain ⟨i, p, e, _⟩ := elabEq_nested ho hn hl hab id depth
  refine ⟨_, p, e, rfl, fun E el => ⟨fun h => ?_, fun h => ?_⟩⟩
  · exact (naryElim_nested ho hn hl).1 (Spec.StepOK.rule (h.step_inv (by simp) (by simp)).2 (r := naryElim) rfl)
  · exact .step (by simp) (by simp) ⟨naryElim, rfl, (naryElim_nested ho hn hl).2 h⟩

/-- An assumption whose first match among the premises of the problem is its n-ary or nested form: the steps that derive it are accepted
exactly if it is the premise that is n-ary, and the operator is one of the four. -/
theorem c58_nary_assume {o : Op} {right : Bool} {as : List Term} {q t u : Term} {before after : List Term}
    (hbefore : ∀ x ∈ before, assumeEq t x = .ok false) (hq : assumeEq t q = .ok true)
    (ho : o.naryCase = some (if right then .rightAssoc else .leftAssoc)) (hn : Nested o right as u) (hl : 2 < as.length)
    (hab : q = .op o as ∧ t = u ∨ q = u ∧ t = .op o as) (id : String) (depth : Nat) :
    ∃ n, elabAssume (before ++ q :: after) id depth t = .ok n ∧ n.clause = [t] ∧
      ∀ E el, Accepted E el [.assume id depth q] n ↔ q = .op o as ∧ o ∈ [Op.add, .sub, .mult, .implies] := by
  obtain ⟨i, p, e, hne⟩ := elabEq_nested ho hn hl hab id depth
  obtain ⟨id1, ids1, e1, hl1⟩ := IdHelper.nextId_same hne
  obtain ⟨id2, ids2, e2, -⟩ := IdHelper.nextId_same (h := ids1)
    (by intro h; rw [h] at hl1; exact hne (List.length_eq_zero_iff.1 hl1.symm))
  have hx : Term.op o as ≠ u := by
    obtain ⟨x, y, rfl⟩ := nested_binary hn hl
    intro h
    cases h
    simp at hl
  unfold elabAssume
  rw [findPremise_first hq hbefore]
  simp only [bind, Except.bind]
  rw [e]
  simp only
  rw [e1]
  simp only
  rw [e2]
  refine ⟨_, rfl, rfl, fun E el => ⟨fun h => ?_, fun ⟨h1, h2⟩ => ?_⟩⟩
  · have h1 := (h.step_inv (by simp [Node.mk]) (by simp)).1 _ (List.mem_cons_of_mem _ (List.mem_singleton_self _))
    have h2 := h1.step_inv (by simp) (by simp)
    have h3 := Spec.StepOK.rule h2.2 (r := equiv1) rfl
    have h4 := Spec.StepOK.rule ((h2.1 _ (List.mem_singleton_self _)).step_inv (by simp) (by simp)).2 (r := naryElim) rfl
    refine ⟨?_, (naryElim_nested ho hn hl).1 h4⟩
    simp [equiv1, Node.clause, get1, get2, match2, Term.removeNegErr, Term.removeNegation, bind, Except.bind, orErr] at h3
    split at h3
    · simp at h3
    · next h5 => exact (assertEq_ok.1 h5).symm
  · obtain ⟨-, rfl⟩ := hab.resolve_right fun h => hx (h1.symm.trans h.1)
    subst h1
    refine .step ?_ ?_ (stepOK_resolution rfl ?_)
    · intro m hm
      simp only [List.mem_cons, List.not_mem_nil, or_false] at hm
      rcases hm with rfl | rfl
      · exact .given (by simp)
      · refine .step ?_ (by simp [Node.depth]) ⟨equiv1, rfl, ?_⟩
        · intro m hm
          simp only [List.mem_cons, List.not_mem_nil, or_false] at hm
          subst hm
          exact .step (by simp) (by simp) ⟨naryElim, rfl, (naryElim_nested ho hn hl).2 h2⟩
        · simp [Node.clause, equiv1, get1, get2, match2, Term.removeNegErr, Term.removeNegation, assertEq, require, bind, Except.bind, orErr]
    · intro m hm
      simp only [List.mem_cons, List.not_mem_nil, or_false] at hm
      rcases hm with rfl | rfl <;> exact Nat.le_refl _
    · exact resolution_assume _ _

/-! ## What fails -/

/-- The node reached by going from steps to their premises. -/
def Node.premiseAt : List Nat → Node → Option Node
  | [], n => some n
  | i :: is, .step _ ps [] none => ps[i]?.bind (premiseAt is)
  | _, _ => none

theorem Spec.Accepted.premiseAt {E : TableEnv} {el : Bool} {given : List Node} (hg : ∀ g ∈ given, ∃ i d t, g = .assume i d t) {m : Node} :
    ∀ {is : List Nat} {n : Node}, Accepted E el given n → n.premiseAt is = some m → Accepted E el given m
  | [], n, h, hm => by
    simp only [Node.premiseAt, Option.some.injEq] at hm
    exact hm ▸ h
  | i :: is, n, h, hm => by
    cases h with
    | given h =>
      obtain ⟨_, _, _, rfl⟩ := hg _ h
      simp [Node.premiseAt] at hm
    | step h1 _ _ =>
      rw [Node.premiseAt, Option.bind_eq_some_iff] at hm
      obtain ⟨x, hx, hm⟩ := hm
      exact premiseAt hg (h1 x (List.mem_of_getElem? hx)) hm
    | refl => simp [Node.premiseAt] at hm
    | bind => simp [Node.premiseAt] at hm
    | bindLet => simp [Node.premiseAt] at hm

/-- The node is a step with the given rule that the rule rejects. -/
def Node.rejects (name : String) (r : Rule) : Node → Bool
  | .step d ps [] none => d.rule = name ∧ r d.clause (ps.map Node.clause) d.args ≠ .ok ()
  | _ => false

/-- A `refl` step that the elaborated mode rejects outside of subproofs. -/
def Node.rejectsRefl : Node → Bool
  | .step d [] [] none => d.rule = "refl" ∧ strictRefl ⟨[], 0⟩ d.clause ≠ .ok ⟨[], 0⟩
  | _ => false

theorem Spec.Accepted.not_of_rejects {E : TableEnv} {el : Bool} {q : Node} (hq : ∃ i d t, q = .assume i d t) {name : String} {r : Rule}
    (hr : getRule E el name = some r.lift) (hne : name ≠ "refl") {n : Node} {is : List Nat}
    (h : ((n.premiseAt is).map (Node.rejects name r)) = some true) : ¬ Accepted E el [q] n := by
  intro ha
  obtain ⟨m, hm, hrej⟩ := Option.map_eq_some_iff.1 h
  have := ha.premiseAt (by simpa using hq) hm
  unfold Node.rejects at hrej
  split at hrej
  · simp only [decide_eq_true_eq] at hrej
    obtain ⟨rfl, hrej⟩ := hrej
    obtain ⟨i, d, t, rfl⟩ := hq
    exact hrej (Spec.StepOK.rule (this.step_inv (by simp) hne).2 hr)
  · simp at hrej

theorem Spec.Accepted.not_of_rejectsRefl {E : TableEnv} (hE : ∀ a, E.other "refl" a ≠ .ok ()) {q : Node} (hq : ∃ i d t, q = .assume i d t) {n : Node} {is : List Nat}
    (h : ((n.premiseAt is).map Node.rejectsRefl) = some true) : ¬ Accepted E true [q] n := by
  intro ha
  obtain ⟨m, hm, hrej⟩ := Option.map_eq_some_iff.1 h
  have := ha.premiseAt (by simpa using hq) hm
  unfold Node.rejectsRefl at hrej
  split at hrej
  · next d =>
    simp only [decide_eq_true_eq] at hrej
    obtain ⟨i, d', t, rfl⟩ := hq
    cases this with
    | given h => simp at h
    | step _ _ h =>
      obtain ⟨r, h, h'⟩ := h
      rw [hrej.1] at h
      have := congrFun (Option.some.inj h) { conclusion := d.clause, premises := [], args := d.args }
      exact hE _ (this.trans h')
    | refl _ h => exact hrej.2 (h _)
  · simp at hrej

theorem exists_of_eval {α : Type} {r : Res α} {f : α → Bool} (h : (match r with | .ok a => f a | .error _ => false) = true) :
    ∃ a, r = .ok a ∧ f a = true := by
  split at h
  · exact ⟨_, rfl, h⟩
  · simp at h

section

private abbrev bv (x : String) : Term := .var x .bool
private abbrev iv (x : String) : Term := .var x .int
private abbrev eqs (a b : Term) : Term := .op .equals [a, b]
private abbrev num (i : Int) : Term := .const (.int i)
private abbrev rat (r : Rat) : Term := .const (.real r)
/-- `(ite (= x y) 1 2)` -/
private abbrev pick (x y : String) : Term := .op .ite [eqs (iv x) (iv y), num 1, num 2]

/-- **C58 fails for n-ary assumptions.** `(and p q r)` may be assumed if the problem asserts `(and (and p q) r)`, but the elaborated proof
has a step that is rejected. -/
theorem c58_nary_fails (E : TableEnv) (el : Bool) : assumeEq (.op .and [bv "p", bv "q", bv "r"]) (.op .and [.op .and [bv "p", bv "q"], bv "r"]) = .ok true ∧
    ∃ n, elabAssume [.op .and [.op .and [bv "p", bv "q"], bv "r"]] "h1" 0 (.op .and [bv "p", bv "q", bv "r"]) = .ok n ∧
      ¬ Accepted E el [.assume "h1" 0 (.op .and [.op .and [bv "p", bv "q"], bv "r"])] n := by
  have h : assumeEq (.op .and [bv "p", bv "q", bv "r"]) (.op .and [.op .and [bv "p", bv "q"], bv "r"]) = .ok true := by decide +kernel
  refine ⟨h, ?_⟩
  obtain ⟨n, h1, _, h2⟩ := c58_nary_assume (o := .and) (right := false) (as := [bv "p", bv "q", bv "r"])
    (u := .op .and [.op .and [bv "p", bv "q"], bv "r"]) (before := []) (after := []) (by simp) h rfl
    (.toLeft rfl (as := [_, _]) (.toLeft rfl (as := [_]) (.one _))) (by simp) (.inr ⟨rfl, rfl⟩) "h1" 0
  exact ⟨n, h1, fun h => absurd ((h2 E el).1 h).2 (by decide)⟩

/-- An instance of `c58_nary_assume` with accepted steps: the problem asserts `(=> p q r)`, and the proof assumes `(=> p (=> q r))`. -/
example (E : TableEnv) (el : Bool) : ∃ n, elabAssume [bv "p", .op .implies [bv "p", bv "q", bv "r"]] "h1" 0
      (.op .implies [bv "p", .op .implies [bv "q", bv "r"]]) = .ok n ∧
    Accepted E el [.assume "h1" 0 (.op .implies [bv "p", bv "q", bv "r"])] n := by
  obtain ⟨n, h1, _, h2⟩ := c58_nary_assume (o := .implies) (right := true) (as := [bv "p", bv "q", bv "r"])
    (q := .op .implies [bv "p", bv "q", bv "r"]) (t := .op .implies [bv "p", .op .implies [bv "q", bv "r"]])
    (before := [bv "p"]) (after := []) (by decide +kernel) (by decide +kernel) rfl
    (.toRight rfl (.toRight rfl (.one _))) (by simp) (.inl ⟨rfl, rfl⟩) "h1" 0
  exact ⟨n, h1, (h2 E el).2 ⟨rfl, by decide⟩⟩

/-- `(= (+ (ite (= x y) 1 2) (ite (= z y) 1 2) 3) 7)` -/
private def wideSum : Term := eqs (.op .add [pick "x" "y", pick "z" "y", num 3]) (num 7)
/-- `(= (+ (+ (ite (= y x) 1 2) (ite (= y z) 1 2)) 3) 7)` -/
private def nestedSum : Term := eqs (.op .add [.op .add [pick "y" "x", pick "y" "z"], num 3]) (num 7)

/-- **C58 fails for left-associative operators with two arguments that differ**, even for an operator that `nary_elim` knows: the premises
of the `cong` step are in the order in which the arguments are taken, from the last to the first. -/
theorem c58_left_assoc_fails (E : TableEnv) (el : Bool) : assumeEq nestedSum wideSum = .ok true ∧
    ∃ n, elabAssume [wideSum] "h1" 0 nestedSum = .ok n ∧ ¬ Accepted E el [.assume "h1" 0 wideSum] n := by
  refine ⟨by decide +kernel, ?_⟩
  obtain ⟨n, h1, h2⟩ := exists_of_eval (r := elabAssume [wideSum] "h1" 0 nestedSum)
    (f := fun n => (n.premiseAt [1, 0, 0, 0]).map (Node.rejects "cong" Carcara.cong) = some true) (by decide +kernel)
  exact ⟨n, h1, Spec.Accepted.not_of_rejects (is := [1, 0, 0, 0]) ⟨_, _, _, rfl⟩ (name := "cong") (r := Carcara.cong) rfl (by decide) (by simpa using h2)⟩

/-- **C58 fails in elaborated mode for literals in different notations**: `(< 0.5 1.0)` and `(< (/ 1.0 2.0) 1.0)`. The step that states that
the literals are equal is a `refl` step, which the elaborated mode accepts for identical terms only. (`hE`: there
is no other `refl` rule, which does not look at the context.) -/
theorem c58_literals_fails (E : TableEnv) (hE : ∀ a, E.other "refl" a ≠ .ok ()) : assumeEq (.op .lt [.op .realDiv [rat 1, rat 2], rat 1]) (.op .lt [rat (1/2), rat 1]) = .ok true ∧
    ∃ n, elabAssume [.op .lt [rat (1/2), rat 1]] "h1" 0 (.op .lt [.op .realDiv [rat 1, rat 2], rat 1]) = .ok n ∧
      ¬ Accepted E true [.assume "h1" 0 (.op .lt [rat (1/2), rat 1])] n := by
  refine ⟨by decide +kernel, ?_⟩
  obtain ⟨n, h1, h2⟩ := exists_of_eval (r := elabAssume [.op .lt [rat (1/2), rat 1]] "h1" 0 (.op .lt [.op .realDiv [rat 1, rat 2], rat 1]))
    (f := fun n => (n.premiseAt [1, 0, 0]).map Node.rejectsRefl = some true) (by decide +kernel)
  exact ⟨n, h1, Spec.Accepted.not_of_rejectsRefl hE (is := [1, 0, 0]) ⟨_, _, _, rfl⟩ (by simpa using h2)⟩

/-- **C58 fails with a panic** for assumptions that the checker accepts: chains of comparisons (`todo!()`), an application to one argument,
an n-ary application below an equality that is turned around, a difference below `choice` or below an indexed operator, and a quotient by
zero. -/
theorem c58_panics (q t : Term) (h : (q, t) ∈ [
      (Term.op .lt [iv "a", iv "b", iv "c"], Term.op .and [.op .lt [iv "a", iv "b"], .op .lt [iv "b", iv "c"]]),
      (.op .or [bv "p"], bv "p"),
      (eqs (.op .and [bv "p", bv "q", bv "r"]) (bv "s"), eqs (bv "s") (.op .and [.op .and [bv "p", bv "q"], bv "r"])),
      (eqs (.binder .choice [("x", .int)] (eqs (iv "x") (iv "a"))) (iv "c"), eqs (.binder .choice [("x", .int)] (eqs (iv "a") (iv "x"))) (iv "c")),
      (eqs (.paramOp .bvExtract [num 1, num 0] [.op .ite [eqs (iv "x") (iv "y"), .var "u" (.bv 4), .var "v" (.bv 4)]]) (.var "w" (.bv 2)),
        eqs (.paramOp .bvExtract [num 1, num 0] [.op .ite [eqs (iv "y") (iv "x"), .var "u" (.bv 4), .var "v" (.bv 4)]]) (.var "w" (.bv 2))),
      (eqs (rat (1/2)) (.op .realDiv [rat 1, rat 0]), eqs (.op .realDiv [rat 1, rat 2]) (.op .realDiv [rat 1, rat 0]))]) :
    assumeEq t q = .ok true ∧ elabAssume [q] "h1" 0 t = panic := by
  simp only [List.mem_cons, Prod.mk.injEq, List.not_mem_nil, or_false] at h
  rcases h with ⟨rfl, rfl⟩ | ⟨rfl, rfl⟩ | ⟨rfl, rfl⟩ | ⟨rfl, rfl⟩ | ⟨rfl, rfl⟩ | ⟨rfl, rfl⟩ <;>
    exact ⟨by decide +kernel, panic_of_eval (by decide +kernel)⟩

mutual
/-- The rules and depths of the steps of a tree of nodes, from the root down. -/
private def trace : Node → List (String × Nat)
  | .assume _ d _ => [("assume", d)]
  | .step d ps _ prev => (d.rule, d.depth) :: (traceList ps ++ traceOpt prev)
  | .subproof l _ _ => trace l
private def traceList : List Node → List (String × Nat)
  | [] => []
  | n :: ns => trace n ++ traceList ns
private def traceOpt : Option Node → List (String × Nat)
  | none => []
  | some n => trace n
end

/-! Terms that meet the hypotheses of `c58_assume_partial`: equalities in different orders below a quantifier and a `let`. -/

private def asserted : Term := .binder .all [("x", .int)] (.let_ [("v", eqs (iv "x") (iv "a"))] (.op .or [eqs (bv "v") (bv "q"), bv "p"]))
private def assumed : Term := .binder .all [("x", .int)] (.let_ [("v", eqs (iv "a") (iv "x"))] (.op .or [eqs (bv "q") (bv "v"), bv "p"]))

example : assumeEq assumed (bv "p") = .ok false ∧ assumeEq assumed asserted = .ok true ∧ polyeq asserted assumed = .ok true := by decide +kernel

example : elaborable true asserted ∧ elaborable true assumed ∧ asserted.separate assumed := by
  refine ⟨by decide +kernel, by decide +kernel, by decide +kernel⟩

example : (elabAssume [bv "p", asserted] "h1" 0 assumed).map trace = .ok [("resolution", 0), ("assume", 0), ("equiv1", 0), ("bind", 1),
    ("reordering", 1), ("bind_let", 2), ("eq_symmetric", 1), ("cong", 2), ("eq_symmetric", 2)] := by decide +kernel

end

end Carcara
