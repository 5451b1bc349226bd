import Verif.Model.ElabPolyeqPass
import Verif.Spec.ElabPolyeqPass
import Verif.Lemmas.ReordEquiv
import Verif.Props.C58
import Verif.Props.C42

/-! # Facts about the steps that the elaboration of equality modulo reordering builds -/

namespace Carcara

open Spec

variable {E : TableEnv} {el : Bool}

theorem Spec.elaborable.mode {t : Term} (h : elaborable true t) : elaborable el t := fun u hu => ⟨(h u hu).1, (h u hu).2.1, fun _ => (h u hu).2.2 rfl⟩

theorem Spec.elaborable.unamb {t : Term} (h : elaborable true t) : unamb t := fun u hu => (h u hu).2.2 rfl

theorem Spec.elaborable.sub {t u : Term} (h : elaborable el t) (hu : ∀ x ∈ u.subterms, x ∈ t.subterms) : elaborable el u := fun x hx => h x (hu x hx)

/-- On terms whose literals are written in one way the comparison modulo reordering is symmetric and says `Reord`. -/
theorem polyeq_reord {a b : Term} (h : polyeq a b = .ok true) (ha : elaborable true a) (hb : elaborable true b) : Reord a b := by
  obtain ⟨r, e, hr⟩ := ElabPair.poly ha hb
  rw [h] at e
  cases e
  exact hr.1 rfl

theorem polyeq_decided {a b : Term} (ha : elaborable true a) (hb : elaborable true b) : ∃ r, polyeq a b = .ok r ∧ (r = true ↔ Reord a b) :=
  ElabPair.poly ha hb

theorem polyeq_of_reord {a b : Term} (h : Reord a b) (ha : elaborable true a) (hb : elaborable true b) : polyeq a b = .ok true := by
  obtain ⟨r, e, hr⟩ := ElabPair.poly ha hb
  rw [e, hr.2 h]

theorem sepNode_comm (u v : Term) : sepNode u v = sepNode v u := by
  have key : ∀ (c : Const) (v : Term), sepNode (.const c) v = sepNode v (.const c) := by
    intro c v
    cases v with
    | const d => cases c <;> cases d <;> rfl
    | _ => cases c <;> rfl
  cases u with
  | const c => exact key c v
  | _ =>
    cases v with
    | const c => exact (key c _).symm
    | _ => rfl

theorem separate_symm {a b : Term} (h : a.separate b) : b.separate a := by
  intro u hu v hv
  rw [sepNode_comm]
  exact h v hv u hu

theorem separate_sub {a b x y : Term} (h : a.separate b) (hx : ∀ u ∈ x.subterms, u ∈ a.subterms) (hy : ∀ u ∈ y.subterms, u ∈ b.subterms) :
    x.separate y := fun u hu v hv => h u (hx u hu) v (hy v hv)

theorem polyElab_ids_inv {ids : IdHelper} (hi : ids.stack.length = 1) (depth : Nat) : (PolyElab.new ids depth).Inv E el := by
  refine ⟨by simp [PolyElab.new, HashMapStack.new], by simp [PolyElab.new, HashMapStack.new, hi], ?_⟩
  intro i scope hs e he
  obtain rfl : scope = [] := by
    have := List.mem_of_getElem? hs
    simpa [PolyElab.new, HashMapStack.new] using this
  simp at he

/-- The elaborator proves an equality modulo reordering. -/
theorem elaborateEq_at {a b : Term} (h : Reord a b) (ha : elaborable true a) (hb : elaborable true b) (hs : el = true → a.separate b) {ids : IdHelper}
    (hi : ids.stack.length = 1) (depth : Nat) :
    ∃ n p, elaborateEq a b (.new ids depth) = .ok (n, p) ∧ n.clause = [.op .equals [a, b]] ∧ n.depth = depth ∧ Accepted E el [] n ∧
      p.ids.stack.length = 1 := by
  obtain ⟨n, p, h1, h2, h3, h4⟩ := elabEq_ok (E := E) (el := el) (a.size + b.size) (Nat.le_refl _) ⟨h, ha.mode, hb.mode, hs⟩ (polyElab_ids_inv hi depth)
  refine ⟨n, p, h1, h4.clause, ?_, h4.ok, ?_⟩
  · have h5 := h4.low
    have h6 := h4.high
    simp only [PolyElab.new, PolyElab.depth, HashMapStack.new, HashMapStack.height, List.length_singleton] at h5 h6
    omega
  · rw [h2.ids, h3.2]
    rfl

theorem nextId_one {h : IdHelper} (hi : h.stack.length = 1) : ∃ id h', h.nextId = .ok (id, h') ∧ h'.stack.length = 1 := by
  obtain ⟨id, h', e, hl⟩ := IdHelper.nextId_same (h := h) (by intro e; rw [e] at hi; simp at hi)
  exact ⟨id, h', e, hl.trans hi⟩

theorem new_one (id : String) : (IdHelper.new id).stack.length = 1 := rfl

/-! ## Single steps -/

theorem resolution_neg {q t : Term} (h : t ≠ .op .not [q]) : resolutionWithArgs [t] [[.op .not [q], t], [q]] [q, .fls] = .ok () := by
  rw [resolutionWithArgs_exact]
  refine ⟨by simp, .neg (e := (· ∈ [t])) ⟨by simp, by simp, fun x => ?_⟩ (.done fun _ => Iff.rfl)⟩
  simp only [List.mem_cons, List.not_mem_nil, or_false]
  constructor
  · rintro rfl; simpa using h
  · rintro (h | h)
    · tauto
    · simp at h

/-- A term is not its own negation, not even modulo reordering. -/
theorem reord_not : ∀ (n : Nat) {q : Term}, q.size ≤ n → unamb q → ¬ Reord q (.op .not [q])
  | 0, q, h, _ => by have := q.size_pos; omega
  | n + 1, q, hn, hq => by
    intro h
    generalize ht : Term.op .not [q] = t at h
    cases h with
    | op hs =>
      cases ht
      cases hs with
      | cons h hs =>
        cases hs
        simp only [Term.size, Term.sizeL] at hn
        exact reord_not n (by omega) (hq.sub (subterms_op (by simp))) h
    | swap => cases ht
    | lit h =>
      subst ht
      exact litPoly_unamb h (hq _ (Term.self_mem_subterms _)) rfl
    | _ => cases ht

theorem equiv1_from {id : String} {depth : Nat} {a b : Term} {n : Node} (h : n.clause = [.op .equals [a, b]]) :
    StepOK E el { id, depth, clause := [.op .not [a], b], rule := "equiv1" } [n] := by
  refine ⟨equiv1, rfl, ?_⟩
  rw [List.map_cons, List.map_nil, h]
  simp [equiv1, get1, get2, match2, Term.removeNegErr, Term.removeNegation, assertEq, require, bind, Except.bind, orErr]

theorem symm_from {id : String} {depth : Nat} {a b : Term} {n : Node} (h : n.clause = [.op .equals [a, b]]) :
    StepOK E el { id, depth, clause := [.op .equals [b, a]], rule := "symm" } [n] := by
  refine ⟨symm, rfl, ?_⟩
  rw [List.map_cons, List.map_nil, h]
  simp [symm, get1, match2, assertEq, require, bind, Except.bind]

theorem trans_from {id : String} {depth : Nat} {a b c : Term} {m n : Node} (hm : m.clause = [.op .equals [a, b]]) (hn : n.clause = [.op .equals [b, c]]) :
    StepOK E el { id, depth, clause := [.op .equals [a, c]], rule := "trans" } [m, n] := by
  refine ⟨trans, rfl, ?_⟩
  rw [List.map_cons, List.map_cons, List.map_nil, hm, hn]
  simp only [trans, bind_ok, get1_ok, match2_ok, Prod.exists]
  exact ⟨_, rfl, _, _, rfl, [(a, b), (b, c)], rfl, chain_findChain (.cons (.cons (.nil _)))⟩

theorem trans_from3 {id : String} {depth : Nat} {a b c e : Term} {m n o : Node} (hm : m.clause = [.op .equals [a, b]])
    (hn : n.clause = [.op .equals [b, c]]) (ho : o.clause = [.op .equals [c, e]]) :
    StepOK E el { id, depth, clause := [.op .equals [a, e]], rule := "trans" } [m, n, o] := by
  refine ⟨trans, rfl, ?_⟩
  rw [List.map_cons, List.map_cons, List.map_cons, List.map_nil, hm, hn, ho]
  simp only [trans, bind_ok, get1_ok, match2_ok, Prod.exists]
  exact ⟨_, rfl, _, _, rfl, [(a, b), (b, c), (c, e)], rfl, chain_findChain (.cons (.cons (.cons (.nil _))))⟩

theorem addTrans_eq {a b c e : Term} {m n : Node} (hm : m.clause = [.op .equals [a, b]]) (hn : n.clause = [.op .equals [c, e]]) (id : String) :
    addTrans m n id = .ok (.step { id, depth := m.depth, clause := [.op .equals [a, e]], rule := "trans" } [m, n] [] none) := by
  rw [addTrans, hm, hn]; rfl

theorem addSymm_eq {a b : Term} {n : Node} (h : n.clause = [.op .equals [a, b]]) (id : String) :
    addSymm n id = .ok (.step { id, depth := n.depth, clause := [.op .equals [b, a]], rule := "symm" } [n] [] none) := by
  rw [addSymm, h]; rfl

/-- `equiv1` and a resolution with it. -/
theorem through_accepted {given : List Node} {depth : Nat} {id1 id2 : String} {a b : Term} {eq n : Node} (he : eq.clause = [.op .equals [a, b]])
    (hed : eq.depth = depth) (hea : Accepted E el given eq) (hn : n.clause = [a]) (hnd : n.depth = depth) (hna : Accepted E el given n)
    (hne : b ≠ .op .not [a]) :
    Accepted E el given (.step { id := id2, depth, clause := [b], rule := "resolution", args := [a, .fls] }
      [.step { id := id1, depth, clause := [.op .not [a], b], rule := "equiv1" } [eq] [] none, n] [] none) := by
  refine .step ?_ ?_ (stepOK_resolution rfl ?_)
  · intro m hm
    simp only [List.mem_cons, List.not_mem_nil, or_false] at hm
    rcases hm with rfl | rfl
    · exact .step (by simpa using hea) (by simp [hed]) (equiv1_from he)
    · exact hna
  · intro m hm
    simp only [List.mem_cons, List.not_mem_nil, or_false] at hm
    rcases hm with rfl | rfl
    · exact Nat.le_refl _
    · exact Nat.le_of_eq hnd
  · simp only [List.map_cons, List.map_nil, hn]
    exact resolution_neg hne

/-! ## `ite_intro` -/

theorem ifRes_true {α : Type} {c : Res Bool} {x y : Res α} (h : c = .ok true) : ifRes c x y = x := by rw [ifRes, h]; rfl

theorem ifRes_false {α : Type} {c : Res Bool} {x y : Res α} (h : c = .ok false) : ifRes c x y = y := by rw [ifRes, h]; rfl

theorem andRes_decided {x y : Res Bool} {P Q : Prop} (hx : ∃ r, x = .ok r ∧ (r = true ↔ P)) (hy : ∃ r, y = .ok r ∧ (r = true ↔ Q)) :
    ∃ r, andRes x y = .ok r ∧ (r = true ↔ P ∧ Q) := by
  obtain ⟨r, rfl, hr⟩ := hx
  obtain ⟨s, rfl, hs⟩ := hy
  cases r
  · exact ⟨false, rfl, by simpa using fun h => absurd (hr.2 h) (by simp)⟩
  · exact ⟨s, rfl, by rw [hs]; simpa using fun _ => hr.1 rfl⟩

/-- `s1`, `s2` and `(ite cond r1 r2)` are equal modulo reordering. -/
def ValidIte (cond r1 s1 r2 s2 : Term) : Prop :=
  Reord s1 s2 ∧ ∃ a b c, s1 = .op .ite [a, b, c] ∧ Reord a cond ∧ Reord b r1 ∧ Reord c r2

theorem isValidIte_decided {cond r1 s1 r2 s2 : Term} (h0 : elaborable true cond) (h1 : elaborable true r1) (h2 : elaborable true s1)
    (h3 : elaborable true r2) (h4 : elaborable true s2) :
    ∃ r, isValidIte cond r1 s1 r2 s2 = .ok r ∧ (r = true ↔ ValidIte cond r1 s1 r2 s2) := by
  unfold isValidIte ValidIte
  refine andRes_decided (polyeq_decided h2 h4) ?_
  split
  · next a b c =>
    obtain ⟨r, e, hr⟩ := andRes_decided (polyeq_decided (a := a) (h2.sub (subterms_op (by simp))) h0)
      (andRes_decided (polyeq_decided (a := b) (h2.sub (subterms_op (by simp))) h1) (polyeq_decided (a := c) (h2.sub (subterms_op (by simp))) h3))
    refine ⟨r, e, hr.trans ⟨fun h => ⟨a, b, c, rfl, h⟩, ?_⟩⟩
    rintro ⟨a', b', c', e', h⟩
    cases e'
    exact h
  · next hne => exact ⟨false, rfl, by simpa using fun a b c e => absurd e (hne a b c)⟩

theorem elaborable_op {o : Op} {as : List Term} (h1 : divSafe (.op o as) = true) (h2 : el = true → ambiguousLit (.op o as) = false)
    (h : ∀ a ∈ as, elaborable el a) : elaborable el (.op o as) := by
  intro u hu
  simp only [Term.subterms, List.mem_cons, Term.mem_subtermsL] at hu
  rcases hu with rfl | ⟨a, ha, hu⟩
  · exact ⟨h1, rfl, h2⟩
  · exact h a ha u hu

theorem separate_op {o : Op} {as : List Term} {b : Term} (h : ∀ a ∈ as, a.separate b) : (Term.op o as).separate b := by
  intro u hu v hv
  simp only [Term.subterms, List.mem_cons, Term.mem_subtermsL] at hu
  rcases hu with rfl | ⟨a, ha, hu⟩
  · rfl
  · exact h a ha u hu v hv

theorem elaborable_ite {cond a b : Term} (h0 : elaborable true cond) (h1 : elaborable true a) (h2 : elaborable true b) :
    elaborable true (.op .ite [cond, a, b]) := elaborable_op rfl (fun _ => rfl) (by simp [h0, h1, h2])

theorem elaborable_eq {a b : Term} (h1 : elaborable true a) (h2 : elaborable true b) : elaborable true (.op .equals [a, b]) :=
  elaborable_op rfl (fun _ => rfl) (by simp [h1, h2])

theorem elaborable_iteDef {cond a b : Term} (h0 : elaborable true cond) (h1 : elaborable true a) (h2 : elaborable true b) :
    elaborable true (iteDef cond a b) := elaborable_ite h0 (elaborable_eq (elaborable_ite h0 h1 h2) h1) (elaborable_eq (elaborable_ite h0 h1 h2) h2)

theorem separate_iteDef {cond a b t : Term} (h0 : cond.separate t) (h1 : a.separate t) (h2 : b.separate t) : (iteDef cond a b).separate t := by
  have h3 : (Term.op .ite [cond, a, b]).separate t := separate_op (by simp [h0, h1, h2])
  exact separate_op (by
    simp only [List.mem_cons, List.not_mem_nil, or_false, forall_eq_or_imp, forall_eq]
    exact ⟨h0, separate_op (by simp [h3, h1]), separate_op (by simp [h3, h2])⟩)

theorem reord_eq {a a' b b' : Term} (h : Reord a b) (h' : Reord a' b') : Reord (.op .equals [a, a']) (.op .equals [b, b']) :=
  .op (.cons h (.cons h' .nil))

theorem ValidIte.left {cond r1 s1 r2 s2 : Term} (h : ValidIte cond r1 s1 r2 s2) (h0 : elaborable true cond) (h1 : elaborable true r1)
    (h2 : elaborable true s1) (h3 : elaborable true r2) : Reord (.op .ite [cond, r1, r2]) s1 := by
  obtain ⟨_, a, b, c, rfl, ha, hb, hc⟩ := h
  exact Reord.symm_of h2.unamb (elaborable_ite h0 h1 h3).unamb (.op (.cons ha (.cons hb (.cons hc .nil))))

theorem ValidIte.right {cond r1 s1 r2 s2 : Term} (h : ValidIte cond r1 s1 r2 s2) (h0 : elaborable true cond) (h1 : elaborable true r1)
    (h2 : elaborable true s1) (h3 : elaborable true r2) (h4 : elaborable true s2) : Reord (.op .ite [cond, r1, r2]) s2 :=
  Reord.trans_of (elaborable_ite h0 h1 h3).unamb h2.unamb h4.unamb (h.left h0 h1 h2 h3) h.1

/-- A definition that the rule accepts: the expected one is equal to it modulo reordering, and is accepted in place of it. -/
theorem expectedDef_ok {u t : Term} (hu : checkIteDef u = .ok ()) (h : elaborable true u) :
    ∃ v, expectedDef u = .ok v ∧ Reord v u ∧ elaborable true v ∧ (u.separate t → v.separate t) ∧ checkIteDef v = .ok () := by
  unfold checkIteDef at hu
  split at hu
  case h_2 => cases hu
  next cond a b c d =>
  have h0 : elaborable true cond := h.sub (subterms_op (by simp))
  have hab : elaborable true (.op .equals [a, b]) := h.sub (subterms_op (by simp))
  have hcd : elaborable true (.op .equals [c, d]) := h.sub (subterms_op (by simp))
  have ha : elaborable true a := hab.sub (subterms_op (by simp))
  have hb : elaborable true b := hab.sub (subterms_op (by simp))
  have hc : elaborable true c := hcd.sub (subterms_op (by simp))
  have hd : elaborable true d := hcd.sub (subterms_op (by simp))
  have sab : ∀ x ∈ (Term.op .equals [a, b]).subterms, x ∈ (Term.op .ite [cond, .op .equals [a, b], .op .equals [c, d]]).subterms := subterms_op (by simp)
  have scd : ∀ x ∈ (Term.op .equals [c, d]).subterms, x ∈ (Term.op .ite [cond, .op .equals [a, b], .op .equals [c, d]]).subterms := subterms_op (by simp)
  have accepted : ∀ {r1 r2 : Term}, elaborable true r1 → elaborable true r2 → checkIteDef (iteDef cond r1 r2) = .ok () := by
    intro r1 r2 h1 h2
    have hs := elaborable_ite h0 h1 h2
    obtain ⟨x1, e1, _⟩ := isValidIte_decided h0 hs h1 hs h2
    obtain ⟨x2, e2, _⟩ := isValidIte_decided h0 h1 hs hs h2
    obtain ⟨x3, e3, _⟩ := isValidIte_decided h0 hs h1 h2 hs
    obtain ⟨x4, e4, k4⟩ := isValidIte_decided h0 h1 hs h2 hs
    obtain rfl : x4 = true := k4.2 ⟨Reord.self _, _, _, _, rfl, Reord.self _, Reord.self _, Reord.self _⟩
    unfold iteDef checkIteDef
    dsimp only
    rw [e1, e2, e3, e4]
    cases x1 <;> cases x2 <;> cases x3 <;> rfl
  have sep : ∀ {r1 r2 : Term}, (∀ x ∈ r1.subterms, x ∈ (Term.op .ite [cond, .op .equals [a, b], .op .equals [c, d]]).subterms) →
      (∀ x ∈ r2.subterms, x ∈ (Term.op .ite [cond, .op .equals [a, b], .op .equals [c, d]]).subterms) →
      (Term.op .ite [cond, .op .equals [a, b], .op .equals [c, d]]).separate t → (iteDef cond r1 r2).separate t := fun h1 h2 hs =>
    separate_iteDef (separate_sub hs (subterms_op (by simp)) fun _ h => h) (separate_sub hs h1 fun _ h => h) (separate_sub hs h2 fun _ h => h)
  have in_a : ∀ x ∈ a.subterms, x ∈ (Term.op .ite [cond, .op .equals [a, b], .op .equals [c, d]]).subterms := fun x hx => sab x (subterms_op (by simp) x hx)
  have in_b : ∀ x ∈ b.subterms, x ∈ (Term.op .ite [cond, .op .equals [a, b], .op .equals [c, d]]).subterms := fun x hx => sab x (subterms_op (by simp) x hx)
  have in_c : ∀ x ∈ c.subterms, x ∈ (Term.op .ite [cond, .op .equals [a, b], .op .equals [c, d]]).subterms := fun x hx => scd x (subterms_op (by simp) x hx)
  have in_d : ∀ x ∈ d.subterms, x ∈ (Term.op .ite [cond, .op .equals [a, b], .op .equals [c, d]]).subterms := fun x hx => scd x (subterms_op (by simp) x hx)
  have same := Reord.self cond
  obtain ⟨x1, e1, k1⟩ := isValidIte_decided h0 ha hb hc hd
  obtain ⟨x2, e2, k2⟩ := isValidIte_decided h0 hb ha hc hd
  obtain ⟨x3, e3, k3⟩ := isValidIte_decided h0 ha hb hd hc
  obtain ⟨x4, e4, k4⟩ := isValidIte_decided h0 hb ha hd hc
  rw [e1, e2, e3, e4] at hu
  unfold expectedDef
  dsimp only
  cases x1 with
  | true =>
    have hv := k1.1 rfl
    rw [ifRes_true e1]
    exact ⟨_, rfl, .op (.cons same (.cons (.swap (hv.left h0 ha hb hc) (Reord.self a)) (.cons (.swap (hv.right h0 ha hb hc hd) (Reord.self c)) .nil))),
      elaborable_iteDef h0 ha hc, sep in_a in_c, accepted ha hc⟩
  | false =>
  rw [ifRes_false e1]
  cases x2 with
  | true =>
    have hv := k2.1 rfl
    rw [ifRes_true e2]
    exact ⟨_, rfl, .op (.cons same (.cons (reord_eq (hv.left h0 hb ha hc) (Reord.self b)) (.cons (.swap (hv.right h0 hb ha hc hd) (Reord.self c)) .nil))),
      elaborable_iteDef h0 hb hc, sep in_b in_c, accepted hb hc⟩
  | false =>
  rw [ifRes_false e2]
  cases x3 with
  | true =>
    have hv := k3.1 rfl
    rw [ifRes_true e3]
    exact ⟨_, rfl, .op (.cons same (.cons (.swap (hv.left h0 ha hb hd) (Reord.self a)) (.cons (reord_eq (hv.right h0 ha hb hd hc) (Reord.self d)) .nil))),
      elaborable_iteDef h0 ha hd, sep in_a in_d, accepted ha hd⟩
  | false =>
  rw [ifRes_false e3]
  cases x4 with
  | true =>
    have hv := k4.1 rfl
    rw [ifRes_true e4]
    exact ⟨_, rfl, .op (.cons same (.cons (reord_eq (hv.left h0 hb ha hd) (Reord.self b)) (.cons (reord_eq (hv.right h0 hb ha hd hc) (Reord.self d)) .nil))),
      elaborable_iteDef h0 hb hd, sep in_b in_d, accepted hb hd⟩
  | false => cases hu

theorem expectedDefs_ok {t : Term} : ∀ {us : List Term}, checkIteDefs us = .ok () → (∀ u ∈ us, elaborable true u) →
    ∃ vs, expectedDefs us = .ok vs ∧ List.Forall₂ Reord vs us ∧ (∀ v ∈ vs, elaborable true v) ∧ ((∀ u ∈ us, u.separate t) → ∀ v ∈ vs, v.separate t) ∧
      checkIteDefs vs = .ok ()
  | [], _, _ => ⟨[], rfl, .nil, by simp, by simp, rfl⟩
  | u :: us, h, hu => by
    unfold checkIteDefs at h
    obtain ⟨_, h1, h2⟩ := bind_ok.1 h
    obtain ⟨v, e1, r1, a1, s1, c1⟩ := expectedDef_ok (t := t) h1 (hu u (by simp))
    obtain ⟨vs, e2, r2, a2, s2, c2⟩ := expectedDefs_ok (t := t) h2 fun x hx => hu x (by simp [hx])
    refine ⟨v :: vs, ?_, .cons r1 r2, by simpa using ⟨a1, a2⟩, fun hs => ?_, ?_⟩
    · rw [expectedDefs, e1, e2]; rfl
    · simp only [List.mem_cons, forall_eq_or_imp] at hs ⊢
      exact ⟨s1 hs.1, s2 hs.2⟩
    · rw [checkIteDefs, c1]; exact c2

end Carcara
