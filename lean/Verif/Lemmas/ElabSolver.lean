import Verif.Model.ElabSolver
import Verif.Spec.ElabSolver
import Verif.Spec.ElabPolyeq
import Verif.Lemmas.RupExact
import Verif.Lemmas.StringRules
import Verif.Props.C59

/-! # Lemmas on the insertion of solver proofs -/

namespace Carcara

open Spec

/-! ## Moving a proof -/

theorem Node.movedAll_eq (delta : Nat) (pre : String) : ∀ ns : List Node, Node.movedAll delta pre ns = ns.map (Node.moved delta pre)
  | [] => by simp [Node.movedAll]
  | n :: ns => by rw [Node.movedAll, movedAll_eq delta pre ns]; rfl

theorem Node.movedOpt_eq (delta : Nat) (pre : String) (n : Option Node) : Node.movedOpt delta pre n = n.map (Node.moved delta pre) := by
  cases n <;> simp [Node.movedOpt]

theorem Node.moved_step (delta : Nat) (pre : String) (d : NodeData) (ps dis : List Node) (prev : Option Node) :
    (Node.step d ps dis prev).moved delta pre = .step { d with id := pre ++ "." ++ d.id, depth := d.depth + delta }
      (ps.map (Node.moved delta pre)) (dis.map (Node.moved delta pre)) (prev.map (Node.moved delta pre)) := by
  rw [Node.moved, movedAll_eq, movedAll_eq, movedOpt_eq]

theorem Node.moved_clause (delta : Nat) (pre : String) : ∀ n : Node, (n.moved delta pre).clause = n.clause
  | .assume _ _ _ => by simp [Node.moved, Node.clause]
  | .step _ _ _ _ => by simp [Node.moved, Node.clause]
  | .subproof l _ _ => by rw [Node.moved, Node.clause, Node.clause, moved_clause delta pre l]

theorem Node.moved_depth (delta : Nat) (pre : String) : ∀ {n : Node}, Inside n → (n.moved delta pre).depth = n.depth + delta
  | .assume _ _ _, _ => by simp [Node.moved, Node.depth]
  | .step _ _ _ _, _ => by simp [Node.moved, Node.depth]
  | .subproof l _ _, h => by
    have := moved_depth delta pre h.2
    have := h.1
    rw [Node.moved, Node.depth, Node.depth]
    omega

theorem Node.map_moved_clause (delta : Nat) (pre : String) (ps : List Node) :
    (ps.map (Node.moved delta pre)).map Node.clause = ps.map Node.clause := by
  rw [List.map_map]
  exact List.map_congr_left fun p _ => moved_clause delta pre p

theorem Spec.Reaches.moved {delta : Nat} {pre : String} {n m : Node} (h : Reaches (n.moved delta pre) m) :
    ∃ m', Reaches n m' ∧ m = m'.moved delta pre := by
  generalize e : n.moved delta pre = n' at h
  induction h generalizing n with
  | refl => exact ⟨n, .refl n, e.symm⟩
  | premise hp _ ih =>
    cases n with
    | step d ps dis prev =>
      rw [Node.moved_step] at e
      cases e
      obtain ⟨p, hq, rfl⟩ := List.mem_map.1 hp
      obtain ⟨m', h1, h2⟩ := ih rfl
      exact ⟨m', .premise hq h1, h2⟩
    | _ => simp [Node.moved] at e
  | discharge hp _ ih =>
    cases n with
    | step d ps dis prev =>
      rw [Node.moved_step] at e
      cases e
      obtain ⟨p, hq, rfl⟩ := List.mem_map.1 hp
      obtain ⟨m', h1, h2⟩ := ih rfl
      exact ⟨m', .discharge hq h1, h2⟩
    | _ => simp [Node.moved] at e
  | previous _ ih =>
    cases n with
    | step d ps dis prev =>
      rw [Node.moved_step] at e
      simp only [Node.step.injEq] at e
      obtain ⟨-, -, -, e⟩ := e
      cases prev with
      | none => simp at e
      | some p =>
        simp only [Option.map_some, Option.some.injEq] at e
        obtain ⟨m', h1, h2⟩ := ih e
        exact ⟨m', .previous h1, h2⟩
    | _ => simp [Node.moved] at e
  | last _ ih =>
    cases n with
    | subproof l as ex =>
      rw [Node.moved] at e
      cases e
      obtain ⟨m', h1, h2⟩ := ih rfl
      exact ⟨m', .last h1, h2⟩
    | _ => simp [Node.moved] at e
  | extra he _ ih =>
    cases n with
    | subproof l as ex =>
      rw [Node.moved, Node.movedAll_eq] at e
      cases e
      obtain ⟨p, hp, rfl⟩ := List.mem_map.1 he
      obtain ⟨m', h1, h2⟩ := ih rfl
      exact ⟨m', .extra hp h1, h2⟩
    | _ => simp [Node.moved] at e

/-! ## The assumptions of a depth -/

mutual
theorem Node.mem_assumesAt {k : Nat} {m : Node} : ∀ {n : Node}, m ∈ n.assumesAt k ↔ Reaches n m ∧ AssumptionAt k m
  | .assume id depth t => by
    rw [Node.assumesAt]
    constructor
    · intro h
      split at h
      · next e =>
        rw [List.mem_singleton] at h
        subst h e
        exact ⟨.refl _, _, _, rfl⟩
      · simp at h
    · rintro ⟨h, id', t', rfl⟩
      cases h
      rw [if_pos rfl]
      simp
  | .step d ps dis prev => by
    rw [Node.assumesAt, List.mem_append, List.mem_append, mem_assumesAtAll, mem_assumesAtAll, mem_assumesAtOpt]
    constructor
    · rintro ((⟨p, hp, h, ha⟩ | ⟨p, hp, h, ha⟩) | ⟨p, hp, h, ha⟩)
      · exact ⟨.premise hp h, ha⟩
      · exact ⟨.discharge hp h, ha⟩
      · subst hp; exact ⟨.previous h, ha⟩
    · rintro ⟨h, ha⟩
      cases h with
      | refl => obtain ⟨_, _, e⟩ := ha; cases e
      | premise hp h => exact .inl (.inl ⟨_, hp, h, ha⟩)
      | discharge hp h => exact .inl (.inr ⟨_, hp, h, ha⟩)
      | previous h => exact .inr ⟨_, rfl, h, ha⟩
  | .subproof l as ex => by
    rw [Node.assumesAt, List.mem_append, mem_assumesAtAll, mem_assumesAt]
    constructor
    · rintro (⟨p, hp, h, ha⟩ | ⟨h, ha⟩)
      · exact ⟨.extra hp h, ha⟩
      · exact ⟨.last h, ha⟩
    · rintro ⟨h, ha⟩
      cases h with
      | refl => obtain ⟨_, _, e⟩ := ha; cases e
      | extra hp h => exact .inl ⟨_, hp, h, ha⟩
      | last h => exact .inr ⟨h, ha⟩
theorem Node.mem_assumesAtAll {k : Nat} {m : Node} : ∀ {ns : List Node}, m ∈ Node.assumesAtAll k ns ↔ ∃ n ∈ ns, Reaches n m ∧ AssumptionAt k m
  | [] => by simp [Node.assumesAtAll]
  | n :: ns => by
    rw [Node.assumesAtAll, List.mem_append, mem_assumesAt, mem_assumesAtAll]
    simp
theorem Node.mem_assumesAtOpt {k : Nat} {m : Node} : ∀ {n : Option Node}, m ∈ Node.assumesAtOpt k n ↔ ∃ p, n = some p ∧ Reaches p m ∧ AssumptionAt k m
  | none => by simp [Node.assumesAtOpt]
  | some n => by
    rw [Node.assumesAtOpt, mem_assumesAt]
    simp
end

mutual
theorem Node.same_self : ∀ n : Node, n.same n = true
  | .assume _ _ _ => by simp [Node.same]
  | .step _ ps dis prev => by simp [Node.same, sames_self ps, sames_self dis, sameOpt_self prev]
  | .subproof l _ ex => by simp [Node.same, same_self l, sames_self ex]
theorem Node.sames_self : ∀ ns : List Node, Node.sames ns ns = true
  | [] => by simp [Node.sames]
  | n :: ns => by simp [Node.sames, same_self n, sames_self ns]
theorem Node.sameOpt_self : ∀ n : Option Node, Node.sameOpt n n = true
  | none => by simp [Node.sameOpt]
  | some n => by simp [Node.sameOpt, same_self n]
end

theorem mem_dedupNodes {m : Node} : ∀ {ns seen : List Node}, m ∈ dedupNodes seen ns ↔ m ∈ ns ∧ m ∉ seen
  | [], _ => by simp [dedupNodes]
  | n :: ns, seen => by
    have hs : seen.any n.same = true ↔ n ∈ seen := by
      rw [List.any_eq_true]
      exact ⟨fun ⟨q, hq, e⟩ => Node.same_eq e ▸ hq, fun h => ⟨n, h, Node.same_self n⟩⟩
    rw [dedupNodes]
    split
    · next h =>
      rw [mem_dedupNodes, List.mem_cons]
      have := hs.1 h
      constructor
      · rintro ⟨h1, h2⟩; exact ⟨.inr h1, h2⟩
      · rintro ⟨rfl | h1, h2⟩
        · exact absurd this h2
        · exact ⟨h1, h2⟩
    · next h =>
      rw [List.mem_cons, mem_dedupNodes, List.mem_cons, List.mem_cons]
      constructor
      · rintro (rfl | ⟨h1, h2⟩)
        · exact ⟨.inl rfl, fun h' => h (hs.2 h')⟩
        · exact ⟨.inr h1, fun h' => h2 (.inr h')⟩
      · rintro ⟨rfl | h1, h2⟩
        · exact .inl rfl
        · by_cases e : m = n
          · exact .inl e
          · exact .inr ⟨h1, by rintro (h | h); exacts [e h, h2 h]⟩

theorem Node.mem_assumptionsAt {k : Nat} {n m : Node} : m ∈ n.assumptionsAt k ↔ Reaches n m ∧ AssumptionAt k m := by
  rw [assumptionsAt, mem_dedupNodes, mem_assumesAt]
  simp

/-! ## The discharged assumptions -/

theorem dischargeLoop_exact {C : List Term} {l : Term} : ∀ {as : List (String × Term)}, as.length = C.length →
    (dischargeLoop (as.map fun a => .assume a.1 a.2) (C.map (fun l => .op .not [.op .not [l]]) ++ [l]) = .ok () ↔
      List.Forall₂ (fun a l => polyeq a.2 (.op .not [l]) = .ok true) as C) := by
  induction C with
  | nil =>
    intro as h
    rw [List.length_nil, List.length_eq_zero_iff] at h
    subst h
    simp [dischargeLoop]
  | cons c C ih =>
    intro as h
    cases as with
    | nil => simp at h
    | cons a as =>
      simp only [List.length_cons, Nat.add_right_cancel_iff] at h
      simp only [List.map_cons, List.cons_append, dischargeLoop, Term.removeNegErr, Term.removeNegation, orErr, bind_ok, ok_inj,
        exists_eq_left', List.forall₂_cons]
      rw [ih h]
      simp only [assertPolyeq, bind_ok, require_ok]
      constructor
      · rintro ⟨_, ⟨_, h1, rfl⟩, h2⟩; exact ⟨h1, h2⟩
      · rintro ⟨h1, h2⟩; exact ⟨⟨⟩, ⟨_, h1, rfl⟩, h2⟩

/-- The step that closes the subproof of a refutation is accepted exactly if the discharged assumptions are, in order, the negations of the
literals, up to what `polyeq` ignores. -/
theorem subproof_refutation {C : List Term} {as : List (String × Term)} {Γ : List (List AnchorArg)} :
    subproof { conclusion := subproofClause C, context := Γ, previous := some [], discharge := as.map fun a => .assume a.1 a.2 } = .ok () ↔
      List.Forall₂ (fun a l => polyeq a.2 (.op .not [l]) = .ok true) as C := by
  simp only [subproof, orErr, subproofPhi, subproofClause, bind_ok, ok_inj, exists_eq_left', require_ok, List.length_append, List.length_map,
    List.length_singleton, Nat.add_right_cancel_iff, List.getLast?_append, List.getLast?_singleton, Option.some_or, orPanic]
  constructor
  · rintro ⟨_, h1, _, h2, -⟩
    exact (dischargeLoop_exact h1.symm).1 h2
  · intro h
    refine ⟨⟨⟩, h.length_eq.symm, ⟨⟩, (dischargeLoop_exact h.length_eq).2 h, ?_⟩
    simp [assertPolyeq, polyeq_refl, require, bind, Except.bind]

theorem assumptionMap_get {t : Term} : ∀ {ns : List Node} {m : List (Term × Node)} {n : Node},
    mapGet (assumptionMap m ns) t = some n → mapGet m t = some n ∨ n ∈ ns ∧ ∃ id depth, n = .assume id depth t
  | [], m, n, h => .inl h
  | .assume id depth u :: ns, m, n, h => by
    rw [assumptionMap] at h
    rcases assumptionMap_get h with h | ⟨h, h'⟩
    · by_cases e : u = t
      · subst e
        rw [mapGet_insert, if_pos rfl, Option.some.injEq] at h
        exact .inr ⟨by simp [← h], _, _, h.symm⟩
      · rw [mapGet_insert, if_neg e] at h
        exact .inl h
    · exact .inr ⟨by simp [h], h'⟩
  | .step _ _ _ _ :: ns, m, n, h => by
    rw [assumptionMap] at h <;> try simp only [reduceCtorEq, false_implies, implies_true]
    exact (assumptionMap_get h).imp id fun h => ⟨by simp [h.1], h.2⟩
  | .subproof _ _ _ :: ns, m, n, h => by
    rw [assumptionMap] at h <;> try simp only [reduceCtorEq, false_implies, implies_true]
    exact (assumptionMap_get h).imp id fun h => ⟨by simp [h.1], h.2⟩

theorem assumptionMap_isSome {t : Term} : ∀ {ns : List Node} {m : List (Term × Node)},
    (mapGet m t).isSome ∨ (∃ id depth, .assume id depth t ∈ ns) → (mapGet (assumptionMap m ns) t).isSome
  | [], m, h => by simpa [assumptionMap] using h
  | .assume id depth u :: ns, m, h => by
    rw [assumptionMap]
    apply assumptionMap_isSome
    by_cases e : u = t
    · left; rw [mapGet_insert, if_pos e]; rfl
    · rw [mapGet_insert, if_neg e]
      refine h.imp (fun h => h) fun ⟨i, k, h⟩ => ⟨i, k, ?_⟩
      rcases List.mem_cons.1 h with h | h
      · cases h; exact absurd rfl e
      · exact h
  | .step _ _ _ _ :: ns, m, h => by
    rw [assumptionMap] <;> try simp only [reduceCtorEq, false_implies, implies_true]
    exact assumptionMap_isSome (by simpa using h)
  | .subproof _ _ _ :: ns, m, h => by
    rw [assumptionMap] <;> try simp only [reduceCtorEq, false_implies, implies_true]
    exact assumptionMap_isSome (by simpa using h)

theorem liaAssumptions_total (found : List (Term × Node)) (depth : Nat) : ∀ (C covered : List Term) {ids : IdHelper}, ids.stack ≠ [] →
    ∃ ns ids', liaAssumptions found depth ids covered C = .ok (ns, ids') ∧ ids'.stack ≠ []
  | [], _, ids, h => ⟨[], ids, rfl, h⟩
  | l :: C, covered, ids, h => by
    rw [liaAssumptions]
    split
    · obtain ⟨ns, ids', h1, h2⟩ := liaAssumptions_total found depth C (setInsert covered (.op .not [l])) h
      simp only [bind, Except.bind]
      rw [h1]
      exact ⟨_, _, rfl, h2⟩
    · obtain ⟨id, ids1, e1, h1⟩ := IdHelper.nextId_total h
      obtain ⟨ns, ids', h3, h2⟩ := liaAssumptions_total found depth C (setInsert covered (.op .not [l])) h1
      simp only [bind, Except.bind]
      rw [e1]
      simp only
      rw [h3]
      exact ⟨_, _, rfl, h2⟩

theorem liaAssumptions_shape {found : List (Term × Node)} {depth : Nat}
    (hf : ∀ t n, mapGet found t = some n → ∃ id, n = .assume id (depth + 1) t) : ∀ {C covered : List Term} {ids ids' : IdHelper} {ns : List Node},
    liaAssumptions found depth ids covered C = .ok (ns, ids') →
    ∃ as : List (String × Term), ns = as.map (fun a => .assume a.1 (depth + 1) a.2) ∧ as.map (·.2) = C.map fun l => .op .not [l]
  | [], _, _, _, _, h => by
    cases h
    exact ⟨[], rfl, rfl⟩
  | l :: C, covered, ids, ids', ns, h => by
    rw [liaAssumptions] at h
    split at h
    · next n hn =>
      simp only [bind_ok, Prod.exists] at h
      obtain ⟨ns', ids1, h1, h⟩ := h
      cases h
      obtain ⟨as, rfl, h3⟩ := liaAssumptions_shape hf h1
      split at hn
      · cases hn
      · obtain ⟨id, rfl⟩ := hf _ _ hn
        exact ⟨(id, .op .not [l]) :: as, rfl, by simp [h3]⟩
    · simp only [bind_ok, Prod.exists] at h
      obtain ⟨id, ids1, _, ns', ids2, h1, h⟩ := h
      cases h
      obtain ⟨as, rfl, h3⟩ := liaAssumptions_shape hf h1
      exact ⟨(id, .op .not [l]) :: as, rfl, by simp [h3]⟩

theorem liaAssumptions_covers {found : List (Term × Node)} {depth : Nat} {l : Term} {n : Node} (hn : mapGet found (.op .not [l]) = some n) :
    ∀ {C covered : List Term} {ids ids' : IdHelper} {ns : List Node}, liaAssumptions found depth ids covered C = .ok (ns, ids') →
    l ∈ C → .op .not [l] ∉ covered → n ∈ ns
  | [], _, _, _, _, _, h, _ => by simp at h
  | k :: C, covered, ids, ids', ns, h, hl, hc => by
    rw [liaAssumptions] at h
    by_cases e : k = l
    · subst e
      rw [if_neg hc, hn] at h
      simp only [bind_ok, Prod.exists] at h
      obtain ⟨ns', ids1, h1, h⟩ := h
      cases h
      simp
    · have hl' : l ∈ C := by
        rcases List.mem_cons.1 hl with rfl | h
        · exact absurd rfl e
        · exact h
      have hc' : Term.op .not [l] ∉ setInsert covered (.op .not [k]) := by
        rw [mem_setInsert]
        rintro (h | h)
        · exact hc h
        · simp at h; exact e h.symm
      split at h
      · simp only [bind_ok, Prod.exists] at h
        obtain ⟨ns', ids1, h1, h⟩ := h
        cases h
        exact List.mem_cons_of_mem _ (liaAssumptions_covers hn h1 hl' hc')
      · simp only [bind_ok, Prod.exists] at h
        obtain ⟨id, ids1, _, ns', ids2, h1, h⟩ := h
        cases h
        exact List.mem_cons_of_mem _ (liaAssumptions_covers hn h1 hl' hc')

/-! ## The steps after the subproof -/

theorem notNotSteps_total (depth : Nat) : ∀ (C : List Term) {ids : IdHelper}, ids.stack ≠ [] →
    ∃ names : List String, ∃ ids', names.length = C.length ∧ notNotSteps depth ids C =
      .ok ((names.zip C).map (fun a => .mk { id := a.1, depth, clause := [.op .not [.op .not [.op .not [a.2]]], a.2], rule := "not_not" } []), ids') ∧
        ids'.stack ≠ []
  | [], ids, h => ⟨[], ids, rfl, rfl, h⟩
  | l :: C, ids, h => by
    obtain ⟨id, ids1, e1, h1⟩ := IdHelper.nextId_total h
    obtain ⟨names, ids', h3, h4, h2⟩ := notNotSteps_total depth C h1
    refine ⟨id :: names, ids', by simp [h3], ?_, h2⟩
    rw [notNotSteps]
    simp only [bind, Except.bind]
    rw [e1]
    simp only
    rw [h4]
    rfl

theorem pol_not (t : Term) : (Term.op .not [t]).removeAllNegationsPol = PLit.neg t.removeAllNegationsPol := by
  simp only [Term.removeAllNegationsPol, removeAll_not, PLit.neg, Prod.mk.injEq, and_true]
  rcases Nat.mod_two_eq_zero_or_one t.removeAllNegations.1 with h | h
  · have : (t.removeAllNegations.1 + 1) % 2 = 1 := by omega
    simp [h, this]
  · have : (t.removeAllNegations.1 + 1) % 2 = 0 := by omega
    simp [h, this]

/-- The resolution step is accepted without arguments, whatever the literals are. -/
theorem resolution_solver (C : List Term) (rest : List (List Term)) : resolution C (subproofClause C :: rest ++ [[.op .not [.fls]]]) [] = .ok () := by
  unfold resolution
  rw [if_neg (by simp), if_neg]
  · simp only [bind, Except.bind, require]
    rw [if_pos (by simp)]
    simp only
    have hrup : rupResolution C (subproofClause C :: rest ++ [[.op .not [.fls]]]) = true := by
      rw [rupResolution_exact]
      refine ⟨(subproofClause C).map Term.removeAllNegationsPol, by simp, fun k hk => ?_⟩
      simp only [subproofClause, List.map_append, List.map_map, List.map_cons, List.map_nil, List.mem_append, List.mem_map,
        Function.comp_apply, List.mem_singleton] at hk
      rcases hk with ⟨l, hl, rfl⟩ | rfl
      · rw [pol_not, pol_not, PLit.neg_neg]
        refine .mk [PLit.neg l.removeAllNegationsPol] _ (List.mem_append_right _ (List.mem_map.2 ⟨l, hl, rfl⟩)) (by simp) ?_
        intro j hj hne
        exact absurd (List.mem_singleton.1 hj) hne
      · refine .mk [PLit.neg Term.fls.removeAllNegationsPol] _ (List.mem_append_left _ (List.mem_map.2 ⟨[.op .not [.fls]], by simp, ?_⟩))
          (by simp) ?_
        · simp [pol_not]
        · intro j hj hne
          exact absurd (List.mem_singleton.1 hj) hne
    split
    · rfl
    · next h => exact absurd h (greedyResolution_no_panic _ _ _)
    · rw [hrup]; rfl
  · rintro ⟨-, h⟩
    have := congrArg List.length h
    simp at this

/-! ## The pivots -/

/-- The double negation of a term. -/
def dneg (t : Term) : Term := .op .not [.op .not [t]]

theorem iLit_dneg (t : Term) : iLit (dneg t) = ((iLit t).1 + 2, (iLit t).2) := by
  rw [dneg, iLit_not, iLit_not]
  exact Prod.ext (by simp only; omega) rfl

theorem mapGet_of_not_mem {κ ν : Type} [DecidableEq κ] : ∀ {m : List (κ × ν)} {a : κ}, a ∉ m.map (·.1) → mapGet m a = none
  | [], _, _ => rfl
  | (k, v) :: m, a, h => by
    simp only [List.map_cons, List.mem_cons, not_or] at h
    rw [mapGet, if_neg (fun e => h.1 e.symm), mapGet_of_not_mem h.2]

theorem mapGet_skip {κ ν : Type} [DecidableEq κ] : ∀ {m m' : List (κ × ν)} {a : κ} {b : ν}, a ∉ m.map (·.1) → mapGet (m ++ (a, b) :: m') a = some b
  | [], _, a, b, _ => by simp [mapGet]
  | (k, v) :: m, m', a, b, h => by
    simp only [List.map_cons, List.mem_cons, not_or] at h
    rw [List.cons_append, mapGet, if_neg (fun e => h.1 e.symm), mapGet_skip h.2]

theorem mapInsert_skip {κ ν : Type} [DecidableEq κ] : ∀ {m m' : List (κ × ν)} {a : κ} {b c : ν}, a ∉ m.map (·.1) →
    mapInsert (m ++ (a, b) :: m') a c = m ++ (a, c) :: m'
  | [], _, a, b, _, _ => by simp [mapInsert]
  | (k, v) :: m, m', a, b, _, h => by
    simp only [List.map_cons, List.mem_cons, not_or] at h
    rw [List.cons_append, mapInsert, if_neg (fun e => h.1 e.symm), mapInsert_skip h.2, List.cons_append]

/-- A term whose atom is not yet among the pivots, and which is not in the conclusion. -/
theorem greedyTerm_new {concl : List ILit} {w : List ILit} {P : List (ILit × Bool)} {T : List (Term × Bool)} {b : Bool} {t : Term}
    (h1 : iLit t ∉ concl) (h2 : ∀ k ∈ P.map (·.1), k.2 ≠ (iLit t).2) :
    greedyTerm concl true ⟨w, P, T, b⟩ t = .ok ⟨w, P ++ [(iLit t, false)], T, b⟩ := by
  have hg : ∀ i, mapGet P (i, (iLit t).2) = none := fun i => mapGet_of_not_mem fun h => h2 _ h rfl
  unfold greedyTerm
  rcases hl : iLit t with ⟨n, a⟩
  rw [hl] at h1 h2 hg
  simp only at hg
  simp only [h1, hg, false_and, if_false, Option.isSome_none, Bool.false_eq_true, and_false]
  unfold mapOrInsert
  rw [hg]

/-- A term that is the negation of a pivot, the first in the premise. -/
theorem greedyTerm_pivot {concl : List ILit} {w : List ILit} {P P' : List (ILit × Bool)} {T : List (Term × Bool)} {b : Bool} {t : Term}
    (h1 : iLit (.op .not [t]) ∉ concl) (h2 : iLit t ∉ P.map (·.1)) :
    greedyTerm concl true ⟨w, P ++ (iLit t, b) :: P', T, false⟩ (.op .not [t]) =
      .ok ⟨w, P ++ (iLit t, true) :: P', T ++ [(t, true)], true⟩ := by
  have hn := iLit_nonneg t
  unfold greedyTerm
  rw [iLit_not] at h1 ⊢
  have hb : (iLit t).1 + 1 - 1 = (iLit t).1 := by omega
  simp only [h1, false_and, if_false, hb, Prod.eta]
  rw [mapGet_skip h2]
  simp only [Bool.not_false, Option.isSome_some, and_self, if_true]
  rw [if_neg (by omega), mapInsert_skip h2]
  have : literalToTerm ((iLit t).1.toNat, (iLit t).2) = t := literalToTerm_remove t
  rw [this]

theorem greedyTerm_kept {concl : List ILit} {w : List ILit} {P : List (ILit × Bool)} {T : List (Term × Bool)} {b : Bool} {t : Term}
    (h1 : iLit t ∈ concl) (h2 : iLit t ∉ w) : greedyTerm concl true ⟨w, P, T, b⟩ t = .ok ⟨w ++ [iLit t], P, T, b⟩ := by
  unfold greedyTerm
  simp only [Prod.eta]
  rw [if_pos ⟨h1, h2⟩, setInsert, if_neg h2]

/-- The first premise. -/
theorem greedyPremise_first {concl : List ILit} : ∀ {ts : List Term} {P : List (ILit × Bool)}, (∀ t ∈ ts, iLit t ∉ concl) →
    (ts.map fun t => (iLit t).2).Nodup → (∀ k ∈ P.map (·.1), ∀ t ∈ ts, k.2 ≠ (iLit t).2) →
    greedyPremise concl true ⟨[], P, [], false⟩ ts = .ok ⟨[], P ++ ts.map (fun t => (iLit t, false)), [], false⟩
  | [], P, _, _, _ => by simp [greedyPremise]
  | t :: ts, P, h1, h2, h3 => by
    rw [List.map_cons, List.nodup_cons] at h2
    rw [greedyPremise, greedyTerm_new (h1 t (by simp)) fun k hk => h3 k hk t (by simp)]
    simp only [bind, Except.bind]
    rw [greedyPremise_first (fun u hu => h1 u (by simp [hu])) h2.2]
    · simp
    · intro k hk u hu e
      rw [List.map_append, List.mem_append] at hk
      rcases hk with hk | hk
      · exact h3 k hk u (by simp [hu]) e
      · simp only [List.map_cons, List.map_nil, List.mem_singleton] at hk
        subst hk
        exact h2.1 (List.mem_map.2 ⟨u, hu, e.symm⟩)

/-- The other premises. -/
theorem greedyLoop_pairs {concl : List ILit} {P' : List (ILit × Bool)} {tl : List (List Term)} : ∀ {C : List Term} {w : List ILit}
    {P : List (ILit × Bool)} {T : List (Term × Bool)} {b : Bool},
    (∀ l ∈ C, iLit l ∈ concl ∧ iLit l ∉ w ∧ iLit (.op .not [dneg l]) ∉ concl ∧ iLit (dneg l) ∉ P.map (·.1)) →
    (C.map fun t => (iLit t).2).Nodup → ∃ b',
    greedyLoop concl true ⟨w, P ++ C.map (fun l => (iLit (dneg l), false)) ++ P', T, b⟩ (C.map (fun l => [.op .not [dneg l], l]) ++ tl) =
      greedyLoop concl true ⟨w ++ C.map iLit, P ++ C.map (fun l => (iLit (dneg l), true)) ++ P', T ++ C.map (fun l => (dneg l, true)), b'⟩ tl
  | [], w, P, T, b, _, _ => ⟨b, by simp⟩
  | l :: C, w, P, T, b, h1, h2 => by
    rw [List.map_cons, List.nodup_cons] at h2
    obtain ⟨h3, h4, h5, h6⟩ := h1 l (by simp)
    obtain ⟨b', ih⟩ := greedyLoop_pairs (concl := concl) (P' := P') (tl := tl) (C := C) (w := w ++ [iLit l])
      (P := P ++ [(iLit (dneg l), true)]) (T := T ++ [(dneg l, true)]) (b := true) (fun k hk => by
        obtain ⟨h7, h8, h9, h10⟩ := h1 k (by simp [hk])
        have hne : (iLit k).2 ≠ (iLit l).2 := fun e => h2.1 (List.mem_map.2 ⟨k, hk, e⟩)
        refine ⟨h7, ?_, h9, ?_⟩
        · rw [List.mem_append, List.mem_singleton]
          rintro (h | h)
          · exact h8 h
          · exact hne (by rw [h])
        · rw [List.map_append, List.mem_append, List.map_singleton, List.mem_singleton]
          rintro (h | h)
          · exact h10 h
          · rw [iLit_dneg, iLit_dneg, Prod.mk.injEq] at h
            exact hne h.2) h2.2
    refine ⟨b', ?_⟩
    rw [List.map_cons, List.map_cons, List.cons_append, greedyLoop, greedyPremise, List.append_assoc, List.cons_append,
      greedyTerm_pivot h5 h6]
    simp only [bind, Except.bind]
    rw [greedyPremise, greedyTerm_kept h3 h4]
    simp only [bind, Except.bind]
    rw [greedyPremise]
    simp only
    rw [show P ++ (iLit (dneg l), true) :: (C.map (fun l => (iLit (dneg l), false)) ++ P') =
      P ++ [(iLit (dneg l), true)] ++ C.map (fun l => (iLit (dneg l), false)) ++ P' by simp, ih]
    simp

/-- Greedy resolution takes out the double negations in order, and then `false`. -/
theorem greedy_solver {C : List Term} (hn : (C.map fun t => t.removeAllNegations.2).Nodup) (hf : ∀ l ∈ C, l.removeAllNegations.2 ≠ .fls) :
    greedyResolution C (subproofClause C :: C.map (fun l => [.op .not [dneg l], l]) ++ [[.op .not [.fls]]]) true =
      .ok ⟨false, C.map (fun l => (dneg l, true)) ++ [(.fls, true)]⟩ := by
  have hn' : (C.map fun t => (iLit t).2).Nodup := hn
  have hf' : ∀ l ∈ C, (iLit l).2 ≠ .fls := hf
  have hfl : iLit .fls = (0, .fls) := rfl
  have hsame : ∀ l ∈ C, ∀ k ∈ C, (iLit k).2 = (iLit l).2 → k = l := fun l hl k hk e => List.inj_on_of_nodup_map hn' hk hl e
  have hconcl : ∀ {x : ILit}, x ∈ setOf (C.map iLit) ↔ ∃ l ∈ C, iLit l = x := by
    intro x; rw [mem_setOf, List.mem_map]
  have hmore : ∀ l ∈ C, ∀ i, 0 < i → ((iLit l).1 + i, (iLit l).2) ∉ setOf (C.map iLit) := by
    intro l hl i hi h
    obtain ⟨k, hk, e⟩ := hconcl.1 h
    have : k = l := hsame l hl k hk (by rw [e])
    subst this
    have := congrArg Prod.fst e
    simp only at this
    omega
  have hnof : ∀ i, (i, Term.fls) ∉ setOf (C.map iLit) := by
    intro i h
    obtain ⟨k, hk, e⟩ := hconcl.1 h
    exact hf' k hk (by rw [e])
  unfold greedyResolution
  simp only [List.cons_append]
  rw [greedyLoop, show subproofClause C = C.map dneg ++ [.fls] from rfl, greedyPremise_first]
  · simp only [bind, Except.bind, List.nil_append, List.map_append, List.map_map, List.map_cons, List.map_nil, Function.comp_def]
    obtain ⟨b', h⟩ := greedyLoop_pairs (concl := setOf (C.map iLit)) (P' := [(iLit .fls, false)]) (tl := [[.op .not [.fls]]]) (C := C) (w := [])
      (P := []) (T := []) (b := false) (fun l hl => ⟨hconcl.2 ⟨l, hl, rfl⟩, by simp, by
        rw [iLit_not, iLit_dneg]
        have := hmore l hl 3 (by omega)
        rwa [show (iLit l).1 + 2 + 1 = (iLit l).1 + 3 by omega], by simp⟩) hn'
    simp only [List.nil_append] at h
    rw [h, greedyLoop, greedyPremise, greedyTerm_pivot (P' := [])]
    · simp only [bind, Except.bind]
      rw [greedyPremise]
      simp only
      rw [greedyLoop]
      simp only [greedyFinish, List.filter_append, List.filter_map, Function.comp_def, Bool.not_true]
      simp only [List.filter_false, List.map_nil, List.nil_append, List.filter_cons, Bool.not_true, Bool.false_eq_true, if_false, List.filter_nil]
      simp only [bind, Except.bind, require]
      rw [if_pos fun l hl => mem_setOf.1 hl]
      rfl
    · rw [iLit_not, hfl]; exact hnof _
    · rw [List.map_map, List.mem_map]
      rintro ⟨l, hl, e⟩
      simp only [Function.comp_apply, iLit_dneg, hfl, Prod.mk.injEq] at e
      exact hf' l hl e.2
  · intro t ht
    rw [List.mem_append, List.mem_map, List.mem_singleton] at ht
    rcases ht with ⟨l, hl, rfl⟩ | rfl
    · rw [iLit_dneg]; exact hmore l hl 2 (by omega)
    · exact hnof 0
  · rw [List.map_append, List.map_map, List.nodup_append]
    refine ⟨?_, by simp, ?_⟩
    · simpa [Function.comp_def, iLit_dneg] using hn'
    · intro a ha b hb
      simp only [List.mem_map, Function.comp_apply, iLit_dneg] at ha
      obtain ⟨l, hl, rfl⟩ := ha
      simp only [List.map_cons, List.map_nil, List.mem_singleton] at hb
      subst hb
      exact hf' l hl
  · simp

end Carcara
