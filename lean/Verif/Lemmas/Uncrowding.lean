import Verif.Spec.Uncrowding
import Verif.Lemmas.ResolutionStrict
import Verif.Lemmas.Equality
import Verif.Lemmas.IdHelper
import Verif.Lemmas.Quantifier
import Verif.Props.C28

/-! # Uncrowding: what the result is made of -/

namespace Carcara

open Spec

/-- The literals of a premise are those of the clause of its node, and its pivot is the literal of a term. -/
structure RPremise.WF (p : RPremise) : Prop where
  clause : p.clause = p.node.clause.map Term.removeAllNegations
  pivot : ∀ l b, p.pivot = some (l, b) → ∃ t : Term, l = t.removeAllNegations

theorem map_remove_injective {l l' : List Term}
    (h : l.map Term.removeAllNegations = l'.map Term.removeAllNegations) : l = l' :=
  List.map_injective_iff.2 (fun _ _ => removeAll_injective) h

theorem map_toTerm_remove (l : List Term) : (l.map Term.removeAllNegations).map literalToTerm = l := by
  rw [List.map_map]
  conv_rhs => rw [← List.map_id l]
  exact List.map_congr_left fun t _ => literalToTerm_remove t

theorem pivotPair_remove (t : Term) (b : Bool) : pivotPair t.removeAllNegations b =
    if b then (t.removeAllNegations, (Term.op .not [t]).removeAllNegations)
    else ((Term.op .not [t]).removeAllNegations, t.removeAllNegations) := by
  cases b <;> simp [pivotPair, removeAll_not]

theorem mem_map_remove {ts : List Term} {t : Term} :
    t.removeAllNegations ∈ ts.map Term.removeAllNegations ↔ t ∈ ts := mem_litVec

theorem map_remove_erase (ts : List Term) (t : Term) :
    (ts.map Term.removeAllNegations).erase t.removeAllNegations = (ts.erase t).map Term.removeAllNegations :=
  (List.map_erase (fun _ _ h => removeAll_injective h) ..).symm

theorem naiveLits_ok : ∀ {ps : List RPremise} {ts : List Term} {c : List Lit}, (∀ p ∈ ps, p.WF) →
    naiveLits (ts.map Term.removeAllNegations) ps = .ok c →
    ∃ args e, pivotArgs ps = .ok args ∧ orderedResolve ts (ps.map fun p => p.node.clause) args = some e ∧
      c = e.map Term.removeAllNegations
  | [], ts, c, _, h => by
    cases h
    exact ⟨[], ts, rfl, rfl, rfl⟩
  | p :: ps, ts, c, hw, h => by
    rw [naiveLits] at h
    simp only [bind_ok, orPanic_ok] at h
    obtain ⟨⟨l, b⟩, hp, h⟩ := h
    simp only at h
    obtain ⟨t, rfl⟩ := (hw p (by simp)).pivot _ _ hp
    rw [pivotPair_remove, (hw p (by simp)).clause] at h
    have hw' : ∀ q ∈ ps, q.WF := fun q hq => hw q (by simp [hq])
    cases b with
    | true =>
      simp only [if_true, mem_map_remove, map_remove_erase, ← List.map_append] at h
      split at h; · cases h
      split at h; · cases h
      next h1 h2 =>
      obtain ⟨args, e, ha, he, hc⟩ := naiveLits_ok hw' h
      refine ⟨t :: .tru :: args, e, ?_, ?_, hc⟩
      · simp only [pivotArgs, hp, orPanic, ha]
        simp [bind, Except.bind, literalToTerm_remove]
      · rw [List.map_cons, orderedResolve, if_pos rfl, if_pos ⟨not_not.1 h1, not_not.1 h2⟩]
        exact he
    | false =>
      simp only [Bool.false_eq_true, if_false, mem_map_remove, map_remove_erase, ← List.map_append] at h
      split at h; · cases h
      split at h; · cases h
      next h1 h2 =>
      obtain ⟨args, e, ha, he, hc⟩ := naiveLits_ok hw' h
      refine ⟨t :: .fls :: args, e, ?_, ?_, hc⟩
      · simp only [pivotArgs, hp, orPanic, ha]
        simp [bind, Except.bind, literalToTerm_remove]
      · rw [List.map_cons, orderedResolve, if_neg (by simp), if_pos rfl, if_pos ⟨not_not.1 h1, not_not.1 h2⟩]
        exact he

theorem naiveConclusion_ok {ps : List RPremise} {c : List Lit} (hw : ∀ p ∈ ps, p.WF) (h : naiveConclusion ps = .ok c) :
    ∃ p q rest args e, ps = p :: q :: rest ∧ pivotArgs ps.tail = .ok args ∧
      orderedResolve p.node.clause ((q :: rest).map fun p => p.node.clause) args = some e ∧
      c = e.map Term.removeAllNegations := by
  match ps, h with
  | p :: q :: rest, h =>
    rw [naiveConclusion, (hw p (by simp)).clause] at h
    obtain ⟨args, e, h1, h2, h3⟩ := naiveLits_ok (fun r hr => hw r (by simp [hr])) h
    exact ⟨p, q, rest, args, e, rfl, h1, h2, h3⟩
  | [p], h => simp [naiveConclusion, panic] at h
  | [], h => simp [naiveConclusion, panic] at h

theorem dedup_map_remove (l : List Term) :
    dedup (l.map Term.removeAllNegations) = (dedup l).map Term.removeAllNegations := by
  unfold dedup
  have key : ∀ (l seen : List Term), dedupFrom (seen.map Term.removeAllNegations) (l.map Term.removeAllNegations) =
      (dedupFrom seen l).map Term.removeAllNegations := by
    intro l
    induction l with
    | nil => intro seen; rfl
    | cons a l ih =>
      intro seen
      simp only [List.map_cons, dedupFrom, mem_map_remove]
      split
      · exact ih seen
      · next h =>
        have : setInsert (seen.map Term.removeAllNegations) a.removeAllNegations =
            (setInsert seen a).map Term.removeAllNegations := by
          simp only [setInsert, mem_map_remove, if_neg h, List.map_append, List.map_cons, List.map_nil]
        rw [this, ih, List.map_cons]
  exact key l []

theorem dedup_eq_of_length {κ : Type} [DecidableEq κ] {l : List κ} (h : (dedup l).length = l.length) : dedup l = l :=
  (c30_sublist l).eq_of_length h

/-- What `add_partial_resolution_step` returns. -/
theorem partialStep_ok {given : List Node} {ids ids' : IdHelper} {depth : Nat} {ps : List RPremise} {target : List Term}
    {n : Node} {c : List Lit} (hw : ∀ p ∈ ps, p.WF ∧ Rechained given p.node)
    (h : partialStep ids depth ps target = .ok (n, c, ids')) :
    c = n.clause.map Term.removeAllNegations ∧ Rechained given n ∧ (∃ d ps, n = .mk d ps ∧ ClauseStep d ps ∧ d.depth = depth ∧
      ∀ p ∈ ps, Rechained given p) ∧ (n.clause = target ∨ n.clause.Nodup) := by
  simp only [partialStep, bind_ok, Prod.exists] at h
  obtain ⟨concl, h1, args, h2, id, ids1, h3, h⟩ := h
  obtain ⟨p, q, rest, args', e, rfl, h4, h5, rfl⟩ := naiveConclusion_ok (fun p hp => (hw p hp).1) h1
  obtain rfl : args' = args := by rw [h4] at h2; exact Except.ok.inj h2
  rw [map_toTerm_remove, dedup_map_remove] at h
  simp only [List.length_map] at h
  have hd : ClauseStep ⟨id, depth, e, "resolution", args'⟩ ((p :: q :: rest).map (·.node)) :=
    .inl ⟨rfl, p.node, q.node, rest.map (·.node), rfl, by rw [← h5]; simp [List.map_map, Function.comp_def]⟩
  have hps : ∀ n ∈ (p :: q :: rest).map (·.node), Rechained given n := fun n hn => by
    obtain ⟨r, hr, rfl⟩ := List.mem_map.1 hn
    exact (hw r hr).2
  have hr : Rechained given (.mk ⟨id, depth, e, "resolution", args'⟩ ((p :: q :: rest).map (·.node))) := .step hps hd
  split at h
  · next ht => cases h; exact ⟨rfl, hr, ⟨_, _, rfl, hd, rfl, hps⟩, .inl ht⟩
  · split at h
    · simp only [bind_ok, Prod.exists] at h
      obtain ⟨id2, ids2, -, h⟩ := h
      cases h
      have hd2 : ClauseStep ⟨id2, depth, dedup e, "contraction", []⟩
          [.mk ⟨id, depth, e, "resolution", args'⟩ ((p :: q :: rest).map (·.node))] :=
        .inr (.inl ⟨rfl, _, rfl, c30_sublist e, fun t ht => (c30_mem e t).2 ht⟩)
      have hps2 : ∀ n ∈ [Node.mk ⟨id, depth, e, "resolution", args'⟩ ((p :: q :: rest).map (·.node))], Rechained given n :=
        fun n hn => by rw [List.mem_singleton] at hn; exact hn ▸ hr
      exact ⟨rfl, .step hps2 hd2, ⟨_, _, rfl, hd2, rfl, hps2⟩, .inr (c30_nodup e)⟩
    · next hl =>
      cases h
      have := dedup_eq_of_length (not_not.1 hl)
      exact ⟨rfl, hr, ⟨_, _, rfl, hd, rfl, hps⟩, .inr (this ▸ c30_nodup e)⟩

/-- What the loop over the cuts returns. -/
theorem cutLoop_ok {given : List Node} {depth : Nat} {target : List Term} :
    ∀ {cuts : List Nat} {prev : Nat} {ps : List RPremise} {ids ids' : IdHelper} {r : RPremise},
      (∀ p ∈ ps, p.WF ∧ Rechained given p.node) → cutLoop depth target cuts prev ps ids = .ok (r, ids') →
      (cuts ≠ [] ∨ ∃ p, ps[prev]? = some p ∧ (∃ d qs, p.node = .mk d qs ∧ ClauseStep d qs ∧ d.depth = depth ∧
        ∀ q ∈ qs, Rechained given q) ∧ (p.node.clause = target ∨ p.node.clause.Nodup)) →
      (∃ d qs, r.node = .mk d qs ∧ ClauseStep d qs ∧ d.depth = depth ∧ ∀ q ∈ qs, Rechained given q) ∧
        (r.node.clause = target ∨ r.node.clause.Nodup)
  | [], prev, ps, ids, ids', r, hw, h, hc => by
    simp only [cutLoop, bind_ok, orPanic_ok] at h
    obtain ⟨p, hp, h⟩ := h
    cases h
    obtain h | ⟨p', hp', h⟩ := hc
    · exact absurd rfl h
    · rw [hp] at hp'
      cases hp'
      exact h
  | cut :: cuts, prev, ps, ids, ids', r, hw, h, hc => by
    rw [cutLoop] at h
    split at h; · cases h
    next hlen =>
    simp only [bind_ok, Prod.exists] at h
    obtain ⟨n, c, ids1, hp, h⟩ := h
    have hw' : ∀ p ∈ (ps.take cut).drop prev, p.WF ∧ Rechained given p.node := fun p hp =>
      hw p (List.mem_of_mem_take (List.mem_of_mem_drop hp))
    obtain ⟨rfl, hn, hd, ht⟩ := partialStep_ok hw' hp
    have hcut : 0 < cut := by
      rcases Nat.eq_zero_or_pos cut with rfl | h0
      · simp only [partialStep, bind_ok] at hp
        obtain ⟨x, hx, -⟩ := hp
        simp [naiveConclusion, panic] at hx
      · exact h0
    refine cutLoop_ok (fun p hp => ?_) h (.inr ⟨⟨n, n.clause.map Term.removeAllNegations, none⟩, ?_, hd, ht⟩)
    · rcases List.mem_or_eq_of_mem_set hp with hp | rfl
      · exact hw p hp
      · exact ⟨⟨rfl, by simp⟩, hn⟩
    · simp only [not_or, Nat.not_lt] at hlen
      rw [List.getElem?_set_self (by omega)]

theorem premisesFrom_wf : ∀ {ns : List Node} {args : List Term} {ps : List RPremise}, premisesFrom ns args = .ok ps →
    ∀ p ∈ ps, p.WF ∧ p.node ∈ ns
  | [], _, ps, h => by cases h; simp
  | _ :: _, [], ps, h => by cases h; simp
  | _ :: _, [_], ps, h => by cases h
  | n :: ns, t :: b :: args, ps, h => by
    simp only [premisesFrom, bind_ok] at h
    obtain ⟨rest, h1, h⟩ := h
    cases h
    intro p hp
    rcases List.mem_cons.1 hp with rfl | hp
    · exact ⟨⟨rfl, fun l b hl => by cases hl; exact ⟨t, rfl⟩⟩, by simp⟩
    · exact ⟨(premisesFrom_wf h1 p hp).1, by simp [(premisesFrom_wf h1 p hp).2]⟩

theorem fromStep_wf {ns : List Node} {args : List Term} {ps : List RPremise} (h : fromStep ns args = .ok ps) :
    ∀ p ∈ ps, p.WF ∧ p.node ∈ ns := by
  cases ns with
  | nil => cases h; simp
  | cons n ns =>
    simp only [fromStep, bind_ok] at h
    obtain ⟨rest, h1, h⟩ := h
    cases h
    intro p hp
    rcases List.mem_cons.1 hp with rfl | hp
    · exact ⟨⟨rfl, by simp⟩, by simp⟩
    · exact ⟨(premisesFrom_wf h1 p hp).1, by simp [(premisesFrom_wf h1 p hp).2]⟩

theorem rotateRange_perm {l l' : List Nat} {i j : Nat} (hij : i < j) (h : rotateRange l i j = .ok l') : l'.Perm l := by
  unfold rotateRange at h
  split at h
  · cases h
  · rename_i hj
    cases h
    have e : l = l.take i ++ ((l.drop i).take 1 ++ ((l.take j).drop (i + 1) ++ l.drop j)) := by
      have h1 : (l.take j).drop (i + 1) ++ l.drop j = l.drop (i + 1) := by
        conv_rhs => rw [← List.take_append_drop j l]
        rw [List.drop_append_of_le_length (by rw [List.length_take]; omega)]
      rw [h1, ← List.drop_drop, List.take_append_drop, List.take_append_drop]
    conv_rhs => rw [e]
    rw [List.append_assoc, List.append_assoc]
    refine List.Perm.append_left _ ?_
    rw [← List.append_assoc, ← List.append_assoc]
    exact List.Perm.append_right _ List.perm_append_comm

theorem rotateStep_perm {m : Infos} {ps : List RPremise} {order order' : List Nat} {l : Lit} {i : LiteralInfo}
    (h : rotateStep m ps order l i = .ok order') : order'.Perm order := by
  unfold rotateStep at h
  split at h
  · cases h; exact .refl _
  · obtain ⟨_, _, h⟩ := bind_ok.1 h
    obtain ⟨_, _, h⟩ := bind_ok.1 h
    obtain ⟨_, _, h⟩ := bind_ok.1 h
    obtain ⟨_, _, h⟩ := bind_ok.1 h
    obtain ⟨_, _, h⟩ := bind_ok.1 h
    obtain ⟨_, _, h⟩ := bind_ok.1 h
    split at h
    · cases h; exact .refl _
    · split at h
      · rename_i hlt
        exact rotateRange_perm hlt h
      · cases h; exact .refl _

theorem rotateLoop_perm {m : Infos} {ps : List RPremise} : ∀ {is : Infos} {order order' : List Nat},
    rotateLoop m ps is order = .ok order' → order'.Perm order
  | [], _, _, h => by cases h; exact .refl _
  | (l, i) :: is, _, _, h => by
    rw [rotateLoop] at h
    obtain ⟨o, h1, h2⟩ := bind_ok.1 h
    exact (rotateLoop_perm h2).trans (rotateStep_perm h1)

theorem reorderPremises_subset {O : HashOrder} {m : Infos} {ps qs : List RPremise} (h : reorderPremises O m ps = .ok qs) :
    ∀ q ∈ qs, q ∈ ps := by
  simp only [reorderPremises, bind_ok, collectRes_ok] at h
  obtain ⟨order, -, h⟩ := h
  intro q hq
  obtain ⟨i, -, hi⟩ := forall₂_right h hq
  rw [orPanic_ok] at hi
  exact List.mem_of_getElem? hi

theorem missingFrom_ok : ∀ {ts : List Term} {m m' : MultiSet Term}, m.WF → missingFrom ts m = .ok m' →
    m'.WF ∧ ∀ t, m.get t = ts.count t + m'.get t
  | [], m, m', hm, h => by cases h; exact ⟨hm, by simp⟩
  | t :: ts, m, m', hm, h => by
    rw [missingFrom] at h
    split at h; · cases h
    next h0 =>
    obtain ⟨h1, h2⟩ := missingFrom_ok (hm.removeN t 1) h
    refine ⟨h1, fun u => ?_⟩
    have := h2 u
    rw [MultiSet.get_removeN hm] at this
    rw [List.count_cons]
    by_cases e : t = u
    · subst e; simp at this ⊢; omega
    · simp [e] at this ⊢; omega

theorem count_intoIter {m : MultiSet Term} (hm : m.WF) (t : Term) : m.intoIter.count t = m.get t := by
  obtain ⟨l⟩ := m
  obtain ⟨hk, hp⟩ := hm
  simp only [MultiSet.intoIter, MultiSet.get] at *
  induction l with
  | nil => simp [mapGet]
  | cons p l ih =>
    rw [List.map_cons, List.nodup_cons] at hk
    rw [List.flatMap_cons, List.count_append, ih hk.2 (fun q hq => hp q (by simp [hq])), List.count_replicate, mapGet]
    by_cases e : p.1 = t
    · subst e
      have : mapGet l p.1 = none := mapGet_none.2 hk.1
      simp [this]
    · simp [e]

theorem weakeningClause_ok {c t w : List Term} (h : weakeningClause c t = .ok w) : c <+: w ∧ w.Perm t := by
  simp only [weakeningClause, bind_ok] at h
  obtain ⟨m, h1, h⟩ := h
  cases h
  obtain ⟨hm, h2⟩ := missingFrom_ok (.ofList t) h1
  refine ⟨List.prefix_append _ _, List.perm_iff_count.2 fun u => ?_⟩
  rw [List.count_append, count_intoIter hm, ← h2, MultiSet.get_ofList]

/-- What `uncrowd_resolution` returns. -/
theorem uncrowd_ok {O : HashOrder} {d : NodeData} {premises : List Node} {rotate : Bool} {n : Node}
    (h : uncrowd O d premises rotate = .ok n) :
    n.clause = d.clause ∧ ∃ d' qs, n = .mk d' qs ∧ d'.id = d.id ∧ d'.depth = d.depth ∧ ClauseStep d' qs ∧
      ∀ q ∈ qs, Rechained premises q := by
  simp only [uncrowd, bind_ok, Prod.exists] at h
  obtain ⟨ps, h1, naive, h2, m, h3, ps', m', h4, last, ids, h5, h⟩ := h
  have hw : ∀ p ∈ ps', p.WF ∧ Rechained premises p.node := by
    intro p hp
    have : p ∈ ps := by
      cases rotate with
      | false => cases h4; exact hp
      | true =>
        simp only [if_true, bind_ok] at h4
        obtain ⟨qs, hq, _, -, h4⟩ := h4
        cases h4
        exact reorderPremises_subset hq p hp
    exact ⟨(fromStep_wf h1 p this).1, .given (fromStep_wf h1 p this).2⟩
  obtain ⟨⟨ld, lps, hl, hld, hdep, hlps⟩, ht⟩ := cutLoop_ok hw h5 (.inl (by
    split
    · simp
    · next hne => intro h0; rw [h0] at hne; simp at hne))
  rw [hl] at h ht
  simp only [Node.mk, bind_ok, Prod.exists] at h
  obtain ⟨fd, fps, ids', h6, fd', fps', h7, h⟩ := h
  cases h
  have key : ClauseStep fd fps ∧ fd.depth = d.depth ∧ (∀ q ∈ fps, Rechained premises q) ∧
      (fd.clause = d.clause ∨ fd.clause.Perm d.clause ∨ (fd.clause.Nodup ∧ fd.clause.length = d.clause.length)) := by
    split at h6
    · simp only [bind_ok, Prod.exists] at h6
      obtain ⟨w, hw', id, ids'', -, h6⟩ := h6
      cases h6
      obtain ⟨h8, h9⟩ := weakeningClause_ok hw'
      refine ⟨.inr (.inr (.inl ⟨rfl, _, rfl, h8⟩)), rfl, fun q hq => ?_, .inr (.inl h9)⟩
      rw [List.mem_singleton] at hq
      subst hq
      exact .step hlps hld
    · next hlen =>
      cases h6
      exact ⟨hld, hdep, hlps, ht.imp id fun h => .inr ⟨h, not_not.1 hlen⟩⟩
  obtain ⟨k1, k2, k3, k4⟩ := key
  split at h7
  · next hne =>
    split at h7
    · next hset =>
      simp only [bind_ok, Prod.exists] at h7
      obtain ⟨id, ids'', -, h7⟩ := h7
      cases h7
      refine ⟨rfl, _, _, rfl, rfl, rfl, .inr (.inr (.inr ⟨rfl, _, rfl, ?_⟩)), fun q hq => ?_⟩
      · rcases k4 with k | k | ⟨k, k'⟩
        · exact absurd k hne
        · exact k.symm
        · exact ((k.subperm hset.1).perm_of_length_le (by omega)).symm
      · rw [List.mem_singleton] at hq
        subst hq
        exact .step k3 k1
    · cases h7
  · next he =>
    cases h7
    exact ⟨not_not.1 he, _, _, rfl, rfl, k2, k1, k3⟩

end Carcara
