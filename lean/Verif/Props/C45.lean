import Verif.Lemmas.Node
import Verif.Props.C36

/-!
# C45: the steps made by the elaboration of transitivity are accepted

For `trans` the property holds. For `eq_transitive` it fails: a chain of one equality gives an `eq_transitive` step with two
literals, which the rule rejects, and repeated equalities give a resolution step that is rejected. It holds when the chain needs at
least two equalities and no equality is repeated.
-/

namespace Carcara

open Spec

/-! ## `trans` -/

theorem forall₂_of_map_eq {α β γ : Type} {f : α → γ} {g : β → γ} : ∀ {as : List α} {bs : List β}, as.map f = bs.map g →
    List.Forall₂ (fun a b => f a = g b) as bs
  | [], [], _ => .nil
  | [], _ :: _, h => by simp at h
  | _ :: _, [], h => by simp at h
  | a :: as, b :: bs, h => by
    simp only [List.map_cons, List.cons.injEq] at h
    exact .cons h.1 (forall₂_of_map_eq h.2)

/-- **C45.** Elaborating an accepted `trans` step succeeds and gives accepted steps that derive the same clause from the same
premises. -/
theorem c45_trans {E : TableEnv} {el : Bool} {d : NodeData} {ps dis : List Node} {prev : Option Node} (hrule : d.rule = "trans")
    (h : trans d.clause (ps.map Node.clause) d.args = .ok ()) :
    ∃ n, elabTrans d ps dis prev = .ok n ∧ n.clause = d.clause ∧ Derived E el ps n := by
  obtain ⟨n, hn⟩ := c36_trans_total (dis := dis) (prev := prev) h
  obtain ⟨t, u, es, ps', hd, rfl, hch, hps, hmem⟩ := c36_trans hn
  refine ⟨_, hn, rfl, .step ?_ ⟨trans, by rw [hrule]; rfl, ?_⟩⟩
  · intro p hp
    rcases hmem p hp with hp | ⟨q, hq, d', rfl, hr, hs⟩
    · exact .given hp
    · exact .step (by simpa using .given hq) ⟨symm, by rw [hr]; rfl, hs⟩
  · rw [hd]
    simp only [trans, bind_ok, get1_ok, match2_ok, Prod.exists]
    refine ⟨_, rfl, t, u, rfl, es, ?_, chain_findChain hch⟩
    rw [collectRes_ok, hps, List.forall₂_map_left_iff]
    exact List.forall₂_same.2 fun e _ => premiseEq_ok.2 rfl

/-! ## `eq_transitive` -/

/-- No two of the equalities are the same, even when turned around. -/
def NoRepeat (es : List (Term × Term)) : Prop := es.Pairwise fun e f => e ≠ f ∧ e ≠ f.swap

theorem NoRepeat.perm {es fs : List (Term × Term)} (h : NoRepeat es) (hp : es.Perm fs) : NoRepeat fs := by
  refine (hp.pairwise_iff ?_).1 h
  rintro e f ⟨h1, h2⟩
  exact ⟨fun h => h1 h.symm, fun h => h2 (by rw [h, Prod.swap_swap])⟩

theorem NoRepeat.getElem {es : List (Term × Term)} (h : NoRepeat es) {i j : Nat} {e f : Term × Term} (hi : es[i]? = some e)
    (hj : es[j]? = some f) (hij : i ≠ j) : e ≠ f ∧ e ≠ f.swap := by
  obtain ⟨hi', rfl⟩ := List.getElem?_eq_some_iff.1 hi
  obtain ⟨hj', rfl⟩ := List.getElem?_eq_some_iff.1 hj
  rcases Nat.lt_or_gt_of_ne hij with hlt | hlt
  · exact List.pairwise_iff_getElem.1 h i j hi' hj' hlt
  · obtain ⟨h1, h2⟩ := List.pairwise_iff_getElem.1 h j i hj' hi' hlt
    exact ⟨fun h => h1 h.symm, fun h => h2 (by rw [h, Prod.swap_swap])⟩

theorem NoRepeat.orient {es : List (Term × Term)} (h : NoRepeat es) (flips : List Nat) : NoRepeat (orient flips es) := by
  refine List.pairwise_iff_getElem.2 fun i j hi hj hij => ?_
  have e1 := orient_getElem? flips es i
  have e2 := orient_getElem? flips es j
  rw [List.getElem?_eq_getElem hi] at e1
  rw [List.getElem?_eq_getElem hj] at e2
  rw [orient_length] at hi hj
  rw [List.getElem?_eq_getElem hi, Option.map_some, Option.some.injEq] at e1
  rw [List.getElem?_eq_getElem hj, Option.map_some, Option.some.injEq] at e2
  obtain ⟨h1, h2⟩ := h.getElem (List.getElem?_eq_getElem hi) (List.getElem?_eq_getElem hj) (Nat.ne_of_lt hij)
  rw [e1, e2]
  have h3 : es[i].swap ≠ es[j] := fun e => h2 (by rw [← e, Prod.swap_swap])
  have h4 : es[i].swap ≠ es[j].swap := fun e => h1 (Prod.swap_injective e)
  split <;> split <;> simp_all

theorem NoRepeat.flips {L : List (Term × Term)} (h : NoRepeat L) {flips : List Nat} (hnd : flips.Nodup) :
    NoRepeat (flips.filterMap (L[·]?)) := by
  unfold NoRepeat
  rw [List.pairwise_filterMap]
  exact hnd.imp fun hij e he f hf => h.getElem he hf hij

/-- The `resolution` step made by `flip_eq_transitive_premises` is accepted. -/
theorem flip_resolution {L : List (Term × Term)} {last : Term} (hlast : ∀ a b, last ≠ neqTerm a b) (hL : NoRepeat L)
    {flips : List Nat} (hnd : flips.Nodup) (hlt : ∀ k ∈ flips, k < L.length) (hne : flips ≠ []) :
    resolutionWithArgs (unflipped (neqs L ++ [last]) flips ++ neqs ((flips.filterMap (L[·]?)).map Prod.swap))
      ((neqs L ++ [last]) :: swapClauses (flips.filterMap (L[·]?))) (swapArgs (flips.filterMap (L[·]?))) = .ok () := by
  have hfs : ∀ f ∈ flips.filterMap (L[·]?), ∃ k ∈ flips, L[k]? = some f := fun f hf => List.mem_filterMap.1 hf
  have hneqs : ∀ {i : Nat} {f : Term × Term}, L[i]? = some f → (neqs L ++ [last])[i]? = some (neqTerm f.1 f.2) := by
    intro i f hi
    rw [List.getElem?_append_left (by simpa [neqs] using (List.getElem?_eq_some_iff.1 hi).1), neqs, List.getElem?_map, hi]
    rfl
  rw [c08_resolution_with_args_exact]
  refine ⟨?_, ?_⟩
  · obtain ⟨k, ks, rfl⟩ := List.exists_cons_of_ne_nil hne
    rw [List.filterMap_cons_some (List.getElem?_eq_getElem (hlt k (by simp)))]
    simp [swapClauses]
  · have := resChain_swaps (P := (· ∈ neqs L ++ [last])) (hL.flips hnd) (fun f hf => by
      obtain ⟨k, -, hk⟩ := hfs f hf
      exact List.mem_of_getElem? (hneqs hk))
    convert this using 1
    funext x
    refine propext ?_
    rw [List.mem_append, mem_unflipped]
    refine or_congr ⟨?_, ?_⟩ ?_
    · rintro ⟨i, hi, hif⟩
      refine ⟨List.mem_of_getElem? hi, fun f hf e => ?_⟩
      obtain ⟨k, hk, hkf⟩ := hfs f hf
      rcases Nat.lt_or_ge i L.length with hil | hil
      · have hi' := List.getElem?_eq_getElem hil
        rw [hneqs hi', e, Option.some.injEq, neqTerm_inj] at hi
        exact (hL.getElem hi' hkf (fun e => hif (e ▸ hk))).1 (Prod.ext hi.1 hi.2)
      · rw [List.getElem?_append_right (by simpa [neqs] using hil)] at hi
        have := List.mem_of_getElem? hi
        rw [List.mem_singleton] at this
        exact hlast _ _ (this.symm.trans e)
    · rintro ⟨hx, hn⟩
      obtain ⟨i, hi⟩ := List.mem_iff_getElem?.1 hx
      refine ⟨i, hi, fun hif => ?_⟩
      have hi' := List.getElem?_eq_getElem (hlt i hif)
      rw [hneqs hi', Option.some.injEq] at hi
      exact hn _ (List.mem_filterMap.2 ⟨i, hif, hi'⟩) hi.symm
    · simp only [neqs, List.mem_map]
      constructor
      · rintro ⟨_, ⟨f, hf, rfl⟩, rfl⟩; exact ⟨f, hf, rfl⟩
      · rintro ⟨f, hf, rfl⟩; exact ⟨_, ⟨f, hf, rfl⟩, rfl⟩

theorem exists_bind {α β : Type} {x : Res α} {f : α → Res β} : (∃ b, (x >>= f) = .ok b) ↔ ∃ a, x = .ok a ∧ ∃ b, f a = .ok b := by
  simp only [bind_ok]
  exact ⟨fun ⟨b, a, h, h'⟩ => ⟨a, h, b, h'⟩, fun ⟨a, h, b, h'⟩ => ⟨b, a, h, h'⟩⟩

/-- What `flip_eq_transitive_premises` makes of an `eq_transitive` step. -/
theorem flipEqTransitive_ok {n : Node} {depth : Nat} {flips : List Nat} {ids : IdHelper} {L : List (Term × Term)} {last : Term}
    (hn : n.clause = neqs L ++ [last]) (hs : ids.stack ≠ []) (hlt : ∀ k ∈ flips, k < L.length) :
    ∃ d' ps' ids', flipEqTransitive n depth flips ids = .ok (.mk d' ps', ids') ∧ ids'.stack ≠ [] ∧ d'.rule = "resolution" ∧
      d'.clause = unflipped (neqs L ++ [last]) flips ++ neqs ((flips.filterMap (L[·]?)).map Prod.swap) ∧
      ps'.map Node.clause = (neqs L ++ [last]) :: swapClauses (flips.filterMap (L[·]?)) ∧
      d'.args = swapArgs (flips.filterMap (L[·]?)) ∧
      ∀ p ∈ ps', p = n ∨ ∃ d₁ d₂, p = .mk d₂ [.mk d₁ []] ∧ d₁.rule = "eq_symmetric" ∧ d₂.rule = "equiv2" ∧
        eqSymmetric d₁.clause [] d₁.args = .ok () ∧ equiv2 d₂.clause [d₁.clause] d₂.args = .ok () := by
  obtain ⟨steps, ids₁, e1, h1, g1, g2, g3, g4⟩ := flipSteps_ok (depth := depth) (rest := [last]) hs hlt
  obtain ⟨id, ids₂, e2, h2⟩ := IdHelper.nextId_total h1
  refine ⟨⟨id, depth, unflipped n.clause flips ++ steps.map (·.2.2), "resolution", steps.flatMap fun s => [s.2.1, .fls]⟩,
    n :: steps.map (·.1), ids₂, ?_, h2, rfl, ?_, ?_, g2, ?_⟩
  · unfold flipEqTransitive
    exact bind_ok.2 ⟨(steps, ids₁), by rw [hn]; exact e1, bind_ok.2 ⟨(id, ids₂), e2, rfl⟩⟩
  · show unflipped n.clause flips ++ _ = _
    rw [hn, g3]
  · rw [List.map_cons, hn, g1]
  · intro p hp
    rcases List.mem_cons.1 hp with rfl | hp
    · exact .inl rfl
    · obtain ⟨s, hs, rfl⟩ := List.mem_map.1 hp
      exact .inr (g4 s hs)

/-- **C36.** Elaborating an accepted `eq_transitive` step succeeds. -/
theorem c36_eq_transitive_total {d : NodeData} {ps dis : List Node} {prev : Option Node}
    (h : eqTransitive d.clause (ps.map Node.clause) d.args = .ok ()) : ∃ n, elabEqTransitive d ps dis prev = .ok n := by
  simp only [eqTransitive, bind_ok, orPanic_ok, match2_ok, collect_neqs, require_ok, Prod.exists] at h
  obtain ⟨_, hlen, _, hlast, t, u, rfl, eqs, heqs, hch⟩ := h
  have hcl : d.clause = neqs eqs ++ [.op .equals [t, u]] := by
    rw [← heqs]
    exact (List.dropLast_append_getLast? _ hlast).symm
  have hl : d.clause.length = eqs.length + 1 := by rw [hcl]; simp [neqs]
  obtain ⟨r, hr⟩ := c36_trace_total (ps := neqs eqs) (by simp [neqs]) hch
  obtain ⟨h1, h2, h3, -, h5, h6, h7, -⟩ := c36_trace hr
  have hp : r.premises = neqs r.equalities := by
    have : List.Forall₂ (fun (e : Term × Term) l => l = neqTerm e.1 e.2) eqs (neqs eqs) := by
      rw [neqs, List.forall₂_map_right_iff]
      exact List.forall₂_same.2 fun _ _ => rfl
    have := h7 _ this
    generalize r.equalities = es, r.premises = ls at this
    clear h7
    induction this with
    | nil => rfl
    | cons h _ ih => rw [h, ih]; rfl
  unfold elabEqTransitive
  rw [if_neg (by omega)]
  refine exists_bind.2 ⟨_, orPanic_ok.2 hlast, exists_bind.2 ⟨(t, u), rfl, exists_bind.2 ⟨_, collect_neqs.2 heqs, ?_⟩⟩⟩
  refine exists_bind.2 ⟨r, by rw [heqs]; exact hr, ?_⟩
  simp only
  split
  · exact ⟨_, rfl⟩
  · have hfl := flipLiterals_ok (rest := [Term.op .equals [t, u]]) h5
      (fun k hk => Nat.lt_of_lt_of_le (h6 k hk) (h3.length_eq ▸ h2))
    refine exists_bind.2 ⟨_, by rw [hp]; exact hfl, ?_⟩
    obtain ⟨id, ids, e1, hs⟩ := IdHelper.nextId_total (h := .new d.id) (by simp [IdHelper.new])
    refine exists_bind.2 ⟨(id, ids), e1, ?_⟩
    rw [hl, Nat.add_sub_cancel, split_literals h3.length_eq h6]
    simp only
    refine exists_bind.2 ?_
    have hlat : ∃ a : Node × IdHelper, (if r.flips = [] then
        (.ok (firstStep d id (orient r.flips (r.equalities.take r.needed)) (.op .equals [t, u]), ids) : Res (Node × IdHelper))
        else flipEqTransitive (firstStep d id (orient r.flips (r.equalities.take r.needed)) (.op .equals [t, u])) d.depth r.flips
          ids) = .ok a ∧ a.2.stack ≠ [] := by
      split
      · exact ⟨_, rfl, hs⟩
      · obtain ⟨d', ps', ids', e, h', -⟩ := flipEqTransitive_ok (depth := d.depth) (flips := r.flips)
          (n := firstStep d id (orient r.flips (r.equalities.take r.needed)) (.op .equals [t, u])) rfl hs (by
            rw [orient_length, List.length_take]
            intro k hk
            have := h6 k hk
            have := h3.length_eq
            omega)
        exact ⟨_, e, h'⟩
    obtain ⟨⟨latest, ids'⟩, e2, hs'⟩ := hlat
    refine ⟨_, e2, exists_bind.2 ?_⟩
    split
    · exact ⟨_, rfl, _, rfl⟩
    · obtain ⟨id, ids', e1, -⟩ := IdHelper.nextId_total hs'
      exact ⟨_, bind_ok.2 ⟨_, e1, rfl⟩, _, rfl⟩

theorem unflipped_concat {l : List Term} {x : Term} {flips : List Nat} (h : ∀ k ∈ flips, k < l.length) :
    unflipped (l ++ [x]) flips = unflipped l flips ++ [x] := by
  have : l.length ∉ flips := fun hm => Nat.lt_irrefl _ (h _ hm)
  simp [unflipped, List.zipIdx_append, this]

theorem unflipped_orient {es : List (Term × Term)} {flips : List Nat} :
    unflipped (neqs (orient flips es)) flips = unflipped (neqs es) flips := by
  rw [unflipped_eq, unflipped_eq]
  simp only [neqs, List.length_map, orient_length]
  refine List.filterMap_congr fun i hi => ?_
  have : i ∉ flips := by simpa using List.of_mem_filter hi
  rw [List.getElem?_map, List.getElem?_map, orient_getElem?]
  simp [this]

theorem filterMap_orient {es : List (Term × Term)} {flips : List Nat} :
    neqs ((flips.filterMap ((orient flips es)[·]?)).map Prod.swap) = flips.filterMap ((neqs es)[·]?) := by
  unfold neqs
  rw [List.map_map, List.map_filterMap]
  refine List.filterMap_congr fun i hi => ?_
  rw [List.getElem?_map, orient_getElem?]
  cases es[i]? <;> simp [hi]

/-- The clause after the flips is a permutation of the original literals. -/
theorem flipped_perm {es : List (Term × Term)} {last : Term} {flips : List Nat} (hnd : flips.Nodup) (hlt : ∀ k ∈ flips, k < es.length) :
    (unflipped (neqs (orient flips es) ++ [last]) flips ++ neqs ((flips.filterMap ((orient flips es)[·]?)).map Prod.swap)).Perm
      (neqs es ++ [last]) := by
  have hl : (neqs es).length = es.length := by simp [neqs]
  rw [unflipped_concat (by simpa [neqs, orient_length] using hlt), unflipped_orient, filterMap_orient, List.append_assoc]
  refine (List.Perm.append_left _ List.perm_append_comm).trans ?_
  rw [← List.append_assoc]
  exact (unflipped_perm hnd (by rwa [hl])).append_right _

/-- **C45, part of the claim.** Elaborating an accepted `eq_transitive` step succeeds and gives accepted steps that derive the same clause,
if no equality is repeated and none is the conclusion. The full claim has neither condition and is refuted below. -/
theorem c45_eq_transitive_partial {E : TableEnv} {el : Bool} {d : NodeData} {ps dis : List Node} {prev : Option Node}
    {t u : Term} {eqs : List (Term × Term)} (hrule : d.rule = "eq_transitive")
    (h : eqTransitive d.clause (ps.map Node.clause) d.args = .ok ())
    (hd : d.clause = eqs.map (fun e => .op .not [.op .equals [e.1, e.2]]) ++ [.op .equals [t, u]])
    (hrep : eqs.Pairwise fun e f => e ≠ f ∧ e ≠ f.swap) (htu : t ≠ u) (h1 : (t, u) ∉ eqs) (h2 : (u, t) ∉ eqs) :
    ∃ n, elabEqTransitive d ps dis prev = .ok n ∧ n.clause = d.clause ∧ Derived E el ps n := by
  obtain ⟨n, hn⟩ := c36_eq_transitive_total (dis := dis) (prev := prev) h
  obtain ⟨t', u', eqs', r, -, hcl, hr, -, hcase⟩ := elabEqTransitive_ok hn
  have hd' : d.clause = neqs eqs ++ [.op .equals [t, u]] := hd
  rw [hd'] at hcl
  obtain ⟨hq, ht⟩ := List.append_inj' hcl rfl
  obtain ⟨rfl, rfl⟩ : t = t' ∧ u = u' := by simpa using ht
  obtain rfl : eqs = eqs' := by
    refine List.map_injective_iff.2 ?_ hq
    rintro ⟨a, b⟩ ⟨c, d⟩ e
    exact Prod.ext (neqTerm_inj.1 e).1 (neqTerm_inj.1 e).2
  obtain ⟨g1, g2, g3, -, g5, g6, -, -⟩ := c36_trace hr
  refine ⟨n, hn, (c36_eq_transitive hn hrule).1, ?_⟩
  rcases hcase with ⟨-, -, -, rfl⟩ | ⟨id, ids, latest, last, hid, hlat, hw, rfl⟩
  · exact .step (fun p hp => .given hp) ⟨eqTransitive, by rw [hrule]; rfl, h⟩
  have hs : ids.stack ≠ [] := by
    obtain ⟨_, _, e, hs⟩ := IdHelper.nextId_total (h := .new d.id) (by simp [IdHelper.new])
    rw [e] at hid
    cases hid
    exact hs
  have hlen : (r.equalities.take r.needed).length = r.needed := by
    rw [List.length_take, g3.length_eq]; omega
  have hnr : NoRepeat (r.equalities.take r.needed) := List.Pairwise.sublist (List.take_sublist _ _) (NoRepeat.perm hrep g3.symm)
  -- the chain has at least two equalities
  have hmem : ∀ e ∈ orient r.flips (r.equalities.take r.needed), e ∈ eqs ∨ e.swap ∈ eqs := by
    intro e he
    simp only [orient, List.mem_map] at he
    obtain ⟨⟨x, k⟩, hx, rfl⟩ := he
    have hx' := g3.mem_iff.1 (List.mem_of_mem_take (List.fst_mem_of_mem_zipIdx hx))
    split
    · exact .inr (by simpa using hx')
    · exact .inl hx'
  have htwo : 2 ≤ (orient r.flips (r.equalities.take r.needed)).length := by
    revert g1 hmem
    generalize orient r.flips (r.equalities.take r.needed) = es
    intro g1 hmem
    cases g1 with
    | nil => exact absurd rfl htu
    | cons g1 =>
      cases g1 with
      | nil =>
        rcases hmem _ (List.mem_singleton_self _) with h | h
        · exact absurd h h1
        · exact absurd h h2
      | cons g1 => simp
  generalize hL : orient r.flips (r.equalities.take r.needed) = L at *
  -- the first step
  have hfirst : Derived E el ps (firstStep d id L (.op .equals [t, u])) := by
    refine .step (by simp) ⟨eqTransitive, rfl, ?_⟩
    simp only [eqTransitive, bind_ok, orPanic_ok, match2_ok, collect_neqs, require_ok, Prod.exists]
    refine ⟨(), by simp [neqs]; omega, _, List.getLast?_concat, t, u, rfl, L, List.dropLast_concat, chain_findChain g1⟩
  -- the flips
  have hlatest : Derived E el ps latest.1 ∧ latest.1.clause.Perm (neqs (r.equalities.take r.needed) ++ [Term.op .equals [t, u]]) := by
    split at hlat
    · next hf =>
      cases hlat
      refine ⟨hfirst, ?_⟩
      rw [hf, orient_nil] at hL
      rw [hL]
      exact .refl _
    · next hf =>
      have hltL : ∀ k ∈ r.flips, k < L.length := by
        rw [← hL, orient_length, hlen]; exact g6
      obtain ⟨d', ps', ids', e, -, f1, f2, f3, f4, f5⟩ := flipEqTransitive_ok (n := firstStep d id L (.op .equals [t, u]))
        (depth := d.depth) rfl hs hltL
      rw [e] at hlat
      cases hlat
      have hres := flip_resolution (last := .op .equals [t, u]) (by simp [neqTerm]) (hL ▸ hnr.orient r.flips) g5 hltL hf
      have hargs : swapArgs (r.flips.filterMap (L[·]?)) ≠ [] := by
        obtain ⟨k, ks, hk⟩ := List.exists_cons_of_ne_nil hf
        rw [hk, List.filterMap_cons_some (List.getElem?_eq_getElem (hltL k (by simp [hk])))]
        simp [swapArgs]
      refine ⟨.step ?_ ?_, ?_⟩
      · intro p hp
        rcases f5 p hp with rfl | ⟨d₁, d₂, rfl, r1, r2, o1, o2⟩
        · exact hfirst
        · refine .step ?_ ⟨equiv2, by rw [r2]; rfl, o2⟩
          intro q hq
          rw [List.mem_singleton] at hq
          subst hq
          exact .step (by simp) ⟨eqSymmetric, by rw [r1]; rfl, o1⟩
      · cases el with
        | false =>
          refine ⟨resolution, by rw [f1]; rfl, ?_⟩
          rw [f2, f3, f4, resolution, if_pos hargs]
          exact hres
        | true =>
          refine ⟨resolutionWithArgs, by rw [f1]; rfl, ?_⟩
          rw [f2, f3, f4]
          exact hres
      · show d'.clause.Perm _
        rw [f2, ← hL]
        exact flipped_perm g5 (by rw [hlen]; exact g6)
  -- weakening and reordering
  have hlast : Derived E el ps last ∧ last.clause.Perm d.clause := by
    have hp : (neqs (r.equalities.take r.needed) ++ [Term.op .equals [t, u]] ++ neqs (r.equalities.drop r.needed)).Perm d.clause := by
      rw [hd', List.append_assoc]
      refine (List.Perm.append_left _ List.perm_append_comm).trans ?_
      rw [← List.append_assoc, neqs, neqs, ← List.map_append, List.take_append_drop]
      exact (g3.map _).append_right _
    rcases hw with ⟨rfl, hd⟩ | ⟨id', rfl⟩
    · rw [hd] at hp
      exact ⟨hlatest.1, hlatest.2.trans (by simpa [neqs] using hp)⟩
    · refine ⟨.step (by simpa using hlatest.1) ⟨weakening, rfl, ?_⟩, ?_⟩
      · rw [c11_weakening_exact]
        exact ⟨_, rfl, List.prefix_append _ _⟩
      · exact (hlatest.2.append_right _).trans hp
  refine .step (by simpa using hlast.1) ⟨reordering, rfl, ?_⟩
  rw [c11_reordering_exact]
  exact ⟨_, rfl, hlast.2.symm⟩

/-! ## The full claim for `eq_transitive` fails -/

section
private abbrev S : Srt := .atom "S" []
private abbrev a : Term := .var "a" S
private abbrev b : Term := .var "b" S
private abbrev c : Term := .var "c" S
private abbrev e : Term := .var "e" S
private abbrev eq (x y : Term) : Term := .op .equals [x, y]
private abbrev neq (x y : Term) : Term := .op .not [.op .equals [x, y]]

/-- `(cl (not (= b a)) (not (= c e)) (not (= b c)) (= a c))`: the first equality is turned around, the second is not needed. -/
private def good : NodeData := ⟨"t1", 0, [neq b a, neq c e, neq b c, eq a c], "eq_transitive", []⟩

/-- The hypotheses of `c45_eq_transitive_partial` hold of it. -/
example : eqTransitive good.clause [] good.args = .ok () ∧ good.clause = [(b, a), (c, e), (b, c)].map (fun e => .op .not [.op .equals [e.1, e.2]]) ++
    [.op .equals [a, c]] ∧ ([(b, a), (c, e), (b, c)] : List (Term × Term)).Pairwise (fun e f => e ≠ f ∧ e ≠ f.swap) ∧ a ≠ c ∧
    (a, c) ∉ [(b, a), (c, e), (b, c)] ∧ (c, a) ∉ [(b, a), (c, e), (b, c)] := by
  refine ⟨by decide, rfl, by decide, by decide, by decide, by decide⟩

mutual
/-- The names of the rules in a tree of nodes, from the root down. -/
private def rulesOf : Node → List String
  | .assume _ _ _ => ["assume"]
  | .step d ps _ _ => d.rule :: rulesOfList ps
  | .subproof l _ _ => rulesOf l
private def rulesOfList : List Node → List String
  | [] => []
  | n :: ns => rulesOf n ++ rulesOfList ns
end

/-- The result uses every kind of step. -/
example : (elabEqTransitive good [] [] none).map rulesOf =
    .ok ["reordering", "weakening", "resolution", "eq_transitive", "equiv2", "eq_symmetric"] := by decide +kernel

/-- An instance of `c45_trans`, with one premise turned around and one left out. -/
example : trans [eq a c] [[eq b a], [eq c e], [eq b c]] [] = .ok () ∧
    ((elabTrans ⟨"t1", 0, [eq a c], "trans", []⟩ [.assume "h1" 0 (eq b a), .assume "h2" 0 (eq c e), .assume "h3" 0 (eq b c)]
      [] none).map rulesOf) = .ok ["trans", "symm", "assume", "assume"] := by decide +kernel

/-- A derivation that ends in a step. -/
theorem Spec.Derived.inv {E : TableEnv} {el : Bool} {d : NodeData} {ps dis : List Node} {prev : Option Node}
    (h : Derived E el [] (.step d ps dis prev)) : (∀ p ∈ ps, Derived E el [] p) ∧ StepOK E el d ps := by
  cases h with
  | given h => simp at h
  | step h h' => exact ⟨h, h'⟩

/-- `(cl (not (= a b)) (not (= c e)) (= a b))`. -/
private def short : NodeData := ⟨"t1", 0, [neq a b, neq c e, eq a b], "eq_transitive", []⟩

/-- **C45 fails for `eq_transitive`.** The step `(cl (not (= a b)) (not (= c e)) (= a b))` is accepted, but in its elaboration the step
`(cl (not (= a b)) (= a b))` by `eq_transitive` is rejected. -/
theorem c45_eq_transitive_fails (E : TableEnv) (el : Bool) : eqTransitive short.clause [] [] = .ok () ∧
    ∃ n, elabEqTransitive short [] [] none = .ok n ∧ ¬ Derived E el [] n := by
  refine ⟨by decide, .mk ⟨"t1", 0, short.clause, "reordering", []⟩ [.mk ⟨"t1.t2", 0, [neq a b, eq a b, neq c e], "weakening", []⟩
    [.mk ⟨"t1.t1", 0, [neq a b, eq a b], "eq_transitive", []⟩ []]], by with_unfolding_all rfl, ?_⟩
  intro h
  have h := h.inv.1 _ (List.mem_singleton_self _)
  have h := h.inv.1 _ (List.mem_singleton_self _)
  exact absurd (h.inv.2.rule (r := eqTransitive) rfl) (by decide)

/-- `(cl (not (= b a)) (not (= b a)) (not (= b a)) (not (= b c)) (= a c))`. -/
private def repeated : NodeData := ⟨"t1", 0, [neq b a, neq b a, neq b a, neq b c, eq a c], "eq_transitive", []⟩

/-- **C45 fails for `eq_transitive`.** If an equality that is turned around is repeated, the `resolution` step is rejected: the clauses are
treated as sets, so the second pivot is not found. -/
theorem c45_eq_transitive_repeated_fails (E : TableEnv) (el : Bool) : eqTransitive repeated.clause [] [] = .ok () ∧
    ∃ n, elabEqTransitive repeated [] [] none = .ok n ∧ ¬ Derived E el [] n := by
  let symm (id : String) : Node := .mk ⟨id, 0, [eq (eq a b) (eq b a)], "eq_symmetric", []⟩ []
  refine ⟨by decide, .mk ⟨"t1", 0, repeated.clause, "reordering", []⟩ [.mk ⟨"t1.t6", 0,
    [neq b a, neq b c, eq a c, neq b a, neq b a], "resolution", [eq a b, .fls, eq a b, .fls]⟩
    [.mk ⟨"t1.t1", 0, [neq a b, neq b a, neq a b, neq b c, eq a c], "eq_transitive", []⟩ [],
     .mk ⟨"t1.t3", 0, [eq a b, neq b a], "equiv2", []⟩ [symm "t1.t2"],
     .mk ⟨"t1.t5", 0, [eq a b, neq b a], "equiv2", []⟩ [symm "t1.t4"]]], by with_unfolding_all rfl, ?_⟩
  intro h
  have h := (h.inv.1 _ (List.mem_singleton_self _)).inv.2
  cases el with
  | false => exact absurd (h.rule (r := resolution) rfl) (by decide +kernel)
  | true => exact absurd (h.rule (r := resolutionWithArgs) rfl) (by decide +kernel)

end

end Carcara
