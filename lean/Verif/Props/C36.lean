import Verif.Lemmas.ElabTrans
import Verif.Props.C08
import Verif.Props.C13

/-!
# C36: elaboration of transitivity steps

The elaborated premises form an ordered chain. That elaborating an accepted `eq_transitive` step succeeds is in `Props/C45.lean`.
-/

namespace Carcara

open Spec

/-! ## C36 -/

/-- **C36.** The equalities found by `find_and_trace_chain`, turned around as reported, form an ordered chain from the left to the
right of the conclusion. They are the given ones in another order, the premises follow the same order, and no position is
reported twice. -/
theorem c36_trace {α : Type} {a b : Term} {eqs : List (Term × Term)} {ps : List α} {r : Trace α}
    (h : findAndTraceChain a b eqs ps = .ok r) :
    Chain a b (orient r.flips (r.equalities.take r.needed)) ∧ r.needed ≤ eqs.length ∧ r.equalities.Perm eqs ∧
      r.premises.Perm ps ∧ r.flips.Nodup ∧ (∀ k ∈ r.flips, k < r.needed) ∧
      (∀ R : Term × Term → α → Prop, List.Forall₂ R eqs ps → List.Forall₂ R r.equalities r.premises) ∧
      (r.reordered = false → r.equalities = eqs ∧ r.premises = ps) := by
  obtain ⟨-, h2, h3, h4, h5, h6, h7, h8, h9⟩ := traceChain_spec (a₀ := a) _ _ _ _ _ _ _ _ h (Nat.zero_le _) (by simp) (by simp)
    (by simpa [orient] using Chain.nil a)
  exact ⟨h7, h3.length_eq ▸ h2, h3, h4, h6, h5, h9, fun hr => ⟨(h8 hr).2.2, (h8 hr).2.1⟩⟩

/-- **C36.** `find_and_trace_chain` finds a chain whenever the checker does. -/
theorem c36_trace_total {α : Type} {a b : Term} {eqs : List (Term × Term)} {ps : List α} (hlen : ps.length = eqs.length)
    (h : findChain eqs.length a b eqs = .ok ()) : ∃ r, findAndTraceChain a b eqs ps = .ok r :=
  traceChain_complete _ 0 _ _ _ _ _ hlen h

/-- **C36.** Elaborating `trans` gives the same conclusion from premises that form an ordered chain; each is an old premise or a
`symm` step from one. -/
theorem c36_trans {d : NodeData} {ps dis : List Node} {prev : Option Node} {n : Node} (h : elabTrans d ps dis prev = .ok n) :
    ∃ t u es ps', d.clause = [.op .equals [t, u]] ∧ n = .step d ps' dis prev ∧ Chain t u es ∧
      ps'.map Node.clause = es.map (fun e => [.op .equals [e.1, e.2]]) ∧
      ∀ p ∈ ps', p ∈ ps ∨ ∃ q ∈ ps, ∃ d', p = .mk d' [q] ∧ d'.rule = "symm" ∧ symm d'.clause [q.clause] d'.args = .ok () := by
  simp only [elabTrans, bind_ok, match2_ok, collectRes_ok, ok_inj, Prod.exists] at h
  obtain ⟨c, hc, t, u, rfl, eqs, heqs, r, hr, ps', hps', rfl⟩ := h
  obtain ⟨h1, h2, h3, h4, h5, h6, h7, -⟩ := c36_trace hr
  have hd : d.clause = [.op .equals [t, u]] := by
    unfold single at hc
    split at hc
    · next ht => rw [ht]; simpa using hc
    · simp at hc
  have hF : List.Forall₂ HasEq r.equalities r.premises :=
    h7 HasEq (List.Forall₂.imp (fun _ _ h => nodeEq_ok.1 h) heqs.flip)
  have hF' : List.Forall₂ HasEq (r.equalities.take r.needed) (r.premises.take r.needed) := List.forall₂_take r.needed hF
  have hlen : (r.equalities.take r.needed).length = r.needed := by
    rw [List.length_take, h3.length_eq]; omega
  obtain ⟨ps'', e1, e2, e3⟩ := flipPremises_ok (ids := .new d.id) (by simp [IdHelper.new]) h5 (by rwa [hlen]) hF'
  rw [hps'] at e1
  cases e1
  refine ⟨t, u, _, ps', hd, rfl, h1, ?_, ?_⟩
  · clear h1 e3 hps'
    generalize orient r.flips _ = es at e2
    induction e2 with
    | nil => rfl
    | cons ha _ ih => rw [List.map_cons, List.map_cons, ih, ha]
  · intro p hp
    obtain ⟨k, hk, rfl⟩ := List.mem_iff_getElem.1 hp
    obtain ⟨q, hq, hcase⟩ := e3 k _ (List.getElem?_eq_getElem hk)
    have hq' : q ∈ ps := h4.mem_iff.1 (List.mem_of_mem_take (List.mem_of_getElem? hq))
    rcases hcase with ⟨-, e⟩ | ⟨-, id, hs⟩
    · exact .inl (e ▸ hq')
    · obtain ⟨e, he, hs⟩ := addSymm_ok.1 hs
      refine .inr ⟨q, hq', _, hs, rfl, ?_⟩
      rw [show q.clause = _ from he]
      simp [symm, get1, match2, assertEq, require, bind, Except.bind]

/-- **C36.** Elaborating an accepted `trans` step succeeds. -/
theorem c36_trans_total {d : NodeData} {ps dis : List Node} {prev : Option Node}
    (h : trans d.clause (ps.map Node.clause) d.args = .ok ()) : ∃ n, elabTrans d ps dis prev = .ok n := by
  simp only [trans, bind_ok, get1_ok, match2_ok, collectRes_ok, Prod.exists] at h
  obtain ⟨c, hc, t, u, rfl, eqs, heqs, hch⟩ := h
  have hF : List.Forall₂ (fun p e => nodeEq p = .ok e) ps eqs := by
    rw [List.forall₂_map_left_iff] at heqs
    exact heqs.imp fun p e h => nodeEq_ok.2 (premiseEq_ok.1 h)
  obtain ⟨r, hr⟩ := c36_trace_total (ps := ps) (hF.length_eq) hch
  obtain ⟨h1, h2, h3, h4, h5, h6, h7, -⟩ := c36_trace hr
  have hR : List.Forall₂ HasEq r.equalities r.premises := h7 HasEq (List.Forall₂.imp (fun _ _ h => nodeEq_ok.1 h) hF.flip)
  have hlen : (r.equalities.take r.needed).length = r.needed := by
    rw [List.length_take, h3.length_eq]; omega
  obtain ⟨ps', e1, -, -⟩ := flipPremises_ok (ids := .new d.id) (by simp [IdHelper.new]) h5 (by rwa [hlen])
    (List.forall₂_take r.needed hR)
  refine ⟨.step d ps' dis prev, ?_⟩
  unfold elabTrans
  refine bind_ok.2 ⟨.op .equals [t, u], by rw [hc]; rfl, bind_ok.2 ⟨(t, u), rfl, ?_⟩⟩
  exact bind_ok.2 ⟨eqs, collectRes_ok.2 hF, bind_ok.2 ⟨r, hr, bind_ok.2 ⟨ps', e1, rfl⟩⟩⟩

/-- The premises that `flip_eq_transitive_premises` adds do not hide the step it starts from. -/
theorem uses_flipEqTransitive {n : Node} {depth : Nat} {flips : List Nat} {ids : IdHelper} {r : Node × IdHelper}
    (h : flipEqTransitive n depth flips ids = .ok r) : Uses r.1 n := by
  simp only [flipEqTransitive, bind_ok, ok_inj, Prod.exists] at h
  obtain ⟨_, _, -, _, _, -, rfl⟩ := h
  exact .premise (by simp) (.refl n)

/-- **C36.** Elaborating `eq_transitive` keeps the conclusion; the `eq_transitive` step it ends up using has its negated equalities
in the order of a chain, and each comes from the original clause, possibly turned around. -/
theorem c36_eq_transitive {d : NodeData} {ps dis : List Node} {prev : Option Node} {n : Node}
    (h : elabEqTransitive d ps dis prev = .ok n) (hrule : d.rule = "eq_transitive") :
    n.clause = d.clause ∧ ∃ t u es first firstPremises firstDis firstPrev, Uses n (.step first firstPremises firstDis firstPrev) ∧
      first.rule = "eq_transitive" ∧ first.clause = es.map (fun e => .op .not [.op .equals [e.1, e.2]]) ++ [.op .equals [t, u]] ∧
      d.clause.getLast? = some (.op .equals [t, u]) ∧ Chain t u es ∧
      ∀ e ∈ es, Term.op .not [.op .equals [e.1, e.2]] ∈ d.clause ∨ Term.op .not [.op .equals [e.2, e.1]] ∈ d.clause := by
  obtain ⟨t, u, eqs, r, -, hcl, hr, -, hcase⟩ := elabEqTransitive_ok h
  obtain ⟨h1, h2, h3, -, -, -, -, h8⟩ := c36_trace hr
  have hmem : ∀ e ∈ orient r.flips (r.equalities.take r.needed), Term.op .not [.op .equals [e.1, e.2]] ∈ d.clause ∨
      Term.op .not [.op .equals [e.2, e.1]] ∈ d.clause := by
    have hm : ∀ e ∈ eqs, Term.op .not [.op .equals [e.1, e.2]] ∈ d.clause := fun e he => by
      rw [hcl]; exact List.mem_append_left _ (List.mem_map.2 ⟨e, he, rfl⟩)
    intro e he
    simp only [orient, List.mem_map] at he
    obtain ⟨⟨x, k⟩, hx, rfl⟩ := he
    have hx' := hm _ (h3.mem_iff.1 (List.mem_of_mem_take (List.fst_mem_of_mem_zipIdx hx)))
    split
    · exact .inr hx'
    · exact .inl hx'
  have hlast : d.clause.getLast? = some (.op .equals [t, u]) := by rw [hcl, List.getLast?_concat]
  rcases hcase with ⟨e1, e2, e3, rfl⟩ | ⟨id, ids, latest, last, -, hlat, hw, rfl⟩
  · refine ⟨rfl, t, u, _, d, ps, dis, prev, .refl _, hrule, ?_, hlast, h1, hmem⟩
    rw [e3, orient_nil, e2, (h8 e1).1, List.take_length]
    exact hcl
  · refine ⟨rfl, t, u, _, ⟨id, d.depth, neqs (orient r.flips (r.equalities.take r.needed)) ++ [.op .equals [t, u]],
      "eq_transitive", []⟩, [], [], none, .premise (List.mem_singleton_self _) ?_, rfl, rfl, hlast, h1, hmem⟩
    have hu : Uses latest.1 (firstStep d id (orient r.flips (r.equalities.take r.needed)) (.op .equals [t, u])) := by
      split at hlat
      · cases hlat; exact .refl _
      · exact uses_flipEqTransitive hlat
    rcases hw with ⟨rfl, -⟩ | ⟨_, rfl⟩
    · exact hu
    · exact .premise (List.mem_singleton_self _) hu

section
private abbrev S : Srt := .atom "S" []
private abbrev a : Term := .var "a" S
private abbrev b : Term := .var "b" S
private abbrev c : Term := .var "c" S
private abbrev e : Term := .var "e" S

/-- Out of order, turned around, and with an equality that is not needed. -/
example : findAndTraceChain a c [(c, b), (c, e), (b, a)] [1, 2, 3] = .ok ⟨true, 2, [0, 1], [(b, a), (c, b), (c, e)], [3, 1, 2]⟩ := by
  decide +kernel

/-- The hypothesis of `c36_eq_transitive_total`. -/
example : eqTransitive [.op .not [.op .equals [c, b]], .op .not [.op .equals [b, a]], .op .equals [a, c]] [] [] = .ok () := by
  decide

end

end Carcara
