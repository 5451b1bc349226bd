import Verif.Model.ElabReordering
import Verif.Spec.ElabReordering
import Verif.Props.C28
import Verif.Model.Cnf
import Mathlib.Data.List.Forall2
import Mathlib.Data.List.Perm.Basic

/-! # Facts about the removal of reordering steps -/

namespace Carcara

open Spec

theorem removeFirst_eq {f : Term → Bool} {a : Term} (h : ∀ x, f x = true ↔ x = a) : ∀ l : List Term,
    removeFirst f l = if a ∈ l then some (l.erase a) else none
  | [] => by simp [removeFirst]
  | t :: ts => by
    rw [removeFirst]
    by_cases e : t = a
    · subst e
      simp [(h t).2 rfl]
    · have : f t = false := by
        cases hf : f t
        · rfl
        · exact absurd ((h t).1 hf) e
      rw [this, removeFirst_eq h ts]
      have e' : a ≠ t := fun h => e h.symm
      by_cases hm : a ∈ ts <;> simp [hm, e, e', List.erase_cons_tail]

/-- The literal removed from the clause obtained so far (`true`) or from the next premise (`false`). -/
def pivotLit (pivot : Term) (polarity isCurrent : Bool) : Term := if isCurrent = polarity then pivot else .op .not [pivot]

theorem isPivot_iff (pivot : Term) (polarity isCurrent : Bool) (x : Term) :
    isPivot pivot polarity isCurrent x = true ↔ x = pivotLit pivot polarity isCurrent := by
  unfold isPivot pivotLit
  split
  · simp
  · have := Term.removeNegErr_ok (t := x) (u := pivot)
    simp only [Term.removeNegErr, orErr_ok] at this
    simpa using this

theorem removeFirst_pivot (pivot : Term) (polarity isCurrent : Bool) (l : List Term) :
    removeFirst (isPivot pivot polarity isCurrent) l = if pivotLit pivot polarity isCurrent ∈ l then
      some (l.erase (pivotLit pivot polarity isCurrent)) else none :=
  removeFirst_eq (isPivot_iff pivot polarity isCurrent) l

/-- Naive resolution of permuted clauses gives a permuted clause. -/
theorem naive_perm : ∀ {args : List Term} {ds ds' : List (List Term)} {c c' e : List Term}, c.Perm c' →
    List.Forall₂ List.Perm ds ds' → orderedResolve c ds args = some e →
    ∃ pivots e', naivePivots args = .ok pivots ∧ pivots.length = ds'.length ∧ naiveLoop c' (ds'.zip pivots) = .ok e' ∧
      orderedResolve c' ds' args = some e' ∧ e.Perm e'
  | [], ds, ds', c, c', e, hc, hd, h => by
    cases hd with
    | nil =>
      simp only [orderedResolve, Option.some.injEq] at h
      subst h
      exact ⟨[], c', rfl, rfl, rfl, rfl, hc⟩
    | cons => simp [orderedResolve] at h
  | [_], ds, ds', c, c', e, hc, hd, h => by cases hd <;> simp [orderedResolve] at h
  | p :: b :: args, ds, ds', c, c', e, hc, hd, h => by
    cases hd with
    | nil => simp [orderedResolve] at h
    | @cons d d' ds ds' hd0 hd =>
      rw [orderedResolve] at h
      rw [orderedResolve]
      split at h
      · next hb =>
        subst hb
        split at h
        · next hm =>
          have hc1 : p ∈ c' := hc.mem_iff.1 hm.1
          have hd1 : Term.op .not [p] ∈ d' := hd0.mem_iff.1 hm.2
          obtain ⟨pv, e', h1, h2, h3, h4, h5⟩ := naive_perm ((hc.erase p).append (hd0.erase (.op .not [p]))) hd h
          refine ⟨(p, true) :: pv, e', ?_, by simp [h2], ?_, ?_, h5⟩
          · exact bind_ok.2 ⟨pv, h1, rfl⟩
          · rw [List.zip_cons_cons, naiveLoop, removeFirst_pivot, removeFirst_pivot]
            refine bind_ok.2 ⟨c'.erase p, orPanic_ok.2 ?_, bind_ok.2 ⟨d'.erase (.op .not [p]), orPanic_ok.2 ?_, h3⟩⟩
            · simp [pivotLit, hc1]
            · simp [pivotLit, hd1]
          · rw [if_pos rfl, if_pos ⟨hc1, hd1⟩]; exact h4
        · simp at h
      · next hb =>
        split at h
        · next hb' =>
          subst hb'
          split at h
          · next hm =>
            have hc1 : Term.op .not [p] ∈ c' := hc.mem_iff.1 hm.1
            have hd1 : p ∈ d' := hd0.mem_iff.1 hm.2
            obtain ⟨pv, e', h1, h2, h3, h4, h5⟩ := naive_perm ((hc.erase (.op .not [p])).append (hd0.erase p)) hd h
            refine ⟨(p, false) :: pv, e', ?_, by simp [h2], ?_, ?_, h5⟩
            · exact bind_ok.2 ⟨pv, h1, rfl⟩
            · rw [List.zip_cons_cons, naiveLoop, removeFirst_pivot, removeFirst_pivot]
              refine bind_ok.2 ⟨c'.erase (.op .not [p]), orPanic_ok.2 ?_, bind_ok.2 ⟨d'.erase p, orPanic_ok.2 ?_, h3⟩⟩
              · simp [pivotLit, hc1]
              · simp [pivotLit, hd1]
            · rw [if_neg hb, if_pos rfl, if_pos ⟨hc1, hd1⟩]; exact h4
          · simp at h
        · simp at h

theorem AllStepsL_iff {P : NodeData → List Node → Prop} : ∀ {ns : List Node}, AllStepsL P ns ↔ ∀ n ∈ ns, AllSteps P n
  | [] => by simp [AllStepsL]
  | n :: ns => by rw [AllStepsL, AllStepsL_iff (ns := ns)]; simp

theorem node_of_right {R : Node → Node → Prop} {as bs : List Node} (h : List.Forall₂ R as bs) : ∀ b ∈ bs, ∃ a ∈ as, R a b := by
  induction h with
  | nil => simp
  | cons h _ ih =>
    intro b hb
    rcases List.mem_cons.1 hb with rfl | hb
    · exact ⟨_, by simp, h⟩
    · obtain ⟨a, ha, hab⟩ := ih b hb
      exact ⟨a, by simp [ha], hab⟩

/-- What the pass promises about one node. -/
def PassOK (n n' : Node) : Prop :=
  n'.clause.Perm n.clause ∧ AllSteps (fun d ps => ExactStep d ps ∧ d.rule ≠ "reordering") n' ∧ (n.isAssume = true → n' = n)

theorem PassOK.perms {ns ns' : List Node} (h : List.Forall₂ PassOK ns ns') :
    List.Forall₂ List.Perm (ns.map Node.clause) (ns'.map Node.clause) := by
  rw [List.forall₂_map_left_iff, List.forall₂_map_right_iff]
  exact h.imp fun _ _ h => h.1.symm

theorem reorderStep_ok {d : NodeData} {ps dis ps' dis' : List Node} {prev prev' : Option Node} (h : ExactStep d ps)
    (hp : List.Forall₂ PassOK ps ps') (hd : List.Forall₂ PassOK dis dis')
    (hprev : AllStepsO (fun d ps => ExactStep d ps ∧ d.rule ≠ "reordering") prev') :
    ∃ n', reorderStep d ps' dis' prev' ((ps ++ dis ++ prev.toList).any fun n => !n.isAssume) = .ok n' ∧
      n'.clause.Perm d.clause ∧ AllSteps (fun d ps => ExactStep d ps ∧ d.rule ≠ "reordering") n' := by
  have hall : ∀ {c : List Term}, ExactStep { d with clause := c } ps' → d.rule ≠ "reordering" →
      AllSteps (fun d ps => ExactStep d ps ∧ d.rule ≠ "reordering") (.step { d with clause := c } ps' dis' prev') := by
    intro c hc hr
    refine ⟨⟨hc, hr⟩, AllStepsL_iff.2 fun n hn => ?_, AllStepsL_iff.2 fun n hn => ?_, hprev⟩
    · obtain ⟨m, -, hm⟩ := node_of_right hp n hn; exact hm.2.1
    · obtain ⟨m, -, hm⟩ := node_of_right hd n hn; exact hm.2.1
  unfold reorderStep
  split
  · next hr =>
    obtain ⟨p, rfl, hperm⟩ := h.reordering hr
    cases hp with
    | cons hp hn =>
      cases hn
      exact ⟨_, rfl, hp.1.trans hperm.symm, hp.2.1⟩
  next hr =>
  split
  · split
    · next hw =>
      obtain ⟨p, rfl, hpre⟩ := h.weakening hw
      cases hp with
      | @cons _ p' _ _ hp hn =>
        cases hn
        have hl := hp.1.length_eq
        obtain ⟨rest, hrest⟩ := hpre
        have hle : ¬ d.clause.length < p'.clause.length := by rw [← hrest, List.length_append]; omega
        refine ⟨.step { d with clause := p'.clause ++ d.clause.drop p'.clause.length } [p'] dis' prev', ?_, ?_, ?_⟩
        · refine bind_ok.2 ⟨_, bind_ok.2 ⟨p', rfl, ?_⟩, rfl⟩
          rw [if_neg hle]
        · show (p'.clause ++ d.clause.drop p'.clause.length).Perm d.clause
          rw [hl, ← hrest, List.drop_left]
          exact hp.1.append_right _
        · refine hall ⟨fun e => absurd e hr, fun _ => ⟨p', rfl, List.prefix_append _ _⟩, fun e => ?_, fun e => ?_⟩ hr
          · simp [hw] at e
          · simp [hw] at e
    split
    · next hw hc =>
      obtain ⟨p, rfl, hnd, hmem⟩ := h.contraction hc
      cases hp with
      | @cons _ p' _ _ hp hn =>
        cases hn
        have hperm : (dedup p'.clause).Perm d.clause := by
          refine (List.perm_ext_iff_of_nodup (c30_nodup _) hnd).2 fun t => ?_
          rw [c30_mem, hmem, hp.1.mem_iff]
        refine ⟨.step { d with clause := dedup p'.clause } [p'] dis' prev', ?_, hperm, ?_⟩
        · refine bind_ok.2 ⟨_, bind_ok.2 ⟨p', rfl, ?_⟩, rfl⟩
          simp only
          rw [if_pos hperm.length_eq.symm]
        · refine hall ⟨fun e => absurd e hr, fun e => absurd e hw, fun _ => ⟨p', rfl, c30_nodup _, fun t => c30_mem _ _⟩, fun e => ?_⟩ hr
          simp [hc] at e
    split
    · next hw hc hres =>
      obtain ⟨p, q, rest, e, rfl, ho, hperm⟩ := h.resolution hres
      have hperms := PassOK.perms hp
      cases hp with
      | @cons _ p' _ _ hp hq =>
        cases hq with
        | @cons _ q' _ rest' hq hrest =>
          simp only [List.map_cons, List.forall₂_cons] at hperms
          obtain ⟨pv, e', h1, h2, h3, h4, h5⟩ := naive_perm (ds' := (q' :: rest').map Node.clause) hp.1.symm (.cons hperms.2.1 hperms.2.2) ho
          refine ⟨.step { d with clause := e' } (p' :: q' :: rest') dis' prev', ?_, (hperm.trans h5).symm, ?_⟩
          · refine bind_ok.2 ⟨_, bind_ok.2 ⟨pv, h1, ?_⟩, rfl⟩
            rw [List.map_cons, naiveResolution, if_neg (by simp at h2; simp [h2])]
            exact h3
          · exact hall ⟨fun e => absurd e hr, fun e => absurd e hw, fun e => absurd e hc,
              fun _ => ⟨p', q', rest', e', rfl, h4, .refl _⟩⟩ hr
    · next hw hc hres =>
      exact ⟨_, rfl, .refl _, hall (c := d.clause) ⟨fun e => absurd e hr, fun e => absurd e hw, fun e => absurd e hc,
        fun e => absurd e hres⟩ hr⟩
  · next hch =>
    refine ⟨_, rfl, .refl _, hall (c := d.clause) ?_ hr⟩
    have : ps' = ps := by
      have hch' : ∀ n ∈ ps, n.isAssume = true := by
        intro n hn
        have := List.any_eq_false.1 (Bool.eq_false_iff.2 hch) n (by simp [hn])
        simpa using this
      clear h hall hch
      induction hp with
      | nil => rfl
      | cons h _ ih => rw [h.2.2 (hch' _ (by simp)), ih (fun n hn => hch' n (by simp [hn]))]
    rw [this]
    exact h

mutual
theorem removeReorderings_ok : ∀ (n : Node), AllSteps ExactStep n → ∃ n', removeReorderings n = .ok n' ∧ PassOK n n'
  | .assume id depth t, _ => ⟨.assume id depth t, rfl, .refl _, trivial, fun _ => rfl⟩
  | .step d ps dis prev, h => by
    obtain ⟨h0, h1, h2, h3⟩ := h
    obtain ⟨ps', e1, g1⟩ := removeReorderingsL_ok ps h1
    obtain ⟨dis', e2, g2⟩ := removeReorderingsL_ok dis h2
    obtain ⟨prev', e3, g3⟩ := removeReorderingsO_ok prev h3
    obtain ⟨n', e4, g4, g5⟩ := reorderStep_ok (prev := prev) h0 g1 g2 g3
    refine ⟨n', ?_, g4, g5, by simp [Node.isAssume]⟩
    rw [removeReorderings]
    exact bind_ok.2 ⟨_, e1, bind_ok.2 ⟨_, e2, bind_ok.2 ⟨_, e3, e4⟩⟩⟩
  | .subproof last args extra, h => by
    obtain ⟨h1, h2⟩ := h
    obtain ⟨l', e1, g1⟩ := removeReorderings_ok last h1
    obtain ⟨ex', e2, g2⟩ := removeReorderingsL_ok extra h2
    refine ⟨.subproof l' args ex', ?_, g1.1, ⟨g1.2.1, AllStepsL_iff.2 fun n hn => ?_⟩, by simp [Node.isAssume]⟩
    · rw [removeReorderings]
      exact bind_ok.2 ⟨_, e2, bind_ok.2 ⟨_, e1, rfl⟩⟩
    · obtain ⟨m, -, hm⟩ := node_of_right g2 n hn; exact hm.2.1

theorem removeReorderingsL_ok : ∀ (ns : List Node), AllStepsL ExactStep ns →
    ∃ ns', removeReorderingsL ns = .ok ns' ∧ List.Forall₂ PassOK ns ns'
  | [], _ => ⟨[], rfl, .nil⟩
  | n :: ns, h => by
    obtain ⟨n', e1, g1⟩ := removeReorderings_ok n h.1
    obtain ⟨ns', e2, g2⟩ := removeReorderingsL_ok ns h.2
    refine ⟨n' :: ns', ?_, .cons g1 g2⟩
    rw [removeReorderingsL]
    exact bind_ok.2 ⟨_, e1, bind_ok.2 ⟨_, e2, rfl⟩⟩

theorem removeReorderingsO_ok : ∀ (o : Option Node), AllStepsO ExactStep o →
    ∃ o', removeReorderingsO o = .ok o' ∧ AllStepsO (fun d ps => ExactStep d ps ∧ d.rule ≠ "reordering") o'
  | none, _ => ⟨none, rfl, trivial⟩
  | some n, h => by
    obtain ⟨n', e1, g1⟩ := removeReorderings_ok n h
    refine ⟨some n', ?_, g1.2.1⟩
    rw [removeReorderingsO]
    exact bind_ok.2 ⟨_, e1, rfl⟩
end

end Carcara
