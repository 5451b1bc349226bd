import Verif.Lemmas.UncrowdingTotal
import Verif.Lemmas.Node

/-!
# C35: uncrowding derives the original clause from the original premises

Whatever `uncrowd_resolution` returns is a chain from the original premises to the original clause. But it does not always return, and the
`resolution` steps of the chain are not always accepted: the code counts the pivot of a premise as an inclusion of that literal, and it expects
the first premise to have no repetitions. Both cannot go wrong if no literal comes back after its complement.
-/

namespace Carcara

open Spec

/-! ## The result, if there is one -/

/-- **C35.** With or without rotation, and whatever the order in hash maps is: the result has the clause, the identifier and the depth of the
original step, and it is made from the original premises by steps that resolve lists of literals, remove repetitions, weaken and reorder. -/
theorem c35_chain {O : HashOrder} {d : NodeData} {premises : List Node} {rotate : Bool} {n : Node}
    (h : uncrowd O d premises rotate = .ok n) : n.clause = d.clause ∧ Rechained premises n ∧
      ∃ d' qs, n = .mk d' qs ∧ d'.id = d.id ∧ d'.depth = d.depth := by
  obtain ⟨h1, d', qs, rfl, h2, h3, h4, h5⟩ := uncrowd_ok h
  exact ⟨h1, .step h5 h4, d', qs, rfl, h2, h3⟩

theorem Spec.Rechained.entails {given : List Node} {n : Node} (h : Rechained given n) :
    Entails (given.map Node.clause) n.clause := by
  induction h with
  | given hn => exact fun M hM => hM _ (List.mem_map_of_mem hn)
  | @step d ps _ hd ih =>
    intro M hM
    rcases hd with ⟨-, p, q, rest, rfl, h⟩ | ⟨-, p, rfl, -, h⟩ | ⟨-, p, rfl, h⟩ | ⟨-, p, rfl, h⟩
    · have := c42_strict_resolution_entailed ((c42_strict_resolution_exact d.clause p.clause ((q :: rest).map Node.clause) d.args).2
        ⟨by simp, h⟩)
      refine this M fun c hc => ?_
      rw [← List.map_cons] at hc
      obtain ⟨x, hx, rfl⟩ := List.mem_map.1 hc
      exact ih x hx M hM
    · exact Model.sat_mono (ih p (by simp) M hM) h
    · exact Model.sat_mono (ih p (by simp) M hM) (fun t ht => h.subset ht)
    · exact Model.sat_mono (ih p (by simp) M hM) (fun t ht => h.mem_iff.2 ht)

/-- **C35.** If uncrowding returns, the original clause follows from the original premises. -/
theorem c35_entailed {O : HashOrder} {d : NodeData} {premises : List Node} {rotate : Bool} {n : Node}
    (h : uncrowd O d premises rotate = .ok n) : Entails (premises.map Node.clause) d.clause := by
  obtain ⟨h1, h2, -⟩ := c35_chain h
  exact h1 ▸ h2.entails

/-! ## When there is one -/

theorem pair_complementary {p : RPremise} (hw : p.WF) {a b : Lit} (h : p.pair = some (a, b)) :
    ∃ l u : Term, a = l.removeAllNegations ∧ b = u.removeAllNegations ∧ Complementary l u := by
  obtain ⟨⟨x, y⟩, h1, h2⟩ := Option.map_eq_some_iff.1 h
  obtain ⟨t, rfl⟩ := hw.pivot _ _ h1
  simp only [pivotPair_remove] at h2
  cases y with
  | true =>
    simp only [if_true, Prod.mk.injEq] at h2
    exact ⟨t, .op .not [t], h2.1.symm, h2.2.symm, .inl rfl⟩
  | false =>
    simp only [Bool.false_eq_true, if_false, Prod.mk.injEq] at h2
    exact ⟨.op .not [t], t, h2.1.symm, h2.2.symm, .inr rfl⟩

theorem cleanRun_of {S T : Lit → Prop} {ps : List RPremise} (h : SetRun S ps T) : ∀ {before : List (List Term)},
    (∀ l, S l → ∃ c ∈ before, l ∈ c.map Term.removeAllNegations) → (∀ p ∈ ps, p.WF) →
    NoTautology (before ++ ps.map fun p => p.node.clause) → NoReturn (before ++ ps.map fun p => p.node.clause) → CleanRun ps := by
  induction h with
  | done _ => intros; trivial
  | @step S S' T p ps a b hp ha hb hS _ ih =>
    intro before hbefore hw hnt hnr
    have hwp := hw p (by simp)
    refine ⟨fun a' b' hp' q hq hm => ?_, ih (before := before ++ [p.node.clause]) (fun l hl => ?_) (fun q hq => hw q (by simp [hq]))
      (by simpa using hnt) (by simpa using hnr)⟩
    · rw [hp] at hp'
      cases hp'
      obtain ⟨l, u, rfl, rfl, hc⟩ := pair_complementary hwp hp
      obtain ⟨c, hc', hl⟩ := hbefore _ ha
      rw [mem_map_remove] at hl
      rw [hwp.clause, mem_map_remove] at hb
      rcases List.mem_cons.1 hq with rfl | hq
      · rw [hwp.clause, mem_map_remove] at hm
        exact hnt q.node.clause (by simp) l hm u hb hc
      · rw [(hw q (by simp [hq])).clause, mem_map_remove] at hm
        obtain ⟨i, hi, rfl⟩ := List.mem_iff_getElem.1 hc'
        obtain ⟨k, hk, rfl⟩ := List.mem_iff_getElem.1 hq
        refine hnr i before.length (before.length + 1 + k) before[i] p.node.clause ps[k].node.clause hi (by omega) ?_ ?_ ?_ l hl u hb hm hc
        · rw [List.getElem?_append_left hi, List.getElem?_eq_getElem hi]
        · simp
        · rw [List.getElem?_append_right (by omega), show before.length + 1 + k - before.length = k + 1 by omega]
          simp [List.getElem?_eq_getElem hk]
    · rcases (hS l).1 hl with ⟨hl, -⟩ | hl
      · obtain ⟨c, hc, h⟩ := hbefore l hl
        exact ⟨c, by simp [hc], h⟩
      · exact ⟨p.node.clause, by simp, hwp.clause ▸ List.mem_of_mem_erase hl⟩

/-- **C35.** If the original step is accepted, no premise is a tautology, no literal comes back after its complement and the first premise has no
repetitions, then uncrowding without rotation returns the original clause, derived from the original premises by steps that the checker
accepts, in both configurations. The full claim is without these conditions and includes rotation. -/
theorem c35_accepted_partial (E : TableEnv) (el : Bool) (O : HashOrder) {d : NodeData} {p : Node} {ps : List Node}
    (h : resolutionWithArgs d.clause ((p :: ps).map Node.clause) d.args = .ok ()) (hnt : NoTautology ((p :: ps).map Node.clause))
    (hnr : NoReturn ((p :: ps).map Node.clause)) (hnd : p.clause.Nodup) :
    ∃ n, uncrowd O d (p :: ps) false = .ok n ∧ n.clause = d.clause ∧ Derived E el (p :: ps) n := by
  rw [List.map_cons, c08_resolution_with_args_exact] at h
  obtain ⟨hne, hchain⟩ := h
  obtain ⟨qs, h1, h2, h3, h4⟩ := SetRun.ofTerms hchain rfl
  have e1 : litsOf (· ∈ p.clause) = (· ∈ p.clause.map Term.removeAllNegations) := funext fun l => propext litsOf_mem
  have e2 : litsOf (· ∈ d.clause) = (· ∈ d.clause.map Term.removeAllNegations) := funext fun l => propext litsOf_mem
  rw [e1, e2] at h4
  have hcl : (qs.map fun q => q.node.clause) = ps.map Node.clause := by
    rw [← h3, List.map_map]
    rfl
  refine uncrowd_total (by rintro rfl; exact hne rfl) hnd h1 h2 h4
    (cleanRun_of h4 (before := [p.clause]) (fun l hl => ⟨p.clause, by simp, hl⟩) (fun q hq => (premisesFrom_wf h1 q hq).1) ?_ ?_)
  · rw [hcl]; exact hnt
  · rw [hcl]; exact hnr

section
private abbrev a : Term := .var "a" .bool
private abbrev b : Term := .var "b" .bool
private abbrev c : Term := .var "c" .bool
private abbrev no (t : Term) : Term := .op .not [t]
private def prem (i : String) (cl : List Term) : Node := .mk ⟨i, 0, cl, "hole", []⟩ []

/-- `(cl a b)`, `(cl (not b) a)`, `(cl (not a) c)`, resolved to `(cl c)`: the literal `a` crowds. -/
private def crowded : NodeData := ⟨"t4", 0, [c], "resolution", [b, .tru, a, .tru]⟩
private def crowdedPs : List Node := [prem "t1" [a, b], prem "t2" [no b, a], prem "t3" [no a, c]]

example : resolutionWithArgs crowded.clause (crowdedPs.map Node.clause) crowded.args = .ok () := by decide
example : NoTautology (crowdedPs.map Node.clause) := by simp [NoTautology, crowdedPs, prem, Node.mk, Node.clause, Complementary]
example : NoReturn (crowdedPs.map Node.clause) := by
  intro i j k c d e hij hjk h1 h2 h3 l hl u hu hl' hc
  have hk : k < 3 := by simpa [crowdedPs] using (List.getElem?_eq_some_iff.1 h3).1
  obtain ⟨rfl, rfl, rfl⟩ : i = 0 ∧ j = 1 ∧ k = 2 := by omega
  simp [crowdedPs, prem, Node.mk, Node.clause] at h1 h2 h3
  subst h1 h2 h3
  simp at hl hl'
  rcases hl with rfl | rfl <;> rcases hl' with h | h <;> simp at h
/-- The clause is contracted before `a` is resolved away. -/
example : ∃ n, uncrowd .insertion crowded crowdedPs false = .ok n ∧ n =
    .mk { crowded with args := [a, .tru] } [.mk ⟨"t4.t2", 0, [a], "contraction", []⟩
      [.mk ⟨"t4.t1", 0, [a, a], "resolution", [b, .tru]⟩ [prem "t1" [a, b], prem "t2" [no b, a]]], prem "t3" [no a, c]] :=
  ⟨_, Node.ok_of_same (by decide +kernel), rfl⟩

/-! ## The full claim fails -/

/-- **C35 fails.** A repetition in the first premise: `(cl a a)` and `(cl (not a))` are resolved to the empty clause, and uncrowding panics, because
the cut before the first resolution leaves a chain with one premise. -/
theorem c35_repetition_fails : ∃ (d : NodeData) (ps : List Node),
    resolutionWithArgs d.clause (ps.map Node.clause) d.args = .ok () ∧ uncrowd .insertion d ps false = panic ∧
      uncrowd .insertion d ps true = panic :=
  ⟨⟨"t3", 0, [], "resolution", [a, .tru]⟩, [prem "t1" [a, a], prem "t2" [no a]], by decide,
    panic_of_eval (by decide +kernel), panic_of_eval (by decide +kernel)⟩

/-- **C35 fails.** No premise has a repetition or is a tautology, but the literal `a` crowds until its first elimination and is the pivot of the
last premise. This counts as its last inclusion, after which it is not eliminated, and uncrowding panics. -/
theorem c35_return_fails : ∃ (d : NodeData) (ps : List Node),
    resolutionWithArgs d.clause (ps.map Node.clause) d.args = .ok () ∧ (∀ p ∈ ps, p.clause.Nodup) ∧
      NoTautology (ps.map Node.clause) ∧ uncrowd .insertion d ps false = panic :=
  ⟨⟨"t6", 0, [], "resolution", [b, .tru, a, .tru, c, .tru, a, .fls]⟩,
    [prem "t1" [a, b], prem "t2" [no b, a], prem "t3" [no a, c], prem "t4" [no c, no a], prem "t5" [a]], by decide,
    by simp [prem, Node.mk, Node.clause], by simp [NoTautology, prem, Node.mk, Node.clause, Complementary],
    panic_of_eval (by decide +kernel)⟩

/-- **C35 fails.** Uncrowding returns a chain with a `resolution` step that `resolution` rejects: the literal `(not a)` comes back in the last
premise, so it is not contracted, and one of its two copies survives its first elimination. -/
theorem c35_rejected_fails : ∃ (d : NodeData) (ps : List Node) (n : Node),
    resolutionWithArgs d.clause (ps.map Node.clause) d.args = .ok () ∧ (∀ p ∈ ps, p.clause.Nodup) ∧
      NoTautology (ps.map Node.clause) ∧ uncrowd .insertion d ps false = .ok n ∧
      ∀ E el, ¬ Derived E el ps n := by
  refine ⟨⟨"t5", 0, [no a], "resolution", [c, .tru, no a, .tru, b, .tru]⟩,
    [prem "t1" [no a, b, c], prem "t2" [no a, no c], prem "t3" [no (no a), b], prem "t4" [no b, no a]],
    .mk ⟨"t5", 0, [no a], "contraction", []⟩ [.mk ⟨"t5.t3", 0, [no a, no a], "resolution", [b, .tru]⟩
      [.mk ⟨"t5.t2", 0, [b, no a], "contraction", []⟩ [.mk ⟨"t5.t1", 0, [b, no a, b], "resolution", [c, .tru, no a, .tru]⟩
        [prem "t1" [no a, b, c], prem "t2" [no a, no c], prem "t3" [no (no a), b]]], prem "t4" [no b, no a]]],
    by decide,
    by simp [prem, Node.mk, Node.clause], by simp [NoTautology, prem, Node.mk, Node.clause, Complementary],
    Node.ok_of_same (by decide +kernel), ?_⟩
  intro E el h
  rcases h with h | ⟨h, -⟩
  · simp [prem, Node.mk] at h
  rcases h _ List.mem_cons_self with h | ⟨h, -⟩
  · simp [prem, Node.mk] at h
  rcases h _ List.mem_cons_self with h | ⟨h, -⟩
  · simp [prem, Node.mk] at h
  rcases h _ List.mem_cons_self with h | ⟨-, h⟩
  · simp [prem, Node.mk] at h
  cases el with
  | false => exact absurd (Spec.StepOK.rule h (r := resolution) rfl) (by decide)
  | true => exact absurd (Spec.StepOK.rule h (r := resolutionWithArgs) rfl) (by decide)

/-- Rotation only permutes the premises. -/
theorem c35_rotation_permutes {O : HashOrder} {m : Infos} {ps qs : List RPremise} (h : reorderPremises O m ps = .ok qs) : qs.Perm ps := by
  obtain ⟨order, h1, h2⟩ := bind_ok.1 h
  have hp := rotateLoop_perm h1
  have h3 := collectRes_ok.1 h2
  have e : qs.map some = order.map fun i => ps[i]? := by
    clear h h1 hp h2
    induction h3 with
    | nil => rfl
    | cons h _ ih => rw [orPanic_ok] at h; rw [List.map_cons, List.map_cons, h, ih]
  have e2 : (List.range ps.length).map (fun i => ps[i]?) = ps.map some := by
    refine List.ext_getElem (by simp) fun k h1 h2 => ?_
    simp
  have := (hp.map fun i => ps[i]?).filterMap id
  rw [← e, e2] at this
  simpa using this
example : (rotateRange [0, 1, 2, 3, 4] 1 4).toOption = some [0, 2, 3, 1, 4] := by decide

/-- **C35 fails.** With rotation uncrowding panics on a step that it handles without. -/
theorem c35_rotation_fails : ∃ (d : NodeData) (ps : List Node),
    resolutionWithArgs d.clause (ps.map Node.clause) d.args = .ok () ∧ (∃ n, uncrowd .insertion d ps false = .ok n) ∧
      uncrowd .insertion d ps true = panic :=
  ⟨⟨"t6", 0, [], "resolution", [b, .fls, a, .tru, c, .fls, c, .tru]⟩,
    [prem "t1" [no c, a, no b], prem "t2" [b, no c, a], prem "t3" [no a, c], prem "t4" [c], prem "t5" [no c]], by decide,
    ok_of_eval (by decide +kernel), panic_of_eval (by decide +kernel)⟩

end

end Carcara
