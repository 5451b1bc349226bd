import Verif.Lemmas.ElabCong
import Verif.Lemmas.Node

/-!
# C57: the steps made by the elaboration of congruence are accepted

For `cong` the property holds. For `eq_congruent` it fails: if an equality that has to be turned around is also there in the other
direction, the resolution step is rejected. Without that it holds, so the condition is exact.
-/

namespace Carcara

open Spec

/-! ## `cong` -/

/-- Elaboration of a congruence between two equalities. -/
theorem elabCongEqs_ok {E : TableEnv} {el : Bool} {d : NodeData} {ps dis : List Node} {prev : Option Node} {f1 f2 g1 g2 : Term}
    {es : List (Term × Term)} (hd : d.clause = [.op .equals [.op .equals [f1, f2], .op .equals [g1, g2]]]) (hr : d.rule = "cong")
    (hps : ps.map Node.clause = es.map fun e => [eqTerm e]) (hne : es ≠ []) (hfg : ¬ (f1 = g1 ∧ f2 = g2))
    (h : checkCong es [f1, f2] [g1, g2] = .ok () ∨ checkCong es [f2, f1] [g1, g2] = .ok () ∨
      checkCong es [f1, f2] [g2, g1] = .ok () ∨ checkCong es [f2, f1] [g2, g1] = .ok ()) :
    ∃ n, elabCongEqs d ps dis prev f1 f2 g1 g2 = .ok n ∧ n.clause = d.clause ∧ Derived E el ps n := by
  have hlen : ps.length = es.length := by simpa using congrArg List.length hps
  have hle : ps.length ≤ 2 := by
    rw [hlen]
    rcases h with h | h | h | h <;> simpa using checkCong_length h
  obtain ⟨id₁, ids₁, e1, hi1⟩ := IdHelper.nextId_total (h := .new d.id) (by simp [IdHelper.new])
  obtain ⟨id₂, ids₂, e2, hi2⟩ := IdHelper.nextId_total hi1
  unfold elabCongEqs
  rw [if_neg (by omega)]
  by_cases hs : f1 = g2 ∧ f2 = g1
  · rw [if_pos hs]
    obtain ⟨rfl, rfl⟩ := hs
    refine ⟨_, rfl, rfl, .step (by simp) ⟨eqSymmetric, rfl, ?_⟩⟩
    rw [show ({ d with rule := "eq_symmetric" } : NodeData).clause = d.clause from rfl, hd]
    simp [eqSymmetric, get1, match2, assertEq, require, bind, Except.bind]
  rw [if_neg hs, collectRes_headEq hps]
  simp only [bind, Except.bind]
  by_cases c1 : (congFlips es [f1, f2] [g1, g2]).isSome
  · rw [if_pos c1]
    exact flipNeeded_ok hd hr (f := .op .equals [f1, f2]) (g := .op .equals [g1, g2]) (as := [f1, f2]) (bs := [g1, g2])
      (by simp [congArgs, sameHead]) rfl ((congFlips_isSome _ _ _).1 c1) hne hps
  rw [if_neg c1]
  by_cases c2 : (congFlips es [f2, f1] [g1, g2]).isSome
  · rw [if_pos c2, e1]
    simp only
    rw [e2]
    simp only
    obtain ⟨m, hm, hmc, hmd⟩ := flipNeeded_ok (E := E) (el := el) (d := congStep id₂ d.depth f2 f1 g1 g2) (ps := ps) (dis := []) (prev := none)
      (f := .op .equals [f2, f1]) (g := .op .equals [g1, g2]) (as := [f2, f1]) (bs := [g1, g2]) rfl rfl (by simp [congArgs, sameHead]) rfl
      ((congFlips_isSome _ _ _).1 c2) hne hps
    rw [hm]
    simp only
    obtain ⟨r, h1, h2, h3⟩ := addTrans_ok (id := d.id) (eqSymmStep_derived (E := E) (el := el) (ps := ps) f1 f2 id₁ d.depth) hmd rfl hmc
    exact ⟨r, h1, h2.trans hd.symm, h3⟩
  rw [if_neg c2]
  by_cases c3 : (congFlips es [f1, f2] [g2, g1]).isSome
  · rw [if_pos c3, e1]
    simp only
    rw [e2]
    simp only
    obtain ⟨m, hm, hmc, hmd⟩ := flipNeeded_ok (E := E) (el := el) (d := congStep id₂ d.depth f1 f2 g2 g1) (ps := ps) (dis := []) (prev := none)
      (f := .op .equals [f1, f2]) (g := .op .equals [g2, g1]) (as := [f1, f2]) (bs := [g2, g1]) rfl rfl (by simp [congArgs, sameHead]) rfl
      ((congFlips_isSome _ _ _).1 c3) hne hps
    rw [hm]
    simp only
    obtain ⟨r, h1, h2, h3⟩ := addTrans_ok (id := d.id) hmd (eqSymmStep_derived (E := E) (el := el) (ps := ps) g2 g1 id₁ d.depth) hmc rfl
    exact ⟨r, h1, h2.trans hd.symm, h3⟩
  rw [if_neg c3]
  rw [congFlips_isSome] at c1 c2 c3
  have c4 : checkCong es [f2, f1] [g2, g1] = .ok () := by tauto
  obtain ⟨hl2, hrev⟩ := checkCong_both c4 hfg c1
  rw [if_pos ((congFlips_isSome _ _ _).2 c4), if_pos (hlen.trans hl2)]
  obtain ⟨n, h1, h2, h3⟩ := flipNeeded_ok (E := E) (el := el) (dis := dis) (prev := prev) (ps := ps.reverse) (es := es.reverse) hd hr
    (f := .op .equals [f1, f2]) (g := .op .equals [g1, g2]) (as := [f1, f2]) (bs := [g1, g2])
    (by simp [congArgs, sameHead]) rfl hrev (by simpa using hne) (by rw [List.map_reverse, hps, List.map_reverse])
  exact ⟨n, h1, h2, h3.mono (by simp)⟩

/-- **C57.** Elaborating an accepted `cong` step succeeds and gives accepted steps that derive the same clause from the same premises, or, if
the two sides are the same term, a step by `refl` without premises. -/
theorem c57_cong {E : TableEnv} {el : Bool} {d : NodeData} {ps dis : List Node} {prev : Option Node} (hrule : d.rule = "cong")
    (h : cong d.clause (ps.map Node.clause) d.args = .ok ()) :
    ∃ n, elabCong d ps dis prev = .ok n ∧ n.clause = d.clause ∧
      (Derived E el ps n ∨ ∃ t, d.clause = [.op .equals [t, t]] ∧ n = .step { d with rule := "refl" } [] dis prev) := by
  simp only [cong, bind_ok, get1_ok, require_ok, match2_ok, Prod.exists] at h
  obtain ⟨_, hd, _, hlen, es, hes, f, g, rfl, h⟩ := h
  have hps : ps.map Node.clause = es.map fun e => [eqTerm e] := by
    rw [collectRes_ok] at hes
    generalize ps.map Node.clause = cs at hes
    clear h hlen
    induction hes with
    | nil => rfl
    | cons h _ ih => rw [premiseEq_ok.1 h, List.map_cons, ih]
  have hne : es ≠ [] := by
    rintro rfl
    rw [hps] at hlen
    simp at hlen
  have hpl : ¬ ps.length = 0 := by
    rw [List.length_map] at hlen; omega
  have hrun : elabCong d ps dis prev = elabCongSides d ps dis prev f g := by
    unfold elabCong
    rw [hd]
    simp only [single, bind, Except.bind, if_neg hpl, match2, if_true]
  by_cases hfg : f = g
  · subst hfg
    rw [hrun]; unfold elabCongSides; rw [if_pos rfl]
    exact ⟨_, rfl, rfl, .inr ⟨f, hd, rfl⟩⟩
  · rw [hrun]; unfold elabCongSides; rw [if_neg hfg]
    split at h
    · next f1 f2 g1 g2 =>
      have hfg' : ¬ (f1 = g1 ∧ f2 = g2) := by
        rintro ⟨rfl, rfl⟩; exact hfg rfl
      have hok : ∀ {r : Res Unit}, r.isOk = true ↔ r = .ok () := by
        intro r
        cases r <;> simp [Res.isOk]
      have h' : checkCong es [f1, f2] [g1, g2] = .ok () ∨ checkCong es [f2, f1] [g1, g2] = .ok () ∨
          checkCong es [f1, f2] [g2, g1] = .ok () ∨ checkCong es [f2, f1] [g2, g1] = .ok () := by
        by_cases hc : ((checkCong es [f1, f2] [g1, g2]).isOk || (checkCong es [f2, f1] [g1, g2]).isOk ||
            (checkCong es [f1, f2] [g2, g1]).isOk || (checkCong es [f2, f1] [g2, g1]).isOk) = true
        · simp only [Bool.or_eq_true, hok] at hc
          tauto
        · rw [if_neg hc] at h
          exact .inl h
      obtain ⟨n, h1, h2, h3⟩ := elabCongEqs_ok (E := E) (el := el) (dis := dis) (prev := prev) hd hrule hps hne hfg' h'
      exact ⟨n, h1, h2, .inl h3⟩
    · next hno =>
      simp only [congGeneral, bind_ok, require_ok, Prod.exists] at h
      obtain ⟨as, bs, ha, _, hl, hc⟩ := h
      obtain ⟨n, h1, h2, h3⟩ := flipNeeded_ok (E := E) (el := el) (dis := dis) (prev := prev) hd hrule ha hl hc hne hps
      refine ⟨n, ?_, h2, .inl h3⟩
      split
      · exact (hno _ _ _ _ rfl rfl).elim
      · exact h1

/-- **C57.** The step by `refl` is accepted in every context. -/
theorem c57_cong_refl (C : CtxStack) (t : Term) : refl C [.op .equals [t, t]] = .ok C := by
  unfold refl
  simp only [get1, match2, bind, Except.bind, if_true]
  rw [alphaEquiv_self]
  rfl

/-! ## `eq_congruent` -/

theorem sameHead_of {f g : Term} {as bs : List Term}
    (h : (∃ k, f = .app k as ∧ g = .app k bs) ∨ ∃ o, f = .op o as ∧ g = .op o bs) : sameHead f g = .ok (as, bs) := by
  rcases h with ⟨k, rfl, rfl⟩ | ⟨o, rfl, rfl⟩ <;> simp [sameHead]

theorem neqs_inj {es es' : List (Term × Term)} (h : neqs es = neqs es') : es = es' := by
  refine List.map_injective_iff.2 ?_ h
  rintro ⟨a, b⟩ ⟨c, d⟩ e
  exact Prod.ext (neqTerm_inj.1 e).1 (neqTerm_inj.1 e).2

/-- The marks and the equalities they belong to. -/
theorem marked_iff {es : List (Term × Term)} {xs : List (Term × Term)} {e : Term × Term} :
    e ∈ marked true es ((es.zip xs).map fun p => decide (p.1 ≠ p.2)) ↔ ∃ x, (e, x) ∈ es.zip xs ∧ e ≠ x := by
  rw [mem_marked]
  induction es generalizing xs with
  | nil => simp
  | cons a es ih =>
    cases xs with
    | nil => simp
    | cons x xs =>
      rw [List.zip_cons_cons, List.map_cons, List.zip_cons_cons, List.mem_cons, ih]
      simp only [Prod.mk.injEq, List.mem_cons]
      constructor
      · rintro (⟨rfl, h⟩ | ⟨y, h1, h2⟩)
        · exact ⟨x, .inl ⟨rfl, rfl⟩, of_decide_eq_true h.symm⟩
        · exact ⟨y, .inr h1, h2⟩
      · rintro ⟨y, ⟨rfl, rfl⟩ | h1, h2⟩
        · exact .inl ⟨rfl, (decide_eq_true h2).symm⟩
        · exact .inr ⟨y, h1, h2⟩

/-- Elaborating an accepted `eq_congruent` step succeeds with the same clause. The steps it gives are accepted if no equality that
has to be turned around is there in the other direction; otherwise one of them is rejected. -/
theorem eq_congruent_exact (E : TableEnv) (el : Bool) {d : NodeData} {ps dis : List Node} {prev : Option Node} {es : List (Term × Term)}
    {f g : Term} {as bs : List Term} (hrule : d.rule = "eq_congruent") (h : eqCongruent d.clause (ps.map Node.clause) d.args = .ok ())
    (hd : d.clause = neqs es ++ [eqTerm (f, g)])
    (hfg : (∃ k, f = .app k as ∧ g = .app k bs) ∨ ∃ o, f = .op o as ∧ g = .op o bs) :
    ∃ n, elabEqCongruent d ps dis prev = .ok n ∧ n.clause = d.clause ∧
      ((∀ p ∈ es.zip (as.zip bs), p.1 ≠ p.2 → p.1.swap ∉ es) → Derived E el ps n) ∧
      (Derived E el [] n → ∀ p ∈ es.zip (as.zip bs), p.1 ≠ p.2 → p.1.swap ∉ es) := by
  obtain ⟨es', f', g', as', bs', hcl, hne, hsh, h1, h2, hj⟩ := eqCongruent_iff.1 h
  rw [hd] at hcl
  obtain ⟨he, hl⟩ := List.append_inj' hcl rfl
  obtain rfl := neqs_inj he
  obtain ⟨rfl, rfl⟩ : f = f' ∧ g = g' := by simpa using hl
  have := (sameHead_of hfg).symm.trans hsh
  cases this
  obtain ⟨b, hb, hcase⟩ := elabEqCongruent_ok E el (ps := ps) (dis := dis) (prev := prev) hd hne hsh h1 h2 hj
  have hbl : b.length = es.length := by rw [hb]; simp; omega
  have hcond : (∀ e ∈ marked true es b, e.swap ∉ es) ↔ ∀ p ∈ es.zip (as.zip bs), p.1 ≠ p.2 → p.1.swap ∉ es := by
    rw [hb]
    constructor
    · intro h p hp hn
      exact h p.1 (marked_iff.2 ⟨p.2, hp, hn⟩)
    · intro h e he
      obtain ⟨x, hx, hn⟩ := marked_iff.1 he
      exact h _ hx hn
  have hjust : ∀ {es : List (Term × Term)} {as bs : List Term}, justify es as bs = .ok () → ∀ p ∈ es.zip (as.zip bs), p.1 = p.2 ∨ p.1 = p.2.swap := by
    intro es
    induction es with
    | nil => simp
    | cons e es ih =>
      intro as bs hj p hp
      cases as with
      | nil => simp at hp
      | cons a as =>
        cases bs with
        | nil => simp at hp
        | cons c bs =>
          simp only [justify, bind_ok, require_ok] at hj
          obtain ⟨_, hm, hj⟩ := hj
          rcases List.mem_cons.1 hp with rfl | hp
          · rcases hm with ⟨rfl, rfl⟩ | ⟨rfl, rfl⟩
            · exact .inl rfl
            · exact .inr rfl
          · exact ih hj p hp
  have hneq : ∀ e ∈ marked true es b, e.1 ≠ e.2 := by
    intro e he heq
    rw [hb] at he
    obtain ⟨x, hx, hn⟩ := marked_iff.1 he
    rcases hjust hj _ hx with h | h
    · exact hn h
    · apply hn
      rw [show e = x.swap from h] at heq ⊢
      exact Prod.ext heq heq.symm
  rcases hcase with ⟨hany, hrun⟩ | ⟨hany, first, steps, dr, w, hrun, hf, hfd, hs, hsd, hr, hc, ha, hwp, hwd, hw⟩
  · refine ⟨_, hrun, rfl, fun _ => .step (fun p hp => .given hp) ⟨eqCongruent, by rw [hrule]; rfl, h⟩, fun _ => ?_⟩
    rw [← hcond]
    intro e he
    have := (List.of_mem_zip (mem_marked.1 he)).2
    have h' := List.any_eq_false.1 hany _ this
    simp at h'
  · have hres := turn_resolution (clause := dr.clause) (first := first.clause) (steps := steps.map Node.clause) hbl hany hneq hf
      (by intro x; rw [hc, hd]) hs
    refine ⟨_, hrun, rfl, fun hno => .step (List.forall_mem_singleton.2 (hwd ?_)) (stepOK_reordering rfl hwp.symm), fun hder => ?_⟩
    · refine .step ?_ (stepOK_resolution hr ?_)
      · intro p hp
        rcases List.mem_cons.1 hp with rfl | hp
        · exact hfd
        · exact hsd p hp
      · rw [List.map_cons, ha]
        exact hres.2 (hcond.2 hno)
    · rw [← hcond, ← hres]
      have hder : Derived E el [] w := hder.inv.1 _ (List.mem_singleton_self _)
      have hdr : Derived E el [] (.mk dr (first :: steps)) := by
        rcases hw with rfl | ⟨dw, rfl⟩
        · exact hder
        · exact hder.inv.1 _ (List.mem_singleton_self _)
      have hok := hdr.inv.2
      have hargs : turnArgs (dedup (marked true es b)) ≠ [] := by
        obtain ⟨c, hcb, hct⟩ := List.any_eq_true.1 hany
        obtain ⟨i, hi, rfl⟩ := List.mem_iff_getElem.1 hcb
        have hz : (es[i]'(by omega), b[i]) ∈ es.zip b := List.mem_iff_getElem.2 ⟨i, by simp; omega, by simp⟩
        have hm : es[i]'(by omega) ∈ dedup (marked true es b) := mem_dedup.2 (mem_marked.2 (by rwa [show b[i] = true from hct] at hz))
        obtain ⟨x, xs, hx⟩ := List.exists_cons_of_ne_nil (List.ne_nil_of_mem hm)
        rw [hx]; simp [turnArgs]
      cases el with
      | false =>
        have := hok.rule (r := resolution) (by rw [hr]; rfl)
        rw [ha, resolution, if_pos hargs] at this
        exact this
      | true =>
        have := hok.rule (r := resolutionWithArgs) (by rw [hr]; rfl)
        rwa [ha] at this

/-- **C57, part of the claim.** Elaborating an accepted `eq_congruent` step succeeds and gives accepted steps that derive the same clause, if
no equality that has to be turned around is there in the other direction. The full claim has no condition and is refuted below. -/
theorem c57_eq_congruent_partial {E : TableEnv} {el : Bool} {d : NodeData} {ps dis : List Node} {prev : Option Node} {es : List (Term × Term)}
    {f g : Term} {as bs : List Term} (hrule : d.rule = "eq_congruent") (h : eqCongruent d.clause (ps.map Node.clause) d.args = .ok ())
    (hd : d.clause = es.map (fun e => .op .not [.op .equals [e.1, e.2]]) ++ [.op .equals [f, g]])
    (hfg : (∃ k, f = .app k as ∧ g = .app k bs) ∨ ∃ o, f = .op o as ∧ g = .op o bs)
    (hrev : ∀ p ∈ es.zip (as.zip bs), p.1 ≠ p.2 → p.1.swap ∉ es) :
    ∃ n, elabEqCongruent d ps dis prev = .ok n ∧ n.clause = d.clause ∧ Derived E el ps n := by
  obtain ⟨n, h1, h2, h3, -⟩ := eq_congruent_exact E el (dis := dis) (prev := prev) hrule h hd hfg
  exact ⟨n, h1, h2, h3 hrev⟩

/-- **C57.** The condition is needed: if an equality that has to be turned around is there in the other direction, the elaboration of the
accepted `eq_congruent` step contains a step that is rejected. -/
theorem c57_eq_congruent_rejected {E : TableEnv} {el : Bool} {d : NodeData} {es : List (Term × Term)}
    {f g : Term} {as bs : List Term} (hrule : d.rule = "eq_congruent") (h : eqCongruent d.clause [] d.args = .ok ())
    (hd : d.clause = es.map (fun e => .op .not [.op .equals [e.1, e.2]]) ++ [.op .equals [f, g]])
    (hfg : (∃ k, f = .app k as ∧ g = .app k bs) ∨ ∃ o, f = .op o as ∧ g = .op o bs)
    {p : (Term × Term) × Term × Term} (hp : p ∈ es.zip (as.zip bs)) (hne : p.1 ≠ p.2) (hs : p.1.swap ∈ es) :
    ∃ n, elabEqCongruent d [] [] none = .ok n ∧ n.clause = d.clause ∧ ¬ Derived E el [] n := by
  obtain ⟨n, h1, h2, -, h4⟩ := eq_congruent_exact E el (ps := []) (dis := []) (prev := none) hrule h hd hfg
  exact ⟨n, h1, h2, fun hder => h4 hder p hp hne hs⟩

/-- **C57.** Elaborating an accepted `eq_congruent` step succeeds and keeps its clause. -/
theorem c57_eq_congruent_total {d : NodeData} {ps dis : List Node} {prev : Option Node}
    (h : eqCongruent d.clause (ps.map Node.clause) d.args = .ok ()) : ∃ n, elabEqCongruent d ps dis prev = .ok n ∧ n.clause = d.clause := by
  obtain ⟨es, f, g, as, bs, hd, hne, hsh, h1, h2, hj⟩ := eqCongruent_iff.1 h
  obtain ⟨b, -, ⟨-, hr⟩ | ⟨-, _, _, _, _, hr, -⟩⟩ := elabEqCongruent_ok ⟨fun _ => 0, fun _ l => l, fun _ => 0, fun _ _ => .ok ()⟩ true
    (ps := ps) (dis := dis) (prev := prev) hd hne hsh h1 h2 hj
  · exact ⟨_, hr, rfl⟩
  · exact ⟨_, hr, rfl⟩

/-! ## The full claim for `eq_congruent` fails, and examples -/

section
private abbrev S : Srt := .atom "S" []
private abbrev a : Term := .var "a" S
private abbrev b : Term := .var "b" S
private abbrev c : Term := .var "c" S
private abbrev k : Term := .var "k" (.fn [S, S] S)
private abbrev eq (x y : Term) : Term := .op .equals [x, y]
private abbrev neq (x y : Term) : Term := .op .not [.op .equals [x, y]]

/-- `(cl (not (= a b)) (not (= b a)) (= (k a a) (k b b)))`. -/
private def both : NodeData := ⟨"t1", 0, [neq a b, neq b a, eq (.app k [a, a]) (.app k [b, b])], "eq_congruent", []⟩

/-- **C57 fails for `eq_congruent`.** The step `(cl (not (= a b)) (not (= b a)) (= (k a a) (k b b)))` is accepted, but in its elaboration a
step is rejected: resolution takes away `(not (= a b))`, which the clause of the step still has. -/
theorem c57_eq_congruent_fails (E : TableEnv) (el : Bool) : eqCongruent both.clause [] [] = .ok () ∧
    ∃ n, elabEqCongruent both [] [] none = .ok n ∧ n.clause = both.clause ∧ ¬ Derived E el [] n :=
  ⟨by decide, c57_eq_congruent_rejected (es := [(a, b), (b, a)]) (f := .app k [a, a]) (g := .app k [b, b]) (as := [a, a]) (bs := [b, b])
    (p := ((b, a), (a, b))) rfl (by decide) rfl (.inl ⟨k, rfl, rfl⟩) (by decide) (by decide) (by decide)⟩

/-- The rejected step. -/
example : resolutionWithArgs [neq a b, eq (.app k [a, a]) (.app k [b, b]), neq b a]
    [[neq a b, eq (.app k [a, a]) (.app k [b, b])], [neq b a, eq a b]] [eq a b, .fls] = err := by decide +kernel

mutual
/-- The names of the rules in a tree of nodes, from the root down. -/
private def rulesOf : Node → List String
  | .assume _ _ _ => ["assume"]
  | .step d ps _ _ => d.rule :: rulesOfList ps
  | .subproof l _ _ => rulesOf l
private def rulesOfList : List Node → List String
  | [] => []
  | n :: ns => rulesOf n ++ rulesOfList ns
end

/-- `(cl (not (= b a)) (not (= b a)) (= (k a a) (k b b)))`: the equality is turned around, and there twice. -/
private def twice : NodeData := ⟨"t1", 0, [neq b a, neq b a, eq (.app k [a, a]) (.app k [b, b])], "eq_congruent", []⟩

/-- The hypotheses of `c57_eq_congruent_partial` hold of it, and the result uses every kind of step. -/
example : eqCongruent twice.clause [] twice.args = .ok () ∧
    twice.clause = [(b, a), (b, a)].map (fun e => .op .not [.op .equals [e.1, e.2]]) ++ [.op .equals [.app k [a, a], .app k [b, b]]] ∧
    (∀ p ∈ [(b, a), (b, a)].zip ([a, a].zip [b, b]), p.1 ≠ p.2 → p.1.swap ∉ [(b, a), (b, a)]) ∧
    (elabEqCongruent twice [] [] none).map rulesOf =
      .ok ["reordering", "weakening", "resolution", "contraction", "eq_congruent", "equiv1", "eq_symmetric"] := by
  refine ⟨by decide, rfl, by decide, by decide +kernel⟩

/-- An equality that is used in both directions, but is there only in one, is fine. -/
example : ∀ p ∈ [(b, a), (b, a)].zip ([a, b].zip [b, a]), p.1 ≠ p.2 → p.1.swap ∉ [(b, a), (b, a)] := by decide

/-- An instance of `c57_cong` with a premise that is turned around and an argument without premise. -/
example : cong [eq (.app k [a, b]) (.app k [c, b])] [[eq c a]] [] = .ok () ∧
    (elabCong ⟨"t1", 0, [eq (.app k [a, b]) (.app k [c, b])], "cong", []⟩ [.assume "h1" 0 (eq c a)] [] none).map rulesOf =
      .ok ["cong", "symm", "assume"] := by decide +kernel

/-- An instance with equalities of which one is turned around. -/
example : cong [eq (eq a b) (eq b c)] [[eq c a]] [] = .ok () ∧
    (elabCong ⟨"t1", 0, [eq (eq a b) (eq b c)], "cong", []⟩ [.assume "h1" 0 (eq c a)] [] none).map rulesOf =
      .ok ["trans", "eq_symmetric", "cong", "symm", "assume"] := by decide +kernel

/-- An instance with equalities and the premises in the other order. -/
example : cong [eq (eq a b) (eq c (.app k [a, b]))] [[eq b (.app k [a, b])], [eq a c]] [] = .ok () ∧
    (elabCong ⟨"t1", 0, [eq (eq a b) (eq c (.app k [a, b]))], "cong", []⟩
      [.assume "h1" 0 (eq b (.app k [a, b])), .assume "h2" 0 (eq a c)] [] none).map rulesOf =
      .ok ["cong", "assume", "assume"] := by decide +kernel

/-- An instance where the two sides are the same term. -/
example : cong [eq (.app k [a, b]) (.app k [a, b])] [[eq a a]] [] = .ok () ∧
    (elabCong ⟨"t1", 0, [eq (.app k [a, b]) (.app k [a, b])], "cong", []⟩ [.assume "h1" 0 (eq a a)] [] none).map rulesOf = .ok ["refl"] := by
  decide +kernel

end

end Carcara
