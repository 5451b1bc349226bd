import Verif.Model.IteIntro
import Verif.Lemmas.Subproof
import Verif.Lemmas.Simplify
import Verif.Spec.Witness

/-!
# C12: the rule `ite_intro`

The rule compares terms modulo reordering of equalities, which is not sound for all terms (C07).
-/

namespace Carcara
open Classical Val Sem

/-- A well-sorted part of a term. -/
private def Piece (c t : Term) : Prop := (∀ u ∈ t.subterms, u ∈ c.subterms) ∧ (sortOf t).isSome = true

private theorem Piece.arg {c : Term} {o : Op} {as : List Term} (h : Piece c (.op o as)) {a : Term} (ha : a ∈ as) : Piece c a :=
  ⟨fun u hu => h.1 u (subterms_op ha u hu), sorted_op_mem h.2 ha⟩

private theorem Piece.val {c a b : Term} (hc : Comparable false c c) (ha : Piece c a) (hb : Piece c b) (h : polyeq a b = .ok true) (M : Model) :
    M.val a = M.val b :=
  polyeqWith_sound rfl h ⟨ha.2, hb.2, fun u hu => hc.clean_left u (ha.1 u hu), fun u hu => hc.clean_left u (hb.1 u hu),
    fun u hu v hv => hc.separate u (ha.1 u hu) v (hb.1 v hv)⟩ M.I M.env M.env_dom

private theorem andRes_true {a b : Res Bool} : andRes a b = .ok true ↔ a = .ok true ∧ b = .ok true := by
  simp only [andRes, bind_ok]
  constructor
  · rintro ⟨x, hx, h⟩
    cases x
    · simp at h
    · exact ⟨hx, by simpa using h⟩
  · rintro ⟨h1, h2⟩
    exact ⟨true, h1, by simpa using h2⟩

private theorem orRes_true {a b : Res Bool} (h : orRes a b = .ok true) : a = .ok true ∨ b = .ok true := by
  simp only [orRes, bind_ok] at h
  obtain ⟨x, hx, h⟩ := h
  cases x
  · exact .inr (by simpa using h)
  · exact .inl hx

/-- What the four variants have in common. -/
private theorem isValidIte_ok {c cond r1 s1 r2 s2 : Term} (hc : Comparable false c c) (pc : Piece c cond) (p1 : Piece c r1) (q1 : Piece c s1)
    (p2 : Piece c r2) (q2 : Piece c s2) (h : isValidIte cond r1 s1 r2 s2 = .ok true) (M : Model) :
    if M.Holds cond then M.val r1 = M.val s1 else M.val r2 = M.val s2 := by
  unfold isValidIte at h
  rw [andRes_true] at h
  obtain ⟨h1, h2⟩ := h
  have e := q1.val hc q2 h1 M
  split at h2
  · rename_i a b d
    simp only [andRes_true] at h2
    have pa := q1.arg (a := a) (by simp)
    have pb := q1.arg (a := b) (by simp)
    have pd := q1.arg (a := d) (by simp)
    have ea := pa.val hc pc h2.1 M
    have eb := pb.val hc p1 h2.2.1 M
    have ed := pd.val hc p2 h2.2.2 M
    rw [M.val_ite] at e
    rw [M.val_ite]
    have hh : M.Holds a ↔ M.Holds cond := by simp only [Model.Holds, ea]
    by_cases hcond : M.Holds cond
    · rw [if_pos hcond, if_pos (hh.2 hcond), eb]
    · rw [if_neg hcond, ← e, if_neg (fun h => hcond (hh.1 h)), ed]
  · cases h2

private theorem checkIteDef_ok {c u : Term} (hc : Comparable false c c) (pu : Piece c u) (h : checkIteDef u = .ok ()) (M : Model) : M.Holds u := by
  unfold checkIteDef at h
  split at h
  · rename_i cond a b d e
    simp only [bind_ok, require_ok] at h
    obtain ⟨r, h, rfl⟩ := h
    have pc := pu.arg (a := cond) (by simp)
    have p1 := pu.arg (a := .op .equals [a, b]) (by simp)
    have p2 := pu.arg (a := .op .equals [d, e]) (by simp)
    have pa := p1.arg (a := a) (by simp)
    have pb := p1.arg (a := b) (by simp)
    have pd := p2.arg (a := d) (by simp)
    have pe := p2.arg (a := e) (by simp)
    rw [M.holds_ite, M.holds_eq, M.holds_eq]
    rcases orRes_true h with h | h
    · exact isValidIte_ok hc pc pa pb pd pe h M
    rcases orRes_true h with h | h
    · have := isValidIte_ok hc pc pb pa pd pe h M
      rwa [eq_comm (a := M.val b)] at this
    rcases orRes_true h with h | h
    · have := isValidIte_ok hc pc pa pb pe pd h M
      rwa [eq_comm (a := M.val e)] at this
    · have := isValidIte_ok hc pc pb pa pe pd h M
      rwa [eq_comm (a := M.val b), eq_comm (a := M.val e)] at this
  · cases h

private theorem checkIteDefs_ok {c : Term} (hc : Comparable false c c) (M : Model) : ∀ {us : List Term}, (∀ u ∈ us, Piece c u) →
    checkIteDefs us = .ok () → ∀ u ∈ us, M.Holds u
  | [], _, _, u, hu => by cases hu
  | v :: us, hp, h, u, hu => by
    simp only [checkIteDefs, bind_ok] at h
    obtain ⟨_, h1, h2⟩ := h
    rcases List.mem_cons.1 hu with rfl | hu
    · exact checkIteDef_ok hc (hp _ (by simp)) h1 M
    · exact checkIteDefs_ok hc M (fun w hw => hp w (List.mem_cons_of_mem _ hw)) h2 u hu

/-- **C12**, partial: `ite_intro`, for conclusions in which terms can be compared. Missing: the others, for which it fails
(`c12_ite_intro_fails`). -/
theorem c12_ite_intro_partial (c : List Term) (ps : List (List Term)) (as : List Term) (h : iteIntro c ps as = .ok ()) (hc : ClauseOK c)
    (hcomp : ∀ t ∈ c, Comparable false t t) : Valid c := by
  intro M
  simp only [iteIntro, bind_ok, get1_ok, match2_ok, Prod.exists] at h
  obtain ⟨c0, rfl, root, right, rfl, b, hb, h⟩ := h
  have hcc := hcomp _ (List.mem_singleton.2 rfl)
  have p0 : Piece (.op .equals [root, right]) (.op .equals [root, right]) := ⟨fun _ h => h, by rw [hc _ (List.mem_singleton.2 rfl)]; rfl⟩
  have pl := p0.arg (a := root) (by simp)
  have pr := p0.arg (a := right) (by simp)
  rw [Model.sat_singleton, M.holds_eq]
  cases b with
  | true => exact pl.val hcc pr hb M
  | false =>
    simp only [Bool.false_eq_true, if_false] at h
    split at h
    · cases h
    · rename_i u us
      simp only [bind_ok] at h
      obtain ⟨_, h1, h2⟩ := h
      have eu := (pr.arg (a := u) (by simp)).val hcc pl (assertPolyeq_ok.1 h1) M
      obtain ⟨-, r, s1, s2⟩ := sort_equals.1 (hc _ (List.mem_singleton.2 rfl))
      have : r = .bool := by
        have := sort_and.1 s2
        tauto
      subst this
      refine ((M.isBool_of_sort s1).val_eq (M.isBool_of_sort s2)).2 ?_
      rw [M.holds_and]
      have hu : M.Holds u ↔ M.Holds root := by simp only [Model.Holds, eu]
      have hus := checkIteDefs_ok hcc M (fun v hv => pr.arg (List.mem_cons_of_mem _ hv)) h2
      simp only [List.mem_cons, forall_eq_or_imp, hu]
      exact ⟨fun h => ⟨h, hus⟩, fun h => h.1⟩
    · cases h


section Examples
open Witness

private abbrev x : Term := .var "x" .int
private abbrev y : Term := .var "y" .int
private abbrev p : Term := .var "p" .bool
private abbrev xr : Term := .var "x" .real
private abbrev real (q : Rat) : Term := .const (.real q)
private abbrev ite (a b c : Term) : Term := .op .ite [a, b, c]

/-- `(= (= (ite p x y) 2) (and (= 2 (ite p x y)) (ite p (= x (ite p x y)) (= (ite p x y) y))))`: equalities are turned around in three
places. -/
example :
    let c : List Term := [.eq (.eq (ite p x y) (.const (.int 2)))
      (.op .and [.eq (.const (.int 2)) (ite p x y), ite p (.eq x (ite p x y)) (.eq (ite p x y) y)])]
    iteIntro c [] [] = .ok () ∧ ClauseOK c ∧ ∀ t ∈ c, Comparable false t t := by
  refine ⟨by decide, by unfold ClauseOK; decide +kernel, fun t ht => ?_⟩
  cases List.mem_singleton.1 ht
  exact ⟨by decide, by decide, by decide, by decide, by decide⟩

/-- Only the values for the right cases are accepted. -/
example : iteIntro [.eq p (.op .and [p, ite p (.eq y (ite p x y)) (.eq (ite p x y) x)])] [] [] = err := by decide
/-- A conjunction without arguments, which the parser does not accept, panics. -/
example : iteIntro [.eq p (.op .and [])] [] [] = panic := by decide

/-- `x` is three fifths. -/
private noncomputable def pos35 : Model := model fun _ _ => .real (3/5)

/-- `(= (> x (/ 1.0 2.0 x)) (> x 0.5))` is accepted, as only the first two arguments of a quotient are compared. -/
theorem c12_ite_intro_fails : ¬ SoundRule iteIntro := by
  intro h
  have := h [.eq (.op .gt [xr, .op .realDiv [real 1, real 2, xr]]) (.op .gt [xr, real (1/2)])] [] [] (by decide +kernel)
    (by unfold ClauseOK; decide +kernel) (by simp) pos35 (by simp)
  rw [Model.sat_singleton, Term.eq, Model.holds_eq] at this
  have hx : pos35.env "x" .real = .real (3/5) := by
    simp [pos35, model, coerce, valSort]; rfl
  simp only [Model.val, eval, evalL_eq_map, List.map_cons, List.map_nil, hx, evalConst, real] at this
  norm_num [evalOp, stdOp, stdSub, stdCmp, Val.asInts, Val.asNums, Val.num, subL, Sem.chain, Val.prop, Interp.rdiv] at this

end Examples

end Carcara
