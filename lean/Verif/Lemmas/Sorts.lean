import Verif.Spec.Semantics

/-!
# Well-sorted terms evaluate into the carrier of their sort
-/

namespace Carcara
open Classical Val Sem

/-- An environment respects sorts. -/
def Interp.EnvOK (I : Interp) (ρ : Env I.U) : Prop := ∀ x s, I.dom s (ρ x s)

namespace Interp
variable {I : Interp}

theorem EnvOK.set {ρ : Env I.U} (h : I.EnvOK ρ) {x s v} (hv : I.dom s v) : I.EnvOK (ρ.set x s v) := by
  intro y t
  unfold Env.set
  split
  · next h' => rw [h'.2]; exact hv
  · exact h y t

theorem EnvOK.setMany {ρ : Env I.U} (h : I.EnvOK ρ) {bs vs} (hv : I.Tuple bs vs) :
    I.EnvOK (ρ.setMany bs vs) := by
  unfold Tuple at hv
  induction hv generalizing ρ with
  | nil => simpa [Env.setMany] using h
  | @cons b v bs vs hb _ ih =>
    obtain ⟨x, s⟩ := b
    exact ih (h.set hb)

theorem EnvOK.letSet {ρ : Env I.U} (h : I.EnvOK ρ) {x v} : I.EnvOK (I.letSet ρ x v) := by
  intro y t
  unfold Interp.letSet
  split
  · next h' => exact h'.2
  · exact h y t

theorem EnvOK.letMany {ρ : Env I.U} (h : I.EnvOK ρ) {bs} : I.EnvOK (I.letMany ρ bs) := by
  induction bs generalizing ρ with
  | nil => simpa [Interp.letMany] using h
  | cons b bs ih => obtain ⟨x, v⟩ := b; exact ih h.letSet

theorem dom_prop (p : Prop) : I.dom .bool (Val.prop p) := (I.dom_bool _).2 ⟨_, rfl⟩

end Interp

variable {I : Interp}

theorem allSort_iff {s : Srt} {ss : List Srt} : allSort s ss = true ↔ ∀ t ∈ ss, t = s := by
  simp [allSort]

theorem asInts_of_dom {ss : List Srt} {vs : List (Val I.U)} (h : List.Forall₂ I.dom ss vs)
    (hs : ∀ s ∈ ss, s = .int) : ∃ zs, asInts vs = some zs ∧ zs.length = vs.length := by
  induction h with
  | nil => exact ⟨[], rfl, rfl⟩
  | @cons s v ss vs hv _ ih =>
    obtain ⟨zs, hz, hl⟩ := ih (fun s h => hs s (List.mem_cons_of_mem _ h))
    have : s = .int := hs s List.mem_cons_self
    subst this
    obtain ⟨z, rfl⟩ := (I.dom_int v).1 hv
    exact ⟨z :: zs, by simp [asInts, hz], by simp [hl]⟩

theorem asNums_of_dom {ss : List Srt} {vs : List (Val I.U)} (h : List.Forall₂ I.dom ss vs)
    (hs : ∀ s ∈ ss, s = .int ∨ s = .real) : ∃ rs, asNums vs = some rs ∧ rs.length = vs.length := by
  induction h with
  | nil => exact ⟨[], rfl, rfl⟩
  | @cons s v ss vs hv _ ih =>
    obtain ⟨rs, hz, hl⟩ := ih (fun s h => hs s (List.mem_cons_of_mem _ h))
    rcases hs s List.mem_cons_self with rfl | rfl
    · obtain ⟨z, rfl⟩ := (I.dom_int v).1 hv
      exact ⟨z :: rs, by simp [asNums, hz, num], by simp [hl]⟩
    · obtain ⟨z, rfl⟩ := (I.dom_real v).1 hv
      exact ⟨z :: rs, by simp [asNums, hz, num], by simp [hl]⟩

theorem asInts_none_of_real {ss : List Srt} {vs : List (Val I.U)} (h : List.Forall₂ I.dom ss vs)
    (hs : ∀ s ∈ ss, s = .real) (hne : ss ≠ []) : asInts vs = none := by
  cases h with
  | nil => exact absurd rfl hne
  | @cons s v ss vs hv _ =>
    have : s = .real := hs s List.mem_cons_self
    subst this
    obtain ⟨z, rfl⟩ := (I.dom_real v).1 hv
    rfl

theorem asBvs_of_dom {w : ℕ} {ss : List Srt} {vs : List (Val I.U)} (h : List.Forall₂ I.dom ss vs)
    (hs : ∀ s ∈ ss, s = .bv w) : ∃ bs, asBvs w vs = some bs ∧ bs.length = vs.length := by
  induction h with
  | nil => exact ⟨[], rfl, rfl⟩
  | @cons s v ss vs hv _ ih =>
    obtain ⟨zs, hz, hl⟩ := ih (fun s h => hs s (List.mem_cons_of_mem _ h))
    have : s = .bv w := hs s List.mem_cons_self
    subst this
    obtain ⟨z, rfl⟩ := (I.dom_bv w v).1 hv
    exact ⟨z :: zs, by simp [asBvs, hz], by simp [hl]⟩

theorem sameBv_some {ss : List Srt} {w : ℕ} (h : sameBv ss = some w) :
    ∃ rest, ss = .bv w :: rest ∧ ∀ s ∈ rest, s = .bv w := by
  unfold sameBv at h
  split at h
  · split at h
    · next hs =>
      cases h
      exact ⟨_, rfl, allSort_iff.1 hs⟩
    · cases h
  · cases h

theorem bvNary_of_dom (f : (w : ℕ) → BitVec w → BitVec w → BitVec w) {ss : List Srt} {w : ℕ}
    {vs : List (Val I.U)} (h : List.Forall₂ I.dom ss vs) (hw : sameBv ss = some w) :
    ∃ b, bvNary f vs = some (.bv w b) := by
  obtain ⟨rest, rfl, hr⟩ := sameBv_some hw
  cases h with
  | @cons _ v _ vs hv hvs =>
    obtain ⟨z, rfl⟩ := (I.dom_bv w v).1 hv
    obtain ⟨bs, hb, _⟩ := asBvs_of_dom hvs hr
    exact ⟨bs.foldl (f w) z, by simp [bvNary, hb]⟩

theorem bvBin_of_dom (f : (w : ℕ) → BitVec w → BitVec w → Val I.U) {ss : List Srt} {w : ℕ}
    {vs : List (Val I.U)} (h : List.Forall₂ I.dom ss vs) (hw : sameBv ss = some w)
    (hl : ss.length = 2) :
    ∃ a b, bvBin f vs = some (f w a b) ∧ vs = [.bv w a, .bv w b] := by
  obtain ⟨rest, rfl, hr⟩ := sameBv_some hw
  match rest, hl with
  | [s], _ =>
    have : s = .bv w := hr s (by simp)
    subst this
    cases h with
    | @cons _ v _ vs hv hvs =>
      cases hvs with
      | @cons _ v' _ vs hv' hvs' =>
        cases hvs'
        obtain ⟨a, rfl⟩ := (I.dom_bv w v).1 hv
        obtain ⟨b, rfl⟩ := (I.dom_bv w v').1 hv'
        exact ⟨a, b, by simp [bvBin], rfl⟩

theorem bvConcat_of_dom {ss : List Srt} {w : ℕ} {vs : List (Val I.U)}
    (h : List.Forall₂ I.dom ss vs) (hw : totalWidth ss = some w) (hne : ss ≠ []) :
    ∃ b, bvConcat vs = some (.bv w b) := by
  have key : ∀ (ss : List Srt) (vs : List (Val I.U)), List.Forall₂ I.dom ss vs →
      ∀ w, totalWidth ss = some w → ∀ w₀ (a : BitVec w₀), ∃ b : BitVec (w₀ + w),
      vs.foldl concatStep (some (.bv w₀ a : Val I.U)) = some (.bv (w₀ + w) b) := by
    intro ss vs h
    induction h with
    | nil => intro w hw w₀ a; simp [totalWidth] at hw; subst hw; exact ⟨a, rfl⟩
    | @cons s v ss vs hv _ ih =>
      intro w hw w₀ a
      cases s with
      | bv w₁ =>
        simp only [totalWidth, Option.map_eq_some_iff] at hw
        obtain ⟨w₂, hw₂, rfl⟩ := hw
        obtain ⟨z, rfl⟩ := (I.dom_bv w₁ v).1 hv
        obtain ⟨b, hb⟩ := ih w₂ hw₂ (w₀ + w₁) (a ++ z)
        have e : w₀ + w₁ + w₂ = w₀ + (w₁ + w₂) := by omega
        rw [← e]
        exact ⟨b, by simpa [concatStep] using hb⟩
      | _ => simp [totalWidth] at hw
  cases h with
  | nil => exact absurd rfl hne
  | @cons s v ss vs hv hvs =>
    cases s with
    | bv w₁ =>
      simp only [totalWidth, Option.map_eq_some_iff] at hw
      obtain ⟨w₂, hw₂, rfl⟩ := hw
      obtain ⟨z, rfl⟩ := (I.dom_bv w₁ v).1 hv
      obtain ⟨b, hb⟩ := key ss vs hvs w₂ hw₂ w₁ z
      exact ⟨b, by simpa [bvConcat] using hb⟩
    | _ => simp [totalWidth] at hw

theorem forall2_length {α β : Type} {R : α → β → Prop} {as : List α} {bs : List β} (h : List.Forall₂ R as bs) :
    as.length = bs.length := by
  induction h with
  | nil => rfl
  | cons _ _ ih => simp [ih]

/-- Well-sorted operator applications land in the carrier of their sort. -/
theorem evalOp_dom (o : Op) {ss : List Srt} {r : Srt} {vs : List (Val I.U)}
    (hs : opSort o ss = some r) (h : List.Forall₂ I.dom ss vs) : I.dom r (evalOp I o vs) := by
  have hfb := I.op_dom o ss r vs hs h
  have hl := forall2_length h
  -- it is enough to look at the cases in which the standard fixes the value
  suffices hstd : ∀ v, stdOp I o vs = some v → I.dom r v by
    unfold evalOp
    cases hv : stdOp I o vs with
    | none => simpa using hfb
    | some v => simpa using hstd v hv
  intro v hv
  cases o <;> simp only [opSort, stdOp] at hs hv <;> try (cases hv; done)
  case tru | fls =>
    split at hs <;> cases hs
    split at hv <;> cases hv <;> exact (I.dom_bool _).2 ⟨_, rfl⟩
  case not =>
    split at hs <;> cases hs
    split at hv <;> cases hv; exact Interp.dom_prop _
  case implies | and | or | xor => split at hs <;> cases hs; cases hv; exact Interp.dom_prop _
  case cl => cases hs; cases hv; exact Interp.dom_prop _
  case equals | distinct =>
    split at hs
    · split at hs <;> cases hs; cases hv; exact Interp.dom_prop _
    · cases hs
  case ite =>
    split at hs
    · split at hs <;> cases hs
      next hc =>
      obtain ⟨rfl, rfl⟩ := hc
      rcases h with _ | ⟨h1, _ | ⟨h2, _ | ⟨h3, _ | _⟩⟩⟩
      simp only [Option.some.injEq] at hv
      subst hv
      split <;> assumption
    · cases hs
  case add | mult | sub =>
    first | unfold stdAdd at hv | unfold stdMult at hv | unfold stdSub at hv
    try (split at hv; · cases hv)
    split at hs
    · next hh =>
      cases hs
      obtain ⟨zs, hz, _⟩ := asInts_of_dom h (allSort_iff.1 hh.2)
      simp only [hz] at hv
      cases hv
      exact (I.dom_int _).2 ⟨_, rfl⟩
    · split at hs
      · next hh =>
        cases hs
        have h1 := asInts_none_of_real h (allSort_iff.1 hh.2) (by rintro rfl; simp at hh)
        obtain ⟨rs, hr, _⟩ := asNums_of_dom h (fun s hs => .inr (allSort_iff.1 hh.2 s hs))
        simp only [h1, hr] at hv
        cases hv
        exact (I.dom_real _).2 ⟨_, rfl⟩
      · cases hs
  case intDiv =>
    split at hs <;> cases hs
    split at hv <;> cases hv
    exact (I.dom_int _).2 ⟨_, rfl⟩
  case realDiv =>
    split at hs <;> cases hs
    split at hv <;> cases hv
    exact (I.dom_real _).2 ⟨_, rfl⟩
  case mod | toInt | pow2 | log2 =>
    split at hs <;> cases hs
    split at hv <;> cases hv
    exact (I.dom_int _).2 ⟨_, rfl⟩
  case abs =>
    split at hs <;> cases hs
    next hss =>
    subst hss
    rcases h with _ | ⟨h1, _ | _⟩
    obtain ⟨z, rfl⟩ := (I.dom_int _).1 h1
    cases hv
    exact (I.dom_int _).2 ⟨_, rfl⟩
  case toReal =>
    split at hs <;> cases hs
    split at hv <;> cases hv <;> exact (I.dom_real _).2 ⟨_, rfl⟩
  case isInt | isPow2 =>
    split at hs <;> cases hs
    split at hv <;> cases hv
    exact Interp.dom_prop _
  case lt | gt | le | ge =>
    split at hs <;> cases hs
    simp only [stdCmp, Option.map_eq_some_iff] at hv
    obtain ⟨_, _, rfl⟩ := hv
    exact Interp.dom_prop _
  case bvNot | bvNeg =>
    split at hs <;> cases hs
    rcases h with _ | ⟨h1, _ | _⟩
    obtain ⟨z, rfl⟩ := (I.dom_bv _ _).1 h1
    cases hv
    exact (I.dom_bv _ _).2 ⟨_, rfl⟩
  case ubvToInt | sbvToInt | bvSize =>
    split at hs <;> cases hs
    rcases h with _ | ⟨h1, _ | _⟩
    obtain ⟨z, rfl⟩ := (I.dom_bv _ _).1 h1
    cases hv
    exact (I.dom_int _).2 ⟨_, rfl⟩
  case bvAnd | bvOr | bvXor | bvAdd | bvMul =>
    split at hs
    · simp only [Option.map_eq_some_iff] at hs
      obtain ⟨w, hw, rfl⟩ := hs
      obtain ⟨b, hb⟩ := bvNary_of_dom _ h hw
      rw [hb] at hv
      cases hv
      exact (I.dom_bv _ _).2 ⟨_, rfl⟩
    · cases hs
  case bvNAnd | bvNOr | bvXNor | bvSub | bvUDiv | bvURem | bvSDiv | bvSRem | bvSMod | bvShl | bvLShr
    | bvAShr | bvComp =>
    split at hs
    · next hlen =>
      simp only [Option.map_eq_some_iff] at hs
      obtain ⟨w, hw, rfl⟩ := hs
      obtain ⟨a, b, hb, _⟩ := bvBin_of_dom _ h hw hlen
      rw [hb] at hv
      cases hv
      exact (I.dom_bv _ _).2 ⟨_, rfl⟩
    · cases hs
  case bvULt | bvULe | bvUGt | bvUGe | bvSLt | bvSLe | bvSGt | bvSGe =>
    split at hs
    · next hlen =>
      simp only [Option.map_eq_some_iff] at hs
      obtain ⟨w, hw, rfl⟩ := hs
      obtain ⟨a, b, hb, _⟩ := bvBin_of_dom _ h hw hlen
      rw [hb] at hv
      cases hv
      exact Interp.dom_prop _
    · cases hs
  case bvConcat =>
    split at hs
    · next hlen =>
      simp only [Option.map_eq_some_iff] at hs
      obtain ⟨w, hw, rfl⟩ := hs
      obtain ⟨b, hb⟩ := bvConcat_of_dom h hw (by rintro rfl; simp at hlen)
      rw [hb] at hv
      cases hv
      exact (I.dom_bv _ _).2 ⟨_, rfl⟩
    · cases hs
  case bvBbTerm =>
    split at hs <;> cases hs
    cases hv
    rw [hl]
    exact (I.dom_bv _ _).2 ⟨_, rfl⟩
  case bvPBbTerm =>
    split at hs <;> cases hs
    next hh =>
    obtain ⟨zs, hz, hzl⟩ := asInts_of_dom h (allSort_iff.1 hh.2)
    simp only [hz, Option.map_some, Option.some.injEq] at hv
    subst hv
    have e : ss.length = (zs.map fun z => decide (z = 1)).length := by simp [hzl, hl]
    rw [e]
    exact (I.dom_bv _ _).2 ⟨_, rfl⟩
  case bvConst => cases hs

theorem evalPop_dom (o : ParamOp) {ps : List Term} {ss : List Srt} {r : Srt} {vs : List (Val I.U)}
    {ρ : Env I.U} (hs : popSort o ps ss = some r) (h : List.Forall₂ I.dom ss vs) :
    I.dom r (evalPop I o (ps.map (eval I · ρ)) vs) := by
  unfold popSort at hs
  split at hs
  case h_12 => cases hs
  case h_10 =>
    split at hs <;> cases hs
    simp only [evalPop, stdPop, Option.getD]
    exact I.pop_dom _ _ _ (.inl rfl)
  case h_11 =>
    split at hs <;> cases hs
    simp only [evalPop, stdPop, Option.getD]
    exact I.pop_dom _ _ _ (.inr rfl)
  case h_9 =>
    split at hs <;> cases hs
    next h0 =>
    rcases h with _ | ⟨h1, _ | _⟩
    obtain ⟨a, rfl⟩ := (I.dom_int _).1 h1
    simp only [evalPop, stdPop, List.map_cons, List.map_nil, eval, evalConst, h0, if_true, Option.getD]
    exact (I.dom_bv _ _).2 ⟨_, rfl⟩
  case h_1 =>
    split at hs <;> cases hs
    next h0 =>
    rcases h with _ | ⟨h1, _ | _⟩
    obtain ⟨a, rfl⟩ := (I.dom_bv _ _).1 h1
    simp only [evalPop, stdPop, List.map_cons, List.map_nil, eval, evalConst, h0.1, h0.2.1, and_self, if_true,
      Option.getD]
    exact (I.dom_bv _ _).2 ⟨_, rfl⟩
  all_goals
    split at hs <;> cases hs
    next h0 =>
    rcases h with _ | ⟨h1, _ | _⟩
    obtain ⟨a, rfl⟩ := (I.dom_bv _ _).1 h1
    simp only [evalPop, stdPop, List.map_cons, List.map_nil, eval, evalConst, h0, if_true, Option.getD]
    first
      | exact (I.dom_bv _ _).2 ⟨_, rfl⟩
      | exact (I.dom_int _).2 ⟨_, rfl⟩
      | exact Interp.dom_prop _

theorem sortOfL_some {ts : List Term} {ss : List Srt} (h : sortOfL ts = some ss) :
    List.Forall₂ (fun s t => sortOf t = some s) ss ts := by
  induction ts generalizing ss with
  | nil => simp only [sortOfL, Option.some.injEq] at h; subst h; exact .nil
  | cons t ts ih =>
    simp only [sortOfL] at h
    split at h
    · next h1 h2 => cases h; exact .cons h1 (ih h2)
    · cases h

theorem evalConst_dom (c : Const) : I.dom c.sort (evalConst c) := by
  cases c
  · exact (I.dom_int _).2 ⟨_, rfl⟩
  · exact (I.dom_real _).2 ⟨_, rfl⟩
  · exact (I.dom_string _).2 ⟨_, rfl⟩
  · exact (I.dom_bv _ _).2 ⟨_, rfl⟩

/-- Type soundness: a well-sorted term evaluates into the carrier of its sort. -/
theorem eval_dom (t : Term) : ∀ {s : Srt} {ρ : Env I.U}, sortOf t = some s → I.EnvOK ρ →
    I.dom s (eval I t ρ) := by
  have hlist : ∀ {as : List Term}, (∀ a ∈ as, ∀ {s : Srt} {ρ : Env I.U}, sortOf a = some s → I.EnvOK ρ →
      I.dom s (eval I a ρ)) → ∀ {ss} {ρ : Env I.U}, sortOfL as = some ss → I.EnvOK ρ →
      List.Forall₂ I.dom ss (as.map (eval I · ρ)) := by
    intro as ih ss ρ hss hρ
    have := sortOfL_some hss
    clear hss
    induction this with
    | nil => exact .nil
    | @cons s a ss as ha _ ih' =>
      exact .cons (ih a (by simp) ha hρ) (ih' (fun b hb => ih b (List.mem_cons_of_mem _ hb)))
  induction t using Term.ind with
  | const c =>
    intro s ρ h hρ
    simp only [sortOf, Option.some.injEq] at h
    subst h
    exact evalConst_dom c
  | var n s' =>
    intro s ρ h hρ
    simp only [sortOf, Option.some.injEq] at h
    subst h
    exact hρ n s'
  | app f as ihf ihas =>
    intro s ρ h hρ
    simp only [sortOf] at h
    split at h
    · next ss r ss' h1 h2 =>
      split at h
      · next e =>
        cases h; subst e
        simp only [eval, evalL_eq_map]
        exact I.app_dom _ _ _ _ (ihf h1 hρ) (hlist ihas h2 hρ)
      · cases h
    · cases h
  | op o as ih =>
    intro s ρ h hρ
    by_cases ho : o = .bvConst
    · subst ho
      simp only [sortOf] at h
      split at h
      · next w h2 =>
        split at h <;> cases h
        next hw =>
        have := hlist ih h2 hρ
        simp only [List.map_cons, List.map_nil, eval, evalConst] at this
        rcases this with _ | ⟨h1, _ | ⟨h2, _ | _⟩⟩
        obtain ⟨a, ha⟩ := (I.dom_int _).1 h1
        simp only [eval, evalL_eq_map, List.map_cons, List.map_nil, ha, evalConst, evalOp, stdOp, hw, if_true,
          Option.getD]
        exact (I.dom_bv _ _).2 ⟨_, rfl⟩
      · cases h
    · have h' : (match sortOfL as with | some ss => opSort o ss | none => none) = some s := by
        rw [← h]
        cases o <;> first | rfl | exact absurd rfl ho
      split at h'
      · next ss hss =>
        simp only [eval, evalL_eq_map]
        exact evalOp_dom o h' (hlist ih hss hρ)
      · cases h'
  | binder b bs t ih =>
    intro s ρ h hρ
    simp only [sortOf] at h
    split at h
    · cases h; simp only [eval, evalBinder]; exact Interp.dom_prop _
    · cases h; simp only [eval, evalBinder]; exact Interp.dom_prop _
    · cases h; simp only [eval, evalBinder]; exact I.eps_dom _ _
    · next hb =>
      cases h
      simp only [eval, evalBinder]
      apply I.lam_dom
      intro vs hvs
      have ht : I.Tuple _ vs := List.forall₂_map_left_iff.1 hvs
      rw [if_pos ht]
      exact ih hb (hρ.setMany ht)
    · cases h
  | let_ bs t ihb iht =>
    intro s ρ h hρ
    simp only [sortOf] at h
    split at h
    · simp only [eval]; exact iht h hρ.letMany
    · cases h
  | paramOp o ps as _ ih =>
    intro s ρ h hρ
    simp only [sortOf] at h
    split at h
    · next ss hss =>
      simp only [eval, evalL_eq_map]
      exact evalPop_dom o h (hlist ih hss hρ)
    · cases h

/-- A Bool-sorted term denotes a Boolean in every model. -/
theorem Model.isBool_of_sort (M : Model) {t : Term} (h : sortOf t = some .bool) : M.IsBool t :=
  (M.I.dom_bool _).1 (eval_dom t h M.env_dom)

end Carcara
