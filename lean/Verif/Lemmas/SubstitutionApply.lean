import Verif.Lemmas.Substitution
import Verif.Lemmas.PolyFuel

/-! # `apply` is correct on terms without dangerous names -/

namespace Carcara
open Classical Val

variable {I : Interp}

theorem _root_.List.Forall₂.map_eq_of {α β γ : Type} {f : α → γ} {g : β → γ} {as : List α} {bs : List β}
    (h : List.Forall₂ (fun a b => g b = f a) as bs) : bs.map g = as.map f := by
  induction h with
  | nil => rfl
  | cons h _ ih => rw [List.map_cons, List.map_cons, h, ih]

theorem _root_.List.Forall₂.of_mem_zip {α β : Type} {R : α → β → Prop} {as : List α} {bs : List β}
    (h : List.Forall₂ R as bs) : ∀ p ∈ as.zip bs, R p.1 p.2 := by
  induction h with
  | nil => intro p hp; simp at hp
  | cons h _ ih =>
    intro p hp
    rw [List.zip_cons_cons, List.mem_cons] at hp
    rcases hp with rfl | hp
    · exact h
    · exact ih p hp

theorem _root_.List.Forall₂.zip_left {α β : Type} {R : α → β → Prop} {as : List α} {bs : List β}
    (h : List.Forall₂ R as bs) : ∀ a ∈ as, ∃ b, (a, b) ∈ as.zip bs := by
  induction h with
  | nil => intro p hp; cases hp
  | @cons x y _ _ h _ ih =>
    intro p hp
    rw [List.zip_cons_cons]
    rcases List.mem_cons.1 hp with rfl | hp
    · exact ⟨y, List.mem_cons_self ..⟩
    · exact (ih p hp).imp fun _ => List.mem_cons_of_mem _

theorem _root_.List.Forall₂.zip_right {α β : Type} {R : α → β → Prop} {as : List α} {bs : List β}
    (h : List.Forall₂ R as bs) : ∀ b ∈ bs, ∃ a, (a, b) ∈ as.zip bs := by
  induction h with
  | nil => intro p hp; cases hp
  | @cons x y _ _ h _ ih =>
    intro p hp
    rw [List.zip_cons_cons]
    rcases List.mem_cons.1 hp with rfl | hp
    · exact ⟨x, List.mem_cons_self ..⟩
    · exact (ih p hp).imp fun _ => List.mem_cons_of_mem _

theorem var_inj {v w : String × Srt} (h : Term.var v.1 v.2 = .var w.1 w.2) : v = w := by
  obtain ⟨x, s⟩ := v
  obtain ⟨y, r⟩ := w
  cases h
  rfl

theorem Interp.Tuple.rename {bs bs' : List (String × Srt)}
    (hs : List.Forall₂ (fun b b' : String × Srt => b'.2 = b.2) bs bs') :
    ∀ {vs : List (Val I.U)}, I.Tuple bs vs → I.Tuple bs' vs := by
  unfold Interp.Tuple
  induction hs with
  | nil => intro vs h; exact h
  | cons e _ ih =>
    intro vs h
    cases h with
    | cons h1 h2 => exact .cons (by rw [e]; exact h1) (ih h2)

/-- The terms to which the theorems about `apply` refer. -/
structure Term.Nice (t : Term) : Prop where
  sorted : (sortOf t).isSome = true
  safe : t.quoteSafe = true

theorem Term.Nice.noLet {t : Term} (h : t.Nice) : t.noLet = true := t.noLet_of_quoteSafe h.safe
theorem Term.Nice.choice {t : Term} (h : t.Nice) : t.choiceOK = true := t.choiceOK_of_sort h.sorted
theorem Term.Nice.closed {t : Term} (h : t.Nice) : t.closedParts = true := t.closedParts_of_sort h.sorted h.noLet

theorem Term.Nice.congr {t : Term} (h : t.Nice) {ρ ρ' : Env I.U} (ha : Agree t.fv ρ ρ') :
    eval I t ρ = eval I t ρ' := eval_congr_fv t h.choice (.inl h.noLet) ha

/-- A substitution that only adds quotes to names. -/
def QuoteMap (m : List (Term × Term)) : Prop :=
  ∀ p ∈ m, ∃ x y s, p = (.var x s, .var y s) ∧ nameRoot x = nameRoot y

theorem QuoteMap.mapOK {m : List (Term × Term)} (h : QuoteMap m) : MapOK m := by
  intro p hp
  obtain ⟨x, y, s, rfl, _⟩ := h p hp
  exact ⟨x, s, rfl, rfl, rfl⟩

theorem QuoteMap.substOf {m : List (Term × Term)} (h : QuoteMap m) (v : String × Srt) :
    ∃ w : String × Srt, substOf m v = .var w.1 w.2 ∧ nameRoot w.1 = nameRoot v.1 := by
  rcases substOf_cases m v with hm | h'
  · obtain ⟨x, y, s, e, hr⟩ := h _ hm
    simp only [Prod.mk.injEq, Term.var.injEq] at e
    obtain ⟨⟨rfl, rfl⟩, e⟩ := e
    exact ⟨(y, v.2), e, hr.symm⟩
  · exact ⟨v, h', rfl⟩

/-- What a call of `apply` guarantees; with `r`, also that the result may be processed further. -/
structure SubstPost (r : Prop) (m : List (Term × Term)) (t t' : Term) : Prop where
  sem : SubstOK m t t'
  sort : sortOf t' = sortOf t
  const : ∀ c, t = .const c → t' = t
  ren : r → t'.quoteSafe = true ∧ t'.size = t.size ∧
    ∀ w ∈ t'.fv, ∃ v ∈ t.fv, substOf m v = .var w.1 w.2

/-- The state of a substitution between calls of `apply`. -/
structure SubstGood (r : Prop) (σ : Subst) : Prop where
  map : MapOK σ.map
  quote : r → QuoteMap σ.map
  names : ∀ l, σ.ren = some l → ∀ x ∈ namesOf σ.map, x ∈ l
  cache : ∀ t u, mapGet σ.cache t = some u → t.Nice ∧ SubstPost r σ.map t u

/-- Correctness of a function in the place of `apply`, for terms up to a size. -/
def ApplierOK (n : Nat) (f : Applier) : Prop :=
  ∀ (r : Prop) (σ : Subst) (t : Term), t.size ≤ n → t.Nice → SubstGood r σ →
    ∃ t' σ', f σ t = .ok (t', σ') ∧ σ'.map = σ.map ∧ SubstGood r σ' ∧ SubstPost r σ.map t t'

theorem Term.size_le_sizeL {t : Term} {ts : List Term} (h : t ∈ ts) : t.size ≤ Term.sizeL ts := by
  induction ts with
  | nil => cases h
  | cons a as ih =>
    rw [Term.sizeL]
    rcases List.mem_cons.1 h with rfl | h
    · omega
    · have := ih h; omega

theorem applyList_ok {n : Nat} {f : Applier} (hf : ApplierOK n f) {r : Prop} : ∀ {as : List Term} {σ : Subst},
    (∀ a ∈ as, a.size ≤ n ∧ a.Nice) → SubstGood r σ →
    ∃ as' σ', applyList f σ as = .ok (as', σ') ∧ σ'.map = σ.map ∧ SubstGood r σ' ∧
      List.Forall₂ (SubstPost r σ.map) as as'
  | [], σ, _, hg => ⟨[], σ, rfl, rfl, hg, .nil⟩
  | a :: as, σ, h, hg => by
    obtain ⟨ha, hn⟩ := h a (List.mem_cons_self ..)
    obtain ⟨a', σ1, h1, h2, h3, h4⟩ := hf r σ a ha hn hg
    obtain ⟨as', σ2, h5, h6, h7, h8⟩ := applyList_ok hf (fun b hb => h b (List.mem_cons_of_mem _ hb)) h3
    rw [h2] at h8
    exact ⟨a' :: as', σ2, bind_ok.2 ⟨_, h1, bind_ok.2 ⟨_, h5, rfl⟩⟩, h6.trans h2, h7, .cons h4 h8⟩

section Lists
variable {r : Prop} {m : List (Term × Term)} {as as' : List Term}

theorem SubstPost.sortL (h : List.Forall₂ (SubstPost r m) as as') : sortOfL as' = sortOfL as := by
  induction h with
  | nil => rfl
  | cons h _ ih => rw [sortOfL, sortOfL, h.sort, ih]

theorem SubstPost.evalL (h : List.Forall₂ (SubstPost r m) as as') {ρ : Env I.U} (hρ : I.EnvOK ρ) :
    as'.map (eval I · ρ) = as.map (eval I · (I.substEnv m ρ)) := by
  induction h with
  | nil => rfl
  | cons h _ ih => rw [List.map_cons, List.map_cons, h.sem I ρ hρ, ih]

theorem SubstPost.renL (h : List.Forall₂ (SubstPost r m) as as') (hr : r) :
    Term.quoteSafeL as' = true ∧ Term.sizeL as' = Term.sizeL as ∧
      ∀ w ∈ Term.fvL as', ∃ v ∈ Term.fvL as, substOf m v = .var w.1 w.2 := by
  induction h with
  | nil => exact ⟨rfl, rfl, fun w hw => by cases hw⟩
  | cons h _ ih =>
    obtain ⟨h1, h2, h3⟩ := h.ren hr
    obtain ⟨i1, i2, i3⟩ := ih
    refine ⟨by rw [Term.quoteSafeL, h1, i1]; rfl, by rw [Term.sizeL, Term.sizeL, h2, i2], fun w hw => ?_⟩
    rw [Term.fvL, List.mem_append] at hw
    rcases hw with hw | hw
    · obtain ⟨v, hv, e⟩ := h3 w hw
      exact ⟨v, by rw [Term.fvL]; exact List.mem_append_left _ hv, e⟩
    · obtain ⟨v, hv, e⟩ := i3 w hw
      exact ⟨v, by rw [Term.fvL]; exact List.mem_append_right _ hv, e⟩

theorem SubstPost.sort_op (h : List.Forall₂ (SubstPost r m) as as') {o : Op}
    (hs : (sortOf (.op o as)).isSome = true) : sortOf (.op o as') = sortOf (.op o as) := by
  by_cases ho : o = .bvConst
  · subst ho
    have hl := SubstPost.sortL h
    obtain ⟨s, hs'⟩ := Option.isSome_iff_exists.1 hs
    simp only [sortOf] at hs'
    split at hs'
    · next a w hl' =>
      cases h with
      | cons h1 h =>
        cases h with
        | cons h2 h =>
          cases h
          rw [h2.const _ rfl] at hl ⊢
          simp only [sortOf, hl, hl']
    · cases hs'
  · have e : ∀ l : List Term, sortOf (.op o l) = match sortOfL l with | some ss => opSort o ss | none => none := by
      intro l
      rw [sortOf.eq_def]
      split <;> first | simp_all; done | (next h => cases h; rfl)
    rw [e, e, SubstPost.sortL h]

end Lists

/-! ## The cases -/

section Cases
variable {r : Prop} {σ : Subst} {n : Nat} {f : Applier}

theorem applyNode_const {c : Const} (hg : SubstGood r σ) :
    ∃ t' σ', applyNode f σ (.const c) = .ok (t', σ') ∧ σ'.map = σ.map ∧ SubstGood r σ' ∧
      SubstPost r σ.map (.const c) t' := by
  refine ⟨_, _, rfl, rfl, hg, fun I ρ _ => rfl, rfl, fun _ _ => rfl, fun _ => ⟨rfl, rfl, fun w hw => by cases hw⟩⟩

theorem applyNode_var {x : String} {s : Srt} (hm : mapGet σ.map (.var x s) = none)
    (hg : SubstGood r σ) : ∃ t' σ', applyNode f σ (.var x s) = .ok (t', σ') ∧ σ'.map = σ.map ∧ SubstGood r σ' ∧
      SubstPost r σ.map (.var x s) t' := by
  have e : substOf σ.map (x, s) = .var x s := by rw [substOf_eq, hm]; rfl
  refine ⟨_, _, rfl, rfl, hg, fun I ρ _ => ?_, rfl, fun _ _ => rfl, fun _ => ⟨rfl, rfl, fun w hw => ⟨w, hw, ?_⟩⟩⟩
  · simp only [eval, Interp.substEnv, e]
  · simp only [Term.fv, List.mem_singleton] at hw
    rw [hw, e]

theorem applyNode_op (hf : ApplierOK n f) {o : Op} {as : List Term} (hs : (Term.op o as).size ≤ n + 1)
    (hn : (Term.op o as).Nice) (hg : SubstGood r σ) :
    ∃ t' σ', applyNode f σ (.op o as) = .ok (t', σ') ∧ σ'.map = σ.map ∧ SubstGood r σ' ∧
      SubstPost r σ.map (.op o as) t' := by
  obtain ⟨h1, h2⟩ := hn
  rw [Term.quoteSafe, Term.quoteSafeL_iff] at h2
  rw [Term.size] at hs
  obtain ⟨as', σ', e, em, hg', hp⟩ := applyList_ok hf (as := as) (σ := σ) (fun a ha => ⟨by
    have := Term.size_le_sizeL ha; omega, sorted_op_mem h1 ha, h2 a ha⟩) hg
  refine ⟨.op o as', σ', bind_ok.2 ⟨_, e, rfl⟩, em, hg', fun I ρ hρ => ?_, SubstPost.sort_op hp h1,
    fun _ h => (by cases h), fun hr => ?_⟩
  · simp only [eval, evalL_eq_map, SubstPost.evalL hp hρ]
  · obtain ⟨i1, i2, i3⟩ := SubstPost.renL hp hr
    exact ⟨i1, by rw [Term.size, Term.size, i2], i3⟩

theorem applyNode_app (hf : ApplierOK n f) {g : Term} {as : List Term} (hs : (Term.app g as).size ≤ n + 1)
    (hn : (Term.app g as).Nice) (hg : SubstGood r σ) :
    ∃ t' σ', applyNode f σ (.app g as) = .ok (t', σ') ∧ σ'.map = σ.map ∧ SubstGood r σ' ∧
      SubstPost r σ.map (.app g as) t' := by
  obtain ⟨h1, h2⟩ := hn
  simp only [Term.quoteSafe, Bool.and_eq_true, Term.quoteSafeL_iff] at h2
  rw [Term.size] at hs
  have h1' := sorted_app h1
  obtain ⟨as', σ1, e, em, hg1, hp⟩ := applyList_ok hf (as := as) (σ := σ) (fun a ha => ⟨by
    have := Term.size_le_sizeL ha; omega, h1'.2 a ha, h2.2 a ha⟩) hg
  obtain ⟨g', σ2, e', em', hg2, hp'⟩ := hf r σ1 g (by omega) ⟨h1'.1, h2.1⟩ hg1
  rw [em] at hp'
  refine ⟨.app g' as', σ2, bind_ok.2 ⟨_, e, bind_ok.2 ⟨_, e', rfl⟩⟩, em'.trans em, hg2, fun I ρ hρ => ?_, ?_,
    fun _ h => (by cases h), fun hr => ?_⟩
  · simp only [eval, evalL_eq_map, SubstPost.evalL hp hρ, hp'.sem I ρ hρ]
  · simp only [sortOf, hp'.sort, SubstPost.sortL hp]
  · obtain ⟨i1, i2, i3⟩ := SubstPost.renL hp hr
    obtain ⟨j1, j2, j3⟩ := hp'.ren hr
    refine ⟨by rw [Term.quoteSafe, i1, j1]; rfl, by rw [Term.size, Term.size, i2, j2], fun w hw => ?_⟩
    rw [Term.fv, List.mem_append] at hw
    rcases hw with hw | hw
    · obtain ⟨v, hv, e⟩ := j3 w hw
      exact ⟨v, by rw [Term.fv]; exact List.mem_append_left _ hv, e⟩
    · obtain ⟨v, hv, e⟩ := i3 w hw
      exact ⟨v, by rw [Term.fv]; exact List.mem_append_right _ hv, e⟩

theorem applyNode_paramOp (hf : ApplierOK n f) {o : ParamOp} {ps as : List Term}
    (hs : (Term.paramOp o ps as).size ≤ n + 1) (hn : (Term.paramOp o ps as).Nice) (hg : SubstGood r σ) :
    ∃ t' σ', applyNode f σ (.paramOp o ps as) = .ok (t', σ') ∧ σ'.map = σ.map ∧ SubstGood r σ' ∧
      SubstPost r σ.map (.paramOp o ps as) t' := by
  obtain ⟨h1, h2⟩ := hn
  simp only [Term.quoteSafe, Bool.and_eq_true] at h2
  have h2' := h2.2
  rw [Term.quoteSafeL_iff] at h2'
  rw [Term.size] at hs
  obtain ⟨as', σ', e, em, hg', hp⟩ := applyList_ok hf (as := as) (σ := σ) (fun a ha => ⟨by
    have := Term.size_le_sizeL ha; omega, sorted_paramOp h1 a ha, h2' a ha⟩) hg
  have hc := indices_const h1
  have hev : ∀ (I : Interp) (ρ ρ' : Env I.U), ps.map (eval I · ρ) = ps.map (eval I · ρ') := by
    intro I ρ ρ'
    refine List.map_congr_left fun p hp => ?_
    obtain ⟨c, rfl⟩ := hc p hp
    rfl
  have hfv : Term.fvL ps = [] := by
    rw [List.eq_nil_iff_forall_not_mem]
    intro v hv
    obtain ⟨p, hp, hv⟩ := Term.mem_fvL.1 hv
    obtain ⟨c, rfl⟩ := hc p hp
    cases hv
  refine ⟨.paramOp o ps as', σ', bind_ok.2 ⟨_, e, rfl⟩, em, hg', fun I ρ hρ => ?_, ?_, fun _ h => (by cases h),
    fun hr => ?_⟩
  · simp only [eval, evalL_eq_map, SubstPost.evalL hp hρ, hev I ρ (I.substEnv σ.map ρ)]
  · simp only [sortOf, SubstPost.sortL hp]
  · obtain ⟨i1, i2, i3⟩ := SubstPost.renL hp hr
    refine ⟨by rw [Term.quoteSafe, i1, h2.1]; rfl, by rw [Term.size, Term.size, i2], ?_⟩
    rw [Term.fv, Term.fv, hfv]
    exact i3

/-! ## Binders -/

theorem computeRen_good (hg : SubstGood r σ) : ∃ l, σ.computeRen.ren = some l ∧ σ.computeRen.map = σ.map ∧
    SubstGood r σ.computeRen ∧ ∀ x ∈ namesOf σ.map, x ∈ l := by
  unfold Subst.computeRen
  split
  · next l h => exact ⟨l, h, rfl, hg, hg.names l h⟩
  · refine ⟨_, rfl, rfl, ⟨hg.map, hg.quote, ?_, hg.cache⟩, fun x hx => mem_setOf.2 hx⟩
    intro l h x hx
    cases h
    exact mem_setOf.2 hx

/-- The body after an optional renaming. -/
theorem applyBody_ok (hf : ApplierOK n f) {mr : List (Term × Term)} (hq : QuoteMap mr) {body : Term}
    (hs : body.size ≤ n) (hn : body.Nice) (hg : SubstGood r σ) :
    ∃ t' σ', applyBody f σ ⟨mr, none, []⟩ body = .ok (t', σ') ∧ σ'.map = σ.map ∧ SubstGood r σ' ∧
      sortOf t' = sortOf body ∧
      (∀ (I : Interp) (ρ : Env I.U), I.EnvOK ρ →
        eval I t' ρ = eval I body (I.substEnv mr (I.substEnv σ.map ρ))) ∧
      (r → t'.quoteSafe = true ∧ t'.size = body.size ∧ ∀ w ∈ t'.fv, ∃ u, ∃ v ∈ body.fv,
        substOf mr v = .var u.1 u.2 ∧ substOf σ.map u = .var w.1 w.2) := by
  unfold applyBody
  by_cases he : mr = []
  · subst he
    simp only [List.isEmpty_nil, if_true]
    obtain ⟨t', σ', h1, h2, h3, h4⟩ := hf r σ body hs hn hg
    refine ⟨t', σ', h1, h2, h3, h4.sort, fun I ρ hρ => h4.sem I ρ hρ, fun hr => ?_⟩
    obtain ⟨j1, j2, j3⟩ := h4.ren hr
    refine ⟨j1, j2, fun w hw => ?_⟩
    obtain ⟨v, hv, e⟩ := j3 w hw
    exact ⟨v, v, hv, rfl, e⟩
  · have : mr.isEmpty = false := by cases mr <;> simp_all
    simp only [this, Bool.false_eq_true, if_false]
    obtain ⟨t1, σ1, h1, _, _, h4⟩ := hf True ⟨mr, none, []⟩ body hs hn
      ⟨hq.mapOK, fun _ => hq, fun l h => (by cases h), fun t u h => by cases h⟩
    obtain ⟨i1, i2, i3⟩ := h4.ren trivial
    obtain ⟨t', σ', k1, k2, k3, k4⟩ := hf r σ t1 (by omega) ⟨by rw [h4.sort]; exact hn.sorted, i1⟩ hg
    refine ⟨t', σ', bind_ok.2 ⟨_, h1, k1⟩, k2, k3, k4.sort.trans h4.sort, fun I ρ hρ => ?_, fun hr => ?_⟩
    · rw [k4.sem I ρ hρ, h4.sem I _ (hg.map.env hρ)]
    · obtain ⟨j1, j2, j3⟩ := k4.ren hr
      refine ⟨j1, j2.trans i2, fun w hw => ?_⟩
      obtain ⟨u, hu, e⟩ := j3 w hw
      obtain ⟨v, hv, e'⟩ := i3 u hu
      exact ⟨u, v, hv, e', e⟩

theorem sort_binder_congr {b : Binder} {bs bs' : List (String × Srt)} {t t' : Term}
    (hs : List.Forall₂ (fun b b' : String × Srt => b'.2 = b.2) bs bs') (ht : sortOf t' = sortOf t) :
    sortOf (.binder b bs' t') = sortOf (.binder b bs t) := by
  have hm : bs'.map (·.2) = bs.map (·.2) := by
    clear ht
    induction hs with
    | nil => rfl
    | cons e _ ih => simp [e, ih]
  simp only [sortOf, ht, hm]
  cases hs with
  | nil => rfl
  | @cons p q _ _ e hs =>
    obtain ⟨x, s⟩ := p
    obtain ⟨y, s'⟩ := q
    simp only at e
    subst e
    cases hs <;> (cases b <;> rcases hh : sortOf t with _ | (_ | _) <;> rfl)

theorem nodup_of_roots {bs : List (String × Srt)} (h : (bs.map fun b => nameRoot b.1).Nodup) : bs.Nodup :=
  List.Nodup.of_map _ h

theorem applyNode_binder (hf : ApplierOK n f) {b : Binder} {bs : List (String × Srt)} {body : Term}
    (hs : (Term.binder b bs body).size ≤ n + 1) (hn : (Term.binder b bs body).Nice) (hg : SubstGood r σ) :
    ∃ t' σ', applyNode f σ (.binder b bs body) = .ok (t', σ') ∧ σ'.map = σ.map ∧ SubstGood r σ' ∧
      SubstPost r σ.map (.binder b bs body) t' := by
  obtain ⟨l, hl, hm, hg1, hnames⟩ := computeRen_good hg
  have hsafe := Term.quoteSafe_binder.1 hn.safe
  have hbs := nodup_of_roots hsafe.1
  have hbody : body.Nice := ⟨sorted_binder hn.sorted, hsafe.2.2⟩
  have hch : b = .choice → bs.length = 1 := by
    have := hn.choice
    simp only [Term.choiceOK, Bool.and_eq_true, Bool.or_eq_true, decide_eq_true_eq] at this
    exact fun e => this.1.resolve_left (fun h => h e)
  rw [Term.size] at hs
  -- whether the substitution can be skipped
  have hskip : ∃ k, σ.computeRen.canSkip bs = .ok k ∧ (k = true →
      ∀ v ∈ (Term.binder b bs body).fv, substOf σ.map v = .var v.1 v.2) := by
    unfold Subst.canSkip
    rw [hm]
    split
    · next k u hmap =>
      obtain ⟨x, s, hk, _⟩ := hg.map (k, u) (by rw [hmap]; exact List.mem_cons_self ..)
      simp only at hk
      subst hk
      refine ⟨_, bind_ok.2 ⟨x, rfl, bind_ok.2 ⟨l, by rw [hl]; rfl, rfl⟩⟩, ?_⟩
      intro hk v hv
      split at hk
      · next b0 hfil =>
        simp only [decide_eq_true_eq] at hk
        rw [Term.mem_fv_binder] at hv
        rw [substOf_eq, hmap, mapGet]
        split
        · next e =>
          cases e
          have hb0 : b0 ∈ bs := (List.mem_filter.1 (by rw [hfil]; exact List.mem_singleton_self _ :
            b0 ∈ bs.filter fun b => decide (b.1 ∈ l))).1
          exact absurd (hsafe.2.1 v hv.1 b0 hb0 (by rw [hk])) (fun e => hv.2 (e ▸ hb0))
        · rfl
      · cases hk
    · exact ⟨false, rfl, fun h => by cases h⟩
  obtain ⟨k, hk1, hk2⟩ := hskip
  cases k with
  | true =>
    refine ⟨.binder b bs body, σ.computeRen, ?_, hm, hg1, fun I ρ hρ => ?_, rfl, fun _ _ => rfl, fun _ =>
      ⟨hn.safe, rfl, fun w hw => ⟨w, hw, hk2 rfl w hw⟩⟩⟩
    · exact bind_ok.2 ⟨true, hk1, rfl⟩
    · refine hn.congr fun v hv => ?_
      show _ = eval I (substOf σ.map (v.1, v.2)) ρ
      rw [hk2 rfl v hv]
      rfl
  | false =>
    obtain ⟨bs', mr, e1, hren⟩ := renameVars_ok (avoid := l) hbs
    obtain ⟨t', σ', e2, hm', hg', hsort, hsem, hr⟩ := applyBody_ok (r := r) hf hren.quotes (by omega : body.size ≤ n)
      hbody hg1
    rw [hm] at hm' hsem hr
    have hpairs : List.Forall₂ (fun b b' : String × Srt => b'.2 = b.2) bs bs' := hren.pairs.imp fun _ _ h => h.1
    -- a renamed variable is not touched by the substitution
    have hnew : ∀ p : (String × Srt) × (String × Srt), p ∈ bs.zip bs' →
        nameRoot p.2.1 = nameRoot p.1.1 ∧ p.2.1 ∉ namesOf σ.map ∧ substOf mr p.1 = .var p.2.1 p.2.2 := by
      intro p hp
      have := hren.pairs.of_mem_zip p hp
      exact ⟨this.2.1, fun h => this.2.2.1 (hnames _ h), this.2.2.2⟩
    have hzip1 : ∀ v ∈ bs, ∃ v', (v, v') ∈ bs.zip bs' := by
      intro v hv
      exact hren.pairs.zip_left v hv
    have hzip2 : ∀ v' ∈ bs', ∃ v, (v, v') ∈ bs.zip bs' := by
      intro v hv
      exact hren.pairs.zip_right v hv
    have hroots : bs'.map (fun b => nameRoot b.1) = bs.map (fun b => nameRoot b.1) := by
      exact List.Forall₂.map_eq_of (hren.pairs.imp fun _ _ h => h.2.1)
    have hbs' : bs'.Nodup := nodup_of_roots (by rw [hroots]; exact hsafe.1)
    refine ⟨.binder b bs' t', σ', ?_, hm', hg', fun I ρ hρ => ?_, sort_binder_congr hpairs hsort,
      fun _ h => (by cases h), fun h => ?_⟩
    · exact bind_ok.2 ⟨false, hk1, bind_ok.2 ⟨l, by rw [hl]; rfl, bind_ok.2 ⟨_, e1, bind_ok.2 ⟨_, e2, rfl⟩⟩⟩⟩
    · simp only [eval]
      refine evalBinder_rename hpairs hch fun vs hv => ?_
      have hρ' : I.EnvOK (ρ.setMany bs' vs) := Interp.EnvOK.setMany hρ (Interp.Tuple.rename hpairs hv)
      rw [hsem I _ hρ']
      refine hbody.congr fun v hfv => ?_
      show eval I (substOf mr (v.1, v.2)) _ = _
      by_cases hb : v ∈ bs
      · obtain ⟨v', hz⟩ := hzip1 v hb
        obtain ⟨_, h2, h3⟩ := hnew _ hz
        rw [h3]
        show eval I (substOf σ.map (v'.1, v'.2)) _ = _
        rw [substOf_not_name h2]
        exact Env.setMany_pair hpairs hbs hbs' (List.Forall₂.length_eq hv) hz
      · rw [hren.others v hb]
        show eval I (substOf σ.map (v.1, v.2)) _ = _
        rw [Env.setMany_of_not_mem hb]
        have hb' : v ∉ bs' := by
          intro hb'
          obtain ⟨u, hz⟩ := hzip2 v hb'
          have hu : u ∈ bs := (List.of_mem_zip hz).1
          exact hb (hsafe.2.1 v hfv u hu (hnew _ hz).1 ▸ hu)
        show _ = eval I (substOf σ.map (v.1, v.2)) ρ
        by_cases hch' : substOf σ.map (v.1, v.2) = .var v.1 v.2
        · rw [hch']
          exact Env.setMany_of_not_mem hb'
        · refine eval_congr_fv _ (Term.choiceOK_of_sort _ (by rw [hg.map.sort]; rfl)) (.inr hρ') fun w hw => ?_
          refine Env.setMany_of_not_mem fun hw' => ?_
          obtain ⟨u, hz⟩ := hzip2 w hw'
          exact (hnew _ hz).2.1 (hg.map.fv_name hch' hw)
    · obtain ⟨j1, j2, j3⟩ := hr h
      have hq := hg.quote h
      refine ⟨Term.quoteSafe_binder.2 ⟨by rw [hroots]; exact hsafe.1, fun w hw c hc he => ?_, j1⟩,
        by rw [Term.size, Term.size, j2], fun w hw => ?_⟩
      · obtain ⟨u, v, hv, e, e'⟩ := j3 w hw
        obtain ⟨d, hz⟩ := hzip2 c hc
        obtain ⟨h1, h2, h3⟩ := hnew _ hz
        have hd : d ∈ bs := (List.of_mem_zip hz).1
        obtain ⟨u', eu, ru⟩ := QuoteMap.substOf hren.quotes v
        obtain ⟨w', ew, rw'⟩ := hq.substOf u
        have eu' : u' = u := var_inj (by rw [← eu, e])
        have ew' : w' = w := var_inj (by rw [← ew, e'])
        subst eu' ew'
        have hvd : v = d := hsafe.2.1 v hv d hd (by rw [← ru, ← rw', he]; exact h1)
        subst hvd
        simp only at h1 h2 h3
        rw [h3] at e
        have : c = u' := var_inj e
        subst this
        rw [substOf_not_name h2] at e'
        exact (var_inj e').symm
      · rw [Term.mem_fv_binder] at hw
        obtain ⟨u, v, hv, e, e'⟩ := j3 w hw.1
        by_cases hb : v ∈ bs
        · obtain ⟨v', hz⟩ := hzip1 v hb
          obtain ⟨_, h2, h3⟩ := hnew _ hz
          rw [h3] at e
          have : v' = u := var_inj e
          subst this
          rw [substOf_not_name h2] at e'
          have : v' = w := var_inj e'
          subst this
          exact absurd (List.of_mem_zip hz).2 hw.2
        · rw [hren.others v hb] at e
          have : v = u := var_inj e
          subst this
          exact ⟨v, Term.mem_fv_binder.2 ⟨hv, hb⟩, e'⟩

end Cases

/-! ## All cases -/

theorem applyGo_ok : ∀ n : Nat, ApplierOK n (applyGo n)
  | 0 => fun _ _ t hs _ _ => absurd t.size_pos (by omega)
  | n + 1 => by
    intro r σ t hs hn hg
    have hf := applyGo_ok n
    rw [applyGo]
    cases hc : mapGet σ.cache t with
    | some u => exact ⟨u, σ, rfl, rfl, hg, (hg.cache t u hc).2⟩
    | none =>
      cases hm : mapGet σ.map t with
      | some u =>
        obtain ⟨x, s, hx, hsort, _⟩ := hg.map _ (mem_of_mapGet hm)
        simp only at hx hsort
        subst hx
        have e : substOf σ.map (x, s) = u := by rw [substOf_eq, hm]; rfl
        refine ⟨u, σ, rfl, rfl, hg, fun I ρ _ => ?_, hsort, fun c h => (by cases h), fun hr => ?_⟩
        · simp only [eval, Interp.substEnv, e]
        · obtain ⟨w, hw, _⟩ := (hg.quote hr).substOf (x, s)
          rw [e] at hw
          subst hw
          refine ⟨rfl, rfl, fun v hv => ⟨(x, s), List.mem_singleton_self _, ?_⟩⟩
          simp only [Term.fv, List.mem_singleton] at hv
          rw [e, hv]
      | none =>
        have key : ∃ t' σ', applyNode (applyGo n) σ t = .ok (t', σ') ∧ σ'.map = σ.map ∧ SubstGood r σ' ∧
            SubstPost r σ.map t t' := by
          cases t with
          | const c => exact applyNode_const hg
          | var x s => exact applyNode_var hm hg
          | app g as => exact applyNode_app hf hs hn hg
          | op o as => exact applyNode_op hf hs hn hg
          | binder b bs body => exact applyNode_binder hf hs hn hg
          | let_ bs body => exact absurd hn.safe (by simp [Term.quoteSafe])
          | paramOp o ps as => exact applyNode_paramOp hf hs hn hg
        obtain ⟨t', σ', h1, h2, h3, h4⟩ := key
        refine ⟨t', { σ' with cache := mapInsert σ'.cache t t' }, bind_ok.2 ⟨_, h1, rfl⟩, h2,
          ⟨h3.map, h3.quote, h3.names, fun k u hk => ?_⟩, h4⟩
        simp only [mapGet_insert] at hk
        split at hk
        · next e =>
          cases hk
          subst e
          exact ⟨hn, by rw [h2]; exact h4⟩
        · exact h3.cache k u hk

/-! ## Changing the substitution -/

theorem mapGet_filter {α β : Type} [DecidableEq α] {m : List (α × β)} {p : α → Bool} {a : α} {b : β}
    (h : mapGet (m.filter fun e => p e.1) a = some b) : p a = true ∧ mapGet m a = some b := by
  induction m with
  | nil => cases h
  | cons e m ih =>
    obtain ⟨k, v⟩ := e
    rw [List.filter_cons] at h
    split at h
    · next hp =>
      rw [mapGet] at h ⊢
      split at h
      · next e => subst e; rw [if_pos rfl]; exact ⟨hp, h⟩
      · next e => rw [if_neg e]; exact ih h
    · next hp =>
      obtain ⟨h1, h2⟩ := ih h
      refine ⟨h1, ?_⟩
      rw [mapGet, if_neg]
      · exact h2
      · rintro rfl
        exact hp h1

theorem Subst.insert_good {σ σ' : Subst} {x t : Term} (hg : SubstGood False σ) (ht : t.closedParts = true)
    (h : σ.insert x t = .ok σ') : SubstGood False σ' ∧ σ'.map = mapInsert σ.map x t := by
  unfold Subst.insert at h
  split at h
  · next y s =>
    split at h
    · next hs =>
      cases h
      refine ⟨⟨fun p hp => ?_, fun h => h.elim, fun l hl z hz => ?_, fun k u hk => ?_⟩, rfl⟩
      · rcases mem_mapInsert_cases hp with rfl | hp
        · exact ⟨y, s, rfl, by rw [← hs]; rfl, ht⟩
        · exact hg.map p hp
      · simp only [Option.map_eq_some_iff] at hl
        obtain ⟨l0, hl0, rfl⟩ := hl
        obtain ⟨p, hp, hne, hz⟩ := mem_namesOf.1 hz
        have hold : ∀ q ∈ σ.map, q.1 ≠ q.2 → (z ∈ (freeVars q.2).map (·.1) ∨ q.1.asVar = some z) → z ∈ l0 :=
          fun q hq h1 h2 => hg.names l0 hl0 z (mem_namesOf.2 ⟨q, hq, h1, h2⟩)
        rcases mem_mapInsert_cases hp with rfl | hp
        · simp only at hne hz
          rw [if_neg hne, mem_setInsert, mem_setExtend]
          rcases hz with hz | hz
          · exact .inl (.inr hz)
          · right
            simp only [Term.asVar, Option.some.injEq] at hz
            exact hz.symm
        · have := hold p hp hne hz
          split
          · exact this
          · rw [mem_setInsert, mem_setExtend]
            exact .inl (.inl this)
      · have hk' := mapGet_filter (p := fun k => decide ((y, s) ∉ freeVars k)) hk
        simp only [decide_eq_true_eq] at hk'
        obtain ⟨hn, hp⟩ := hg.cache k u hk'.2
        rw [mem_freeVars hn.closed] at hk'
        refine ⟨hn, ⟨fun I ρ hρ => ?_, hp.sort, hp.const, fun h => h.elim⟩⟩
        rw [hp.sem I ρ hρ]
        refine hn.congr fun v hv => ?_
        show eval I (substOf _ (v.1, v.2)) ρ = eval I (substOf _ (v.1, v.2)) ρ
        rw [substOf_eq, substOf_eq, mapGet_insert, if_neg]
        intro e
        have : (y, s) = v := var_inj (v := (y, s)) e
        exact hk'.1 (this ▸ hv)
    · cases h
  · cases h

theorem Subst.new_good {m : List (Term × Term)} {σ : Subst} (hv : ∀ p ∈ m, p.2.closedParts = true)
    (h : Subst.new m = .ok σ) : SubstGood False σ ∧ σ.map = m := by
  simp only [Subst.new, bind_ok] at h
  obtain ⟨_, hc, h⟩ := h
  cases h
  refine ⟨⟨?_, fun h => h.elim, fun l h => (by cases h), fun t u h => (by cases h)⟩, rfl⟩
  intro p hp
  simp only at hp
  induction m with
  | nil => cases hp
  | cons q m ih =>
    obtain ⟨k, v⟩ := q
    rw [Subst.checkMap] at hc
    split at hc
    · next hk =>
      split at hc
      · next hs =>
        rcases List.mem_cons.1 hp with rfl | hp
        · cases k <;> try cases hk
          next x s => exact ⟨x, s, rfl, by rw [← hs]; rfl, hv _ (List.mem_cons_self ..)⟩
        · exact ih (fun p hp => hv p (List.mem_cons_of_mem _ hp)) hc hp
      · cases hc
    · cases hc

end Carcara
