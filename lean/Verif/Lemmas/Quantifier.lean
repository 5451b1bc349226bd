import Verif.Model.Quantifier
import Verif.Lemmas.FreeVarsModel
import Verif.Lemmas.Simplify
import Verif.Lemmas.Cnf
import Verif.Lemmas.MapRes
import Verif.Lemmas.Utils

/-! # Facts about quantifiers -/

namespace Carcara
open Classical

/-- `ρ'` is a sort-respecting assignment that differs from `ρ` only at the variables `bs`. -/
def Upd (I : Interp) (bs : List (String × Srt)) (ρ ρ' : Env I.U) : Prop :=
  I.EnvOK ρ' ∧ ∀ x s, (x, s) ∉ bs → ρ' x s = ρ x s

variable {I : Interp}

theorem setMany_self {x : String} {s : Srt} {ρ' : Env I.U} : ∀ {bs : List (String × Srt)} {ρ : Env I.U},
    ρ.setMany bs (bs.map fun b => ρ' b.1 b.2) x s = if (x, s) ∈ bs then ρ' x s else ρ x s
  | [], ρ => by simp [Env.setMany]
  | (y, t) :: bs, ρ => by
    rw [List.map_cons, Env.setMany, setMany_self]
    simp only [Env.set, List.mem_cons, Prod.mk.injEq]
    by_cases h : (x, s) ∈ bs
    · simp [h]
    · by_cases h' : x = y ∧ s = t
      · obtain ⟨rfl, rfl⟩ := h'; simp [h]
      · simp [h, h']

theorem tuple_self {ρ' : Env I.U} (h : I.EnvOK ρ') : ∀ bs : List (String × Srt),
    I.Tuple bs (bs.map fun b => ρ' b.1 b.2)
  | [] => .nil
  | b :: bs => .cons (h _ _) (tuple_self h bs)

theorem Upd.eq_setMany {bs : List (String × Srt)} {ρ ρ' : Env I.U} (h : Upd I bs ρ ρ') :
    ρ' = ρ.setMany bs (bs.map fun b => ρ' b.1 b.2) := by
  funext x s
  rw [setMany_self]
  split
  · rfl
  · next hm => exact h.2 x s hm

theorem Upd.setMany {bs : List (String × Srt)} {ρ : Env I.U} (hρ : I.EnvOK ρ) {vs : List (Val I.U)}
    (h : I.Tuple bs vs) : Upd I bs ρ (ρ.setMany bs vs) :=
  ⟨hρ.setMany h, fun _ _ hm => Env.setMany_of_not_mem hm⟩

theorem Upd.refl {bs : List (String × Srt)} {ρ : Env I.U} (hρ : I.EnvOK ρ) : Upd I bs ρ ρ := ⟨hρ, fun _ _ _ => rfl⟩

theorem Upd.mono {bs cs : List (String × Srt)} {ρ ρ' : Env I.U} (h : Upd I bs ρ ρ') (hs : ∀ b ∈ bs, b ∈ cs) :
    Upd I cs ρ ρ' := ⟨h.1, fun x s hm => h.2 x s fun hb => hm (hs _ hb)⟩

theorem tr_all {bs : List (String × Srt)} {t : Term} {ρ : Env I.U} (hρ : I.EnvOK ρ) :
    (eval I (.binder .all bs t) ρ).T ↔ ∀ ρ', Upd I bs ρ ρ' → (eval I t ρ').T := by
  have := Model.holds_all ⟨I, ρ, hρ⟩ bs t
  change (eval I _ ρ).T ↔ ∀ vs, I.Tuple bs vs → (eval I t (ρ.setMany bs vs)).T at this
  rw [this]
  refine ⟨fun h ρ' hu => ?_, fun h vs hv => h _ (.setMany hρ hv)⟩
  rw [hu.eq_setMany]
  exact h _ (tuple_self hu.1 bs)

theorem tr_ex {bs : List (String × Srt)} {t : Term} {ρ : Env I.U} (hρ : I.EnvOK ρ) :
    (eval I (.binder .ex bs t) ρ).T ↔ ∃ ρ', Upd I bs ρ ρ' ∧ (eval I t ρ').T := by
  have := Model.holds_ex ⟨I, ρ, hρ⟩ bs t
  change (eval I _ ρ).T ↔ ∃ vs, I.Tuple bs vs ∧ (eval I t (ρ.setMany bs vs)).T at this
  rw [this]
  refine ⟨fun ⟨vs, hv, h⟩ => ⟨_, .setMany hρ hv, h⟩, fun ⟨ρ', hu, h⟩ => ?_⟩
  refine ⟨_, tuple_self hu.1 bs, ?_⟩
  rw [← hu.eq_setMany]
  exact h

theorem tr_and {ts : List Term} {ρ : Env I.U} : (eval I (.op .and ts) ρ).T ↔ ∀ t ∈ ts, (eval I t ρ).T := by
  simp [eval, evalOp, stdOp]
theorem tr_or {ts : List Term} {ρ : Env I.U} : (eval I (.op .or ts) ρ).T ↔ ∃ t ∈ ts, (eval I t ρ).T := by
  simp [eval, evalOp, stdOp]

theorem sort_quant {q : Binder} (hq : q = .all ∨ q = .ex) {bs : List (String × Srt)} {t : Term} {s : Srt} :
    sortOf (.binder q bs t) = some s ↔ s = .bool ∧ bs ≠ [] ∧ sortOf t = some .bool := by
  rcases hq with rfl | rfl <;> cases bs <;> simp only [sortOf]
  · simp
  · cases h : sortOf t with
    | none => simp
    | some r => cases r <;> simp [eq_comm]
  · simp
  · cases h : sortOf t with
    | none => simp
    | some r => cases r <;> simp [eq_comm]

/-- Terms have the same value under assignments that agree on their free variables as computed. -/
theorem eval_congr_freeVars {t : Term} {ρ ρ' : Env I.U} (hs : (sortOf t).isSome = true) (hc : t.closedParts = true)
    (hρ : I.EnvOK ρ) (h : ∀ v ∈ freeVars t, ρ v.1 v.2 = ρ' v.1 v.2) : eval I t ρ = eval I t ρ' :=
  eval_congr_fv t (t.choiceOK_of_sort hs) (.inr hρ) fun v hv => h v ((mem_freeVars hc).2 hv)

theorem eval_upd {t : Term} {ρ ρ' : Env I.U} {bs : List (String × Srt)} (hs : (sortOf t).isSome = true)
    (hc : t.closedParts = true) (hρ : I.EnvOK ρ) (hu : Upd I bs ρ ρ') (h : ∀ v ∈ bs, v ∉ freeVars t) :
    eval I t ρ' = eval I t ρ :=
  (eval_congr_freeVars hs hc hρ fun v hv => (hu.2 v.1 v.2 fun hb => h _ hb hv).symm).symm

theorem asQuantErr_ok {t : Term} {r : Binder × List (String × Srt) × Term} :
    asQuantErr t = .ok r ↔ (r.1 = .all ∨ r.1 = .ex) ∧ t = .binder r.1 r.2.1 r.2.2 := by
  obtain ⟨q, bs, u⟩ := r
  unfold asQuantErr
  split
  · simp only [ok_inj, Prod.mk.injEq, Term.binder.injEq]
    constructor
    · rintro ⟨rfl, rfl, rfl⟩; simp
    · rintro ⟨_, rfl, rfl, rfl⟩; simp
  · simp only [ok_inj, Prod.mk.injEq, Term.binder.injEq]
    constructor
    · rintro ⟨rfl, rfl, rfl⟩; simp
    · rintro ⟨_, rfl, rfl, rfl⟩; simp
  · next h1 h2 =>
    simp only [err_ok, false_iff, not_and]
    rintro (rfl | rfl) rfl
    · exact h1 _ _ rfl
    · exact h2 _ _ rfl

/-! ## Normal forms -/

theorem eval_bool {t : Term} {ρ : Env I.U} (hs : sortOf t = some .bool) (hρ : I.EnvOK ρ) :
    ∃ b, eval I t ρ = .bool b := (I.dom_bool _).1 (eval_dom t hs hρ)

theorem eq_bool_iff {a b : Term} {ρ : Env I.U} (ha : sortOf a = some .bool) (hb : sortOf b = some .bool)
    (hρ : I.EnvOK ρ) : eval I a ρ = eval I b ρ ↔ ((eval I a ρ).T ↔ (eval I b ρ).T) := by
  obtain ⟨x, hx⟩ := eval_bool ha hρ
  obtain ⟨y, hy⟩ := eval_bool hb hρ
  rw [hx, hy]
  cases x <;> cases y <;> simp [Val.T]

theorem nnfL_eq (ts : List Term) (pol : Bool) : nnfL ts pol = ts.map (nnf · pol) := by
  induction ts with
  | nil => rfl
  | cons t ts ih => rw [nnfL, ih]; rfl

/-- A truth value with a polarity. -/
def Signed (pol : Bool) (p : Prop) : Prop := if pol then p else ¬ p

theorem Signed.not {pol : Bool} {p : Prop} : Signed (!pol) p ↔ Signed pol (¬ p) := by
  cases pol <;> simp [Signed]

theorem tr_lit {pol : Bool} {t : Term} {ρ : Env I.U} : (eval I (nnfLit pol t) ρ).T ↔ Signed pol (eval I t ρ).T := by
  cases pol <;> simp [nnfLit, Signed, eval_not]

theorem tr_flipAnd {pol : Bool} {ts : List Term} {ρ : Env I.U} : (eval I (.op (flipOp .and pol) ts) ρ).T ↔
    if pol then ∀ t ∈ ts, (eval I t ρ).T else ∃ t ∈ ts, (eval I t ρ).T := by
  cases pol <;> simp [flipOp, tr_and, tr_or]

theorem tr_flipOr {pol : Bool} {ts : List Term} {ρ : Env I.U} : (eval I (.op (flipOp .or pol) ts) ρ).T ↔
    if pol then ∃ t ∈ ts, (eval I t ρ).T else ∀ t ∈ ts, (eval I t ρ).T := by
  cases pol <;> simp [flipOp, tr_and, tr_or]

theorem tr_pair {pol : Bool} {a b c d : Term} {ρ : Env I.U} {p q r s : Prop}
    (ha : (eval I a ρ).T ↔ Signed pol p) (hb : (eval I b ρ).T ↔ Signed pol q)
    (hc : (eval I c ρ).T ↔ Signed pol r) (hd : (eval I d ρ).T ↔ Signed pol s) :
    (eval I (nnfPair pol a b c d) ρ).T ↔ if pol then (p ∨ q) ∧ (r ∨ s) else (¬ p ∧ ¬ q) ∨ (¬ r ∧ ¬ s) := by
  unfold nnfPair
  rw [tr_flipAnd]
  cases pol <;> simp_all [tr_flipOr, Signed]

set_option hygiene false in
/-- A part of the current term is smaller than the bound. -/
local macro "small" : tactic => `(tactic| first
  | (simp at hn; omega)
  | (have := List.sizeOf_lt_of_mem (by assumption); simp at hn; omega)
  | (have := List.sizeOf_lt_of_mem hu; simp at hn; omega))

/-- The negation normal form has the same value. -/
theorem nnf_tr_aux (n : Nat) : ∀ (t : Term), sizeOf t < n → ∀ (pol : Bool) (ρ : Env I.U),
    sortOf t = some .bool → I.EnvOK ρ → ((eval I (nnf t pol) ρ).T ↔ Signed pol (eval I t ρ).T) := by
  induction n with
  | zero => intro t hn; omega
  | succ n ih =>
  intro t hn pol ρ hs hρ
  unfold nnf
  split
  · next t =>
    rw [ih t (by small) _ ρ (sort_not.1 hs).2 hρ, eval_not, Signed.not]
  · next as =>
    obtain ⟨_, _, h⟩ := sort_and.1 hs
    rw [tr_flipAnd, nnfL_eq, tr_and]
    cases pol
    · simp only [Bool.false_eq_true, if_false, List.mem_map, Signed, not_forall]
      constructor
      · rintro ⟨_, ⟨u, hu, rfl⟩, hT⟩
        exact ⟨u, hu, (ih u (by small) false ρ (h u hu) hρ).1 hT⟩
      · rintro ⟨u, hu, hT⟩
        exact ⟨_, ⟨u, hu, rfl⟩, (ih u (by small) false ρ (h u hu) hρ).2 hT⟩
    · simp only [if_true, List.mem_map, Signed]
      constructor
      · intro hT u hu
        exact (ih u (by small) true ρ (h u hu) hρ).1 (hT _ ⟨u, hu, rfl⟩)
      · rintro hT _ ⟨u, hu, rfl⟩
        exact (ih u (by small) true ρ (h u hu) hρ).2 (hT u hu)
  · next as =>
    obtain ⟨_, _, h⟩ := sort_or.1 hs
    rw [tr_flipOr, nnfL_eq, tr_or]
    cases pol
    · simp only [Bool.false_eq_true, if_false, List.mem_map, Signed, not_exists, not_and]
      constructor
      · intro hT u hu
        exact (ih u (by small) false ρ (h u hu) hρ).1 (hT _ ⟨u, hu, rfl⟩)
      · rintro hT _ ⟨u, hu, rfl⟩
        exact (ih u (by small) false ρ (h u hu) hρ).2 (hT u hu)
    · simp only [if_true, List.mem_map, Signed]
      constructor
      · rintro ⟨_, ⟨u, hu, rfl⟩, hT⟩
        exact ⟨u, hu, (ih u (by small) true ρ (h u hu) hρ).1 hT⟩
      · rintro ⟨u, hu, hT⟩
        exact ⟨_, ⟨u, hu, rfl⟩, (ih u (by small) true ρ (h u hu) hρ).2 hT⟩
  · next p q =>
    obtain ⟨_, hp, hq⟩ := sort_implies.1 hs
    have h1 := ih p (by small) (!pol) ρ hp hρ
    have h2 := ih q (by small) pol ρ hq hρ
    have h3 := Model.holds_implies ⟨I, ρ, hρ⟩ p q
    change (eval I _ ρ).T ↔ ((eval I p ρ).T → (eval I q ρ).T) at h3
    rw [tr_flipOr, h3]
    cases pol <;> simp_all [Signed] <;> tauto
  · next p q r =>
    obtain ⟨hp, hq, hr⟩ := sort_ite.1 hs
    have h1 := ih p (by small) (!pol) ρ hp hρ
    have h2 := ih q (by small) pol ρ hq hρ
    have h3 := ih p (by small) pol ρ hp hρ
    have h4 := ih r (by small) pol ρ hr hρ
    rw [Signed.not] at h1
    have h5 := Model.val_ite ⟨I, ρ, hρ⟩ p q r
    change eval I _ ρ = if (eval I p ρ).T then eval I q ρ else eval I r ρ at h5
    rw [tr_pair h1 h2 h3 h4, h5]
    by_cases hT : (eval I p ρ).T <;> cases pol <;> simp [hT, Signed]
  · next bs t =>
    obtain ⟨_, _, ht⟩ := (sort_quant (.inl rfl)).1 hs
    cases pol
    · simp only [flipQuant, Bool.false_eq_true, if_false, if_true, Signed]
      rw [tr_ex hρ, tr_all hρ, not_forall]
      refine exists_congr fun ρ' => ?_
      rw [Classical.not_imp]
      exact and_congr_right fun hu => ih t (by small) false ρ' ht hu.1
    · simp only [flipQuant, if_true, Signed]
      rw [tr_all hρ, tr_all hρ]
      exact forall_congr' fun ρ' => imp_congr_right fun hu => ih t (by small) true ρ' ht hu.1
  · next bs t =>
    obtain ⟨_, _, ht⟩ := (sort_quant (.inr rfl)).1 hs
    cases pol
    · simp only [flipQuant, Bool.false_eq_true, if_false, reduceCtorEq, Signed]
      rw [tr_ex hρ, tr_all hρ, not_exists]
      refine forall_congr' fun ρ' => ?_
      rw [not_and]
      exact imp_congr_right fun hu => ih t (by small) false ρ' ht hu.1
    · simp only [flipQuant, if_true, Signed]
      rw [tr_ex hρ, tr_ex hρ]
      exact exists_congr fun ρ' => and_congr_right fun hu => ih t (by small) true ρ' ht hu.1
  · next l r =>
    split
    · next hl =>
      obtain ⟨_, s, hl', hr⟩ := sort_equals.1 hs
      rw [hl] at hl'
      cases hl'
      have h1 := ih l (by small) (!pol) ρ hl hρ
      have h2 := ih r (by small) pol ρ hr hρ
      have h3 := ih r (by small) (!pol) ρ hr hρ
      have h4 := ih l (by small) pol ρ hl hρ
      rw [Signed.not] at h1 h3
      have h5 := Model.holds_eq ⟨I, ρ, hρ⟩ l r
      change (eval I _ ρ).T ↔ eval I l ρ = eval I r ρ at h5
      rw [eq_bool_iff hl hr hρ] at h5
      rw [tr_pair h1 h2 h3 h4, h5]
      cases pol
      · simp only [Bool.false_eq_true, if_false, Signed]; tauto
      · simp only [if_true, Signed]; tauto
    · exact tr_lit
  · exact tr_lit

theorem nnf_tr (t : Term) (pol : Bool) (ρ : Env I.U) (hs : sortOf t = some .bool) (hρ : I.EnvOK ρ) :
    (eval I (nnf t pol) ρ).T ↔ Signed pol (eval I t ρ).T :=
  nnf_tr_aux _ t (Nat.lt_succ_self _) pol ρ hs hρ

theorem prenexL_eq (ts : List Term) : (prenexL ts).2 = ts.map fun t => (prenex t).2 := by
  induction ts with
  | nil => rfl
  | cons t ts ih => rw [prenexL, List.map_cons, ← ih]

theorem prenex_tr_aux (n : Nat) : ∀ (t : Term), sizeOf t < n → ∀ (ρ : Env I.U), I.EnvOK ρ → (eval I t ρ).T →
    (eval I (prenex t).2 ρ).T := by
  induction n with
  | zero => intro t hn; omega
  | succ n ih =>
  intro t hn ρ hρ h
  unfold prenex
  split
  · next as =>
    rw [tr_and] at h ⊢
    rw [prenexL_eq]
    intro u hu'
    obtain ⟨t, hu, rfl⟩ := List.mem_map.1 hu'
    clear hu'
    exact ih t (by small) ρ hρ (h t hu)
  · next as =>
    rw [tr_or] at h ⊢
    rw [prenexL_eq]
    obtain ⟨t, hu, h⟩ := h
    exact ⟨_, List.mem_map.2 ⟨t, hu, rfl⟩, ih t (by small) ρ hρ h⟩
  · next bs t => exact ih t (by small) ρ hρ ((tr_all hρ).1 h ρ (.refl hρ))
  · exact h

/-- Dropping universal quantifiers in positive positions gives a consequence, in the same environment. -/
theorem prenex_tr (t : Term) (ρ : Env I.U) (hρ : I.EnvOK ρ) (h : (eval I t ρ).T) : (eval I (prenex t).2 ρ).T :=
  prenex_tr_aux _ t (Nat.lt_succ_self _) ρ hρ h

/-- Truth of a formula in conjunctive normal form. -/
def CnfTr (ρ : Env I.U) (f : List (List Term)) : Prop := ∀ c ∈ f, ∃ t ∈ c, (eval I t ρ).T

theorem distribute_tr {ρ : Env I.U} : ∀ {fs : List (List (List Term))} {f : List (List Term)},
    distribute fs = .ok f → (∃ g ∈ fs, CnfTr ρ g) → CnfTr ρ f
  | [], _, h, _ => by cases h
  | [g], f, h, hg => by
    cases h
    obtain ⟨g', hm, h⟩ := hg
    cases List.mem_singleton.1 hm
    exact h
  | g :: g' :: fs, f, h, hg => by
    rw [distribute] at h
    simp only [bind_ok] at h
    obtain ⟨tail, ht, h⟩ := h
    cases h
    intro c hc
    obtain ⟨a, ha, hc⟩ := List.mem_flatMap.1 hc
    obtain ⟨b, hb, rfl⟩ := List.mem_map.1 hc
    obtain ⟨g'', hm, hT⟩ := hg
    rcases List.mem_cons.1 hm with rfl | hm
    · obtain ⟨u, hu, hT⟩ := hT a ha
      exact ⟨u, List.mem_append_left _ hu, hT⟩
    · obtain ⟨u, hu, hT⟩ := distribute_tr ht ⟨g'', hm, hT⟩ b hb
      exact ⟨u, List.mem_append_right _ hu, hT⟩
    · simp

theorem toCnfL_ok : ∀ {ts : List Term} {fs : List (List (List Term))}, toCnfL ts = .ok fs →
    List.Forall₂ (fun t f => toCnf t = .ok f) ts fs
  | [], fs, h => by cases h; exact .nil
  | t :: ts, fs, h => by
    simp only [toCnfL, bind_ok] at h
    obtain ⟨f, hf, fs', hfs, h⟩ := h
    cases h
    exact .cons hf (toCnfL_ok hfs)

theorem forall₂_left {α β : Type} {R : α → β → Prop} {as : List α} {bs : List β} (h : List.Forall₂ R as bs) {a : α}
    (ha : a ∈ as) : ∃ b ∈ bs, R a b := by
  induction h with
  | nil => cases ha
  | cons hr _ ih =>
    rcases List.mem_cons.1 ha with rfl | ha
    · exact ⟨_, List.mem_cons_self .., hr⟩
    · obtain ⟨b, hb, h⟩ := ih ha; exact ⟨b, List.mem_cons_of_mem _ hb, h⟩

theorem forall₂_right {α β : Type} {R : α → β → Prop} {as : List α} {bs : List β} (h : List.Forall₂ R as bs) {b : β}
    (hb : b ∈ bs) : ∃ a ∈ as, R a b := by
  induction h with
  | nil => cases hb
  | cons hr _ ih =>
    rcases List.mem_cons.1 hb with rfl | hb
    · exact ⟨_, List.mem_cons_self .., hr⟩
    · obtain ⟨a, ha, h⟩ := ih hb; exact ⟨a, List.mem_cons_of_mem _ ha, h⟩

/-- Every clause of the conjunctive normal form is a consequence. -/
theorem toCnf_tr_aux (n : Nat) : ∀ (t : Term), sizeOf t < n → ∀ (f : List (List Term)) (ρ : Env I.U),
    toCnf t = .ok f → (eval I t ρ).T → CnfTr ρ f := by
  induction n with
  | zero => intro t hn; omega
  | succ n ih =>
  intro t hn f ρ hf h
  unfold toCnf at hf
  split at hf
  · next as =>
    simp only [bind_ok] at hf
    obtain ⟨fs, hfs, hf⟩ := hf
    cases hf
    intro c hc
    obtain ⟨g, hg, hc⟩ := List.mem_flatten.1 hc
    obtain ⟨u, hu, hg'⟩ := forall₂_right (toCnfL_ok hfs) hg
    exact ih u (by small) g ρ hg' (tr_and.1 h u hu) c hc
  · next as =>
    simp only [bind_ok] at hf
    obtain ⟨fs, hfs, hf⟩ := hf
    obtain ⟨u, hu, h⟩ := tr_or.1 h
    obtain ⟨g, hg, hg'⟩ := forall₂_left (toCnfL_ok hfs) hu
    exact distribute_tr hf ⟨g, hg, ih u (by small) g ρ hg' h⟩
  · cases hf
    intro c hc
    cases List.mem_singleton.1 hc
    exact ⟨_, List.mem_singleton_self _, h⟩

theorem toCnf_tr (t : Term) (f : List (List Term)) (ρ : Env I.U) (hf : toCnf t = .ok f) (h : (eval I t ρ).T) :
    CnfTr ρ f := toCnf_tr_aux _ t (Nat.lt_succ_self _) f ρ hf h

theorem cnfClause_tr {c : List Term} {t : Term} {ρ : Env I.U} (h : cnfClause c = .ok t)
    (hc : ∃ u ∈ c, (eval I u ρ).T) : (eval I t ρ).T := by
  unfold cnfClause at h
  split at h
  · cases h
  · cases h
    obtain ⟨u, hu, hT⟩ := hc
    cases List.mem_singleton.1 hu
    exact hT
  · cases h
    exact tr_or.2 hc

/-- The clauses found by `qnt_cnf` are consequences of the formula, in every environment. -/
theorem qntCnf_clause {phi t : Term} {cnf : List (List Term)} {clauses : List Term} {ρ : Env I.U}
    (hs : sortOf phi = some .bool) (hρ : I.EnvOK ρ) (hcnf : toCnf (prenex (nnf phi true)).2 = .ok cnf)
    (hcl : mapRes cnfClause cnf = .ok clauses) (ht : t ∈ clauses) (h : (eval I phi ρ).T) : (eval I t ρ).T := by
  have h1 := (nnf_tr phi true ρ hs hρ).2 h
  have h2 := toCnf_tr _ _ ρ hcnf (prenex_tr _ ρ hρ h1)
  obtain ⟨c, hc, he⟩ := forall₂_right (mapRes_ok.1 hcl) ht
  exact cnfClause_tr he (h2 c hc)

/-! ## Splitting -/

theorem removeBindings_ok : ∀ {inner set set' : List (String × Srt)}, set.Nodup → removeBindings set inner = .ok set' →
    set'.Nodup ∧ inner.Nodup ∧ (∀ b ∈ inner, b ∈ set) ∧ ∀ b, b ∈ set' ↔ b ∈ set ∧ b ∉ inner
  | [], set, set', hn, h => by cases h; exact ⟨hn, by simp, by simp, by simp⟩
  | b :: inner, set, set', hn, h => by
    rw [removeBindings] at h
    split at h
    · next hb =>
      have hmem : b ∈ set := by
        unfold setRemove at hb
        split at hb
        · assumption
        · cases hb
      obtain ⟨h1, h2, h3, h4⟩ := removeBindings_ok (nodup_setRemove hn) h
      refine ⟨h1, ?_, ?_, fun c => ?_⟩
      · rw [List.nodup_cons]
        refine ⟨fun hm => ?_, h2⟩
        exact ((mem_setRemove hn).1 (h3 b hm)).2 rfl
      · intro c hc
        rcases List.mem_cons.1 hc with rfl | hc
        · exact hmem
        · exact ((mem_setRemove hn).1 (h3 c hc)).1
      · rw [h4, mem_setRemove hn, List.mem_cons, not_or]
        tauto
    · cases h

/-- Data of one argument of `miniscope_split`: the property `P` of the argument on the left, the property `Q` of the
argument on the right, the variables `inner` that are bound on the right. `bs` are the variables of the quantifier
that is split. -/
structure SplitItem (I : Interp) (bs : List (String × Srt)) (P Q : Env I.U → Prop) (inner : List (String × Srt)) : Prop where
  intro_right : ∀ ρ, I.EnvOK ρ → P ρ → Q ρ
  elim_right : ∀ ρ, I.EnvOK ρ → Q ρ → ∃ ρ', Upd I inner ρ ρ' ∧ P ρ'
  local_left : ∀ ρ ρ', I.EnvOK ρ → I.EnvOK ρ' → (∀ x s, (x, s) ∈ inner ∨ (x, s) ∉ bs → ρ x s = ρ' x s) → P ρ → P ρ'
  local_right : ∀ ρ ρ', Upd I bs ρ ρ' → I.EnvOK ρ → Q ρ' → Q ρ

/-- The arguments of `miniscope_split`, with the variables still available. -/
inductive SplitList (I : Interp) (bs : List (String × Srt)) :
    List (String × Srt) → List ((Env I.U → Prop) × (Env I.U → Prop)) → Prop where
  | nil {set} : SplitList I bs set []
  | cons {set set' inner P Q l} : SplitItem I bs P Q inner → (∀ b ∈ inner, b ∈ set) →
      (∀ b, b ∈ set' ↔ b ∈ set ∧ b ∉ inner) → SplitList I bs set' l → SplitList I bs set ((P, Q) :: l)

theorem SplitList.forward {bs set : List (String × Srt)} {l : List ((Env I.U → Prop) × (Env I.U → Prop))}
    (h : SplitList I bs set l) {ρ ρ' : Env I.U} (hρ : I.EnvOK ρ) (hu : Upd I bs ρ ρ') (hP : ∀ p ∈ l, p.1 ρ') :
    ∀ p ∈ l, p.2 ρ := by
  induction h with
  | nil => intro p hp; cases hp
  | cons hi _ _ _ ih =>
    intro p hp
    rcases List.mem_cons.1 hp with rfl | hp
    · exact hi.local_right ρ ρ' hu hρ (hi.intro_right ρ' hu.1 (hP _ (List.mem_cons_self ..)))
    · exact ih (fun p hp => hP p (List.mem_cons_of_mem _ hp)) p hp

theorem SplitList.backward {bs set : List (String × Srt)} {l : List ((Env I.U → Prop) × (Env I.U → Prop))}
    (h : SplitList I bs set l) {ρ : Env I.U} (hρ : I.EnvOK ρ) (hset : ∀ b ∈ set, b ∈ bs) (hQ : ∀ p ∈ l, p.2 ρ) :
    ∃ ρ', Upd I set ρ ρ' ∧ ∀ ρ'', I.EnvOK ρ'' → (∀ x s, (x, s) ∈ set ∨ (x, s) ∉ bs → ρ' x s = ρ'' x s) →
      ∀ p ∈ l, p.1 ρ'' := by
  induction h with
  | nil => exact ⟨ρ, .refl hρ, fun _ _ _ p hp => by cases hp⟩
  | @cons set set' inner P Q l hi hin hset' _ ih =>
    obtain ⟨ρ1, hu1, h1⟩ := ih (fun b hb => hset b ((hset' b).1 hb).1) fun p hp => hQ p (List.mem_cons_of_mem _ hp)
    obtain ⟨ρ2, hu2, h2⟩ := hi.elim_right ρ hρ (hQ _ (List.mem_cons_self ..))
    refine ⟨fun x s => if (x, s) ∈ inner then ρ2 x s else ρ1 x s, ⟨fun x s => ?_, fun x s hx => ?_⟩, ?_⟩
    · dsimp only
      split
      · exact hu2.1 x s
      · exact hu1.1 x s
    · dsimp only
      rw [if_neg fun hm => hx (hin _ hm)]
      exact hu1.2 x s fun hm => hx ((hset' _).1 hm).1
    · intro ρ'' hρ'' hag p hp
      rcases List.mem_cons.1 hp with rfl | hp
      · refine hi.local_left ρ2 ρ'' hu2.1 hρ'' (fun x s hx => ?_) h2
        by_cases hm : (x, s) ∈ inner
        · rw [← hag x s (.inl (hin _ hm))]; dsimp only; rw [if_pos hm]
        · have hb := hx.resolve_left hm
          rw [← hag x s (.inr hb)]; dsimp only; rw [if_neg hm, hu2.2 x s hm, hu1.2 x s]
          intro hm'
          exact hb (hset _ ((hset' _).1 hm').1)
      · refine h1 ρ'' hρ'' (fun x s hx => ?_) p hp
        have hm : (x, s) ∉ inner := by
          rcases hx with hx | hx
          · exact ((hset' _).1 hx).2
          · exact fun hm => hx (hset _ (hin _ hm))
        rw [← hag x s (hx.imp_left fun h => ((hset' _).1 h).1)]; dsimp only; rw [if_neg hm]

/-- Two steps of updates are one update. -/
theorem Upd.comp {bs cs ds : List (String × Srt)} (h : ∀ b, b ∈ ds ↔ b ∈ bs ∨ b ∈ cs) {ρ ρ' : Env I.U}
    (hρ : I.EnvOK ρ) : Upd I ds ρ ρ' ↔ ∃ ρ1, Upd I bs ρ ρ1 ∧ Upd I cs ρ1 ρ' := by
  constructor
  · intro hu
    refine ⟨fun x s => if (x, s) ∈ bs then ρ' x s else ρ x s, ⟨fun x s => ?_, fun x s hx => ?_⟩, hu.1, fun x s hx => ?_⟩
    · dsimp only
      split
      · exact hu.1 x s
      · exact hρ x s
    · dsimp only; rw [if_neg hx]
    · dsimp only
      split
      · rfl
      · next hb => exact hu.2 x s fun hd => ((h _).1 hd).elim hb hx
  · rintro ⟨ρ1, h1, h2⟩
    refine ⟨h2.1, fun x s hx => ?_⟩
    rw [h2.2 x s fun hc => hx ((h _).2 (.inr hc)), h1.2 x s fun hb => hx ((h _).2 (.inl hb))]

/-- The quantifier of `miniscope_split` for a polarity: `exists` with `and`, `forall` with `or`. -/
def splitQuant (pol : Bool) : Binder := if pol then .ex else .all

theorem tr_splitQuant {pol : Bool} {bs : List (String × Srt)} {t : Term} {ρ : Env I.U} (hρ : I.EnvOK ρ) :
    Signed pol (eval I (.binder (splitQuant pol) bs t) ρ).T ↔ ∃ ρ', Upd I bs ρ ρ' ∧ Signed pol (eval I t ρ').T := by
  cases pol
  · simp only [splitQuant, Bool.false_eq_true, if_false, Signed, tr_all hρ, not_forall, exists_prop]
  · simp only [splitQuant, if_true, Signed, tr_ex hρ]

theorem splitList_of_loop {pol : Bool} {bs : List (String × Srt)} : ∀ {phis rs : List Term} {set : List (String × Srt)},
    phis.length = rs.length → set.Nodup → miniSplitLoop (splitQuant pol) set phis rs = .ok () →
    (∀ t ∈ phis, sortOf t = some .bool) → (∀ t ∈ rs, sortOf t = some .bool) → (∀ t ∈ rs, t.closedParts = true) →
    (∀ r ∈ rs, ∀ v ∈ bs, v ∉ freeVars r) →
    SplitList I bs set ((phis.zip rs).map fun p => ((fun ρ => Signed pol (eval I p.1 ρ).T),
      (fun ρ => Signed pol (eval I p.2 ρ).T)))
  | [], [], _, _, _, _, _, _, _, _ => .nil
  | phi :: phis, r :: rs, set, hl, hn, h, hs, hs', hc, hf => by
    rw [List.zip_cons_cons, List.map_cons]
    have hl' : phis.length = rs.length := by simpa using hl
    have tail : ∀ {set'}, set'.Nodup → miniSplitLoop (splitQuant pol) set' phis rs = .ok () → SplitList I bs set' _ :=
      fun {set'} hn' h' => splitList_of_loop hl' hn' h' (fun t ht => hs t (List.mem_cons_of_mem _ ht))
        (fun t ht => hs' t (List.mem_cons_of_mem _ ht)) (fun t ht => hc t (List.mem_cons_of_mem _ ht))
        (fun t ht => hf t (List.mem_cons_of_mem _ ht))
    have hfr := hf r (List.mem_cons_self ..)
    have hcr := hc r (List.mem_cons_self ..)
    have hsr : (sortOf r).isSome = true := by rw [hs' r (List.mem_cons_self ..)]; rfl
    have hright : ∀ ρ ρ', Upd I bs ρ ρ' → I.EnvOK ρ → Signed pol (eval I r ρ').T → Signed pol (eval I r ρ).T := by
      intro ρ ρ' hu hρ h
      rwa [eval_upd hsr hcr hρ hu hfr] at h
    rw [miniSplitLoop] at h
    split at h
    · next e =>
      subst e
      refine .cons (inner := []) (set' := set) ⟨fun _ _ h => h, fun ρ hρ h => ⟨ρ, .refl hρ, h⟩, ?_, hright⟩ (by simp)
        (by simp) (tail hn h)
      intro ρ ρ' hρ hρ' hag h
      have : eval I phi ρ = eval I phi ρ' := eval_congr_freeVars hsr hcr hρ fun v hv =>
        hag v.1 v.2 (.inr fun hb => hfr v hb hv)
      rwa [← this]
    · simp only [bind_ok, matchBinder_ok, assertEq_ok, Prod.exists] at h
      obtain ⟨inner, body, rfl, _, rfl, set', hset, h⟩ := h
      obtain ⟨h1, h2, h3, h4⟩ := removeBindings_ok hn hset
      refine .cons (inner := inner) (set' := set') ⟨fun ρ hρ h => ?_, fun ρ hρ h => (tr_splitQuant hρ).1 h, ?_, hright⟩
        h3 h4 (tail h1 h)
      · exact (tr_splitQuant hρ).2 ⟨ρ, .refl hρ, h⟩
      · intro ρ ρ' hρ hρ' hag h
        have : eval I phi ρ = eval I phi ρ' := by
          refine eval_congr_freeVars (by rw [hs phi (List.mem_cons_self ..)]; rfl) (by simpa [Term.closedParts] using hcr)
            hρ fun v hv => hag v.1 v.2 ?_
          by_cases hb : v ∈ bs
          · have := hfr v hb
            rw [freeVars, mem_setRemoveAll (nodup_freeVars phi)] at this
            left
            by_contra hi
            exact this ⟨hv, hi⟩
          · exact .inr hb
        rwa [← this]

/-- `miniscope_split`, semantically. -/
theorem split_tr {pol : Bool} {bs : List (String × Srt)} {phis rs : List Term} (hl : phis.length = rs.length)
    (h : miniSplitLoop (splitQuant pol) (setOf bs) phis rs = .ok ())
    (hs : ∀ t ∈ phis, sortOf t = some .bool) (hs' : ∀ t ∈ rs, sortOf t = some .bool)
    (hc : ∀ t ∈ rs, t.closedParts = true) (hf : ∀ r ∈ rs, ∀ v ∈ bs, v ∉ freeVars r) {ρ : Env I.U} (hρ : I.EnvOK ρ) :
    (∃ ρ', Upd I bs ρ ρ' ∧ ∀ t ∈ phis, Signed pol (eval I t ρ').T) ↔ ∀ t ∈ rs, Signed pol (eval I t ρ).T := by
  have hsl := splitList_of_loop (I := I) (bs := bs) hl (nodup_setOf _) h hs hs' hc hf
  have left : ∀ ρ', (∀ p ∈ (phis.zip rs).map fun p => (((fun ρ => Signed pol (eval I p.1 ρ).T),
      (fun ρ => Signed pol (eval I p.2 ρ).T)) : (Env I.U → Prop) × (Env I.U → Prop)), p.1 ρ') ↔
      ∀ t ∈ phis, Signed pol (eval I t ρ').T := by
    intro ρ'
    constructor
    · intro h t ht
      have : t ∈ (phis.zip rs).map Prod.fst := by rw [List.map_fst_zip (by omega)]; exact ht
      obtain ⟨p, hp, rfl⟩ := List.mem_map.1 this
      exact h _ (List.mem_map.2 ⟨p, hp, rfl⟩)
    · intro h p hp
      obtain ⟨q, hq, rfl⟩ := List.mem_map.1 hp
      exact h _ (List.of_mem_zip (a := q.1) (b := q.2) hq).1
  have right : ∀ ρ', (∀ p ∈ (phis.zip rs).map fun p => (((fun ρ => Signed pol (eval I p.1 ρ).T),
      (fun ρ => Signed pol (eval I p.2 ρ).T)) : (Env I.U → Prop) × (Env I.U → Prop)), p.2 ρ') ↔
      ∀ t ∈ rs, Signed pol (eval I t ρ').T := by
    intro ρ'
    constructor
    · intro h t ht
      have : t ∈ (phis.zip rs).map Prod.snd := by rw [List.map_snd_zip (by omega)]; exact ht
      obtain ⟨p, hp, rfl⟩ := List.mem_map.1 this
      exact h _ (List.mem_map.2 ⟨p, hp, rfl⟩)
    · intro h p hp
      obtain ⟨q, hq, rfl⟩ := List.mem_map.1 hp
      exact h _ (List.of_mem_zip (a := q.1) (b := q.2) hq).2
  constructor
  · rintro ⟨ρ', hu, h⟩
    exact (right ρ).1 (hsl.forward hρ hu ((left ρ').2 h))
  · intro h
    have hset : ∀ b ∈ setOf bs, b ∈ bs := fun b hb => mem_setOf.1 hb
    obtain ⟨ρ', hu, h'⟩ := hsl.backward hρ hset ((right ρ).2 h)
    exact ⟨ρ', hu.mono hset, (left ρ').1 (h' ρ' hu.1 fun _ _ _ => rfl)⟩

end Carcara
