import Verif.Model.Substitution
import Verif.Spec.Substitution
import Verif.Lemmas.FreeVarsModel

/-! # Substitution preserves meaning -/

namespace Carcara
open Classical Val

variable {I : Interp}

/-! ## Names -/

theorem nameRoot_push (x : String) : nameRoot (x.push '\'') = nameRoot x := by
  simp [nameRoot, String.toList_push]

theorem nameRoot_freshLoop (avoid : List String) : ∀ (n : Nat) (x : String),
    nameRoot (freshLoop avoid n x) = nameRoot x
  | 0, _ => rfl
  | n + 1, x => by
    rw [freshLoop]
    split
    · rw [nameRoot_freshLoop, nameRoot_push]
    · rfl

theorem freshLoop_not_mem (avoid : List String) : ∀ (n : Nat) (x : String),
    (avoid.countP fun a => decide (x.length ≤ a.length)) < n → freshLoop avoid n x ∉ avoid
  | 0, _, h => absurd h (Nat.not_lt_zero _)
  | n + 1, x, h => by
    rw [freshLoop]
    split
    · next hx =>
      refine freshLoop_not_mem avoid n _ (Nat.lt_of_lt_of_le ?_ (Nat.le_of_lt_succ h))
      rw [String.length_push]
      clear h
      induction avoid with
      | nil => cases hx
      | cons a as ih =>
        rw [List.countP_cons, List.countP_cons]
        have hle : (as.countP fun a => decide (x.length + 1 ≤ a.length)) ≤
            (as.countP fun a => decide (x.length ≤ a.length)) :=
          List.countP_mono_left fun a _ ha => by simp only [decide_eq_true_eq] at ha ⊢; omega
        rcases List.mem_cons.1 hx with rfl | hx
        · have e1 : decide (x.length + 1 ≤ x.length) = false := by simp
          have e2 : decide (x.length ≤ x.length) = true := by simp
          rw [e1, e2]
          simp only [Bool.false_eq_true, if_false, if_true]
          omega
        · have := ih hx
          by_cases h1 : x.length + 1 ≤ a.length
          · have h2 : x.length ≤ a.length := by omega
            simp only [h1, h2, decide_true, if_true]
            omega
          · simp only [h1, decide_false, Bool.false_eq_true, if_false]
            omega
    · assumption

theorem nameRoot_freshName (avoid : List String) (x : String) : nameRoot (freshName avoid x) = nameRoot x :=
  nameRoot_freshLoop _ _ _

theorem freshName_not_mem (avoid : List String) (x : String) : freshName avoid x ∉ avoid :=
  freshLoop_not_mem _ _ _ (Nat.lt_succ_of_le List.countP_le_length)

/-! ## Maps -/

theorem substOf_eq (m : List (Term × Term)) (v : String × Srt) :
    substOf m v = (mapGet m (.var v.1 v.2)).getD (.var v.1 v.2) := by
  unfold substOf
  induction m with
  | nil => rfl
  | cons p m ih =>
    obtain ⟨k, u⟩ := p
    rw [List.find?_cons, mapGet]
    by_cases e : k = .var v.1 v.2
    · simp [e]
    · simp only [e, decide_false, if_false]
      exact ih

theorem substOf_nil (v : String × Srt) : substOf [] v = .var v.1 v.2 := rfl

theorem substOf_cases (m : List (Term × Term)) (v : String × Srt) :
    (.var v.1 v.2, substOf m v) ∈ m ∨ substOf m v = .var v.1 v.2 := by
  rw [substOf_eq]
  cases h : mapGet m (.var v.1 v.2) with
  | none => exact .inr rfl
  | some u => exact .inl (mem_of_mapGet h)

theorem mem_namesOf {x : String} {m : List (Term × Term)} :
    x ∈ namesOf m ↔ ∃ p ∈ m, p.1 ≠ p.2 ∧ (x ∈ (freeVars p.2).map (·.1) ∨ p.1.asVar = some x) := by
  induction m with
  | nil => simp [namesOf]
  | cons p m ih =>
    obtain ⟨k, u⟩ := p
    rw [namesOf]
    split
    · next e => simp [ih, e]
    · next e =>
      simp only [List.mem_append, ih, List.mem_cons, exists_eq_or_imp, Option.mem_toList, ne_eq, e,
        not_false_eq_true, true_and]

/-- A variable whose name need not be avoided is not changed. -/
theorem substOf_not_name {m : List (Term × Term)} {v : String × Srt} (h : v.1 ∉ namesOf m) :
    substOf m v = .var v.1 v.2 := by
  rcases substOf_cases m v with hm | h'
  · by_cases e : Term.var v.1 v.2 = substOf m v
    · exact e.symm
    · exact absurd (mem_namesOf.2 ⟨_, hm, e, .inr rfl⟩) h
  · exact h'

/-- The mappings of a well-formed substitution. -/
def MapOK (m : List (Term × Term)) : Prop :=
  ∀ p ∈ m, ∃ x s, p.1 = .var x s ∧ sortOf p.2 = some s ∧ p.2.closedParts = true

theorem MapOK.sort {m : List (Term × Term)} (h : MapOK m) (v : String × Srt) : sortOf (substOf m v) = some v.2 := by
  rcases substOf_cases m v with hm | h'
  · obtain ⟨x, s, e, hs, _⟩ := h _ hm
    cases e
    exact hs
  · rw [h']; rfl

theorem MapOK.closed {m : List (Term × Term)} (h : MapOK m) (v : String × Srt) :
    (substOf m v).closedParts = true := by
  rcases substOf_cases m v with hm | h'
  · exact (h _ hm).choose_spec.choose_spec.2.2
  · rw [h']; rfl

theorem MapOK.env {m : List (Term × Term)} (h : MapOK m) {ρ : Env I.U} (hρ : I.EnvOK ρ) :
    I.EnvOK (I.substEnv m ρ) := fun x s => eval_dom _ (h.sort (x, s)) hρ

/-- The free variables of the value of a changed variable are to be avoided. -/
theorem MapOK.fv_name {m : List (Term × Term)} (h : MapOK m) {v : String × Srt}
    (hv : substOf m v ≠ .var v.1 v.2) {w : String × Srt} (hw : w ∈ (substOf m v).fv) : w.1 ∈ namesOf m := by
  rcases substOf_cases m v with hm | h'
  · exact mem_namesOf.2 ⟨_, hm, fun e => hv e.symm, .inl (List.mem_map.2 ⟨w, (mem_freeVars (h.closed v)).2 hw, rfl⟩)⟩
  · exact absurd h' hv

/-! ## Binders -/

/-- Renaming the variables of a binder. -/
theorem evalBinder_rename {b : Binder} {bs bs' : List (String × Srt)} {f g : Env I.U → Val I.U} {ρ ρ' : Env I.U}
    (hs : List.Forall₂ (fun b b' : String × Srt => b'.2 = b.2) bs bs') (hb : b = .choice → bs.length = 1)
    (h : ∀ vs, I.Tuple bs vs → f (ρ'.setMany bs' vs) = g (ρ.setMany bs vs)) :
    evalBinder I b bs' f ρ' = evalBinder I b bs g ρ := by
  have ht : ∀ vs, I.Tuple bs' vs ↔ I.Tuple bs vs := by
    intro vs
    unfold Interp.Tuple
    clear h hb
    induction hs generalizing vs with
    | nil => cases vs <;> simp
    | cons e _ ih =>
      cases vs with
      | nil => simp
      | cons v vs => simp only [List.forall₂_cons, ih, e]
  have hm : bs'.map (·.2) = bs.map (·.2) := by
    clear h hb ht
    induction hs with
    | nil => rfl
    | cons e _ ih => simp [e, ih]
  cases b with
  | all =>
    simp only [evalBinder]; congr 1; apply propext
    exact forall_congr' fun vs => by rw [ht]; exact forall_congr' fun hv => by rw [h _ hv]
  | ex =>
    simp only [evalBinder]; congr 1; apply propext
    exact exists_congr fun vs => by rw [ht]; exact and_congr_right fun hv => by rw [h _ hv]
  | choice =>
    have hl := hb rfl
    cases hs with
    | nil => simp at hl
    | @cons p q _ _ e hs =>
      simp only [List.length_cons, Nat.add_eq_right, List.length_eq_zero_iff] at hl
      subst hl
      cases hs
      obtain ⟨x, s⟩ := p
      obtain ⟨y, r⟩ := q
      simp only at e
      subst e
      simp only [evalBinder]
      congr 1; funext v; apply propext
      exact and_congr_right fun hv => by
        have := h [v] (.cons hv .nil)
        simp only [Env.setMany] at this
        rw [this]
  | lambda =>
    simp only [evalBinder, hm]
    congr 1; funext vs
    by_cases hv : I.Tuple bs vs
    · rw [if_pos ((ht vs).2 hv), if_pos hv, h _ hv]
    · rw [if_neg (fun h => hv ((ht vs).1 h)), if_neg hv]

theorem Env.setMany_pair {U : Type} {bs bs' : List (String × Srt)}
    (hs : List.Forall₂ (fun b b' : String × Srt => b'.2 = b.2) bs bs') :
    ∀ {vs : List (Val U)} {ρ ρ' : Env U} {b b' : String × Srt}, bs.Nodup → bs'.Nodup → bs.length = vs.length →
    (b, b') ∈ bs.zip bs' → ρ'.setMany bs' vs b'.1 b'.2 = ρ.setMany bs vs b.1 b.2 := by
  induction hs with
  | nil => intro vs ρ ρ' b b' _ _ _ h; simp at h
  | @cons a a' as as' e hs ih =>
    intro vs ρ ρ' b b' hn hn' hl h
    rw [List.nodup_cons] at hn hn'
    match vs, hl with
    | v :: vs, hl =>
      obtain ⟨x, s⟩ := a
      obtain ⟨y, r⟩ := a'
      simp only at e
      subst e
      simp only [Env.setMany]
      rw [List.zip_cons_cons, List.mem_cons] at h
      rcases h with h | h
      · cases h
        rw [Env.setMany_of_not_mem hn.1, Env.setMany_of_not_mem hn'.1]
        simp [Env.set]
      · exact ih hn.2 hn'.2 (by simpa using hl) h

/-- What renaming the list of a binder guarantees. -/
structure Renamed (avoid : List String) (bs bs' : List (String × Srt)) (m : List (Term × Term)) : Prop where
  pairs : List.Forall₂ (fun b b' => b'.2 = b.2 ∧ nameRoot b'.1 = nameRoot b.1 ∧ b'.1 ∉ avoid ∧
    substOf m b = .var b'.1 b'.2) bs bs'
  others : ∀ v, v ∉ bs → substOf m v = .var v.1 v.2
  quotes : ∀ p ∈ m, ∃ x y s, p = (.var x s, .var y s) ∧ nameRoot x = nameRoot y

theorem insert_empty {m : List (Term × Term)} {x y : String} {s : Srt} :
    Subst.insert ⟨m, none, []⟩ (.var x s) (.var y s) = .ok ⟨mapInsert m (.var x s) (.var y s), none, []⟩ := by
  simp [Subst.insert, sortOf]

theorem mem_mapInsert_cases {α β : Type} [DecidableEq α] {m : List (α × β)} {a : α} {b : β} {p : α × β}
    (h : p ∈ mapInsert m a b) : p = (a, b) ∨ p ∈ m := by
  induction m with
  | nil => simpa [mapInsert] using h
  | cons q m ih =>
    obtain ⟨k, v⟩ := q
    rw [mapInsert] at h
    split at h
    · next e =>
      subst e
      rcases List.mem_cons.1 h with rfl | h
      · exact .inl rfl
      · exact .inr (List.mem_cons_of_mem _ h)
    · rcases List.mem_cons.1 h with rfl | h
      · exact .inr (List.mem_cons_self ..)
      · exact (ih h).imp_right (List.mem_cons_of_mem _)

theorem renameVars_spec (avoid : List String) : ∀ (bs : List (String × Srt)) (m0 : List (Term × Term))
    (names : List String), bs.Nodup → (∀ b ∈ bs, mapGet m0 (.var b.1 b.2) = none) →
    (∀ p ∈ m0, ∃ x y s, p = (.var x s, .var y s) ∧ nameRoot x = nameRoot y) →
    ∃ bs' m, renameVars avoid bs ⟨m0, none, []⟩ names = .ok (bs', ⟨m, none, []⟩) ∧
      List.Forall₂ (fun b b' => b'.2 = b.2 ∧ nameRoot b'.1 = nameRoot b.1 ∧ b'.1 ∉ avoid ∧
        substOf m b = .var b'.1 b'.2) bs bs' ∧
      (∀ v, v ∉ bs → substOf m v = substOf m0 v) ∧
      (∀ p ∈ m, ∃ x y s, p = (.var x s, .var y s) ∧ nameRoot x = nameRoot y)
  | [], m0, names, _, _, hq => ⟨[], m0, rfl, .nil, fun _ _ => rfl, hq⟩
  | (x, s) :: bs, m0, names, hn, hk, hq => by
    rw [List.nodup_cons] at hn
    obtain ⟨y, hy⟩ : ∃ y, y = freshName (names ++ avoid) x := ⟨_, rfl⟩
    have hy1 : y ∉ avoid := fun h => freshName_not_mem (names ++ avoid) x (hy ▸ List.mem_append_right _ h)
    have hy2 : nameRoot y = nameRoot x := hy ▸ nameRoot_freshName _ _
    by_cases e : y = x
    · obtain ⟨bs', m, h1, h2, h3, h4⟩ := renameVars_spec avoid bs m0 names hn.2
        (fun b hb => hk b (List.mem_cons_of_mem _ hb)) hq
      refine ⟨(x, s) :: bs', m, ?_, .cons ⟨rfl, rfl, e ▸ hy1, ?_⟩ h2, ?_, h4⟩
      · rw [renameVars, ← hy]
        simp only [e, if_true]
        exact bind_ok.2 ⟨_, rfl, bind_ok.2 ⟨_, h1, rfl⟩⟩
      · rw [h3 (x, s) hn.1, substOf_eq, hk (x, s) (List.mem_cons_self ..)]
        rfl
      · intro v hv
        exact h3 v fun h => hv (List.mem_cons_of_mem _ h)
    · have hm1 : ∀ v : String × Srt, v ≠ (x, s) → mapGet (mapInsert m0 (.var x s) (.var y s)) (.var v.1 v.2) =
          mapGet m0 (.var v.1 v.2) := by
        intro v hv
        rw [mapGet_insert, if_neg]
        rintro e
        cases e
        exact hv rfl
      obtain ⟨bs', m, h1, h2, h3, h4⟩ := renameVars_spec avoid bs (mapInsert m0 (.var x s) (.var y s)) (names ++ [y])
        hn.2 (fun b hb => by
          rw [hm1 b (fun e => hn.1 (e ▸ hb))]
          exact hk b (List.mem_cons_of_mem _ hb))
        (fun p hp => by
          rcases mem_mapInsert_cases hp with rfl | hp
          · exact ⟨x, y, s, rfl, hy2.symm⟩
          · exact hq p hp)
      refine ⟨(y, s) :: bs', m, ?_, .cons ⟨rfl, hy2, hy1, ?_⟩ h2, ?_, h4⟩
      · rw [renameVars, ← hy]
        simp only [e, if_false, insert_empty]
        exact bind_ok.2 ⟨_, rfl, bind_ok.2 ⟨_, h1, rfl⟩⟩
      · rw [h3 (x, s) hn.1, substOf_eq, mapGet_insert, if_pos rfl]
        rfl
      · intro v hv
        rw [h3 v fun h => hv (List.mem_cons_of_mem _ h), substOf_eq, substOf_eq,
          hm1 v (fun e => hv (e ▸ List.mem_cons_self ..))]

theorem renameVars_ok {avoid : List String} {bs : List (String × Srt)} (hn : bs.Nodup) :
    ∃ bs' m, renameVars avoid bs .empty [] = .ok (bs', ⟨m, none, []⟩) ∧ Renamed avoid bs bs' m := by
  obtain ⟨bs', m, h1, h2, h3, h4⟩ := renameVars_spec avoid bs [] [] hn (fun _ _ => rfl) (fun _ h => by cases h)
  exact ⟨bs', m, h1, h2, fun v hv => by rw [h3 v hv]; rfl, h4⟩

end Carcara
