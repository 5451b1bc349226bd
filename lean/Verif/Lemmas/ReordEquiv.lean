import Verif.Lemmas.ElabPolyeq

/-! # Equality modulo reordering is symmetric and transitive on terms whose literals are written in one way -/

namespace Carcara

open Spec

/-- No literal that can be written in another way. -/
def unamb (t : Term) : Prop := ∀ u ∈ t.subterms, ambiguousLit u = false

theorem unamb.sub {t u : Term} (h : unamb t) (hu : ∀ x ∈ u.subterms, x ∈ t.subterms) : unamb u := fun x hx => h x (hu x hx)

theorem litPoly_unamb {a b : Term} (h : litPoly a b = .pure true) (ha : ambiguousLit a = false) (hb : ambiguousLit b = false) : False := by
  have hc : a.isConst = true ∨ b.isConst = true := by
    by_contra hc
    simp only [not_or, Bool.not_eq_true] at hc
    exact litPoly_apart hc.1 hc.2 h
  rw [← polyTail_rc hc (cfg := {}) (rc := fun _ _ => .stuck) (n := 0)] at h
  unfold polyTail at h
  split at h
  · simp [Term.isConst] at hc
  · simp [Term.isConst] at hc
  · simp [Term.isConst] at hc
  · obtain ⟨c, d, rest, rfl⟩ := quotientEq_true h
    simp [ambiguousLit] at hb
  · rcases divLiteralEq_true h with ⟨c, d, rest, rfl⟩ | h
    · simp [ambiguousLit] at ha
    · simp [ambiguousLit] at hb; exact absurd h (by simpa using hb)
  · have := negIntEq_true h
    simp [ambiguousLit] at ha; omega
  · have := negIntEq_true h
    simp [ambiguousLit] at hb; omega
  · have := negRealEq_true h
    simp [ambiguousLit] at hb; exact absurd this (by simpa using hb)
  · have := negRealEq_true h
    simp [ambiguousLit] at ha; exact absurd this (by simpa using ha)
  · exact absurd (pure_true_inj h) (by simp)

theorem constEq_symm {c d : Const} (h : constEq c d = true) : constEq d c = true := by
  cases c <;> cases d <;> simp_all [constEq]

theorem constEq_trans {c d e : Const} (h : constEq c d = true) (h' : constEq d e = true) : constEq c e = true := by
  have key : ∀ {q r : Rat} {i : Int}, constEq (.real q) (.int i) = true → constEq (.int i) (.real r) = true → q = r := by
    intro q r i h h'
    simp only [constEq, Bool.if_false_right, Bool.and_eq_true, decide_eq_true_eq] at h h'
    exact Rat.ext (h.2.trans h'.2) (h.1.trans h'.1.symm)
  cases c <;> cases d <;> cases e <;> first
    | exact decide_eq_true (congrArg Const.real (key h h'))
    | simp_all [constEq]

theorem forall₂_flip_mem {S T : Term → Term → Prop} : ∀ {as bs : List Term}, List.Forall₂ S as bs → (∀ a ∈ as, ∀ b ∈ bs, S a b → T b a) →
    List.Forall₂ T bs as
  | _, _, .nil, _ => .nil
  | _, _, .cons h hs, k => .cons (k _ (by simp) _ (by simp) h) (forall₂_flip_mem hs fun a ha b hb => k a (by simp [ha]) b (by simp [hb]))

theorem forall₂_trans_mem {S : Term → Term → Prop} : ∀ {as bs cs : List Term}, List.Forall₂ S as bs → List.Forall₂ S bs cs →
    (∀ a ∈ as, ∀ b ∈ bs, ∀ c ∈ cs, S a b → S b c → S a c) → List.Forall₂ S as cs
  | _, _, _, .nil, .nil, _ => .nil
  | _, _, _, .cons h hs, .cons h' hs', k =>
    .cons (k _ (by simp) _ (by simp) _ (by simp) h h')
      (forall₂_trans_mem hs hs' fun a ha b hb c hc => k a (by simp [ha]) b (by simp [hb]) c (by simp [hc]))

theorem subterms_let_value {bs : List (String × Term)} {t a : Term} (h : a ∈ bs.map (·.2)) : ∀ u ∈ a.subterms, u ∈ (Term.let_ bs t).subterms := by
  obtain ⟨b, hb, rfl⟩ := List.mem_map.1 h
  exact subterms_let (.inr ⟨b, hb, rfl⟩)

theorem size_let_value {bs : List (String × Term)} {a : Term} (h : a ∈ bs.map (·.2)) : a.size ≤ Term.sizeB bs := by
  obtain ⟨b, hb, rfl⟩ := List.mem_map.1 h
  exact size_le_sizeB hb

theorem Reord.symmAux : ∀ (n : Nat) {a b : Term}, a.size ≤ n → unamb a → unamb b → Reord a b → Reord b a
  | 0, a, _, h, _, _, _ => by have := a.size_pos; omega
  | n + 1, a, b, hn, ha, hb, h => by
    cases h with
    | const h => exact .const (constEq_symm h)
    | var x s => exact .var x s
    | app hf hs =>
      simp only [Term.size] at hn
      refine .app (Reord.symmAux n (by omega) (ha.sub (subterms_app (.inl rfl))) (hb.sub (subterms_app (.inl rfl))) hf)
        (forall₂_flip_mem hs fun x hx y hy hr => ?_)
      have := size_le_sizeL hx
      exact Reord.symmAux n (by omega) (ha.sub (subterms_app (.inr hx))) (hb.sub (subterms_app (.inr hy))) hr
    | op hs =>
      simp only [Term.size] at hn
      refine .op (forall₂_flip_mem hs fun x hx y hy hr => ?_)
      have := size_le_sizeL hx
      exact Reord.symmAux n (by omega) (ha.sub (subterms_op hx)) (hb.sub (subterms_op hy)) hr
    | swap h1 h2 =>
      simp only [Term.size, Term.sizeL] at hn
      exact .swap (Reord.symmAux n (by omega) (ha.sub (subterms_op (by simp))) (hb.sub (subterms_op (by simp))) h2)
        (Reord.symmAux n (by omega) (ha.sub (subterms_op (by simp))) (hb.sub (subterms_op (by simp))) h1)
    | binder h =>
      simp only [Term.size] at hn
      exact .binder (Reord.symmAux n (by omega) (ha.sub subterms_binder) (hb.sub subterms_binder) h)
    | let_ he hs h =>
      simp only [Term.size] at hn
      refine .let_ he.symm (forall₂_flip_mem hs fun x hx y hy hr => ?_)
        (Reord.symmAux n (by omega) (ha.sub (subterms_let (.inl rfl))) (hb.sub (subterms_let (.inl rfl))) h)
      have := size_let_value hx
      exact Reord.symmAux n (by omega) (ha.sub (subterms_let_value hx)) (hb.sub (subterms_let_value hy)) hr
    | paramOp hs =>
      simp only [Term.size] at hn
      refine .paramOp (forall₂_flip_mem hs fun x hx y hy hr => ?_)
      have := size_le_sizeL hx
      exact Reord.symmAux n (by omega) (ha.sub (subterms_paramOp hx)) (hb.sub (subterms_paramOp hy)) hr
    | lit h => exact (litPoly_unamb h (ha _ (Term.self_mem_subterms _)) (hb _ (Term.self_mem_subterms _))).elim

theorem Reord.symm_of {a b : Term} (ha : unamb a) (hb : unamb b) (h : Reord a b) : Reord b a := Reord.symmAux _ (Nat.le_refl _) ha hb h

theorem forall₂_two {S : Term → Term → Prop} {a b : Term} {cs : List Term} (h : List.Forall₂ S [a, b] cs) : ∃ c d, cs = [c, d] ∧ S a c ∧ S b d := by
  cases h with
  | cons h1 h =>
    cases h with
    | cons h2 h => cases h; exact ⟨_, _, rfl, h1, h2⟩

theorem forall₂_two_right {S : Term → Term → Prop} {c d : Term} {as : List Term} (h : List.Forall₂ S as [c, d]) : ∃ a b, as = [a, b] ∧ S a c ∧ S b d := by
  cases h with
  | cons h1 h =>
    cases h with
    | cons h2 h => cases h; exact ⟨_, _, rfl, h1, h2⟩

theorem Reord.transAux : ∀ (n : Nat) {a b c : Term}, a.size ≤ n → unamb a → unamb b → unamb c → Reord a b → Reord b c → Reord a c
  | 0, a, _, _, h, _, _, _, _, _ => by have := a.size_pos; omega
  | n + 1, a, b, c, hn, ha, hb, hc, h, h' => by
    have hlit : ∀ {x y : Term}, unamb x → unamb y → litPoly x y = .pure true → False := fun hx hy h =>
      litPoly_unamb h (hx _ (Term.self_mem_subterms _)) (hy _ (Term.self_mem_subterms _))
    cases h with
    | const h =>
      cases h' with
      | const h' => exact .const (constEq_trans h h')
      | lit h' => exact (hlit hb hc h').elim
    | var x s => exact h'
    | app hf hs =>
      cases h' with
      | app hf' hs' =>
        simp only [Term.size] at hn
        refine .app (Reord.transAux n (by omega) (ha.sub (subterms_app (.inl rfl))) (hb.sub (subterms_app (.inl rfl))) (hc.sub (subterms_app (.inl rfl))) hf hf')
          (forall₂_trans_mem hs hs' fun x hx y hy z hz hr hr' => ?_)
        have := size_le_sizeL hx
        exact Reord.transAux n (by omega) (ha.sub (subterms_app (.inr hx))) (hb.sub (subterms_app (.inr hy))) (hc.sub (subterms_app (.inr hz))) hr hr'
      | lit h' => exact (hlit hb hc h').elim
    | op hs =>
      cases h' with
      | op hs' =>
        simp only [Term.size] at hn
        refine .op (forall₂_trans_mem hs hs' fun x hx y hy z hz hr hr' => ?_)
        have := size_le_sizeL hx
        exact Reord.transAux n (by omega) (ha.sub (subterms_op hx)) (hb.sub (subterms_op hy)) (hc.sub (subterms_op hz)) hr hr'
      | swap h1 h2 =>
        obtain ⟨x, y, rfl, h3, h4⟩ := forall₂_two_right hs
        simp only [Term.size, Term.sizeL] at hn
        exact .swap (Reord.transAux n (by omega) (ha.sub (subterms_op (by simp))) (hb.sub (subterms_op (by simp))) (hc.sub (subterms_op (by simp))) h3 h1)
          (Reord.transAux n (by omega) (ha.sub (subterms_op (by simp))) (hb.sub (subterms_op (by simp))) (hc.sub (subterms_op (by simp))) h4 h2)
      | lit h' => exact (hlit hb hc h').elim
    | swap h1 h2 =>
      simp only [Term.size, Term.sizeL] at hn
      cases h' with
      | op hs' =>
        obtain ⟨x, y, rfl, h3, h4⟩ := forall₂_two hs'
        exact .swap (Reord.transAux n (by omega) (ha.sub (subterms_op (by simp))) (hb.sub (subterms_op (by simp))) (hc.sub (subterms_op (by simp))) h1 h4)
          (Reord.transAux n (by omega) (ha.sub (subterms_op (by simp))) (hb.sub (subterms_op (by simp))) (hc.sub (subterms_op (by simp))) h2 h3)
      | swap h3 h4 =>
        exact .op (.cons (Reord.transAux n (by omega) (ha.sub (subterms_op (by simp))) (hb.sub (subterms_op (by simp))) (hc.sub (subterms_op (by simp))) h1 h4)
          (.cons (Reord.transAux n (by omega) (ha.sub (subterms_op (by simp))) (hb.sub (subterms_op (by simp))) (hc.sub (subterms_op (by simp))) h2 h3) .nil))
      | lit h' => exact (hlit hb hc h').elim
    | binder h =>
      cases h' with
      | binder h' =>
        simp only [Term.size] at hn
        exact .binder (Reord.transAux n (by omega) (ha.sub subterms_binder) (hb.sub subterms_binder) (hc.sub subterms_binder) h h')
      | lit h' => exact (hlit hb hc h').elim
    | let_ he hs h =>
      cases h' with
      | let_ he' hs' h' =>
        simp only [Term.size] at hn
        refine .let_ (he.trans he') (forall₂_trans_mem hs hs' fun x hx y hy z hz hr hr' => ?_)
          (Reord.transAux n (by omega) (ha.sub (subterms_let (.inl rfl))) (hb.sub (subterms_let (.inl rfl))) (hc.sub (subterms_let (.inl rfl))) h h')
        have := size_let_value hx
        exact Reord.transAux n (by omega) (ha.sub (subterms_let_value hx)) (hb.sub (subterms_let_value hy)) (hc.sub (subterms_let_value hz)) hr hr'
      | lit h' => exact (hlit hb hc h').elim
    | paramOp hs =>
      cases h' with
      | paramOp hs' =>
        simp only [Term.size] at hn
        refine .paramOp (forall₂_trans_mem hs hs' fun x hx y hy z hz hr hr' => ?_)
        have := size_le_sizeL hx
        exact Reord.transAux n (by omega) (ha.sub (subterms_paramOp hx)) (hb.sub (subterms_paramOp hy)) (hc.sub (subterms_paramOp hz)) hr hr'
      | lit h' => exact (hlit hb hc h').elim
    | lit h => exact (hlit ha hb h).elim

theorem Reord.trans_of {a b c : Term} (ha : unamb a) (hb : unamb b) (hc : unamb c) (h : Reord a b) (h' : Reord b c) : Reord a c :=
  Reord.transAux _ (Nat.le_refl _) ha hb hc h h'

end Carcara
