import Verif.Lemmas.Rare

/-!
# Rewriting does not change the meaning of spliced terms
-/

namespace Carcara

theorem Term.filledL_iff {ts : List Term} : Term.filledL ts = true ↔ ∀ t ∈ ts, t.filled = true := by
  induction ts with
  | nil => simp [Term.filledL]
  | cons t ts ih => simp [Term.filledL, ih]

theorem Term.listFreeL_iff {ts : List Term} : Term.listFreeL ts = true ↔ ∀ t ∈ ts, t.listFree = true := by
  induction ts with
  | nil => simp [Term.listFreeL]
  | cons t ts ih => simp [Term.listFreeL, ih]

/-- The term is a list. -/
def Term.isList : Term → Bool
  | .op .rareList _ => true
  | _ => false

theorem Term.isList_iff {t : Term} : t.isList = true ↔ ∃ ts, t = .op .rareList ts := by
  constructor
  · intro h
    unfold Term.isList at h
    split at h
    · exact ⟨_, rfl⟩
    · cases h
  · rintro ⟨ts, rfl⟩; rfl

theorem Term.spliceL_list (bs as : List Term) :
    Term.spliceL (.op .rareList bs :: as) = Term.spliceL bs ++ Term.spliceL as := by rw [Term.spliceL]

theorem Term.spliceL_term {a : Term} (h : a.isList = false) (as : List Term) :
    Term.spliceL (a :: as) = a.splice :: Term.spliceL as := by
  rw [Term.spliceL]
  rintro bs rfl
  cases h

theorem Term.spliceL_append {as bs : List Term} : Term.spliceL (as ++ bs) = Term.spliceL as ++ Term.spliceL bs := by
  induction as with
  | nil => simp [Term.spliceL]
  | cons a as ih =>
    rw [List.cons_append]
    cases h : a.isList with
    | true =>
      obtain ⟨cs, rfl⟩ := Term.isList_iff.1 h
      rw [Term.spliceL_list, Term.spliceL_list, ih, List.append_assoc]
    | false => rw [Term.spliceL_term h, Term.spliceL_term h, ih, List.cons_append]

theorem metaStep_notList {t : Term} (h : metaStep t = none) : t.isList = false := by
  cases hl : t.isList with
  | false => rfl
  | true =>
    obtain ⟨_, rfl⟩ := Term.isList_iff.1 hl
    cases h

/-- Rewriting does not make lists. -/
theorem rewriteGo_notList : ∀ {n : Nat} {t u : Term}, rewriteGo n t = .ok u → t.isList = false → u.isList = false
  | 0, _, _, h, _ => by cases h
  | n + 1, .var _ _, _, h, _ => by cases h; rfl
  | n + 1, .const _, _, h, _ => by cases h; rfl
  | n + 1, .app f as, u, h, _ => by
    obtain ⟨f', as', h1, h2, h3⟩ := rewriteGo_app h
    rcases h3 with ⟨he, rfl⟩ | ⟨he, h3⟩
    · rfl
    · exact rewriteGo_notList h3 rfl
  | n + 1, .op o as, u, h, hl => by
    have ho : ∀ as', (Term.op o as').isList = false := by
      intro as'
      cases o <;> first | rfl | cases hl
    rcases rewriteGo_op h with ⟨k, hk, rfl⟩ | ⟨as', h2, h3⟩
    · rcases metaStep_some hk with ⟨_, _, e⟩ | ⟨o, e, ho, ht, hk⟩
      · cases e
      · cases hk
        rcases ho with ⟨_, rfl⟩ | ⟨_, rfl⟩ <;> rfl
    · rcases h3 with ⟨_, he, rfl⟩ | ⟨_, he, h3⟩ | ⟨hn, hs, h3⟩ | ⟨hn, hs, rfl⟩
      · exact ho _
      · exact rewriteGo_notList h3 (ho _)
      · exact rewriteGo_notList h3 (ho _)
      · exact ho _
  | n + 1, .binder b bs t, u, h, _ => by
    simp only [rewriteGo, rewriteNode, bind_ok, pure_ok] at h
    obtain ⟨t', h1, rfl⟩ := h
    rfl
  | n + 1, .let_ bs t, u, h, _ => by
    simp only [rewriteGo, rewriteNode, bind_ok, pure_ok] at h
    obtain ⟨t', h1, rfl⟩ := h
    rfl
  | n + 1, .paramOp o ps as, u, h, _ => by
    simp only [rewriteGo, rewriteNode, bind_ok, pure_ok] at h
    obtain ⟨ps', h1, as', h2, rfl⟩ := h
    rfl

/-- The first term has the values of the second and no empty conjunctions and disjunctions. -/
def RareSame (u t : Term) : Prop := u.filled = true ∧ ∀ (I : Interp) (ρ : Env I.U), eval I u ρ = eval I t ρ

theorem RareSame.refl {t : Term} (h : t.filled = true) : RareSame t t := ⟨h, fun _ _ => rfl⟩

theorem RareSame.trans {t u v : Term} (h : RareSame t u) (h' : RareSame u v) : RareSame t v :=
  ⟨h.1, fun I ρ => (h.2 I ρ).trans (h'.2 I ρ)⟩

theorem RareSame.refls {ts : List Term} (h : Term.filledL ts = true) : List.Forall₂ RareSame ts ts := by
  induction ts with
  | nil => exact .nil
  | cons t ts ih =>
    rw [Term.filledL, Bool.and_eq_true] at h
    exact .cons (.refl h.1) (ih h.2)

theorem RareSame.filledL {us ts : List Term} (h : List.Forall₂ RareSame us ts) : Term.filledL us = true := by
  induction h with
  | nil => rfl
  | cons h _ ih => rw [Term.filledL, h.1, ih]; rfl

theorem RareSame.evalL {us ts : List Term} (h : List.Forall₂ RareSame us ts) (I : Interp) (ρ : Env I.U) :
    Carcara.evalL I us ρ = Carcara.evalL I ts ρ := by
  induction h with
  | nil => rfl
  | cons h _ ih => rw [Carcara.evalL, Carcara.evalL, h.2, ih]

theorem RareSame.append {as bs cs ds : List Term} (h : List.Forall₂ RareSame as bs) (h' : List.Forall₂ RareSame cs ds) :
    List.Forall₂ RareSame (as ++ cs) (bs ++ ds) := by
  induction h with
  | nil => exact h'
  | cons h _ ih => exact .cons h ih

theorem RareSame.op {us ts : List Term} (h : List.Forall₂ RareSame us ts) {o : Op} (hf : (Term.op o ts).filled = true) :
    RareSame (.op o us) (.op o ts) := by
  refine ⟨?_, fun I ρ => by rw [eval, eval, RareSame.evalL h]⟩
  rw [Term.filled, Bool.and_eq_true, decide_eq_true_eq] at hf ⊢
  refine ⟨fun ho => ?_, RareSame.filledL h⟩
  rintro rfl
  cases h
  exact hf.1 ho rfl

theorem RareSame.app {f g : Term} {us ts : List Term} (hf : RareSame f g) (h : List.Forall₂ RareSame us ts) :
    RareSame (.app f us) (.app g ts) := by
  refine ⟨?_, fun I ρ => by rw [eval, eval, RareSame.evalL h, hf.2]⟩
  rw [Term.filled, hf.1, RareSame.filledL h]
  rfl

/-- The equations for `(or true)` and `(and false)`. -/
theorem RareSame.unit {o e : Op} (h : o = .or ∧ e = .tru ∨ o = .and ∧ e = .fls) : RareSame (.op e []) (.op o [.op e []]) := by
  rcases h with ⟨rfl, rfl⟩ | ⟨rfl, rfl⟩
  · refine ⟨by decide, fun I ρ => ?_⟩
    simp [eval, evalOp, stdOp, Val.prop, Val.T]
  · refine ⟨by decide, fun I ρ => ?_⟩
    simp [eval, evalOp, stdOp, Val.prop, Val.T]

theorem metaStep_same {t : Term} {k : MetaTrace} (h : metaStep t = some k) (hf : Term.filledL (Term.spliceL [t]) = true) :
    List.Forall₂ RareSame (Term.spliceL k.toList) (Term.spliceL [t]) := by
  rcases metaStep_some h with ⟨bs, rfl, rfl⟩ | ⟨o, e, ho, ht, rfl⟩
  · rw [Term.spliceL_list] at hf ⊢
    rw [show Term.spliceL [] = [] from rfl, List.append_nil] at hf ⊢
    exact RareSame.refls hf
  · have ho' : ∀ ts, (Term.op o ts).isList = false := by rcases ho with ⟨rfl, rfl⟩ | ⟨rfl, rfl⟩ <;> intros <;> rfl
    have he : (Term.op e []).isList = false := by rcases ho with ⟨rfl, rfl⟩ | ⟨rfl, rfl⟩ <;> rfl
    rcases ht with rfl | rfl
    · rw [Term.spliceL_term (ho' _)] at hf
      rcases ho with ⟨rfl, rfl⟩ | ⟨rfl, rfl⟩ <;> cases hf
    · rw [MetaTrace.toList, Term.spliceL_term he, Term.spliceL_term (ho' _), Term.splice, Term.splice, Term.spliceL_term he,
        Term.splice]
      exact .cons (RareSame.unit ho) .nil

theorem rewriteArgs_same {f : Term → Res Term} {ts vs : List Term}
    (hf : ∀ t ∈ ts, ∀ u, f t = .ok u → t.splice.filled = true → RareSame u.splice t.splice)
    (hl : ∀ t ∈ ts, ∀ u, f t = .ok u → t.isList = false → u.isList = false)
    (h : rewriteArgs f ts = .ok vs) (hfill : Term.filledL (Term.spliceL ts) = true) :
    List.Forall₂ RareSame (Term.spliceL vs) (Term.spliceL ts) := by
  induction ts generalizing vs with
  | nil => cases h; exact .nil
  | cons t ts ih =>
    obtain ⟨us, ws, rfl, h2, h1⟩ := rewriteArgs_cons h
    rw [show t :: ts = [t] ++ ts from rfl, Term.spliceL_append] at hfill ⊢
    have hsplit : Term.filledL (Term.spliceL [t]) = true ∧ Term.filledL (Term.spliceL ts) = true := by
      rw [Term.filledL_iff] at hfill
      exact ⟨Term.filledL_iff.2 fun u hu => hfill u (List.mem_append_left _ hu),
        Term.filledL_iff.2 fun u hu => hfill u (List.mem_append_right _ hu)⟩
    rw [Term.spliceL_append]
    refine RareSame.append ?_ (ih (fun t ht => hf t (List.mem_cons_of_mem _ ht)) (fun t ht => hl t (List.mem_cons_of_mem _ ht))
      h2 hsplit.2)
    rcases h1 with ⟨k, hk, rfl⟩ | ⟨hk, u, hu, rfl⟩
    · exact metaStep_same hk hsplit.1
    · have hnl := metaStep_notList hk
      have h1 := hsplit.1
      rw [Term.spliceL_term hnl, Term.filledL, Bool.and_eq_true] at h1
      rw [Term.spliceL_term hnl, Term.spliceL_term (hl t (List.mem_cons_self ..) u hu hnl)]
      exact .cons (hf t (List.mem_cons_self ..) u hu h1.1) .nil

theorem rewriteEach_same {f : Term → Res Term} {ts vs : List Term}
    (hf : ∀ t ∈ ts, ∀ u, f t = .ok u → t.splice.filled = true → RareSame u.splice t.splice)
    (h : rewriteEach f ts = .ok vs) (hfill : Term.filledL (Term.spliceEach ts) = true) :
    List.Forall₂ RareSame (Term.spliceEach vs) (Term.spliceEach ts) := by
  induction ts generalizing vs with
  | nil => cases h; exact .nil
  | cons t ts ih =>
    simp only [rewriteEach, bind_ok, pure_ok] at h
    obtain ⟨u, hu, us, h2, rfl⟩ := h
    rw [Term.spliceEach, Term.filledL, Bool.and_eq_true] at hfill
    exact .cons (hf t (List.mem_cons_self ..) u hu hfill.1)
      (ih (fun t ht => hf t (List.mem_cons_of_mem _ ht)) h2 hfill.2)

theorem rewriteGo_same : ∀ {n : Nat} {t u : Term}, rewriteGo n t = .ok u → t.splice.filled = true →
    RareSame u.splice t.splice
  | 0, _, _, h, _ => by cases h
  | n + 1, .var _ _, _, h, hf => by cases h; exact .refl hf
  | n + 1, .const _, _, h, hf => by cases h; exact .refl hf
  | n + 1, .app f as, u, h, hf => by
    obtain ⟨f', as', h1, h2, h3⟩ := rewriteGo_app h
    rw [Term.splice, Term.filled, Bool.and_eq_true] at hf
    have hs : RareSame (Term.app f' as').splice (Term.app f as).splice := by
      rw [Term.splice, Term.splice]
      exact .app (rewriteGo_same h1 hf.1)
        (rewriteArgs_same (fun t _ u => rewriteGo_same) (fun t _ u => rewriteGo_notList) h2 hf.2)
    rcases h3 with ⟨he, rfl⟩ | ⟨he, h3⟩
    · exact hs
    · exact (rewriteGo_same h3 hs.1).trans hs
  | n + 1, .op o as, u, h, hf => by
    rcases rewriteGo_op h with ⟨k, hk, rfl⟩ | ⟨as', h2, h3⟩
    · rcases metaStep_some hk with ⟨_, _, e⟩ | ⟨o, e, ho, ht, hk⟩
      · cases e
      · cases hk
        have he : (Term.op e []).isList = false := by rcases ho with ⟨rfl, rfl⟩ | ⟨rfl, rfl⟩ <;> rfl
        rcases ht with ht | ht
        · rw [ht] at hf
          rcases ho with ⟨rfl, rfl⟩ | ⟨rfl, rfl⟩ <;> cases hf
        · rw [ht, Term.splice, Term.splice, Term.spliceL_term he, Term.splice]
          exact .unit ho
    · have hs : RareSame (Term.op o as').splice (Term.op o as).splice := by
        rw [Term.splice] at hf
        rw [Term.splice, Term.splice]
        refine .op (rewriteArgs_same (fun t _ u => rewriteGo_same) (fun t _ u => rewriteGo_notList) h2 ?_) hf
        rw [Term.filled, Bool.and_eq_true] at hf
        exact hf.2
      rcases h3 with ⟨_, he, rfl⟩ | ⟨_, he, h3⟩ | ⟨hn, _, h3⟩ | ⟨hn, _, rfl⟩
      · exact hs
      · exact (rewriteGo_same h3 hs.1).trans hs
      · exact (rewriteGo_same h3 hs.1).trans hs
      · exact hs
  | n + 1, .binder b bs t, u, h, hf => by
    simp only [rewriteGo, rewriteNode, bind_ok, pure_ok] at h
    obtain ⟨t', h1, rfl⟩ := h
    rw [Term.splice, Term.filled] at hf
    have ih := rewriteGo_same h1 hf
    refine ⟨by rw [Term.splice, Term.filled]; exact ih.1, fun I ρ => ?_⟩
    rw [Term.splice, Term.splice, eval, eval, show eval I t'.splice = eval I t.splice from funext (ih.2 I)]
  | n + 1, .let_ bs t, u, h, hf => by
    simp only [rewriteGo, rewriteNode, bind_ok, pure_ok] at h
    obtain ⟨t', h1, rfl⟩ := h
    rw [Term.splice, Term.filled] at hf
    have ih := rewriteGo_same h1 hf
    refine ⟨by rw [Term.splice, Term.filled]; exact ih.1, fun I ρ => ?_⟩
    rw [Term.splice, Term.splice, eval, eval, ih.2]
  | n + 1, .paramOp o ps as, u, h, hf => by
    simp only [rewriteGo, rewriteNode, bind_ok, pure_ok] at h
    obtain ⟨ps', h1, as', h2, rfl⟩ := h
    rw [Term.splice, Term.filled, Bool.and_eq_true] at hf
    have i1 := rewriteEach_same (fun t _ u => rewriteGo_same) h1 hf.1
    have i2 := rewriteEach_same (fun t _ u => rewriteGo_same) h2 hf.2
    refine ⟨?_, fun I ρ => ?_⟩
    · rw [Term.splice, Term.filled, RareSame.filledL i1, RareSame.filledL i2]; rfl
    · rw [Term.splice, Term.splice, eval, eval, RareSame.evalL i1, RareSame.evalL i2]

/-! ## Terms without lists -/

/-- Nothing is spliced in a term without lists. -/
theorem Term.splice_listFree (t : Term) : t.listFree = true → t.splice = t := by
  have list : ∀ {as : List Term}, (∀ a ∈ as, a.listFree = true → a.splice = a) → Term.listFreeL as = true →
      Term.spliceL as = as := by
    intro as
    induction as with
    | nil => intros; rfl
    | cons a as ih =>
      intro h hl
      rw [Term.listFreeL, Bool.and_eq_true] at hl
      have hn : a.isList = false := by
        cases hi : a.isList with
        | false => rfl
        | true =>
          obtain ⟨bs, rfl⟩ := Term.isList_iff.1 hi
          have := hl.1
          rw [Term.listFree] at this
          simp at this
      rw [Term.spliceL_term hn, h a (List.mem_cons_self ..) hl.1, ih (fun a ha => h a (List.mem_cons_of_mem _ ha)) hl.2]
  have each : ∀ {as : List Term}, (∀ a ∈ as, a.listFree = true → a.splice = a) → Term.listFreeL as = true →
      Term.spliceEach as = as := by
    intro as
    induction as with
    | nil => intros; rfl
    | cons a as ih =>
      intro h hl
      rw [Term.listFreeL, Bool.and_eq_true] at hl
      rw [Term.spliceEach, h a (List.mem_cons_self ..) hl.1, ih (fun a ha => h a (List.mem_cons_of_mem _ ha)) hl.2]
  induction t using Term.ind with
  | const c => intro _; rfl
  | var x s => intro _; rfl
  | app f as ihf ih =>
    intro h
    rw [Term.listFree, Bool.and_eq_true] at h
    rw [Term.splice, ihf h.1, list ih h.2]
  | op o as ih =>
    intro h
    rw [Term.listFree, Bool.and_eq_true] at h
    rw [Term.splice, list ih h.2]
  | binder b bs t ih =>
    intro h
    rw [Term.listFree] at h
    rw [Term.splice, ih h]
  | let_ bs t _ ih =>
    intro h
    rw [Term.listFree] at h
    rw [Term.splice, ih h]
  | paramOp o ps as ihp ih =>
    intro h
    rw [Term.listFree, Bool.and_eq_true] at h
    rw [Term.splice, each ihp h.1, each ih h.2]

end Carcara
