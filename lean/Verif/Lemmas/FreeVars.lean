import Verif.Lemmas.Polyeq
import Verif.Spec.FreeVars

/-! # The value of a term depends only on its free variables -/

namespace Carcara
open Classical Val

variable {I : Interp}

theorem Env.setMany_of_not_mem {U : Type} {x : String} {s : Srt} : ∀ {bs : List (String × Srt)} {vs : List (Val U)}
    {ρ : Env U}, (x, s) ∉ bs → ρ.setMany bs vs x s = ρ x s
  | [], _, _, _ => rfl
  | _ :: _, [], _, _ => rfl
  | (y, r) :: bs, v :: vs, ρ, h => by
    simp only [List.mem_cons, Prod.mk.injEq, not_or, not_and] at h
    rw [Env.setMany, setMany_of_not_mem h.2]
    unfold Env.set
    split
    · next e => exact absurd e.2 (h.1 e.1)
    · rfl

/-- A variable of the list gets a value from the tuple, whatever it was before. -/
theorem Env.setMany_congr {U : Type} {x : String} {s : Srt} : ∀ {bs : List (String × Srt)} {vs : List (Val U)}
    {ρ ρ' : Env U}, bs.length = vs.length → ((x, s) ∉ bs → ρ x s = ρ' x s) →
    ρ.setMany bs vs x s = ρ'.setMany bs vs x s
  | [], [], _, _, _, h => h (by simp)
  | (y, r) :: bs, v :: vs, ρ, ρ', hl, h => by
    simp only [Env.setMany]
    refine setMany_congr (by simpa using hl) fun hm => ?_
    unfold Env.set
    split
    · rfl
    · next e =>
      refine h ?_
      simp only [List.mem_cons, Prod.mk.injEq, not_or]
      exact ⟨e, hm⟩

theorem Interp.letMany_congr {x : String} {s : Srt} : ∀ {bs : List (String × Val I.U)} {ρ ρ' : Env I.U},
    ((∀ b ∈ bs, b.1 = x → ¬ I.dom s b.2) → ρ x s = ρ' x s) → I.letMany ρ bs x s = I.letMany ρ' bs x s
  | [], _, _, h => h (by simp)
  | (y, v) :: bs, ρ, ρ', h => by
    simp only [Interp.letMany]
    refine letMany_congr fun hm => ?_
    unfold Interp.letSet
    split
    · rfl
    · next e =>
      refine h ?_
      rintro b hb hx hd
      rcases List.mem_cons.1 hb with rfl | hb
      · exact e ⟨hx.symm, hd⟩
      · exact hm b hb hx hd

/-- Binders depend on the body only through the environments they use. -/
theorem evalBinder_congr_env {b : Binder} {bs : List (String × Srt)} {f g : Env I.U → Val I.U} {ρ ρ' : Env I.U}
    (h : ∀ vs, I.Tuple bs vs → f (ρ.setMany bs vs) = g (ρ'.setMany bs vs))
    (h1 : ∀ x s bs' v, b = .choice → bs = (x, s) :: bs' → I.dom s v → f (ρ.set x s v) = g (ρ'.set x s v)) :
    evalBinder I b bs f ρ = evalBinder I b bs g ρ' := by
  cases b with
  | all =>
    simp only [evalBinder]; congr 1; apply propext
    exact forall_congr' fun vs => forall_congr' fun hv => by rw [h _ hv]
  | ex =>
    simp only [evalBinder]; congr 1; apply propext
    exact exists_congr fun vs => and_congr_right fun hv => by rw [h _ hv]
  | choice =>
    simp only [evalBinder]
    split
    · next x s bs' =>
      congr 1; funext v; apply propext
      exact and_congr_right fun hv => by rw [h1 x s bs' v rfl rfl hv]
    · rfl
  | lambda =>
    simp only [evalBinder]
    congr 1; funext vs
    split
    · next hv => rw [h _ hv]
    · rfl

/-- Two environments agree on a list of variables. -/
def Agree {U : Type} (vs : List (String × Srt)) (ρ ρ' : Env U) : Prop := ∀ v ∈ vs, ρ v.1 v.2 = ρ' v.1 v.2

mutual
/-- Every `choice` binds exactly one variable. -/
def Term.choiceOK : Term → Bool
  | .const _ => true
  | .var _ _ => true
  | .app f as => f.choiceOK && Term.choiceOKL as
  | .op _ as => Term.choiceOKL as
  | .binder b bs t => (decide (b ≠ .choice) || decide (bs.length = 1)) && t.choiceOK
  | .let_ bs t => Term.choiceOKB bs && t.choiceOK
  | .paramOp _ ps as => Term.choiceOKL ps && Term.choiceOKL as
/-- The same for lists. -/
def Term.choiceOKL : List Term → Bool
  | [] => true
  | t :: ts => t.choiceOK && Term.choiceOKL ts
/-- The same for `let` bindings. -/
def Term.choiceOKB : List (String × Term) → Bool
  | [] => true
  | (_, t) :: bs => t.choiceOK && Term.choiceOKB bs
end

theorem Term.choiceOKL_iff {ts : List Term} : Term.choiceOKL ts = true ↔ ∀ t ∈ ts, t.choiceOK = true := by
  induction ts with
  | nil => simp [Term.choiceOKL]
  | cons t ts ih => simp [Term.choiceOKL, ih]

theorem Term.choiceOKB_iff {bs : List (String × Term)} :
    Term.choiceOKB bs = true ↔ ∀ b ∈ bs, b.2.choiceOK = true := by
  induction bs with
  | nil => simp [Term.choiceOKB]
  | cons b bs ih => obtain ⟨x, t⟩ := b; simp [Term.choiceOKB, ih]

theorem evalBinder_congr_env' {b : Binder} {bs : List (String × Srt)} {f g : Env I.U → Val I.U} {ρ ρ' : Env I.U}
    (hb : b = .choice → bs.length = 1)
    (h : ∀ vs, I.Tuple bs vs → f (ρ.setMany bs vs) = g (ρ'.setMany bs vs)) :
    evalBinder I b bs f ρ = evalBinder I b bs g ρ' := by
  refine evalBinder_congr_env h ?_
  rintro x s bs' v rfl rfl hv
  have hb := hb rfl
  match bs', hb with
  | [], _ => exact h [v] (.cons hv .nil)

/-- The value of a term depends only on its free variables. -/
theorem eval_congr_fv (t : Term) : ∀ {ρ ρ' : Env I.U}, t.choiceOK = true → (t.noLet = true ∨ I.EnvOK ρ) →
    Agree t.fv ρ ρ' → eval I t ρ = eval I t ρ' := by
  induction t using Term.ind with
  | const c => intros; rfl
  | var x s => intro ρ ρ' _ _ h; exact h (x, s) (by simp [Term.fv])
  | app f as ihf ih =>
    intro ρ ρ' hc hl h
    simp only [Term.choiceOK, Bool.and_eq_true, Term.choiceOKL_iff] at hc
    simp only [eval, evalL_eq_map]
    rw [ihf hc.1 (hl.imp_left (by simp only [Term.noLet, Bool.and_eq_true]; exact And.left))
      (fun v hv => h v (by simp [Term.fv, hv]))]
    congr 1
    refine List.map_congr_left fun a ha => ih a ha (hc.2 a ha) (hl.imp_left ?_) fun v hv => h v ?_
    · simp only [Term.noLet, Bool.and_eq_true, Term.noLetL_iff]; exact fun h => h.2 a ha
    · simp only [Term.fv, List.mem_append, Term.mem_fvL]; exact Or.inr ⟨a, ha, hv⟩
  | op o as ih =>
    intro ρ ρ' hc hl h
    simp only [Term.choiceOK, Term.choiceOKL_iff] at hc
    simp only [eval, evalL_eq_map]
    congr 1
    refine List.map_congr_left fun a ha => ih a ha (hc a ha) (hl.imp_left ?_) fun v hv => h v ?_
    · simp only [Term.noLet, Term.noLetL_iff]; exact fun h => h a ha
    · simp only [Term.fv, Term.mem_fvL]; exact ⟨a, ha, hv⟩
  | binder b bs t ih =>
    intro ρ ρ' hc hl h
    simp only [Term.choiceOK, Bool.and_eq_true, Bool.or_eq_true, decide_eq_true_eq] at hc
    simp only [eval]
    refine evalBinder_congr_env' (fun e => hc.1.resolve_left (fun h => h e)) fun vs hv => ?_
    refine ih hc.2 (hl.imp (by simp only [Term.noLet]; exact id) fun hρ => hρ.setMany hv) ?_
    rintro ⟨x, s⟩ hx
    refine Env.setMany_congr (List.Forall₂.length_eq hv) fun hm => ?_
    exact h (x, s) (Term.mem_fv_binder.2 ⟨hx, hm⟩)
  | let_ bs t ihb ih =>
    intro ρ ρ' hc hl h
    simp only [Term.choiceOK, Bool.and_eq_true, Term.choiceOKB_iff] at hc
    have hρ : I.EnvOK ρ := by
      rcases hl with hl | hl
      · simp [Term.noLet] at hl
      · exact hl
    simp only [eval, evalB_eq_map]
    have e : bs.map (fun b => (b.1, eval I b.2 ρ)) = bs.map (fun b => (b.1, eval I b.2 ρ')) := by
      refine List.map_congr_left fun b hb => ?_
      rw [ihb b hb (hc.1 b hb) (.inr hρ) fun v hv => h v ?_]
      simp only [Term.fv, List.mem_append, Term.mem_fvB]
      exact Or.inl ⟨b, hb, hv⟩
    rw [← e]
    refine ih hc.2 (.inr hρ.letMany) ?_
    rintro ⟨x, s⟩ hx
    refine Interp.letMany_congr fun hm => ?_
    refine h (x, s) ?_
    simp only [Term.fv, List.mem_append, List.mem_filter]
    refine Or.inr ⟨hx, ?_⟩
    simp only [Bool.not_eq_true', List.any_eq_false, decide_eq_true_eq]
    rintro b hb ⟨hbx, hbs⟩
    exact hm (b.1, eval I b.2 ρ) (List.mem_map.2 ⟨b, hb, rfl⟩) hbx (eval_dom _ hbs hρ)
  | paramOp o ps as ihp ih =>
    intro ρ ρ' hc hl h
    simp only [Term.choiceOK, Bool.and_eq_true, Term.choiceOKL_iff] at hc
    simp only [eval, evalL_eq_map]
    congr 1
    · refine List.map_congr_left fun a ha => ihp a ha (hc.1 a ha) (hl.imp_left ?_) fun v hv => h v ?_
      · simp only [Term.noLet, Bool.and_eq_true, Term.noLetL_iff]; exact fun h => h.1 a ha
      · simp only [Term.fv, List.mem_append, Term.mem_fvL]; exact Or.inl ⟨a, ha, hv⟩
    · refine List.map_congr_left fun a ha => ih a ha (hc.2 a ha) (hl.imp_left ?_) fun v hv => h v ?_
      · simp only [Term.noLet, Bool.and_eq_true, Term.noLetL_iff]; exact fun h => h.2 a ha
      · simp only [Term.fv, List.mem_append, Term.mem_fvL]; exact Or.inr ⟨a, ha, hv⟩

end Carcara
