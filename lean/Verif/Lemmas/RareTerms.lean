import Verif.Lemmas.RareCheck
import Verif.Lemmas.Sorts
import Verif.Lemmas.Subterms

/-!
# Instances of rules without lists
-/

namespace Carcara

/-! ## Rewriting terms without lists -/

theorem rewriteArgs_mem {f : Term → Res Term} {P : Term → Prop} {ts vs : List Term} (h : rewriteArgs f ts = .ok vs)
    (hf : ∀ t ∈ ts, metaStep t = none → ∀ u, f t = .ok u → P u)
    (hs : ∀ t ∈ ts, ∀ k, metaStep t = some k → ∀ u ∈ k.toList, P u) : ∀ v ∈ vs, P v := by
  induction ts generalizing vs with
  | nil => cases h; intro v hv; cases hv
  | cons t ts ih =>
    obtain ⟨us, ws, rfl, h2, h1⟩ := rewriteArgs_cons h
    intro v hv
    rcases List.mem_append.1 hv with hv | hv
    · rcases h1 with ⟨k, hk, rfl⟩ | ⟨hk, u, hu, rfl⟩
      · exact hs t (List.mem_cons_self ..) k hk v hv
      · rw [List.mem_singleton.1 hv]
        exact hf t (List.mem_cons_self ..) hk u hu
    · exact ih h2 (fun t ht => hf t (List.mem_cons_of_mem _ ht)) (fun t ht => hs t (List.mem_cons_of_mem _ ht)) v hv

theorem rewriteEach_mem {f : Term → Res Term} {P : Term → Prop} {ts vs : List Term} (h : rewriteEach f ts = .ok vs)
    (hf : ∀ t ∈ ts, ∀ u, f t = .ok u → P u) : ∀ v ∈ vs, P v := by
  induction ts generalizing vs with
  | nil => cases h; intro v hv; cases hv
  | cons t ts ih =>
    simp only [rewriteEach, bind_ok, pure_ok] at h
    obtain ⟨u, hu, us, h2, rfl⟩ := h
    exact List.forall_mem_cons.2 ⟨hf t (List.mem_cons_self ..) u hu, ih h2 fun t ht => hf t (List.mem_cons_of_mem _ ht)⟩

theorem metaStep_listFree {t : Term} {k : MetaTrace} (h : metaStep t = some k) (hl : t.listFree = true) :
    ∃ e : Op, (e = .tru ∨ e = .fls) ∧ k = .one (.op e []) := by
  rcases metaStep_some h with ⟨ts, rfl, _⟩ | ⟨o, e, ho, _, rfl⟩
  · simp [Term.listFree] at hl
  · exact ⟨e, by rcases ho with ⟨_, rfl⟩ | ⟨_, rfl⟩ <;> simp, rfl⟩

theorem rewriteGo_listFree : ∀ {n : Nat} {t u : Term}, rewriteGo n t = .ok u → t.listFree = true → u.listFree = true
  | 0, _, _, h, _ => by cases h
  | n + 1, .var _ _, _, h, hl => by cases h; exact hl
  | n + 1, .const _, _, h, hl => by cases h; exact hl
  | n + 1, .app f as, u, h, hl => by
    obtain ⟨f', as', h1, h2, h3⟩ := rewriteGo_app h
    rw [Term.listFree, Bool.and_eq_true, Term.listFreeL_iff] at hl
    have hs : (Term.app f' as').listFree = true := by
      rw [Term.listFree, Bool.and_eq_true, Term.listFreeL_iff]
      refine ⟨rewriteGo_listFree h1 hl.1, rewriteArgs_mem h2 (fun t ht _ u hu => rewriteGo_listFree hu (hl.2 t ht)) ?_⟩
      intro t ht k hk u hu
      obtain ⟨e, he, rfl⟩ := metaStep_listFree hk (hl.2 t ht)
      rw [MetaTrace.toList, List.mem_singleton] at hu
      rw [hu]
      rcases he with rfl | rfl <;> rfl
    rcases h3 with ⟨_, rfl⟩ | ⟨_, h3⟩
    · exact hs
    · exact rewriteGo_listFree h3 hs
  | n + 1, .op o as, u, h, hl => by
    rcases rewriteGo_op h with ⟨k, hk, rfl⟩ | ⟨as', h2, h3⟩
    · obtain ⟨e, he, h⟩ := metaStep_listFree hk hl
      cases h
      rcases he with rfl | rfl <;> rfl
    · rw [Term.listFree, Bool.and_eq_true, Term.listFreeL_iff] at hl
      have hs : (Term.op o as').listFree = true := by
        rw [Term.listFree, Bool.and_eq_true, Term.listFreeL_iff]
        refine ⟨hl.1, rewriteArgs_mem h2 (fun t ht _ u hu => rewriteGo_listFree hu (hl.2 t ht)) ?_⟩
        intro t ht k hk u hu
        obtain ⟨e, he, rfl⟩ := metaStep_listFree hk (hl.2 t ht)
        rw [MetaTrace.toList, List.mem_singleton] at hu
        rw [hu]
        rcases he with rfl | rfl <;> rfl
      rcases h3 with ⟨_, he, rfl⟩ | ⟨_, he, h3⟩ | ⟨hn, _, h3⟩ | ⟨hn, _, rfl⟩
      · exact hs
      · exact rewriteGo_listFree h3 hs
      · exact rewriteGo_listFree h3 hs
      · exact hs
  | n + 1, .binder b bs t, u, h, hl => by
    simp only [rewriteGo, rewriteNode, bind_ok, pure_ok] at h
    obtain ⟨t', h1, rfl⟩ := h
    rw [Term.listFree] at hl ⊢
    exact rewriteGo_listFree h1 hl
  | n + 1, .let_ bs t, u, h, hl => by
    simp only [rewriteGo, rewriteNode, bind_ok, pure_ok] at h
    obtain ⟨t', h1, rfl⟩ := h
    rw [Term.listFree] at hl ⊢
    exact rewriteGo_listFree h1 hl
  | n + 1, .paramOp o ps as, u, h, hl => by
    simp only [rewriteGo, rewriteNode, bind_ok, pure_ok] at h
    obtain ⟨ps', h1, as', h2, rfl⟩ := h
    rw [Term.listFree, Bool.and_eq_true, Term.listFreeL_iff, Term.listFreeL_iff] at hl ⊢
    exact ⟨rewriteEach_mem h1 fun t ht u hu => rewriteGo_listFree hu (hl.1 t ht),
      rewriteEach_mem h2 fun t ht u hu => rewriteGo_listFree hu (hl.2 t ht)⟩

/-! ## Terms to which no equation applies -/

theorem Term.settledL_iff {ts : List Term} : Term.settledL ts = true ↔ ∀ t ∈ ts, t.settled = true := by
  induction ts with
  | nil => simp [Term.settledL]
  | cons t ts ih => simp [Term.settledL, ih]

theorem metaStep_settled {t : Term} (h : t.settled = true) : metaStep t = none := by
  cases hk : metaStep t with
  | none => rfl
  | some k =>
    exfalso
    rcases metaStep_some hk with ⟨ts, rfl, _⟩ | ⟨o, e, ho, ht, rfl⟩
    · simp [Term.settled] at h
    · rcases ho with ⟨rfl, rfl⟩ | ⟨rfl, rfl⟩ <;> rcases ht with rfl | rfl <;> simp [Term.settled] at h

theorem rewriteArgs_settled {f : Term → Res Term} {ts : List Term} (hs : ∀ t ∈ ts, metaStep t = none)
    (hf : ∀ t ∈ ts, f t = .ok t) : rewriteArgs f ts = .ok ts := by
  induction ts with
  | nil => rfl
  | cons t ts ih =>
    simp only [rewriteArgs, checkRewrites_eq, hs t (List.mem_cons_self ..), hf t (List.mem_cons_self ..),
      ih (fun t h => hs t (List.mem_cons_of_mem _ h)) fun t h => hf t (List.mem_cons_of_mem _ h)]
    rfl

theorem rewriteEach_settled {f : Term → Res Term} {ts : List Term} (hf : ∀ t ∈ ts, f t = .ok t) : rewriteEach f ts = .ok ts := by
  induction ts with
  | nil => rfl
  | cons t ts ih =>
    simp only [rewriteEach, hf t (List.mem_cons_self ..), ih fun t h => hf t (List.mem_cons_of_mem _ h)]
    rfl

theorem rewriteGo_settled : ∀ (n : Nat) (t : Term), t.metaSize ≤ n → t.settled = true → rewriteGo n t = .ok t
  | 0, t, hn, _ => by
    cases t <;> simp [Term.metaSize] at hn
    have := hn.2
    split at this <;> omega
  | n + 1, .var _ _, _, _ => rfl
  | n + 1, .const _, _, _ => rfl
  | n + 1, .app f as, hn, hs => by
    rw [Term.settled, Bool.and_eq_true, Term.settledL_iff] at hs
    rw [Term.metaSize] at hn
    have hf := rewriteGo_settled n f (by omega) hs.1
    have has := rewriteArgs_settled (fun t ht => metaStep_settled (hs.2 t ht)) fun t ht =>
      rewriteGo_settled n t (by have := metaSize_mem ht; omega) (hs.2 t ht)
    simp only [rewriteGo, rewriteNode, hf, has, bind, Except.bind]
    exact if_pos trivial
  | n + 1, .op o as, hn, hs => by
    have hm := metaStep_settled hs
    rw [Term.settled, Bool.and_eq_true, Term.settledL_iff] at hs
    have hn : Term.metaSizeL as ≤ n := by
      rw [Term.metaSize] at hn
      split at hn <;> omega
    have has := rewriteArgs_settled (fun t ht => metaStep_settled (hs.2 t ht)) fun t ht =>
      rewriteGo_settled n t (by have := metaSize_mem ht; omega) (hs.2 t ht)
    simp only [rewriteGo, rewriteNode, has, checkRewrites_eq, hm, bind, Except.bind]
    rfl
  | n + 1, .binder b bs t, hn, hs => by
    rw [Term.metaSize] at hn
    simp only [rewriteGo, rewriteNode, rewriteGo_settled n t (by omega) hs]
    rfl
  | n + 1, .let_ bs t, hn, hs => by
    rw [Term.metaSize] at hn
    simp only [rewriteGo, rewriteNode, rewriteGo_settled n t (by omega) hs]
    rfl
  | n + 1, .paramOp o ps as, hn, hs => by
    rw [Term.settled, Bool.and_eq_true, Term.settledL_iff, Term.settledL_iff] at hs
    rw [Term.metaSize] at hn
    have h1 := rewriteEach_settled (f := rewriteGo n) fun t ht =>
      rewriteGo_settled n t (by have := metaSize_mem ht; omega) (hs.1 t ht)
    have h2 := rewriteEach_settled (f := rewriteGo n) fun t ht =>
      rewriteGo_settled n t (by have := metaSize_mem ht; omega) (hs.2 t ht)
    simp only [rewriteGo, rewriteNode, h1, h2]
    rfl

/-! ## Replacing parameters -/

theorem Term.put_listFree {f : String × Srt → Term} (hf : ∀ v, (f v).listFree = true) (t : Term) :
    t.listFree = true → (t.put f).listFree = true := by
  have list : ∀ as : List Term, (∀ a ∈ as, a.listFree = true → (a.put f).listFree = true) → Term.listFreeL as = true →
      Term.listFreeL (Term.putL f as) = true := by
    intro as ih h
    rw [Term.listFreeL_iff] at h ⊢
    rw [Term.putL_eq]
    intro u hu
    obtain ⟨a, ha, rfl⟩ := List.mem_map.1 hu
    exact ih a ha (h a ha)
  induction t using Term.ind with
  | const c => exact id
  | var x s => intro _; exact hf _
  | app g as ihg ih =>
    intro h
    rw [Term.listFree, Bool.and_eq_true] at h
    rw [Term.put, Term.listFree, ihg h.1, list as ih h.2]
    rfl
  | op o as ih =>
    intro h
    rw [Term.listFree, Bool.and_eq_true] at h
    rw [Term.put, Term.listFree, h.1, list as ih h.2]
    rfl
  | binder b bs t ih => exact id
  | let_ bs t _ ih => exact id
  | paramOp o ps as _ ih =>
    intro h
    rw [Term.listFree, Bool.and_eq_true] at h
    rw [Term.put, Term.listFree, h.1, list as ih h.2]
    rfl

theorem Term.put_filled {f : String × Srt → Term} (hf : ∀ v, (f v).filled = true) (t : Term) :
    t.filled = true → (t.put f).filled = true := by
  have list : ∀ as : List Term, (∀ a ∈ as, a.filled = true → (a.put f).filled = true) → Term.filledL as = true →
      Term.filledL (Term.putL f as) = true := by
    intro as ih h
    rw [Term.filledL_iff] at h ⊢
    rw [Term.putL_eq]
    intro u hu
    obtain ⟨a, ha, rfl⟩ := List.mem_map.1 hu
    exact ih a ha (h a ha)
  induction t using Term.ind with
  | const c => exact id
  | var x s => intro _; exact hf _
  | app g as ihg ih =>
    intro h
    rw [Term.filled, Bool.and_eq_true] at h
    rw [Term.put, Term.filled, ihg h.1, list as ih h.2]
    rfl
  | op o as ih =>
    intro h
    rw [Term.filled, Bool.and_eq_true, decide_eq_true_eq] at h
    rw [Term.put, Term.filled, list as ih h.2, Bool.and_true, decide_eq_true_eq, Term.putL_eq]
    intro ho e
    exact h.1 ho (List.map_eq_nil_iff.1 e)
  | binder b bs t ih => exact id
  | let_ bs t _ ih => exact id
  | paramOp o ps as _ ih =>
    intro h
    rw [Term.filled, Bool.and_eq_true] at h
    rw [Term.put, Term.filled, h.1, list as ih h.2]
    rfl

/-- The value of an instance is the value of the rule where the parameters have the values of the arguments. -/
theorem eval_put {I : Interp} {ρ : Env I.U} {f : String × Srt → Term} (t : Term) : t.plain = true → (sortOf t).isSome = true →
    eval I (t.put f) ρ = eval I t (fun x s => eval I (f (x, s)) ρ) := by
  have list : ∀ as : List Term, (∀ a ∈ as, a.plain = true → (sortOf a).isSome = true →
      eval I (a.put f) ρ = eval I a (fun x s => eval I (f (x, s)) ρ)) → Term.plainL as = true →
      (∀ a ∈ as, (sortOf a).isSome = true) →
      evalL I (Term.putL f as) ρ = evalL I as (fun x s => eval I (f (x, s)) ρ) := by
    intro as ih hp hs
    rw [Term.plainL_iff] at hp
    rw [Term.putL_eq, evalL_eq_map, evalL_eq_map, List.map_map]
    exact List.map_congr_left fun a ha => ih a ha (hp a ha) (hs a ha)
  induction t using Term.ind with
  | const c => intros; rfl
  | var x s => intros; rfl
  | app g as ihg ih =>
    intro hp hs
    rw [Term.plain, Bool.and_eq_true] at hp
    rw [Term.put, eval, eval, ihg hp.1 (sorted_app hs).1, list as ih hp.2 (sorted_app hs).2]
  | op o as ih =>
    intro hp hs
    rw [Term.plain] at hp
    rw [Term.put, eval, eval, list as ih hp fun a ha => sorted_op_mem hs ha]
  | binder b bs t ih => intro h; cases h
  | let_ bs t _ ih => intro h; cases h
  | paramOp o ps as _ ih =>
    intro hp hs
    rw [Term.plain] at hp
    rw [Term.put, eval, eval, list as ih hp (sorted_paramOp hs)]
    congr 1
    rw [evalL_eq_map, evalL_eq_map]
    refine List.map_congr_left fun p h => ?_
    obtain ⟨c, rfl⟩ := indices_const hs p h
    rfl

end Carcara
