import Verif.Spec.Rare
import Verif.Lemmas.Holds

/-!
# Rewriting instances of rules with list parameters
-/

namespace Carcara

/-- What the five equations say. -/
def metaStep : Term → Option MetaTrace
  | .op .rareList ts => some (.many ts)
  | .op .or [.op .tru []] => some (.one (.op .tru []))
  | .op .or [] => some (.one (.op .tru []))
  | .op .and [] => some (.one (.op .fls []))
  | .op .and [.op .fls []] => some (.one (.op .fls []))
  | _ => none

theorem checkRewrites_eq (t : Term) : checkRewrites t metaRules = .ok (metaStep t) := by
  have unop : ∀ (o o' : Op) (as : List Term), o = .or ∧ o' = .tru ∨ o = .and ∧ o' = .fls →
      checkRewrites (.op o as) metaRules = .ok (metaStep (.op o as)) := by
    rintro _ _ as (⟨rfl, rfl⟩ | ⟨rfl, rfl⟩)
    all_goals
      match as with
      | [] => rfl
      | [.op o bs] =>
        by_cases h : o = .tru
        · subst h
          cases bs <;> rfl
        · by_cases h' : o = .fls
          · subst h'
            cases bs <;> rfl
          · cases o <;> first | rfl | exact absurd rfl h | exact absurd rfl h'
      | [.const _] | [.var _ _] | [.app _ _] | [.binder _ _ _] | [.let_ _ _] | [.paramOp _ _ _] => rfl
      | _ :: _ :: _ => simp [checkRewrites, metaRules, matchMeta, metaStep]
  match t with
  | .op o as =>
    by_cases h1 : o = .or
    · exact unop _ .tru _ (.inl ⟨h1, rfl⟩)
    · by_cases h2 : o = .and
      · exact unop _ .fls _ (.inr ⟨h2, rfl⟩)
      · cases o <;> first | rfl | exact absurd rfl h1 | exact absurd rfl h2
  | .const _ | .var _ _ | .app _ _ | .binder _ _ _ | .let_ _ _ | .paramOp _ _ _ => rfl

/-- What takes the place of a term among arguments. -/
theorem metaStep_some {t : Term} {k : MetaTrace} (h : metaStep t = some k) :
    (∃ ts, t = .op .rareList ts ∧ k = .many ts) ∨
      ∃ o e : Op, (o = .or ∧ e = .tru ∨ o = .and ∧ e = .fls) ∧ (t = .op o [] ∨ t = .op o [.op e []]) ∧
        k = .one (.op e []) := by
  unfold metaStep at h
  split at h
  · cases h; exact .inl ⟨_, rfl, rfl⟩
  · cases h; exact .inr ⟨.or, .tru, .inl ⟨rfl, rfl⟩, .inr rfl, rfl⟩
  · cases h; exact .inr ⟨.or, .tru, .inl ⟨rfl, rfl⟩, .inl rfl, rfl⟩
  · cases h; exact .inr ⟨.and, .fls, .inr ⟨rfl, rfl⟩, .inl rfl, rfl⟩
  · cases h; exact .inr ⟨.and, .fls, .inr ⟨rfl, rfl⟩, .inr rfl, rfl⟩
  · cases h

theorem metaStep_none {o : Op} {ts : List Term} (h : metaStep (.op o ts) = none) : o ≠ .rareList := by
  rintro rfl
  cases h

/-- A form of `rewriteArgs` that is easier to reason about. -/
theorem rewriteArgs_cons {f : Term → Res Term} {t : Term} {ts vs : List Term} (h : rewriteArgs f (t :: ts) = .ok vs) :
    ∃ us ws, vs = us ++ ws ∧ rewriteArgs f ts = .ok ws ∧
      ((∃ k, metaStep t = some k ∧ us = k.toList) ∨ (metaStep t = none ∧ ∃ u, f t = .ok u ∧ us = [u])) := by
  simp only [rewriteArgs, bind_ok, checkRewrites_eq, ok_inj, pure_ok] at h
  obtain ⟨_, rfl, us, h1, ws, h2, rfl⟩ := h
  refine ⟨us, ws, rfl, h2, ?_⟩
  cases hk : metaStep t with
  | some k =>
    rw [hk] at h1
    cases h1
    exact .inl ⟨k, rfl, rfl⟩
  | none =>
    rw [hk] at h1
    cases hf : f t with
    | error e => rw [hf] at h1; cases h1
    | ok u =>
      rw [hf] at h1
      cases h1
      exact .inr ⟨rfl, u, rfl, rfl⟩

/-! ## Rewriting stops -/

/-- The first term is the second, or smaller. -/
def Shrinks (u t : Term) : Prop := u = t ∨ u.metaSize < t.metaSize

theorem Shrinks.le {u t : Term} (h : Shrinks u t) : u.metaSize ≤ t.metaSize := by
  rcases h with rfl | h <;> omega

theorem metaSize_op {o : Op} {e : Op} (h : o = .or ∧ e = .tru ∨ o = .and ∧ e = .fls) (ts : List Term) :
    (Term.op e []).metaSize < (Term.op o ts).metaSize := by
  rcases h with ⟨rfl, rfl⟩ | ⟨rfl, rfl⟩ <;> simp [Term.metaSize, Term.metaSizeL]

theorem metaSizeL_append {as bs : List Term} :
    Term.metaSizeL (as ++ bs) = Term.metaSizeL as + Term.metaSizeL bs := by
  induction as with
  | nil => simp [Term.metaSizeL]
  | cons a as ih => simp only [List.cons_append, Term.metaSizeL, ih]; omega

theorem metaSize_mem {t : Term} {ts : List Term} (h : t ∈ ts) : t.metaSize ≤ Term.metaSizeL ts := by
  induction ts with
  | nil => cases h
  | cons a as ih =>
    rw [Term.metaSizeL]
    rcases List.mem_cons.1 h with rfl | h
    · omega
    · have := ih h; omega

theorem rewriteArgs_shrinks {f : Term → Res Term} {ts vs : List Term} (hf : ∀ t ∈ ts, ∀ u, f t = .ok u → Shrinks u t)
    (h : rewriteArgs f ts = .ok vs) : vs = ts ∨ Term.metaSizeL vs < Term.metaSizeL ts := by
  induction ts generalizing vs with
  | nil => cases h; exact .inl rfl
  | cons t ts ih =>
    obtain ⟨us, ws, rfl, h2, h1⟩ := rewriteArgs_cons h
    have ih := ih (fun t ht => hf t (List.mem_cons_of_mem _ ht)) h2
    have hle : Term.metaSizeL ws ≤ Term.metaSizeL ts := by rcases ih with rfl | ih <;> omega
    rw [metaSizeL_append, Term.metaSizeL]
    rcases h1 with ⟨k, hk, rfl⟩ | ⟨_, u, hu, rfl⟩
    · right
      rcases metaStep_some hk with ⟨bs, rfl, rfl⟩ | ⟨o, e, ho, ht, rfl⟩
      · simp only [MetaTrace.toList, Term.metaSize, reduceCtorEq, or_self, if_false]
        omega
      · have : (Term.op e []).metaSize < t.metaSize := by rcases ht with rfl | rfl <;> exact metaSize_op ho _
        simp only [MetaTrace.toList, Term.metaSizeL]
        omega
    · simp only [Term.metaSizeL]
      rcases hf t (List.mem_cons_self ..) u hu with rfl | hs
      · rcases ih with rfl | ih
        · exact .inl rfl
        · right; omega
      · right; omega

theorem rewriteEach_shrinks {f : Term → Res Term} {ts vs : List Term} (hf : ∀ t ∈ ts, ∀ u, f t = .ok u → Shrinks u t)
    (h : rewriteEach f ts = .ok vs) : vs = ts ∨ Term.metaSizeL vs < Term.metaSizeL ts := by
  induction ts generalizing vs with
  | nil => cases h; exact .inl rfl
  | cons t ts ih =>
    simp only [rewriteEach, bind_ok, pure_ok] at h
    obtain ⟨u, hu, us, h2, rfl⟩ := h
    have ih := ih (fun t ht => hf t (List.mem_cons_of_mem _ ht)) h2
    have hle : Term.metaSizeL us ≤ Term.metaSizeL ts := by rcases ih with rfl | ih <;> omega
    simp only [Term.metaSizeL]
    rcases hf t (List.mem_cons_self ..) u hu with rfl | hs
    · rcases ih with rfl | ih
      · exact .inl rfl
      · right; omega
    · right; omega

/-- The cases of `rewriteGo`, for operators. -/
theorem rewriteGo_op {n : Nat} {o : Op} {as : List Term} {u : Term} (h : rewriteGo (n + 1) (.op o as) = .ok u) :
    (∃ k, metaStep (.op o as) = some (.one k) ∧ u = k) ∨
    ∃ as', rewriteArgs (rewriteGo n) as = .ok as' ∧
      ((o = .rareList ∧ (.op o as' : Term) = .op o as ∧ u = .op o as') ∨
       (o = .rareList ∧ (.op o as' : Term) ≠ .op o as ∧ rewriteGo n (.op o as') = .ok u) ∨
       (metaStep (.op o as) = none ∧ (metaStep (.op o as')).isSome = true ∧ rewriteGo n (.op o as') = .ok u) ∨
       (metaStep (.op o as) = none ∧ metaStep (.op o as') = none ∧ u = .op o as')) := by
  simp only [rewriteGo, rewriteNode, checkRewrites_eq] at h
  have h : (match metaStep (.op o as) with
      | some (.one u) => pure u
      | some (.many _) => do
        let as' ← rewriteArgs (rewriteGo n) as
        if .op o as' = Term.op o as then return .op o as' else rewriteGo n (.op o as')
      | none => do
        let as' ← rewriteArgs (rewriteGo n) as
        if (metaStep (.op o as')).isSome then rewriteGo n (.op o as') else return .op o as' : Res Term) = .ok u := h
  cases hk : metaStep (.op o as) with
  | none =>
    rw [hk] at h
    simp only [bind_ok] at h
    obtain ⟨as', h1, h2⟩ := h
    refine .inr ⟨as', h1, .inr (.inr ?_)⟩
    by_cases hs : (metaStep (.op o as')).isSome = true
    · rw [if_pos hs] at h2
      exact .inl ⟨rfl, hs, h2⟩
    · rw [if_neg hs] at h2
      cases h2
      exact .inr ⟨rfl, by simpa using hs, rfl⟩
  | some k =>
    rw [hk] at h
    cases k with
    | one k => cases h; exact .inl ⟨_, rfl, rfl⟩
    | many ts =>
      simp only [bind_ok] at h
      obtain ⟨as', h1, h2⟩ := h
      have ho : o = .rareList := by
        rcases metaStep_some hk with ⟨_, e, _⟩ | ⟨_, _, _, _, e⟩
        · cases e; rfl
        · cases e
      refine .inr ⟨as', h1, ?_⟩
      by_cases he : (.op o as' : Term) = .op o as
      · rw [if_pos he] at h2
        cases h2
        exact .inl ⟨ho, he, rfl⟩
      · rw [if_neg he] at h2
        exact .inr (.inl ⟨ho, he, h2⟩)

theorem rewriteGo_app {n : Nat} {f : Term} {as : List Term} {u : Term} (h : rewriteGo (n + 1) (.app f as) = .ok u) :
    ∃ f' as', rewriteGo n f = .ok f' ∧ rewriteArgs (rewriteGo n) as = .ok as' ∧
      ((.app f' as' : Term) = .app f as ∧ u = .app f' as' ∨
       (.app f' as' : Term) ≠ .app f as ∧ rewriteGo n (.app f' as') = .ok u) := by
  simp only [rewriteGo, rewriteNode, bind_ok] at h
  obtain ⟨f', h1, as', h2, h3⟩ := h
  refine ⟨f', as', h1, h2, ?_⟩
  by_cases he : (.app f' as' : Term) = .app f as
  · rw [if_pos he] at h3
    cases h3
    exact .inl ⟨he, rfl⟩
  · rw [if_neg he] at h3
    exact .inr ⟨he, h3⟩

theorem rewriteGo_shrinks : ∀ {n : Nat} {t u : Term}, rewriteGo n t = .ok u → Shrinks u t
  | 0, _, _, h => by cases h
  | n + 1, .var _ _, _, h => by cases h; exact .inl rfl
  | n + 1, .const _, _, h => by cases h; exact .inl rfl
  | n + 1, .app f as, u, h => by
    obtain ⟨f', as', h1, h2, h3⟩ := rewriteGo_app h
    rcases h3 with ⟨he, rfl⟩ | ⟨he, h3⟩
    · exact .inl he
    · have i1 := rewriteGo_shrinks h1
      have i2 := rewriteArgs_shrinks (fun t _ u => rewriteGo_shrinks) h2
      have i3 := (rewriteGo_shrinks h3).le
      right
      have : (Term.app f' as').metaSize < (Term.app f as).metaSize := by
        simp only [Term.metaSize]
        rcases i1 with rfl | i1
        · rcases i2 with rfl | i2
          · exact absurd rfl he
          · omega
        · rcases i2 with rfl | i2 <;> omega
      omega
  | n + 1, .op o as, u, h => by
    rcases rewriteGo_op h with ⟨k, hk, rfl⟩ | ⟨as', h2, h3⟩
    · right
      rcases metaStep_some hk with ⟨_, _, e⟩ | ⟨o, e, ho, ht, hk⟩
      · cases e
      · cases hk
        rcases ht with e | e <;> rw [e] <;> exact metaSize_op ho _
    · have i2 := rewriteArgs_shrinks (fun t _ u => rewriteGo_shrinks) h2
      have lt : (.op o as' : Term) ≠ .op o as → (Term.op o as').metaSize < (Term.op o as).metaSize := by
        intro he
        simp only [Term.metaSize]
        rcases i2 with rfl | i2
        · exact absurd rfl he
        · omega
      rcases h3 with ⟨_, he, rfl⟩ | ⟨_, he, h3⟩ | ⟨hn, hs, h3⟩ | ⟨hn, hs, rfl⟩
      · exact .inl he
      · right
        have := lt he
        have := (rewriteGo_shrinks h3).le
        omega
      · right
        have := lt (by intro e; rw [e, hn] at hs; cases hs)
        have := (rewriteGo_shrinks h3).le
        omega
      · by_cases he : (.op o as' : Term) = .op o as
        · exact .inl he
        · exact .inr (lt he)
  | n + 1, .binder b bs t, u, h => by
    simp only [rewriteGo, rewriteNode, bind_ok, pure_ok] at h
    obtain ⟨t', h1, rfl⟩ := h
    rcases rewriteGo_shrinks h1 with rfl | i1
    · exact .inl rfl
    · right; simp only [Term.metaSize]; omega
  | n + 1, .let_ bs t, u, h => by
    simp only [rewriteGo, rewriteNode, bind_ok, pure_ok] at h
    obtain ⟨t', h1, rfl⟩ := h
    rcases rewriteGo_shrinks h1 with rfl | i1
    · exact .inl rfl
    · right; simp only [Term.metaSize]; omega
  | n + 1, .paramOp o ps as, u, h => by
    simp only [rewriteGo, rewriteNode, bind_ok, pure_ok] at h
    obtain ⟨ps', h1, as', h2, rfl⟩ := h
    have i1 := rewriteEach_shrinks (fun t _ u => rewriteGo_shrinks) h1
    have i2 := rewriteEach_shrinks (fun t _ u => rewriteGo_shrinks) h2
    rcases i1 with rfl | i1
    · rcases i2 with rfl | i2
      · exact .inl rfl
      · right; simp only [Term.metaSize]; omega
    · right; simp only [Term.metaSize]
      rcases i2 with rfl | i2 <;> omega

theorem rewriteArgs_total {f : Term → Res Term} {ts : List Term} (hf : ∀ t ∈ ts, ∃ u, f t = .ok u) :
    ∃ vs, rewriteArgs f ts = .ok vs := by
  induction ts with
  | nil => exact ⟨_, rfl⟩
  | cons t ts ih =>
    obtain ⟨vs, hvs⟩ := ih fun t ht => hf t (List.mem_cons_of_mem _ ht)
    obtain ⟨u, hu⟩ := hf t (List.mem_cons_self ..)
    simp only [rewriteArgs, bind_ok, checkRewrites_eq, ok_inj, pure_ok]
    cases hk : metaStep t with
    | some k => exact ⟨_, _, rfl, _, rfl, _, hvs, rfl⟩
    | none =>
      refine ⟨_, _, rfl, [u], ?_, _, hvs, rfl⟩
      simp only [hu]
      rfl

theorem rewriteEach_total {f : Term → Res Term} {ts : List Term} (hf : ∀ t ∈ ts, ∃ u, f t = .ok u) :
    ∃ vs, rewriteEach f ts = .ok vs := by
  induction ts with
  | nil => exact ⟨_, rfl⟩
  | cons t ts ih =>
    obtain ⟨vs, hvs⟩ := ih fun t ht => hf t (List.mem_cons_of_mem _ ht)
    obtain ⟨u, hu⟩ := hf t (List.mem_cons_self ..)
    exact ⟨u :: vs, bind_ok.2 ⟨u, hu, bind_ok.2 ⟨vs, hvs, rfl⟩⟩⟩

/-- Operators: what happens, given the rewritten arguments. -/
theorem rewriteNode_op (f : Term → Res Term) (o : Op) (as as' : List Term) (h : rewriteArgs f as = .ok as') :
    rewriteNode f (.op o as) = match metaStep (.op o as) with
      | some (.one u) => .ok u
      | some (.many _) => if .op o as' = Term.op o as then .ok (.op o as') else f (.op o as')
      | none => if (metaStep (.op o as')).isSome then f (.op o as') else .ok (.op o as') := by
  simp only [rewriteNode, checkRewrites_eq, h]
  cases metaStep (.op o as) with
  | none => rfl
  | some k => cases k <;> rfl

theorem rewriteGo_total : ∀ (n : Nat) (t : Term), t.metaSize ≤ n → ∃ u, rewriteGo n t = .ok u := by
  intro n
  induction n with
  | zero =>
    intro t h
    exfalso
    cases t <;> simp only [Term.metaSize] at h <;> first | omega | (split at h <;> omega)
  | succ n ih =>
    intro t h
    have args : ∀ ts : List Term, Term.metaSizeL ts ≤ n → ∃ vs, rewriteArgs (rewriteGo n) ts = .ok vs := fun ts hs =>
      rewriteArgs_total fun t ht => ih t (Nat.le_trans (metaSize_mem ht) hs)
    have each : ∀ ts : List Term, Term.metaSizeL ts ≤ n → ∃ vs, rewriteEach (rewriteGo n) ts = .ok vs := fun ts hs =>
      rewriteEach_total fun t ht => ih t (Nat.le_trans (metaSize_mem ht) hs)
    cases t with
    | const c => exact ⟨_, rfl⟩
    | var x s => exact ⟨_, rfl⟩
    | app f as =>
      simp only [Term.metaSize] at h
      obtain ⟨f', h1⟩ := ih f (by omega)
      obtain ⟨as', h2⟩ := args as (by omega)
      by_cases he : (.app f' as' : Term) = .app f as
      · exact ⟨_, bind_ok.2 ⟨f', h1, bind_ok.2 ⟨as', h2, by rw [if_pos he]; rfl⟩⟩⟩
      · have i1 := rewriteGo_shrinks h1
        have i2 := rewriteArgs_shrinks (fun t _ u => rewriteGo_shrinks) h2
        obtain ⟨u, hu⟩ := ih (.app f' as') (by
          simp only [Term.metaSize]
          rcases i1 with rfl | i1
          · rcases i2 with rfl | i2
            · exact absurd rfl he
            · omega
          · rcases i2 with rfl | i2 <;> omega)
        exact ⟨u, bind_ok.2 ⟨f', h1, bind_ok.2 ⟨as', h2, by rw [if_neg he]; exact hu⟩⟩⟩
    | op o as =>
      have hs : Term.metaSizeL as ≤ n := by
        simp only [Term.metaSize] at h
        split at h <;> omega
      obtain ⟨as', h2⟩ := args as hs
      have i2 := rewriteArgs_shrinks (fun t _ u => rewriteGo_shrinks) h2
      have lt : (.op o as' : Term) ≠ .op o as → ∃ u, rewriteGo n (.op o as') = .ok u := by
        intro he
        apply ih
        simp only [Term.metaSize] at h ⊢
        rcases i2 with rfl | i2
        · exact absurd rfl he
        · omega
      rw [rewriteGo, rewriteNode_op _ _ _ _ h2]
      cases hk : metaStep (.op o as) with
      | none =>
        simp only
        split
        · next hs => exact lt (by intro e; rw [e, hk] at hs; cases hs)
        · exact ⟨_, rfl⟩
      | some k =>
        cases k with
        | one u => exact ⟨_, rfl⟩
        | many ts =>
          simp only
          split
          · exact ⟨_, rfl⟩
          · next he => exact lt he
    | binder b bs u =>
      simp only [Term.metaSize] at h
      obtain ⟨u', h1⟩ := ih u (by omega)
      exact ⟨_, bind_ok.2 ⟨u', h1, rfl⟩⟩
    | let_ bs u =>
      simp only [Term.metaSize] at h
      obtain ⟨u', h1⟩ := ih u (by omega)
      exact ⟨_, bind_ok.2 ⟨u', h1, rfl⟩⟩
    | paramOp o ps as =>
      simp only [Term.metaSize] at h
      obtain ⟨ps', h1⟩ := each ps (by omega)
      obtain ⟨as', h2⟩ := each as (by omega)
      exact ⟨_, bind_ok.2 ⟨ps', h1, bind_ok.2 ⟨as', h2, rfl⟩⟩⟩

/-! ## The number of steps does not matter -/

theorem rewriteArgs_mono {f g : Term → Res Term} (hfg : ∀ t u, f t = .ok u → g t = .ok u) {ts vs : List Term}
    (h : rewriteArgs f ts = .ok vs) : rewriteArgs g ts = .ok vs := by
  induction ts generalizing vs with
  | nil => exact h
  | cons t ts ih =>
    obtain ⟨us, ws, rfl, h2, h1⟩ := rewriteArgs_cons h
    simp only [rewriteArgs, bind_ok, checkRewrites_eq, ok_inj, pure_ok]
    rcases h1 with ⟨k, hk, rfl⟩ | ⟨hk, u, hu, rfl⟩
    · exact ⟨_, rfl, _, by rw [hk], _, ih h2, rfl⟩
    · refine ⟨_, rfl, [u], ?_, _, ih h2, rfl⟩
      rw [hk]
      simp only [hfg _ _ hu]
      rfl

theorem rewriteEach_mono {f g : Term → Res Term} (hfg : ∀ t u, f t = .ok u → g t = .ok u) {ts vs : List Term}
    (h : rewriteEach f ts = .ok vs) : rewriteEach g ts = .ok vs := by
  induction ts generalizing vs with
  | nil => exact h
  | cons t ts ih =>
    simp only [rewriteEach, bind_ok, pure_ok] at h ⊢
    obtain ⟨u, hu, us, h2, rfl⟩ := h
    exact ⟨u, hfg _ _ hu, us, ih h2, rfl⟩

theorem rewriteGo_succ : ∀ {n : Nat} {t u : Term}, rewriteGo n t = .ok u → rewriteGo (n + 1) t = .ok u
  | 0, _, _, h => by cases h
  | n + 1, .var _ _, _, h => h
  | n + 1, .const _, _, h => h
  | n + 1, .app f as, u, h => by
    obtain ⟨f', as', h1, h2, h3⟩ := rewriteGo_app h
    refine bind_ok.2 ⟨f', rewriteGo_succ h1, bind_ok.2 ⟨as', rewriteArgs_mono (fun _ _ => rewriteGo_succ) h2, ?_⟩⟩
    rcases h3 with ⟨he, rfl⟩ | ⟨he, h3⟩
    · rw [if_pos he]; rfl
    · rw [if_neg he]; exact rewriteGo_succ h3
  | n + 1, .op o as, u, h => by
    rcases rewriteGo_op h with ⟨k, hk, rfl⟩ | ⟨as', h2, h3⟩
    · simp only [rewriteGo, rewriteNode, checkRewrites_eq, hk]
      rfl
    · rw [rewriteGo, rewriteNode_op _ _ _ _ (rewriteArgs_mono (fun _ _ => rewriteGo_succ) h2)]
      rcases h3 with ⟨rfl, he, rfl⟩ | ⟨rfl, he, h3⟩ | ⟨hn, hs, h3⟩ | ⟨hn, hs, rfl⟩
      · simp only [metaStep, if_pos he]
      · simp only [metaStep, if_neg he]; exact rewriteGo_succ h3
      · simp only [hn, if_pos hs]; exact rewriteGo_succ h3
      · simp only [hn, hs]; rfl
  | n + 1, .binder b bs t, u, h => by
    simp only [rewriteGo, rewriteNode, bind_ok, pure_ok] at h
    obtain ⟨t', h1, rfl⟩ := h
    exact bind_ok.2 ⟨_, rewriteGo_succ h1, rfl⟩
  | n + 1, .let_ bs t, u, h => by
    simp only [rewriteGo, rewriteNode, bind_ok, pure_ok] at h
    obtain ⟨t', h1, rfl⟩ := h
    exact bind_ok.2 ⟨_, rewriteGo_succ h1, rfl⟩
  | n + 1, .paramOp o ps as, u, h => by
    simp only [rewriteGo, rewriteNode, bind_ok, pure_ok] at h
    obtain ⟨ps', h1, as', h2, rfl⟩ := h
    exact bind_ok.2 ⟨_, rewriteEach_mono (fun _ _ => rewriteGo_succ) h1,
      bind_ok.2 ⟨_, rewriteEach_mono (fun _ _ => rewriteGo_succ) h2, rfl⟩⟩

theorem rewriteGo_le {n m : Nat} (hnm : n ≤ m) {t u : Term} (h : rewriteGo n t = .ok u) : rewriteGo m t = .ok u := by
  induction hnm with
  | refl => exact h
  | step _ ih => exact rewriteGo_succ ih

theorem rewriteGo_eq {n m : Nat} {t u v : Term} (h : rewriteGo n t = .ok u) (h' : rewriteGo m t = .ok v) : u = v := by
  rcases Nat.le_total n m with hl | hl
  · have := rewriteGo_le hl h
    rw [h'] at this
    exact (Except.ok.inj this).symm
  · have := rewriteGo_le hl h'
    rw [h] at this
    exact Except.ok.inj this

end Carcara
