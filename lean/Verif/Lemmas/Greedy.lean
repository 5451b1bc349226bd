import Verif.Lemmas.Resolution
import Verif.Spec.Resolution

/-! # Facts about greedy resolution -/

namespace Carcara

open Spec

/-- Truth of a literal with a signed negation count. -/
def Model.HoldsI (M : Model) (l : ILit) : Prop := if l.1 % 2 = 0 then M.Holds l.2 else ¬ M.Holds l.2

theorem Model.holds_iLit (M : Model) (t : Term) : M.HoldsI (iLit t) ↔ M.Holds t := by
  rw [← M.holds_removeAll t]
  unfold iLit HoldsI HoldsLit
  generalize t.removeAllNegations = p
  obtain ⟨n, u⟩ := p
  simp only
  rcases Nat.mod_two_eq_zero_or_one n with h | h
  · rw [if_pos h, if_pos (by omega)]
  · rw [if_neg (by omega), if_neg (by omega)]

/-- Neighbouring negation counts. -/
def Near (k l : ILit) : Prop := k = (l.1 - 1, l.2) ∨ k = (l.1 + 1, l.2)

theorem Near.holds {M : Model} {k l : ILit} (h : Near k l) : M.HoldsI k ↔ ¬ M.HoldsI l := by
  obtain ⟨n, t⟩ := l
  rcases h with rfl | rfl <;> simp only [Model.HoldsI] <;>
    (rcases Int.emod_two_eq_zero_or_one n with h | h
     · rw [if_pos h, if_neg (by omega)]
     · rw [if_neg (by omega : ¬ n % 2 = 0), if_pos (by omega), not_not])

theorem literalToTerm_remove (t : Term) : literalToTerm t.removeAllNegations = t := by
  induction t using Term.ind with
  | op o as ih =>
    unfold Term.removeAllNegations
    split
    · next t h =>
      simp only [Term.op.injEq] at h
      obtain ⟨rfl, rfl⟩ := h
      have := ih t (by simp)
      generalize t.removeAllNegations = p at this
      obtain ⟨n, u⟩ := p
      simpa [literalToTerm, notN] using this
    · rfl
  | _ => simp [Term.removeAllNegations, literalToTerm, notN]

theorem removeAll_injective {t u : Term} (h : t.removeAllNegations = u.removeAllNegations) : t = u := by
  rw [← literalToTerm_remove t, h, literalToTerm_remove]

theorem iLit_injective {t u : Term} (h : iLit t = iLit u) : t = u := by
  apply removeAll_injective
  unfold iLit at h
  generalize t.removeAllNegations = p at *
  generalize u.removeAllNegations = q at *
  obtain ⟨n, u⟩ := p
  obtain ⟨m, v⟩ := q
  simp only [Prod.mk.injEq, Int.natCast_inj] at h ⊢
  exact h

theorem iLit_not (t : Term) : iLit (.op .not [t]) = ((iLit t).1 + 1, (iLit t).2) := by
  simp [iLit, Term.removeAllNegations]

theorem iLit_nonneg (t : Term) : 0 ≤ (iLit t).1 := by
  simp [iLit]

theorem near_compl {t u : Term} (h : Near (iLit t) (iLit u)) : Complementary t u := by
  rcases h with h | h
  · left
    apply iLit_injective
    rw [iLit_not, h]
    simp
  · right
    apply iLit_injective
    rw [iLit_not, h]

/-- What one iteration does to the state, ignoring the trace. -/
inductive GStep (concl : List ILit) (s s' : Greedy) (l : ILit) : Prop
  | work (h : l ∈ concl) (hw : s'.working = setInsert s.working l) (hp : s'.pivots = s.pivots)
      (he : s'.elim = s.elim)
  | elim (he : s.elim = false) (he' : s'.elim = true) (k : ILit) (hn : Near k l)
      (hk : (mapGet s.pivots k).isSome) (hp : s'.pivots = mapInsert s.pivots k true)
      (hw : s'.working = s.working)
  | add (hp : s'.pivots = mapOrInsert s.pivots l false) (he : s'.elim = s.elim)
      (hw : s'.working = s.working)

theorem greedyTerm_step {concl : List ILit} {tr : Bool} {s s' : Greedy} {t : Term}
    (h : greedyTerm concl tr s t = .ok s') : GStep concl s s' (iLit t) := by
  unfold greedyTerm at h
  generalize iLit t = l at h ⊢
  obtain ⟨n, inner⟩ := l
  simp only at h
  split at h
  · next hc => simp only [ok_inj] at h; subst h; exact .work hc.1 rfl rfl rfl
  · split at h
    · next hc =>
      simp only [Bool.not_eq_true'] at hc
      split at h
      · split at h
        · simp at h
        · simp only [ok_inj] at h; subst h; exact .elim hc.1 rfl _ (Or.inl rfl) hc.2 rfl rfl
      · simp only [ok_inj] at h; subst h; exact .elim hc.1 rfl _ (Or.inl rfl) hc.2 rfl rfl
    · split at h
      · next hc =>
        simp only [Bool.not_eq_true'] at hc
        simp only [ok_inj] at h
        split at h
        · subst h; exact .elim hc.1 rfl _ (Or.inr rfl) hc.2 rfl rfl
        · subst h; exact .elim hc.1 rfl _ (Or.inr rfl) hc.2 rfl rfl
      · split at h
        · next hc => simp only [ok_inj] at h; subst h; exact .work hc rfl rfl rfl
        · simp only [ok_inj] at h; subst h; exact .add rfl rfl rfl

/-- Membership in the resolvent represented by a state. -/
def InR (s : Greedy) (l : ILit) : Prop := l ∈ s.working ∨ mapGet s.pivots l = some false

/-- Relation between the state before a premise and after processing a part `P` of it. -/
structure Mid (concl : List ILit) (s0 s : Greedy) (P : List Term) : Prop where
  work : ∀ l ∈ s0.working, l ∈ s.working
  sub : ∀ l ∈ s.working, l ∈ s0.working ∨ l ∈ concl
  keys : ∀ k, (mapGet s.pivots k).isSome → (mapGet s0.pivots k).isSome ∨ ∃ t ∈ P, iLit t = k
  noelim : s.elim = false →
    (∀ k, mapGet s0.pivots k = some false → mapGet s.pivots k = some false) ∧
    (∀ k, mapGet s.pivots k = some true → mapGet s0.pivots k = some true) ∧
    (∀ t ∈ P, InR s (iLit t))
  elim : s.elim = true → ∃ t0 ∈ P, ∃ k, Near k (iLit t0) ∧ (mapGet s0.pivots k).isSome ∧
    (∀ k', k' ≠ k → mapGet s0.pivots k' = some false → mapGet s.pivots k' = some false) ∧
    (∀ k', mapGet s.pivots k' = some true → mapGet s0.pivots k' = some true ∨ k' = k) ∧
    (∀ t ∈ P, InR s (iLit t) ∨ iLit t = iLit t0)

theorem Mid.step {concl : List ILit} {s0 s s' : Greedy} {P : List Term} {t : Term} {c : List Term}
    (hm : Mid concl s0 s P) (hs : GStep concl s s' (iLit t)) (hPc : ∀ u ∈ P, u ∈ c) (htc : t ∈ c)
    (hnt : ∀ l ∈ c, ∀ u ∈ c, ¬ Complementary l u)
    (hnr : mapGet s0.pivots (iLit t) ≠ some true) : Mid concl s0 s' (P ++ [t]) := by
  cases hs with
  | work hc hw hp he =>
    have hin : ∀ l, InR s l → InR s' l := by
      rintro l (h | h)
      · left; rw [hw]; simp [h]
      · right; rw [hp]; exact h
    have ht : InR s' (iLit t) := by left; rw [hw]; simp
    refine ⟨fun l hl => ?_, fun l hl => ?_, fun k hk => ?_, fun h => ?_, fun h => ?_⟩
    · rw [hw]; simp [hm.work l hl]
    · rw [hw] at hl
      rcases mem_setInsert.1 hl with hl | rfl
      · exact hm.sub l hl
      · exact Or.inr hc
    · rw [hp] at hk
      rcases hm.keys k hk with h | ⟨u, hu, e⟩
      · exact Or.inl h
      · exact Or.inr ⟨u, by simp [hu], e⟩
    · rw [he] at h
      obtain ⟨h1, h2, h3⟩ := hm.noelim h
      rw [hp]
      refine ⟨h1, h2, fun u hu => ?_⟩
      rcases List.mem_append.1 hu with hu | hu
      · exact hin _ (h3 u hu)
      · simp at hu; subst hu; exact ht
    · rw [he] at h
      obtain ⟨t0, ht0, k, h0, h1, h2, h3, h4⟩ := hm.elim h
      refine ⟨t0, by simp [ht0], k, h0, h1, ?_, ?_, fun u hu => ?_⟩
      · rw [hp]; exact h2
      · rw [hp]; exact h3
      · rcases List.mem_append.1 hu with hu | hu
        · rcases h4 u hu with h | h
          · exact Or.inl (hin _ h)
          · exact Or.inr h
        · simp at hu; subst hu; exact Or.inl ht
  | elim he he' k hn hk hp hw =>
    obtain ⟨h1, h2, h3⟩ := hm.noelim he
    -- the eliminated pivot was not introduced by this premise
    have hk0 : (mapGet s0.pivots k).isSome := by
      rcases hm.keys k hk with h | ⟨u, hu, e⟩
      · exact h
      · subst e
        exact absurd (near_compl hn) (hnt u (hPc u hu) t htc)
    refine ⟨fun l hl => by rw [hw]; exact hm.work l hl, fun l hl => by rw [hw] at hl; exact hm.sub l hl,
      fun k' hk' => ?_, fun h => by simp [he'] at h, fun _ => ?_⟩
    · rw [hp, mapGet_insert] at hk'
      split at hk'
      · next e => subst e; exact Or.inl hk0
      · rcases hm.keys k' hk' with h | ⟨u, hu, e⟩
        · exact Or.inl h
        · exact Or.inr ⟨u, by simp [hu], e⟩
    · refine ⟨t, by simp, k, hn, hk0, fun k' hne h => ?_, fun k' h => ?_, fun u hu => ?_⟩
      · rw [hp, mapGet_insert, if_neg (Ne.symm hne)]; exact h1 k' h
      · rw [hp, mapGet_insert] at h
        split at h
        · next e => exact Or.inr e.symm
        · exact Or.inl (h2 k' h)
      · rcases List.mem_append.1 hu with hu | hu
        · left
          rcases h3 u hu with h | h
          · left; rw [hw]; exact h
          · right
            rw [hp, mapGet_insert, if_neg, h]
            rintro rfl
            exact hnt u (hPc u hu) t htc (near_compl hn)
        · simp at hu; subst hu; exact Or.inr rfl
  | add hp he hw =>
    have hkeep : ∀ k b, mapGet s.pivots k = some b → mapGet s'.pivots k = some b := by
      intro k b h
      rw [hp, mapGet_orInsert]
      split
      · next e => subst e; simp [h]
      · exact h
    have hin : ∀ l, InR s l → InR s' l := by
      rintro l (h | h)
      · left; rw [hw]; exact h
      · right; exact hkeep _ _ h
    have htrue : ∀ k, mapGet s'.pivots k = some true → mapGet s.pivots k = some true := by
      intro k h
      rw [hp, mapGet_orInsert] at h
      split at h
      · next e =>
        subst e
        cases hg : mapGet s.pivots (iLit t) with
        | none => simp [hg] at h
        | some b => simpa [hg] using h
      · exact h
    have ht : mapGet s.pivots (iLit t) ≠ some true → InR s' (iLit t) := by
      intro h
      right
      rw [hp, mapGet_orInsert, if_pos rfl]
      cases hg : mapGet s.pivots (iLit t) with
      | none => rfl
      | some b => cases b with
        | true => exact absurd hg h
        | false => rfl
    refine ⟨fun l hl => by rw [hw]; exact hm.work l hl, fun l hl => by rw [hw] at hl; exact hm.sub l hl,
      fun k' hk' => ?_, fun h => ?_, fun h => ?_⟩
    · rw [hp, mapGet_orInsert] at hk'
      split at hk'
      · next e => exact Or.inr ⟨t, by simp, e⟩
      · rcases hm.keys k' hk' with h | ⟨u, hu, e⟩
        · exact Or.inl h
        · exact Or.inr ⟨u, by simp [hu], e⟩
    · rw [he] at h
      obtain ⟨h1, h2, h3⟩ := hm.noelim h
      refine ⟨fun k hk => hkeep _ _ (h1 k hk), fun k hk => h2 k (htrue k hk), fun u hu => ?_⟩
      rcases List.mem_append.1 hu with hu | hu
      · exact hin _ (h3 u hu)
      · simp at hu; subst hu; exact ht (fun hc => hnr (h2 _ hc))
    · rw [he] at h
      obtain ⟨t0, ht0, k, h0, h1, h2, h3, h4⟩ := hm.elim h
      refine ⟨t0, by simp [ht0], k, h0, h1, fun k' hne hk => hkeep _ _ (h2 k' hne hk),
        fun k' hk => h3 k' (htrue k' hk), fun u hu => ?_⟩
      rcases List.mem_append.1 hu with hu | hu
      · rcases h4 u hu with h | h
        · exact Or.inl (hin _ h)
        · exact Or.inr h
      · simp at hu; subst hu
        left
        refine ht (fun hc => ?_)
        rcases h3 _ hc with h | rfl
        · exact hnr h
        · exact hnt u htc t0 (hPc t0 ht0) (near_compl h0)

theorem Mid.premise {concl : List ILit} {tr : Bool} {c : List Term} {s0 : Greedy}
    (hnt : ∀ l ∈ c, ∀ u ∈ c, ¬ Complementary l u)
    (hnr : ∀ t ∈ c, mapGet s0.pivots (iLit t) ≠ some true) :
    ∀ (P rest : List Term) (s s' : Greedy), c = P ++ rest → Mid concl s0 s P →
      greedyPremise concl tr s rest = .ok s' → Mid concl s0 s' c := by
  intro P rest
  induction rest generalizing P with
  | nil =>
    intro s s' hc hm h
    simp [greedyPremise] at h
    subst h
    simpa [hc] using hm
  | cons t rest ih =>
    intro s s' hc hm h
    simp only [greedyPremise, bind_ok] at h
    obtain ⟨s1, h1, h2⟩ := h
    have hsub : ∀ u ∈ P, u ∈ c := fun u hu => by rw [hc]; simp [hu]
    have htc : t ∈ c := by rw [hc]; simp
    exact ih (P ++ [t]) s1 s' (by simp [hc]) (hm.step (greedyTerm_step h1) hsub htc hnt (hnr t htc)) h2

theorem Mid.init (concl : List ILit) (s0 : Greedy) : Mid concl s0 { s0 with elim := false } [] where
  work _ h := h
  sub _ h := Or.inl h
  keys _ h := Or.inl h
  noelim _ := ⟨fun _ h => h, fun _ h => h, by simp⟩
  elim h := by simp at h

/-- Invariant of the outer loop after the premises `H`. -/
structure Outer (M : Model) (concl : List ILit) (s : Greedy) (H : List (List Term)) : Prop where
  sub : ∀ l ∈ s.working, l ∈ concl
  keys : ∀ k, (mapGet s.pivots k).isSome → ∃ c ∈ H, ∃ t ∈ c, iLit t = k
  true_ : ∀ k, mapGet s.pivots k = some true → ∃ (i j : Nat) (c d : List Term), i < j ∧ H[i]? = some c ∧
    H[j]? = some d ∧ ∃ l ∈ c, ∃ u ∈ d, iLit l = k ∧ Complementary l u
  sat : H ≠ [] → (∀ c ∈ H, M.Sat c) → ∃ l, InR s l ∧ M.HoldsI l

theorem Outer.step {M : Model} {concl : List ILit} {s0 s : Greedy} {H : List (List Term)} {c : List Term}
    (ho : Outer M concl s0 H) (hm : Mid concl s0 s c) : Outer M concl s (H ++ [c]) := by
  refine ⟨fun l hl => ?_, fun k hk => ?_, fun k hk => ?_, fun _ hall => ?_⟩
  · rcases hm.sub l hl with h | h
    · exact ho.sub l h
    · exact h
  · rcases hm.keys k hk with h | ⟨t, ht, e⟩
    · obtain ⟨d, hd, t, ht, e⟩ := ho.keys k h
      exact ⟨d, by simp [hd], t, ht, e⟩
    · exact ⟨c, by simp, t, ht, e⟩
  · have old : mapGet s0.pivots k = some true → ∃ (i j : Nat) (c' d : List Term), i < j ∧
        (H ++ [c])[i]? = some c' ∧ (H ++ [c])[j]? = some d ∧ ∃ l ∈ c', ∃ u ∈ d, iLit l = k ∧ Complementary l u := by
      intro h
      obtain ⟨i, j, c', d, hij, h1, h2, h3⟩ := ho.true_ k h
      have lt : ∀ {i : Nat} {x : List Term}, H[i]? = some x → (H ++ [c])[i]? = some x := by
        intro i x hx
        rw [List.getElem?_append_left (List.getElem?_eq_some_iff.1 hx).1, hx]
      exact ⟨i, j, c', d, hij, lt h1, lt h2, h3⟩
    cases he : s.elim with
    | false => exact old ((hm.noelim he).2.1 k hk)
    | true =>
      obtain ⟨t0, ht0, k0, h0, h1, h2, h3, h4⟩ := hm.elim he
      rcases h3 k hk with h | rfl
      · exact old h
      · obtain ⟨d, hd, t, ht, rfl⟩ := ho.keys k h1
        obtain ⟨i, hi, hid⟩ := List.mem_iff_getElem.1 hd
        refine ⟨i, H.length, d, c, hi, ?_, by simp, t, ht, t0, ht0, rfl, near_compl h0⟩
        rw [List.getElem?_append_left hi, List.getElem?_eq_getElem hi, hid]
  · obtain ⟨u, hu, hut⟩ := hall c (by simp)
    rw [← M.holds_iLit] at hut
    cases he : s.elim with
    | false => exact ⟨_, (hm.noelim he).2.2 u hu, hut⟩
    | true =>
      obtain ⟨t0, ht0, k0, h0, h1, h2, h3, h4⟩ := hm.elim he
      rcases h4 u hu with h | h
      · exact ⟨_, h, hut⟩
      · have hH : H ≠ [] := by
          obtain ⟨d, hd, -⟩ := ho.keys k0 h1
          exact List.ne_nil_of_mem hd
        obtain ⟨l, hl, hlt⟩ := ho.sat hH (fun c hc => hall c (by simp [hc]))
        refine ⟨l, ?_, hlt⟩
        rcases hl with hl | hl
        · exact Or.inl (hm.work l hl)
        · refine Or.inr (h2 l ?_ hl)
          rintro rfl
          rw [h] at hut
          exact h0.holds.1 hlt hut

theorem Outer.loop {M : Model} {concl : List ILit} {tr : Bool} {premises : List (List Term)}
    (hnt : NoTautology premises) (hnr : NoReturn premises) :
    ∀ (H rest : List (List Term)) (s s' : Greedy), premises = H ++ rest → Outer M concl s H →
      greedyLoop concl tr s rest = .ok s' → Outer M concl s' premises := by
  intro H rest
  induction rest generalizing H with
  | nil =>
    intro s s' hp ho h
    simp [greedyLoop] at h
    subst h
    simpa [hp] using ho
  | cons c rest ih =>
    intro s s' hp ho h
    simp only [greedyLoop, bind_ok] at h
    obtain ⟨s1, h1, h2⟩ := h
    refine ih (H ++ [c]) s1 s' (by simp [hp]) ?_ h2
    refine ho.step (Mid.premise (hnt c (by simp [hp])) ?_ [] c _ _ rfl (Mid.init _ _) h1)
    intro t ht hc
    obtain ⟨i, j, c', d, hij, h3, h4, l, hl, u, hu, e, hcomp⟩ := ho.true_ _ hc
    have hjl : j < H.length := (List.getElem?_eq_some_iff.1 h4).1
    have lt : ∀ {i : Nat} {x : List Term}, H[i]? = some x → premises[i]? = some x := by
      intro i x hx
      rw [hp, List.getElem?_append_left (List.getElem?_eq_some_iff.1 hx).1, hx]
    refine hnr i j H.length c' d c hij hjl (lt h3) (lt h4) (by simp [hp]) l hl u hu ?_ hcomp
    rw [iLit_injective e]; exact ht

theorem Outer.init (M : Model) (concl : List ILit) : Outer M concl {} [] where
  sub _ h := by simp at h
  keys _ h := by simp [mapGet] at h
  true_ _ h := by simp [mapGet] at h
  sat h := absurd rfl h

theorem mem_of_mapGet {α β : Type} [DecidableEq α] {m : List (α × β)} {a : α} {b : β}
    (h : mapGet m a = some b) : (a, b) ∈ m := by
  induction m with
  | nil => simp [mapGet] at h
  | cons p m ih =>
    obtain ⟨k, v⟩ := p
    simp only [mapGet] at h
    split at h
    · next e => simp at h; subst e; subst h; simp
    · exact List.mem_cons_of_mem _ (ih h)

theorem greedyFinish_sound {M : Model} {conclusion : List Term} {s : Greedy} {r : ResolutionTrace}
    (h : greedyFinish (setOf (conclusion.map iLit)) s = .ok r)
    (hsub : ∀ l ∈ s.working, l ∈ setOf (conclusion.map iLit))
    (hsat : ∃ l, InR s l ∧ M.HoldsI l) : M.Sat conclusion := by
  have inconcl : ∀ l, l ∈ setOf (conclusion.map iLit) → M.HoldsI l → M.Sat conclusion := by
    intro l hl ht
    simp only [mem_setOf, List.mem_map] at hl
    obtain ⟨t, ht1, rfl⟩ := hl
    exact ⟨t, ht1, (M.holds_iLit t).1 ht⟩
  obtain ⟨l, hl, hlt⟩ := hsat
  rcases hl with hl | hl
  · exact inconcl l (hsub l hl) hlt
  · have hmem := mem_of_mapGet hl
    have hf : (l, false) ∈ s.pivots.filter (fun p => !p.2) := List.mem_filter.2 ⟨hmem, by simp⟩
    unfold greedyFinish at h
    split at h
    · next e => rw [e] at hf; simp at hf
    · next i pivot b e =>
      rw [e] at hf
      simp only [List.mem_singleton, Prod.mk.injEq] at hf
      obtain ⟨rfl, rfl⟩ := hf
      split at h
      · next hc =>
        obtain ⟨-, rfl, hb⟩ := hc
        simp only [Term.isBoolFalse, decide_eq_true_eq] at hb
        subst hb
        simp [Model.HoldsI, Term.fls] at hlt
      · split at h
        · next j c hc =>
          split at h
          · next hh =>
            obtain ⟨rfl, hpar⟩ := hh
            refine inconcl (j, c) (by rw [hc]; simp) ?_
            simp only [Model.HoldsI] at hlt ⊢
            rwa [← hpar]
          · simp at h
        · simp at h
    · simp at h

theorem greedyResolution_sound {M : Model} {conclusion : List Term} {premises : List (List Term)} {tr : Bool}
    {r : ResolutionTrace} (h : greedyResolution conclusion premises tr = .ok r) (hne : premises ≠ [])
    (hnt : NoTautology premises) (hnr : NoReturn premises) (hp : ∀ p ∈ premises, M.Sat p) :
    M.Sat conclusion := by
  simp only [greedyResolution, bind_ok] at h
  obtain ⟨s, h1, h2⟩ := h
  have ho := Outer.loop hnt hnr [] premises _ _ rfl (Outer.init M _) h1
  exact greedyFinish_sound h2 ho.sub (ho.sat hne hp)

/-! ## No panics -/

/-- All pivot keys have a non-negative number of negations. -/
def KeysNonneg (s : Greedy) : Prop := ∀ k ∈ s.pivots.map (·.1), 0 ≤ k.1

theorem greedyTerm_total {concl : List ILit} {tr : Bool} {s : Greedy} (t : Term) (hk : KeysNonneg s) :
    ∃ s', greedyTerm concl tr s t = .ok s' ∧ KeysNonneg s' := by
  have hnn := iLit_nonneg t
  have hstep : ∀ s', greedyTerm concl tr s t = .ok s' → KeysNonneg s' := by
    intro s' h k hk'
    cases greedyTerm_step h with
    | work _ _ hp _ => rw [hp] at hk'; exact hk k hk'
    | elim _ _ k0 _ hk0 hp _ =>
      rw [hp, keys_insert] at hk'
      rcases mem_setInsert.1 hk' with h | rfl
      · exact hk k h
      · exact hk k (mapGet_isSome.1 hk0)
    | add hp _ _ =>
      rw [hp, keys_orInsert] at hk'
      rcases mem_setInsert.1 hk' with h | rfl
      · exact hk k h
      · exact hnn
  suffices ∃ s', greedyTerm concl tr s t = .ok s' by
    obtain ⟨s', h⟩ := this; exact ⟨s', h, hstep s' h⟩
  unfold greedyTerm
  generalize iLit t = l at hnn
  obtain ⟨n, inner⟩ := l
  simp only
  split
  · exact ⟨_, rfl⟩
  · split
    · next hc =>
      split
      · split
        · next h0 =>
          subst h0
          have := hk _ (mapGet_isSome.1 hc.2)
          simp at this
        · exact ⟨_, rfl⟩
      · exact ⟨_, rfl⟩
    · split
      · exact ⟨_, rfl⟩
      · split <;> exact ⟨_, rfl⟩

theorem greedyPremise_total {concl : List ILit} {tr : Bool} (c : List Term) : ∀ {s : Greedy}, KeysNonneg s →
    ∃ s', greedyPremise concl tr s c = .ok s' ∧ KeysNonneg s' := by
  induction c with
  | nil => intro s h; exact ⟨s, rfl, h⟩
  | cons t c ih =>
    intro s h
    obtain ⟨s1, h1, h2⟩ := greedyTerm_total (concl := concl) (tr := tr) t h
    obtain ⟨s2, h3, h4⟩ := ih h2
    exact ⟨s2, by simp [greedyPremise, h1, h3], h4⟩

theorem greedyLoop_total {concl : List ILit} {tr : Bool} (ps : List (List Term)) : ∀ {s : Greedy}, KeysNonneg s →
    ∃ s', greedyLoop concl tr s ps = .ok s' ∧ KeysNonneg s' := by
  induction ps with
  | nil => intro s h; exact ⟨s, rfl, h⟩
  | cons c ps ih =>
    intro s h
    obtain ⟨s1, h1, h2⟩ := greedyPremise_total (concl := concl) (tr := tr) c (s := { s with elim := false }) h
    obtain ⟨s2, h3, h4⟩ := ih h2
    exact ⟨s2, by simp [greedyLoop, h1, h3], h4⟩

/-- `greedy_resolution` never panics. -/
theorem greedyResolution_no_panic (conclusion : List Term) (premises : List (List Term)) (tr : Bool) :
    greedyResolution conclusion premises tr ≠ panic := by
  obtain ⟨s, h, -⟩ := greedyLoop_total (concl := setOf (conclusion.map iLit)) (tr := tr) premises
    (s := {}) (by simp [KeysNonneg])
  simp only [greedyResolution, h, bind, Except.bind]
  unfold greedyFinish
  split
  · unfold require; split <;> simp [err, panic, bind, Except.bind, pure, Except.pure]
  · split
    · simp [panic]
    · split
      · split <;> simp [err, panic]
      · simp [err, panic]
  · simp [err, panic]

end Carcara
