import Verif.Lemmas.ResolutionExact
import Verif.Model.ElabResolution
import Verif.Spec.ElabResolution

/-! # The pivots that greedy resolution reports, and resolution with arguments -/

namespace Carcara

open Spec

/-- The literals that a state stands for, as terms. -/
def Greedy.has (s : Greedy) (t : Term) : Prop := InR s (iLit t)

/-- What one iteration does to the state, with the trace. -/
inductive TStep (concl : List ILit) (s s' : Greedy) (t : Term) : Prop
  | work (h : iLit t ∈ concl) (hw : s'.working = setInsert s.working (iLit t)) (hp : s'.pivots = s.pivots)
      (he : s'.elim = s.elim) (ht : s'.trace = s.trace)
  | elim (he : s.elim = false) (he' : s'.elim = true) (e : Term × Bool) (hu : removedFrom e = t)
      (hk : (mapGet s.pivots (iLit (removedBy e))).isSome) (hp : s'.pivots = mapInsert s.pivots (iLit (removedBy e)) true)
      (hw : s'.working = s.working) (ht : s'.trace = s.trace ++ [e])
  | add (h : iLit t ∉ concl) (hp : s'.pivots = mapOrInsert s.pivots (iLit t) false) (he : s'.elim = s.elim)
      (hw : s'.working = s.working) (ht : s'.trace = s.trace)

theorem removed_compl (e : Term × Bool) : Complementary (removedBy e) (removedFrom e) := by
  obtain ⟨t, b⟩ := e
  cases b
  · exact .inr rfl
  · exact .inl rfl

theorem below_term {t : Term} {n : Int} {inner : Term} (h : iLit t = (n, inner)) (hn : n ≠ 0) :
    t = .op .not [literalToTerm ((n - 1).toNat, inner)] := by
  have h1 : t = literalToTerm (n.toNat, inner) := by
    rw [← literalToTerm_remove t]
    congr 1
    unfold iLit at h
    generalize t.removeAllNegations = p at h
    obtain ⟨m, u⟩ := p
    simp only [Prod.mk.injEq] at h ⊢
    exact ⟨by omega, h.2⟩
  have h2 : 0 ≤ n := by
    have := iLit_nonneg t
    rwa [h] at this
  rw [h1]
  obtain ⟨m, rfl⟩ : ∃ m : Nat, n = (m : Int) + 1 := ⟨(n - 1).toNat, by omega⟩
  have e1 : ((m : Int) + 1).toNat = m + 1 := by omega
  have e2 : ((m : Int) + 1 - 1).toNat = m := by omega
  rw [e1, e2]
  rfl

theorem greedyTerm_trace {concl : List ILit} {s s' : Greedy} {t : Term} (h : greedyTerm concl true s t = .ok s') : TStep concl s s' t := by
  unfold greedyTerm at h
  rcases hl : iLit t with ⟨n, inner⟩
  rw [hl] at h
  simp only at h
  split at h
  · next hc => simp only [ok_inj] at h; subst h; exact .work (hl ▸ hc.1) (by rw [hl]) rfl rfl rfl
  · split at h
    · next hc =>
      simp only [Bool.not_eq_true'] at hc
      rw [if_pos trivial] at h
      split at h
      · simp at h
      · next hn =>
        simp only [ok_inj] at h
        have ht := below_term hl hn
        have hk : iLit (literalToTerm ((n - 1).toNat, inner)) = (n - 1, inner) := by
          have := iLit_not (literalToTerm ((n - 1).toNat, inner))
          rw [← ht, hl] at this
          simp only [Prod.mk.injEq] at this
          exact Prod.ext (by simp only; omega) this.2.symm
        subst h
        refine .elim hc.1 rfl (literalToTerm ((n - 1).toNat, inner), true) ht.symm ?_ ?_ rfl rfl
        · simp only [removedBy, if_true]; rw [hk]; exact hc.2
        · simp only [removedBy, if_true]; rw [hk]
    · split at h
      · next hc =>
        simp only [Bool.not_eq_true'] at hc
        simp only [ok_inj, if_true] at h
        have hk : iLit (.op .not [t]) = (n + 1, inner) := by rw [iLit_not, hl]
        subst h
        refine .elim hc.1 rfl (t, false) rfl ?_ ?_ rfl rfl
        · simp only [removedBy, Bool.false_eq_true, if_false]; rw [hk]; exact hc.2
        · simp only [removedBy, Bool.false_eq_true, if_false]; rw [hk]
      · split at h
        · next hc => simp only [ok_inj] at h; subst h; exact .work (hl ▸ hc) (by rw [hl]) rfl rfl rfl
        · next hc => simp only [ok_inj] at h; subst h; exact .add (hl ▸ hc) (by rw [hl]) rfl rfl rfl

/-- Working literals belong to the conclusion, pivots do not. -/
structure Greedy.Apart (concl : List ILit) (s : Greedy) : Prop where
  sub : ∀ l ∈ s.working, l ∈ concl
  off : ∀ k, (mapGet s.pivots k).isSome → k ∉ concl
  nodup : (s.pivots.map (·.1)).Nodup

theorem TStep.apart {concl : List ILit} {s s' : Greedy} {t : Term} (h : TStep concl s s' t) (ha : s.Apart concl) : s'.Apart concl := by
  cases h with
  | work h hw hp he ht =>
    refine ⟨fun l hl => ?_, fun k hk => ha.off k (hp ▸ hk), hp ▸ ha.nodup⟩
    rw [hw] at hl
    rcases mem_setInsert.1 hl with hl | rfl
    · exact ha.sub l hl
    · exact h
  | elim he he' e hu hk hp hw ht =>
    refine ⟨fun l hl => ha.sub l (hw ▸ hl), fun k hk' => ?_, hp ▸ nodup_keys_insert ha.nodup⟩
    rw [hp, mapGet_insert] at hk'
    split at hk'
    · next h => exact h ▸ ha.off _ hk
    · exact ha.off k hk'
  | add h hp he hw ht =>
    refine ⟨fun l hl => ha.sub l (hw ▸ hl), fun k hk' => ?_, hp ▸ nodup_keys_orInsert ha.nodup⟩
    rw [hp, mapGet_orInsert] at hk'
    split at hk'
    · next h' => exact h' ▸ h
    · exact ha.off k hk'

/-- The state after the part `P` of a premise, compared with the state before it. -/
structure Mid' (s0 s : Greedy) (P : List Term) : Prop where
  keys : ∀ k, (mapGet s.pivots k).isSome → (mapGet s0.pivots k).isSome ∨ ∃ t ∈ P, iLit t = k
  noelim : s.elim = false → s.trace = s0.trace ∧ (∀ k, mapGet s.pivots k = some true ↔ mapGet s0.pivots k = some true) ∧
    ∀ x, s.has x ↔ s0.has x ∨ x ∈ P
  elim : s.elim = true → ∃ e, (mapGet s0.pivots (iLit (removedBy e))).isSome ∧ removedFrom e ∈ P ∧ s.trace = s0.trace ++ [e] ∧
    (∀ k, mapGet s.pivots k = some true ↔ mapGet s0.pivots k = some true ∨ k = iLit (removedBy e)) ∧
    ∀ x, s.has x ↔ (s0.has x ∧ x ≠ removedBy e) ∨ x ∈ P.erase (removedFrom e)

theorem Mid'.init (s0 : Greedy) : Mid' s0 { s0 with elim := false } [] where
  keys _ h := .inl h
  noelim _ := ⟨rfl, fun _ => Iff.rfl, fun x => by simp [Greedy.has, InR]⟩
  elim h := by simp at h

theorem mem_erase_snoc {P : List Term} {t x : Term} : x ∈ (P ++ [t]).erase t ↔ x ∈ P := by
  have h : (P ++ [t]).Perm (t :: P) := List.perm_append_comm
  have := h.erase t
  rw [List.erase_cons_head] at this
  exact this.mem_iff

theorem Mid'.step {concl : List ILit} {s0 s s' : Greedy} {P c : List Term} {t : Term} (hm : Mid' s0 s P) (hs : TStep concl s s' t)
    (ha : s.Apart concl) (hPc : ∀ u ∈ P, u ∈ c) (htc : t ∈ c) (hnt : ∀ l ∈ c, ∀ u ∈ c, ¬ Complementary l u)
    (hnr : mapGet s0.pivots (iLit t) ≠ some true) : Mid' s0 s' (P ++ [t]) := by
  -- cases where the literal is added
  have plain : (∀ k, (mapGet s'.pivots k).isSome → (mapGet s.pivots k).isSome ∨ iLit t = k) → s'.elim = s.elim → s'.trace = s.trace →
      (∀ k, mapGet s'.pivots k = some true ↔ mapGet s.pivots k = some true) →
      (mapGet s.pivots (iLit t) ≠ some true → ∀ x, s'.has x ↔ s.has x ∨ x = t) → Mid' s0 s' (P ++ [t]) := by
    intro hk he ht htrue hhas
    refine ⟨fun k h => ?_, fun h => ?_, fun h => ?_⟩
    · rcases hk k h with h | h
      · rcases hm.keys k h with h | ⟨u, hu, h⟩
        · exact .inl h
        · exact .inr ⟨u, by simp [hu], h⟩
      · exact .inr ⟨t, by simp, h⟩
    · rw [he] at h
      obtain ⟨h1, h2, h3⟩ := hm.noelim h
      refine ⟨ht.trans h1, fun k => (htrue k).trans (h2 k), fun x => ?_⟩
      rw [hhas (fun h => hnr ((h2 _).1 h)), h3]
      simp [or_assoc]
    · rw [he] at h
      obtain ⟨e, h1, h2, h3, h4, h5⟩ := hm.elim h
      refine ⟨e, h1, by simp [h2], ht.trans h3, fun k => (htrue k).trans (h4 k), fun x => ?_⟩
      rw [hhas, h5, List.erase_append_left _ h2]
      · simp [or_assoc]
      · intro h
        rcases (h4 _).1 h with h | h
        · exact hnr h
        · exact hnt _ htc _ (hPc _ h2) (iLit_injective h ▸ removed_compl e)
  cases hs with
  | work h hw hp he ht =>
    refine plain (fun k h => .inl (hp ▸ h)) he ht (fun k => by rw [hp]) fun _ x => ?_
    simp only [Greedy.has, InR, hw, hp, mem_setInsert]
    constructor
    · rintro ((h | h) | h)
      · exact .inl (.inl h)
      · exact .inr (iLit_injective h)
      · exact .inl (.inr h)
    · rintro ((h | h) | rfl)
      · exact .inl (.inl h)
      · exact .inr h
      · exact .inl (.inr rfl)
  | add h hp he hw ht =>
    refine plain (fun k h => ?_) he ht (fun k => ?_) fun hn x => ?_
    · rw [hp, mapGet_orInsert] at h
      split at h
      · next h' => exact .inr h'
      · exact .inl h
    · rw [hp, mapGet_orInsert]
      split
      · next h' =>
        subst h'
        cases mapGet s.pivots (iLit t) <;> simp
      · exact Iff.rfl
    · simp only [Greedy.has, InR, hw, hp, mapGet_orInsert]
      constructor
      · rintro (h | h)
        · exact .inl (.inl h)
        · split at h
          · next h' => exact .inr (iLit_injective h'.symm)
          · exact .inl (.inr h)
      · rintro ((h | h) | rfl)
        · exact .inl h
        · refine .inr ?_
          split
          · next h' => rw [h', h]; rfl
          · exact h
        · refine .inr ?_
          rw [if_pos rfl]
          cases hg : mapGet s.pivots (iLit x) with
          | none => rfl
          | some b =>
            cases b
            · rfl
            · exact absurd hg hn
  | elim he he' e hu hk hp hw ht =>
    obtain ⟨h1, h2, h3⟩ := hm.noelim he
    have hk0 : (mapGet s0.pivots (iLit (removedBy e))).isSome := by
      rcases hm.keys _ hk with h | ⟨u, hu', h⟩
      · exact h
      · have := removed_compl e
        rw [hu, ← iLit_injective h] at this
        exact absurd this (hnt u (hPc u hu') t htc)
    refine ⟨fun k hk' => ?_, fun h => by simp [he'] at h, fun _ => ⟨e, hk0, by simp [hu], by rw [ht, h1], fun k => ?_, fun x => ?_⟩⟩
    · rw [hp, mapGet_insert] at hk'
      split at hk'
      · next h => exact .inl (h ▸ hk0)
      · rcases hm.keys k hk' with h | ⟨u, hu, h⟩
        · exact .inl h
        · exact .inr ⟨u, by simp [hu], h⟩
    · rw [hp, mapGet_insert]
      split
      · next h => simp [h]
      · next h => rw [h2]; simp [Ne.symm h]
    · rw [hu, mem_erase_snoc]
      have hx : s'.has x ↔ s.has x ∧ x ≠ removedBy e := by
        simp only [Greedy.has, InR, hw, hp, mapGet_insert]
        constructor
        · rintro (h | h)
          · exact ⟨.inl h, fun h' => ha.off _ hk (h' ▸ ha.sub _ h)⟩
          · split at h
            · simp at h
            · next h' => exact ⟨.inr h, fun h'' => h' (by rw [h''])⟩
        · rintro ⟨h | h, hne⟩
          · exact .inl h
          · refine .inr ?_
            rw [if_neg fun h' => hne (iLit_injective h').symm]
            exact h
      rw [hx, h3]
      constructor
      · rintro ⟨h | h, hne⟩
        · exact .inl ⟨h, hne⟩
        · exact .inr h
      · rintro (h | h)
        · exact ⟨.inl h.1, h.2⟩
        · refine ⟨.inr h, ?_⟩
          rintro rfl
          exact hnt _ (hPc _ h) t htc (hu ▸ removed_compl e)

theorem Mid'.premise {concl : List ILit} {c : List Term} {s0 : Greedy} (hnt : ∀ l ∈ c, ∀ u ∈ c, ¬ Complementary l u)
    (hnr : ∀ t ∈ c, mapGet s0.pivots (iLit t) ≠ some true) : ∀ (P rest : List Term) (s s' : Greedy), c = P ++ rest → Mid' s0 s P →
      s.Apart concl → greedyPremise concl true s rest = .ok s' → Mid' s0 s' c ∧ s'.Apart concl := by
  intro P rest
  induction rest generalizing P with
  | nil =>
    intro s s' hc hm ha h
    simp only [greedyPremise, ok_inj] at h
    subst h
    simp only [List.append_nil] at hc
    exact ⟨hc ▸ hm, ha⟩
  | cons t rest ih =>
    intro s s' hc hm ha h
    simp only [greedyPremise, bind_ok] at h
    obtain ⟨s1, h1, h2⟩ := h
    have hsub : ∀ u ∈ P, u ∈ c := fun u hu => by rw [hc]; simp [hu]
    have htc : t ∈ c := by rw [hc]; simp
    have hs := greedyTerm_trace h1
    exact ih (P ++ [t]) s1 s' (by simp [hc]) (hm.step hs ha hsub htc hnt (hnr t htc)) (hs.apart ha) h2

/-- What is known after the premises `H`. -/
structure History (concl : List ILit) (s : Greedy) (H : List (List Term)) : Prop where
  apart : s.Apart concl
  keys : ∀ k, (mapGet s.pivots k).isSome → ∃ c ∈ H, ∃ t ∈ c, iLit t = k
  true_ : ∀ k, mapGet s.pivots k = some true → ∃ (i j : Nat) (c d : List Term), i < j ∧ H[i]? = some c ∧
    H[j]? = some d ∧ ∃ l ∈ c, ∃ u ∈ d, iLit l = k ∧ Complementary l u

theorem History.init (concl : List ILit) : History concl {} [] where
  apart := ⟨by simp, by simp [mapGet], by simp⟩
  keys _ h := by simp [mapGet] at h
  true_ _ h := by simp [mapGet] at h

theorem getElem?_clause_snoc {H : List (List Term)} {c x : List Term} {i : Nat} (h : H[i]? = some x) : (H ++ [c])[i]? = some x := by
  rw [List.getElem?_append_left (List.getElem?_eq_some_iff.1 h).1, h]

theorem History.step {concl : List ILit} {s s' : Greedy} {H : List (List Term)} {c : List Term} (h : History concl s H) (hm : Mid' s s' c)
    (ha : s'.Apart concl) : History concl s' (H ++ [c]) := by
  refine ⟨ha, fun k hk => ?_, fun k hk => ?_⟩
  · rcases hm.keys k hk with h' | ⟨t, ht, e⟩
    · obtain ⟨d, hd, t, ht, e⟩ := h.keys k h'
      exact ⟨d, by simp [hd], t, ht, e⟩
    · exact ⟨c, by simp, t, ht, e⟩
  · have old : mapGet s.pivots k = some true → ∃ (i j : Nat) (c' d : List Term), i < j ∧
        (H ++ [c])[i]? = some c' ∧ (H ++ [c])[j]? = some d ∧ ∃ l ∈ c', ∃ u ∈ d, iLit l = k ∧ Complementary l u := by
      intro h'
      obtain ⟨i, j, c', d, hij, h1, h2, h3⟩ := h.true_ k h'
      exact ⟨i, j, c', d, hij, getElem?_clause_snoc h1, getElem?_clause_snoc h2, h3⟩
    cases he : s'.elim with
    | false => exact old (((hm.noelim he).2.1 k).1 hk)
    | true =>
      obtain ⟨e, h1, h2, _, h4, _⟩ := hm.elim he
      rcases (h4 k).1 hk with h' | rfl
      · exact old h'
      · obtain ⟨d, hd, t, ht, e'⟩ := h.keys _ h1
        obtain ⟨i, hi, hid⟩ := List.mem_iff_getElem.1 hd
        refine ⟨i, H.length, d, c, hi, ?_, by simp, t, ht, _, h2, e', iLit_injective e' ▸ removed_compl e⟩
        rw [List.getElem?_append_left hi, List.getElem?_eq_getElem hi, hid]

theorem History.fresh {concl : List ILit} {s : Greedy} {premises H rest : List (List Term)} {c : List Term} (h : History concl s H)
    (hnr : NoReturn premises) (hp : premises = H ++ c :: rest) : ∀ t ∈ c, mapGet s.pivots (iLit t) ≠ some true := by
  intro t ht hc
  obtain ⟨i, j, c', d, hij, h3, h4, l, hl, u, hu, e, hcomp⟩ := h.true_ _ hc
  have hjl : j < H.length := (List.getElem?_eq_some_iff.1 h4).1
  have lt : ∀ {i : Nat} {x : List Term}, H[i]? = some x → premises[i]? = some x := by
    intro i x hx
    rw [hp, List.getElem?_append_left (List.getElem?_eq_some_iff.1 hx).1, hx]
  refine hnr i j H.length c' d c hij hjl (lt h3) (lt h4) (by simp [hp]) l hl u hu ?_ hcomp
  rw [iLit_injective e]; exact ht

/-- The pivots of a list of entries are pairwise different, and none was eliminated before. -/
def Fresh (s : Greedy) (es : List (Term × Bool)) : Prop :=
  (es.map removedBy).Nodup ∧ ∀ e ∈ es, mapGet s.pivots (iLit (removedBy e)) ≠ some true

theorem resChain_cons {c f : Term → Prop} {d : List Term} {ds : List (List Term)} {e : Term × Bool} {es : List (Term × Bool)} :
    ResChain c (d :: ds) (tracedArgs (e :: es)) f ↔ c (removedBy e) ∧ removedFrom e ∈ d ∧
      ResChain (fun x => (c x ∧ x ≠ removedBy e) ∨ x ∈ d.erase (removedFrom e)) ds (tracedArgs es) f := by
  obtain ⟨t, b⟩ := e
  cases b
  · constructor
    · intro h
      cases h with
      | neg hr h => exact ⟨hr.1, hr.2.1, h.congr_left hr.2.2⟩
    · rintro ⟨h1, h2, h3⟩
      exact .neg ⟨h1, h2, fun _ => Iff.rfl⟩ h3
  · constructor
    · intro h
      cases h with
      | pos hr h => exact ⟨hr.1, hr.2.1, h.congr_left hr.2.2⟩
    · rintro ⟨h1, h2, h3⟩
      exact .pos ⟨h1, h2, fun _ => Iff.rfl⟩ h3

theorem greedyLoop_trace {concl : List ILit} {premises : List (List Term)} (hnt : NoTautology premises) (hnr : NoReturn premises) :
    ∀ (H rest : List (List Term)) (s s' : Greedy), premises = H ++ rest → History concl s H → greedyLoop concl true s rest = .ok s' →
      History concl s' premises ∧ ∃ es, s'.trace = s.trace ++ es ∧ es.length ≤ rest.length ∧
        (∀ k, mapGet s'.pivots k = some true ↔ mapGet s.pivots k = some true ∨ ∃ e ∈ es, k = iLit (removedBy e)) ∧
        (es.length = rest.length → ∀ f, ResChain s.has rest (tracedArgs es) f ↔ Fresh s es ∧ ∀ x, s'.has x ↔ f x) := by
  intro H rest
  induction rest generalizing H with
  | nil =>
    intro s s' hp hh h
    simp only [greedyLoop, ok_inj] at h
    subst h
    simp only [List.append_nil] at hp
    refine ⟨hp ▸ hh, [], by simp, by simp, by simp, fun _ f => ?_⟩
    simp only [Fresh, List.map_nil, List.nodup_nil, List.not_mem_nil, false_implies, implies_true, and_self, true_and]
    exact ⟨fun h => by cases h with | done h => exact h, .done⟩
  | cons c rest ih =>
    intro s s' hp hh h
    simp only [greedyLoop, bind_ok] at h
    obtain ⟨s1, h1, h2⟩ := h
    obtain ⟨hm, ha⟩ := Mid'.premise (s0 := s) (hnt c (by simp [hp])) (hh.fresh hnr hp) [] c _ _ rfl (Mid'.init s)
      ⟨hh.apart.sub, hh.apart.off, hh.apart.nodup⟩ h1
    obtain ⟨hfin, es, ht, hl, htrue, hiff⟩ := ih (H ++ [c]) s1 s' (by simp [hp]) (hh.step hm ha) h2
    cases he : s1.elim with
    | false =>
      obtain ⟨n1, n2, _⟩ := hm.noelim he
      refine ⟨hfin, es, by rw [ht, n1], by simp; omega, fun k => by rw [htrue, n2], fun h => ?_⟩
      simp only [List.length_cons] at h
      omega
    | true =>
      obtain ⟨e, n1, n2, n3, n4, n5⟩ := hm.elim he
      refine ⟨hfin, e :: es, by rw [ht, n3]; simp, by simp; omega, fun k => ?_, fun h => ?_⟩
      · rw [htrue, n4]
        simp [or_assoc]
      · intro f
        simp only [List.length_cons, Nat.add_right_cancel_iff] at h
        rw [resChain_cons]
        have hlive : s.has (removedBy e) ↔ mapGet s.pivots (iLit (removedBy e)) ≠ some true := by
          constructor
          · rintro (h | h)
            · exact absurd (hh.apart.sub _ h) (hh.apart.off _ n1)
            · rw [h]; simp
          · intro h
            refine .inr ?_
            obtain ⟨b, hb⟩ := Option.isSome_iff_exists.1 n1
            cases b
            · exact hb
            · exact absurd hb h
        have hnext : (fun x => (s.has x ∧ x ≠ removedBy e) ∨ x ∈ c.erase (removedFrom e)) = s1.has := by
          funext x
          exact propext (n5 x).symm
        rw [hnext, hiff h, hlive]
        simp only [Fresh, List.map_cons, List.nodup_cons, List.mem_map, List.mem_cons, forall_eq_or_imp]
        constructor
        · rintro ⟨h1, _, ⟨h2, h3⟩, h5⟩
          refine ⟨⟨⟨?_, h2⟩, h1, fun e' he' hc => h3 e' he' ((n4 _).2 (.inl hc))⟩, h5⟩
          rintro ⟨e', he', hc⟩
          exact h3 e' he' ((n4 _).2 (.inr (by rw [hc])))
        · rintro ⟨⟨⟨h1, h2⟩, h3, h4⟩, h5⟩
          refine ⟨h3, n2, ⟨h2, fun e' he' hc => ?_⟩, h5⟩
          rcases (n4 _).1 hc with hc | hc
          · exact h4 e' he' hc
          · exact h1 ⟨e', he', iLit_injective hc⟩

theorem resChain_args_length {c ds as e} (h : ResChain c ds as e) : as.length = ds.length * 2 := by
  induction h <;> simp_all <;> omega

theorem tracedArgs_length (es : List (Term × Bool)) : (tracedArgs es).length = es.length * 2 := by
  induction es with
  | nil => rfl
  | cons e es ih => obtain ⟨t, b⟩ := e; simp only [tracedArgs, List.length_cons, ih]; omega

/-- The pivots of the trace, used as arguments, lead to the literals that the final state stands for exactly if there is one for each premise
after the first and none is used twice. -/
theorem greedyLoop_chain {concl : List ILit} {first : List Term} {rest : List (List Term)} {s : Greedy} (hnt : NoTautology (first :: rest))
    (hnr : NoReturn (first :: rest)) (h : greedyLoop concl true {} (first :: rest) = .ok s) :
    (∀ f, ResChain (· ∈ first) rest (tracedArgs s.trace) f ↔
      (s.trace.length = rest.length ∧ (s.trace.map removedBy).Nodup) ∧ ∀ x, s.has x ↔ f x) ∧
      History concl s (first :: rest) := by
  simp only [greedyLoop, bind_ok] at h
  obtain ⟨s1, h1, h2⟩ := h
  have h0 := History.init concl
  obtain ⟨hm, ha⟩ := Mid'.premise (s0 := {}) (hnt first (by simp)) (fun t _ => by simp [mapGet]) [] first _ _ rfl (Mid'.init {})
    ⟨h0.apart.sub, h0.apart.off, h0.apart.nodup⟩ h1
  have he : s1.elim = false := by
    cases he : s1.elim with
    | false => rfl
    | true =>
      obtain ⟨e, h, _⟩ := hm.elim he
      simp [mapGet] at h
  obtain ⟨n1, n2, n3⟩ := hm.noelim he
  have hh : History concl s1 [first] := by simpa using h0.step hm ha
  obtain ⟨hfin, es, ht, hl, htrue, hiff⟩ := greedyLoop_trace hnt hnr [first] rest s1 s rfl hh h2
  refine ⟨?_, hfin⟩
  rw [n1] at ht
  simp only [List.nil_append] at ht
  rw [ht]
  have hs1 : s1.has = (· ∈ first) := by
    funext x
    refine propext ((n3 x).trans ?_)
    simp [Greedy.has, InR, mapGet]
  have hfresh : Fresh s1 es ↔ (es.map removedBy).Nodup := by
    refine ⟨fun h => h.1, fun h => ⟨h, fun e _ hc => ?_⟩⟩
    rw [n2] at hc
    simp [mapGet] at hc
  intro f
  rw [← hs1, ← hfresh]
  constructor
  · intro h
    have hlen : es.length = rest.length := by
      have := resChain_args_length h
      rw [tracedArgs_length] at this
      omega
    obtain ⟨h1, h2⟩ := (hiff hlen f).1 h
    exact ⟨⟨hlen, h1⟩, h2⟩
  · rintro ⟨⟨h1, h2⟩, h3⟩
    exact (hiff h1 f).2 ⟨h2, h3⟩

theorem Spec.ResChain.origin {c f : Term → Prop} {ds : List (List Term)} {as : List Term} (h : ResChain c ds as f) :
    ∀ x, f x → c x ∨ ∃ d ∈ ds, x ∈ d := by
  induction h with
  | done h1 => exact fun x hx => .inl ((h1 x).2 hx)
  | pos hr _ ih =>
    intro x hx
    rcases ih x hx with h | ⟨d, hd, h⟩
    · rcases (hr.2.2 x).1 h with h | h
      · exact .inl h.1
      · exact .inr ⟨_, by simp, List.mem_of_mem_erase h⟩
    · exact .inr ⟨d, by simp [hd], h⟩
  | neg hr _ ih =>
    intro x hx
    rcases ih x hx with h | ⟨d, hd, h⟩
    · rcases (hr.2.2 x).1 h with h | h
      · exact .inl h.1
      · exact .inr ⟨_, by simp, List.mem_of_mem_erase h⟩
    · exact .inr ⟨d, by simp [hd], h⟩

/-! ## Tracing does not change the outcome -/

/-- The state without the trace. -/
def Greedy.untraced (s : Greedy) : Greedy := { s with trace := [] }

theorem greedyTerm_untraced {concl : List ILit} {s s' : Greedy} {t : Term} (h : greedyTerm concl true s t = .ok s') :
    greedyTerm concl false s.untraced t = .ok s'.untraced := by
  obtain ⟨w, p, tr, el⟩ := s
  change greedyTerm concl false ⟨w, p, [], el⟩ t = _
  unfold greedyTerm at h ⊢
  generalize iLit t = l at h ⊢
  obtain ⟨n, inner⟩ := l
  simp only [if_true] at h ⊢
  split at h
  · next hc => rw [if_pos hc]; cases h; rfl
  · next hc1 =>
    rw [if_neg hc1]
    split at h
    · next hc =>
      rw [if_pos hc]
      split at h
      · simp at h
      · cases h; rfl
    · next hc2 =>
      rw [if_neg hc2]
      split at h
      · next hc => rw [if_pos hc]; cases h; rfl
      · next hc3 =>
        rw [if_neg hc3]
        split at h
        · next hc => rw [if_pos hc]; cases h; rfl
        · next hc4 => rw [if_neg hc4]; cases h; rfl

theorem greedyPremise_untraced {concl : List ILit} : ∀ {c : List Term} {s s' : Greedy}, greedyPremise concl true s c = .ok s' →
    greedyPremise concl false s.untraced c = .ok s'.untraced
  | [], s, s', h => by simp only [greedyPremise, ok_inj] at h ⊢; rw [h]
  | t :: c, s, s', h => by
    simp only [greedyPremise, bind_ok] at h ⊢
    obtain ⟨s1, h1, h2⟩ := h
    exact ⟨_, greedyTerm_untraced h1, greedyPremise_untraced h2⟩

theorem greedyLoop_untraced {concl : List ILit} : ∀ {ps : List (List Term)} {s s' : Greedy}, greedyLoop concl true s ps = .ok s' →
    greedyLoop concl false s.untraced ps = .ok s'.untraced
  | [], s, s', h => by simp only [greedyLoop, ok_inj] at h ⊢; rw [h]
  | c :: ps, s, s', h => by
    simp only [greedyLoop, bind_ok] at h ⊢
    obtain ⟨s1, h1, h2⟩ := h
    exact ⟨_, greedyPremise_untraced h1, greedyLoop_untraced h2⟩

theorem greedyFinish_untraced (concl : List ILit) (s : Greedy) :
    greedyFinish concl s.untraced = (greedyFinish concl s).map fun r => { r with pivotTrace := [] } := by
  obtain ⟨w, p, tr, el⟩ := s
  change greedyFinish concl ⟨w, p, [], el⟩ = _
  unfold greedyFinish
  dsimp only
  split
  · unfold require
    split <;> rfl
  · split
    · rfl
    · split
      · split <;> rfl
      · rfl
  · rfl

/-- The runs with and without the trace. -/
theorem greedyResolution_untraced (conclusion : List Term) (premises : List (List Term)) :
    greedyResolution conclusion premises false = (greedyResolution conclusion premises true).map fun r => { r with pivotTrace := [] } := by
  obtain ⟨s, h, -⟩ := greedyLoop_total (concl := setOf (conclusion.map iLit)) (tr := true) premises (s := {}) (by simp [KeysNonneg])
  have h' := greedyLoop_untraced h
  simp only [greedyResolution, h]
  have e : ({} : Greedy).untraced = {} := rfl
  rw [e] at h'
  rw [h']
  exact greedyFinish_untraced _ s

end Carcara
