import Verif.Lemmas.SliceLoop

/-!
# The proof a slice is
-/

namespace Carcara

/-- The commands before a position, level by level. -/
def Frames.before (F : Frames) : List (List Command) := F.map fun f => f.2.take f.1

theorem lookupV_before {F : Frames} {p : Nat × Nat} {c : Command} (h : lookupV F.before p = some c) :
    F.lookup p = some c ∧ ∃ j cs c, F.reverse[p.1]? = some (j, cs) ∧ p.2 < j ∧ cs[p.2]? = some c := by
  simp only [lookupV, Frames.before, ← List.map_reverse, List.getElem?_map, Option.bind_eq_bind, Option.bind_eq_some_iff,
    Option.map_eq_some_iff] at h
  obtain ⟨l, ⟨⟨j, cs⟩, h1, rfl⟩, h2⟩ := h
  have h2' := h2
  rw [List.getElem?_take] at h2
  split at h2
  · next hlt => exact ⟨by simp [Frames.lookup, h1, h2], j, cs, c, h1, hlt, h2⟩
  · simp at h2

section
variable {proof : List Command} {keep : KeepMap} {p : List Command} {s0 : Step}

theorem occ_ok (hp : OkL proof keep [] [] p) {F' Γ' c} (h : Occ (p ++ [.step s0]) F' Γ' c) :
    (F' = [(p.length, p ++ [.step s0])] ∧ c = .step s0) ∨ OkC proof keep F'.before c := by
  induction h with
  | @top i c hc =>
    rcases Nat.lt_trichotomy i p.length with hi | rfl | hi
    · right
      rw [List.getElem?_append_left hi] at hc
      have := hp.get hc
      simpa [Frames.before, List.take_append_of_le_length (Nat.le_of_lt hi)] using this
    · left
      simp at hc
      exact ⟨rfl, hc.symm⟩
    · rw [List.getElem?_eq_none (by simp; omega)] at hc
      simp at hc
  | @sub F Γ cs as n j c ho hc ih =>
    right
    rcases ih with ⟨-, hh⟩ | ih
    · simp at hh
    · rw [OkC] at ih
      have := ih.get hc
      simpa [Frames.before] using this

mutual
theorem has_occ {out : List Command} {target : String} : ∀ {c : Command} {F Γ}, Command.has target c = true → Occ out F Γ c → OkC proof keep F.before c →
    ∃ F' Γ' s', Occ out F' Γ' (.step s') ∧ s'.id = target ∧ Copied proof keep F'.before s'
  | .assume _ _, _, _, h, _, _ => by simp [Command.has] at h
  | .step s, F, Γ, h, ho, hok => by
    rw [OkC] at hok
    exact ⟨F, Γ, s, ho, by simpa [Command.has] using h, hok⟩
  | .subproof cs as n, F, Γ, h, ho, hok => by
    rw [OkC] at hok
    rw [Command.has] at h
    exact hasL_occ h fun j c hc => ⟨_, _, ho.sub hc, by simpa [Frames.before] using hok.get hc⟩
theorem hasL_occ {out : List Command} {target : String} : ∀ {cs : List Command}, Command.hasL target cs = true →
    (∀ (j : Nat) c, cs[j]? = some c → ∃ F Γ, Occ out F Γ c ∧ OkC proof keep F.before c) →
    ∃ F' Γ' s', Occ out F' Γ' (.step s') ∧ s'.id = target ∧ Copied proof keep F'.before s'
  | [], h, _ => by simp [Command.hasL] at h
  | c :: cs, h, hc => by
    rw [Command.hasL, Bool.or_eq_true] at h
    rcases h with h | h
    · obtain ⟨F, Γ, h1, h2⟩ := hc 0 c rfl
      exact has_occ h h1 h2
    · exact hasL_occ h fun j c hj => hc (j + 1) c hj
end

theorem forall₂_mem_right {α β : Type} {R : α → β → Prop} {as : List α} {bs : List β} (h : List.Forall₂ R as bs) {b : β} (hb : b ∈ bs) :
    ∃ a ∈ as, R a b := by
  induction h with
  | nil => simp at hb
  | cons h1 _ ih =>
    rcases List.mem_cons.1 hb with rfl | hb
    · exact ⟨_, List.mem_cons_self .., h1⟩
    · obtain ⟨a, h2, h3⟩ := ih hb
      exact ⟨a, List.mem_cons_of_mem _ h2, h3⟩

theorem mem_leadingAssumes {i : String} {t : Term} {r : List Command} : ∀ {p : List Command}, AssumesSorted p → .assume i t ∈ p →
    t ∈ leadingAssumes (p ++ r)
  | [], _, h => by simp at h
  | c :: p, hs, h => by
    rw [AssumesSorted, List.pairwise_cons] at hs
    have hc : c.isAssume = true := by
      rcases List.mem_cons.1 h with rfl | h
      · rfl
      · exact hs.1 _ h rfl
    cases c with
    | assume i' t' =>
      rw [List.cons_append, leadingAssumes]
      rcases List.mem_cons.1 h with h | h
      · cases h; exact List.mem_cons_self ..
      · exact List.mem_cons_of_mem _ (mem_leadingAssumes hs.2 h)
    | _ => simp [Command.isAssume] at hc

end

section
variable {proof : List Command} (hwf : Command.wfL proof = true) (hu : IdsUsedOnce proof)
  (hsc : ∀ F Γ s, Occ proof F Γ (.step s) → s.wellScoped F)
include hwf hu hsc

/-- The proof that slicing gives. -/
theorem sliceBody_ok {Ft Γt} {t : Step} (ht : Occ proof Ft Γt (.step t))
    (hctx : ∀ f ∈ Ft.dropLast, ∀ e, f.2.getLast? = some (.step e) → e.id ≠ t.id → e.premises = []) {d : Nat} (hd : d < maxUsize) :
    ∃ keep p ch c, sliceBody proof t.id d = .ok (some (p ++ [.step { id := "slice_end", clause := [], rule := "hole", premises := [ch], args := [trustTerm] }])) ∧
      keep.lookup t.id = some true ∧ OkL proof keep [] [] p ∧ lookupV [p] ch = some c ∧ Command.hasL t.id p = true ∧
      ∀ nA, AssumesUpTo proof nA → AssumesSorted p := by
  obtain ⟨fs, c, e1, e2, e3, e4, e5⟩ := find_ok hwf hu ht
  obtain ⟨m, m1, m2, m3⟩ := stepToPremises_ok hwf hsc hu ht
  obtain ⟨keep, k1, k2⟩ := keep_ok hwf hu hsc ht hctx m2 m3 d
  obtain ⟨st, s1, G, p, L, s2⟩ := (sliceInv_fold hwf hu hsc k2).visits hwf (st := { stack := [⟨0, []⟩] })
    ⟨[(0, proof)], [], [], ⟨⟨trivial, by simp, .inl rfl⟩, rfl, trivial, ⟨fun j hj => absurd hj (by omega), trivial⟩, ⟨by simp [OkL], trivial⟩,
      by simp, by simp, rfl, by simp, by intro nA _ q hq; simp at hq; subst hq; simp [AssumesSorted]⟩⟩
  have hG : G = [(proof.length, proof)] := s2.isOpen.eq trivial
  subst hG
  have hL : L = [] := by
    have := s2.holders.length
    simpa using this.symm
  subst hL
  obtain ⟨t1, q, t2, t3⟩ := s2.target ⟨⟨Ft, Γt, .step t⟩, allPositions_iff.2 ht, t, rfl, rfl⟩
  simp only [List.map_nil, List.mem_singleton] at t2
  subst t2
  obtain ⟨ch, hch⟩ := Option.isSome_iff_exists.1 (s2.seen ▸ t1)
  obtain ⟨cc, hcc⟩ := s2.child ch hch
  refine ⟨keep, q, ch, cc, ?_, k2.target, s2.ok.1, hcc, t3, fun nA hA => (s2.sorted nA hA q rfl).1⟩
  refine bind_ok.2 ⟨fs, e1, ?_⟩
  simp only [e2]
  refine bind_ok.2 ⟨m, m1, bind_ok.2 ⟨t.id, e3, bind_ok.2 ⟨keepLevels m (d + 1) [t.id] [], ?_, ?_⟩⟩⟩
  · simp only [transitivePremises, if_neg (Nat.not_le.2 hd)]
  · simp only [e4, Bool.false_eq_true, if_false, e5]
    refine bind_ok.2 ⟨keep, k1, bind_ok.2 ⟨st, s1, bind_ok.2 ⟨ch, by rw [hch]; rfl, bind_ok.2 ⟨⟨q.length, q⟩, by rw [s2.stack]; rfl, rfl⟩⟩⟩⟩

end

/-! ## Tests for concrete proofs -/

/-- Test for `IdsUsedOnce`. -/
def uniqueIdsB (proof : List Command) : Bool :=
  (allPositions proof).all fun o => (allPositions proof).all fun o' =>
    !o.cmd.isLeaf || !o'.cmd.isLeaf || !(o.cmd.name == o'.cmd.name) || o.frames.path == o'.frames.path

theorem uniqueIds_of {proof : List Command} (h : uniqueIdsB proof = true) : IdsUsedOnce proof := by
  intro F Γ c F' Γ' c' i ho ho' hl hl' hi hi'
  simp only [uniqueIdsB, List.all_eq_true] at h
  have := h ⟨F, Γ, c⟩ (allPositions_iff.2 ho) ⟨F', Γ', c'⟩ (allPositions_iff.2 ho')
  have e1 : c.name = i := by rw [Command.name, hi]
  have e2 : c'.name = i := by rw [Command.name, hi']
  simp [hl, hl', e1, e2] at this
  exact (ho.path_inj ho' this).1

/-- Test for `Step.wellScoped`. -/
def scopedB (proof : List Command) : Bool :=
  (allPositions proof).all fun o =>
    match o.cmd with
    | .step s => (s.premises ++ s.discharge).all fun p =>
        match o.frames.reverse[p.1]? with
        | some (j, cs) => decide (p.2 < j) && (cs[p.2]?).isSome
        | none => false
    | _ => true

theorem scoped_of {proof : List Command} (h : scopedB proof = true) {F Γ s} (ho : Occ proof F Γ (.step s)) : s.wellScoped F := by
  intro p hp
  simp only [scopedB, List.all_eq_true] at h
  have := h ⟨F, Γ, .step s⟩ (allPositions_iff.2 ho)
  simp only [List.all_eq_true] at this
  have := this p hp
  split at this
  · next j cs hj =>
    rw [Bool.and_eq_true] at this
    obtain ⟨c, hc⟩ := Option.isSome_iff_exists.1 this.2
    exact ⟨j, cs, c, hj, by simpa using this.1, hc⟩
  · simp at this

end Carcara
