import Verif.Model.Slice
import Verif.Lemmas.SliceNames

/-!
# The map from steps to what they refer to
-/

namespace Carcara

/-- The identifier a reference denotes. -/
def nameAt (F : Frames) (p : Nat × Nat) : String := match F.lookup p with
  | some c => c.name
  | none => ""

/-- The identifier of the command before a closing step. -/
def prevName : Frames → String
  | (i, cs) :: _ => match cs[i - 1]? with
    | some c => c.name
    | none => ""
  | [] => ""

/-- What a step refers to. -/
def entries (F : Frames) (s : Step) : List (String × PremiseType) :=
  s.premises.map (fun p => (nameAt F p, .premise)) ++ s.discharge.map (fun p => (nameAt F p, .discharge)) ++
    if F.iter.isEndStep then [(prevName F, .subproofEnd)] else []

/-- The index of the top-level command a position is in. -/
def topIdx (F : Frames) : Nat := match F.getLast? with
  | some f => f.1
  | none => 0

section
variable {proof : List Command} (hwf : Command.wfL proof = true)
include hwf

theorem premiseIds_eq {F Γ s} (h : Occ proof F Γ (.step s)) (hs : s.wellScoped F) (ty : PremiseType) : ∀ {ps : List (Nat × Nat)},
    (∀ p ∈ ps, p ∈ s.premises ++ s.discharge) → premiseIds F.iter ty ps = .ok (ps.map fun p => (nameAt F p, ty))
  | [], _ => rfl
  | p :: ps, hp => by
    have ih := premiseIds_eq h hs ty (ps := ps) (fun q hq => hp q (List.mem_cons_of_mem _ hq))
    obtain ⟨A, j, cs, B, Γ', c, -, -, -, -, hl, ho, -⟩ := ref_occ h hs (hp p (List.mem_cons_self ..))
    simp only [premiseIds, mapRes, List.map_cons] at ih ⊢
    refine bind_ok.2 ⟨(nameAt F p, ty), ?_, bind_ok.2 ⟨_, ih, rfl⟩⟩
    refine bind_ok.2 ⟨c, ?_, bind_ok.2 ⟨c.name, Command.id_name (ho.wf hwf), ?_⟩⟩
    · rw [Frames.getPremise_iter, hl]; rfl
    · rw [nameAt, hl]

theorem endPremise_eq {j ds f F Γ c} (h : Occ proof ((j, ds) :: f :: F) Γ c) (he : j + 1 = ds.length) :
    endPremise (Frames.iter ((j, ds) :: f :: F)) = .ok [(prevName ((j, ds) :: f :: F), .subproofEnd)] ∧
      ∃ c', 1 ≤ j ∧ ds[j - 1]? = some c' ∧ prevName ((j, ds) :: f :: F) = c'.name ∧ Occ proof ((j - 1, ds) :: f :: F) Γ c' := by
  obtain ⟨i, cs, f', F', e, hl⟩ := h.two_le hwf (show Frames.isEnd ((j, ds) :: f :: F) from he)
  simp only [List.cons.injEq, Prod.mk.injEq] at e
  obtain ⟨⟨rfl, rfl⟩, rfl, rfl⟩ := e
  obtain ⟨c', hc'⟩ : ∃ c', ds[i]? = some c' := ⟨_, List.getElem?_eq_getElem (by omega)⟩
  have ho := h.sibling hc'
  have hn : prevName ((i + 1, ds) :: f :: F) = c'.name := by simp [prevName, hc']
  refine ⟨?_, c', by omega, hc', hn, ho⟩
  rw [endPremise, hn]
  refine bind_ok.2 ⟨ds, ?_, bind_ok.2 ⟨c', ?_, bind_ok.2 ⟨c'.name, Command.id_name (ho.wf hwf), rfl⟩⟩⟩
  · simp [Iter.currentSubproof, Iter.isInSubproof, Iter.depth, Frames.iter, orPanic]
  · rw [List.getElem?_reverse (by omega), show ds.length - 1 - 1 = i by omega, hc']; rfl

theorem premStep_eq {target : String} {F Γ s} {st : PremState} (h : Occ proof F Γ (.step s)) (hs : s.wellScoped F)
    (ho : F.isEnd → st.opened ≠ 0) :
    premStep target F.iter st s = .ok
      { map := (s.id, entries F s) :: st.map
        opened := if F.iter.isEndStep then st.opened - 1 else st.opened
        found := st.found || s.id == target
        stopped := (st.found || s.id == target) && (if F.iter.isEndStep then st.opened - 1 else st.opened) == 0 } := by
  rw [premStep]
  refine bind_ok.2 ⟨_, premiseIds_eq hwf h hs .premise (fun p hp => List.mem_append_left _ hp), ?_⟩
  refine bind_ok.2 ⟨_, premiseIds_eq hwf h hs .discharge (fun p hp => List.mem_append_right _ hp), ?_⟩
  by_cases he : F.isEnd
  · have hb := (isEndStep_iff F).2 he
    match F, h, he with
    | (j, ds) :: f :: F, h, he =>
      simp only [hb, if_true, if_neg (ho he)]
      refine bind_ok.2 ⟨_, (endPremise_eq hwf h he).1, ?_⟩
      refine bind_ok.2 ⟨_, rfl, ?_⟩
      simp [entries, hb]
  · have hb : F.iter.isEndStep = false := by
      cases hh : F.iter.isEndStep
      · rfl
      · exact absurd ((isEndStep_iff F).1 hh) he
    simp only [hb]
    refine bind_ok.2 ⟨_, rfl, bind_ok.2 ⟨_, rfl, ?_⟩⟩
    simp [entries, hb]

/-- Every step up to the end of a top-level command is in the map. -/
def PremComplete (proof : List Command) (i0 : Nat) (m : PremiseMap) : Prop :=
  ∀ F Γ s, Occ proof F Γ (.step s) → topIdx F ≤ i0 → (s.id, entries F s) ∈ m

/-- The invariant of the loop. -/
structure PremInv (proof : List Command) (target : String) (i0 : Nat) (pre : List Pos) (F : Frames) (st : PremState) : Prop where
  sound : ∀ kv ∈ st.map, ∃ F Γ s, Occ proof F Γ (.step s) ∧ kv = (s.id, entries F s)
  stop : st.stopped = true → PremComplete proof i0 st.map
  opened : st.stopped = false → st.opened = F.length - 1
  seen : st.stopped = false → ∀ o ∈ pre, ∀ s, o.cmd = .step s → (s.id, entries o.frames s) ∈ st.map
  found : st.stopped = false → ∀ o ∈ pre, ∀ s, o.cmd = .step s → s.id = target → st.found = true
  inside : st.stopped = false → st.found = true → topIdx F = i0 ∧ 2 ≤ F.length

end

theorem topIdx_cons (f g : Nat × List Command) (F : Frames) : topIdx (f :: g :: F) = topIdx (g :: F) := by
  simp [topIdx, List.getLast?_cons_cons]

theorem topIdx_head (i j : Nat) (cs : List Command) (g : Nat × List Command) (F : Frames) :
    topIdx ((i, cs) :: g :: F) = topIdx ((j, cs) :: g :: F) := by rw [topIdx_cons, topIdx_cons]

theorem path_topIdx {F : Frames} (h : F ≠ []) : ∃ q, F.path = topIdx F :: q := by
  rcases List.eq_nil_or_concat F with rfl | ⟨G, f, rfl⟩
  · exact absurd rfl h
  · exact ⟨(List.map (fun x => x.1) G).reverse, by simp [Frames.path, topIdx]⟩

/-- When the loop stops everything up to the end of the top-level command has been visited. -/
theorem stop_complete {proof : List Command} {i0 : Nat} {pre post : List Pos} {F Γ s} {m : PremiseMap}
    (hall : allPositions proof = pre ++ ⟨F, Γ, .step s⟩ :: post) (hF : F.length = 1 ∨ (F.length = 2 ∧ F.isEnd)) (hi : topIdx F = i0)
    (hs : ∀ o ∈ pre ++ [⟨F, Γ, .step s⟩], ∀ s, o.cmd = .step s → (s.id, entries o.frames s) ∈ m) : PremComplete proof i0 m := by
  intro F' Γ' s' ho' hle
  have hmem : (⟨F', Γ', .step s'⟩ : Pos) ∈ allPositions proof := allPositions_iff.2 ho'
  have ho : Occ proof F Γ (.step s) := by
    have hm : (⟨F, Γ, .step s⟩ : Pos) ∈ allPositions proof := by rw [hall]; simp
    exact allPositions_iff.1 hm
  rw [hall] at hmem
  have key : (⟨F', Γ', .step s'⟩ : Pos) ∈ pre ++ [⟨F, Γ, .step s⟩] := by
    rcases List.mem_append.1 hmem with h | h
    · exact List.mem_append_left _ h
    · rcases List.mem_cons.1 h with h | h
      · rw [h]; simp
      · exfalso
        have hsort := allPositions_sorted proof
        rw [hall] at hsort
        have hlt := (List.pairwise_cons.1 (List.pairwise_append.1 hsort).2.1).1 _ h
        simp only at hlt
        obtain ⟨q', hq'⟩ := path_topIdx ho'.ne_nil
        rcases hF with h1 | ⟨h2, he⟩
        · match F, h1 with
          | [(i, cs)], _ =>
            simp only [topIdx, List.getLast?_singleton] at hi
            have hp : Frames.path [(i, cs)] = [i] := rfl
            rw [hp, hq', pathLt] at hlt
            rcases hlt with hlt | ⟨rfl, hlt⟩
            · omega
            · have := ho.step_prefix ho' (r := q') (by rw [hq', hp]; rfl)
              rw [this] at hlt; simp [pathLt] at hlt
        · match F, h2 with
          | [(j, ds), (i, cs)], _ =>
            simp only [topIdx, List.getLast?_cons_cons, List.getLast?_singleton] at hi
            have hp : Frames.path [(j, ds), (i, cs)] = [i, j] := rfl
            rw [hp, hq', pathLt] at hlt
            rcases hlt with hlt | ⟨rfl, hlt⟩
            · omega
            · cases q' with
              | nil => simp [pathLt] at hlt
              | cons j' q'' =>
                rw [pathLt] at hlt
                rcases hlt with hlt | ⟨rfl, hlt⟩
                · -- the level of `F'` below the top is the subproof
                  have hlen : 2 ≤ F'.length := by
                    have := congrArg List.length hq'
                    simp [Frames.path] at this; omega
                  obtain ⟨Γ2, c2, h2⟩ := ho'.suffix (List.drop_suffix (F'.length - 2) F') (by
                    intro e; have := congrArg List.length e; simp at this; omega)
                  have hl2 : (F'.drop (F'.length - 2)).length = 2 := by simp; omega
                  have hp2 : Frames.path (F'.drop (F'.length - 2)) = [topIdx F', j'] := by
                    have e1 : F'.path = Frames.path (F'.drop (F'.length - 2)) ++ Frames.path (F'.take (F'.length - 2)) := by
                      conv => lhs; rw [← List.take_append_drop (F'.length - 2) F']
                      simp only [Frames.path, List.map_append, List.reverse_append]
                    have e2 : F'.path = [topIdx F', j'] ++ q'' := by rw [hq']; rfl
                    rw [e1] at e2
                    exact (List.append_inj e2 (by simp [Frames.path]; omega)).1
                  match hD : F'.drop (F'.length - 2), hl2 with
                  | [(k, es), (i', cs')], _ =>
                    rw [hD] at hp2 h2
                    simp only [Frames.path, List.map_cons, List.map_nil, List.reverse_cons, List.reverse_nil, List.nil_append,
                      List.cons_append, List.cons.injEq, and_true] at hp2
                    obtain ⟨_, _, _, _, hpa⟩ := ho.parent
                    obtain ⟨_, _, _, _, hpb⟩ := h2.parent
                    obtain ⟨-, e⟩ := hpa.path_inj hpb (by simp [Frames.path]; exact hp2.1.symm)
                    simp only [Command.subproof.injEq] at e
                    have hk := (List.getElem?_eq_some_iff.1 h2.head).1
                    simp only [Frames.isEnd] at he
                    rw [← e.1] at hk
                    omega
                · have := ho.step_prefix ho' (r := q'') (by rw [hq', hp]; rfl)
                  rw [this] at hlt; simp [pathLt] at hlt
  exact hs _ key s' rfl

section
variable {proof : List Command} (hwf : Command.wfL proof = true)
include hwf

theorem premInv_fold (hsc : ∀ F Γ s, Occ proof F Γ (.step s) → s.wellScoped F) {target : String} {i0 : Nat}
    (ht : ∀ F Γ s, Occ proof F Γ (.step s) → s.id = target → topIdx F = i0) :
    FoldInv proof (fun st o => premVisit target st (o.cmd, o.iter)) (PremInv proof target i0) := by
  refine ⟨?_, ?_, ?_⟩
  · intro pre post i cs F Γ c st hall ho hleaf hne hI
    have hend : Iter.isEndStep (Frames.iter ((i, cs) :: F)) = false := by
      cases hh : Iter.isEndStep (Frames.iter ((i, cs) :: F))
      · rfl
      · exact absurd ((isEndStep_iff _).1 hh) hne
    have htop : ∀ g G, F = g :: G → topIdx ((i + 1, cs) :: F) = topIdx ((i, cs) :: F) := by
      rintro g G rfl; exact topIdx_head ..
    by_cases hst : st.stopped = true
    · refine ⟨st, by simp [premVisit, hst], hI.sound, hI.stop, ?_, ?_, ?_, ?_⟩ <;> simp [hst]
    · have hst : st.stopped = false := by simpa using hst
      cases c with
      | subproof ds as n => exact absurd rfl (hleaf ds as n)
      | assume id t =>
        refine ⟨st, by simp [premVisit, hst], hI.sound, hI.stop, fun _ => by simpa using hI.opened hst, ?_, ?_, ?_⟩
        · intro _ o ho s hs
          rcases List.mem_append.1 ho with h | h
          · exact hI.seen hst o h s hs
          · obtain rfl := List.mem_singleton.1 h; simp at hs
        · intro _ o ho s hs
          rcases List.mem_append.1 ho with h | h
          · exact hI.found hst o h s hs
          · obtain rfl := List.mem_singleton.1 h; simp at hs
        · intro _ hf
          obtain ⟨h1, h2⟩ := hI.inside hst hf
          match F, h2 with
          | g :: G, _ => exact ⟨by rw [htop g G rfl]; exact h1, by simp⟩
      | step s =>
        have he := premStep_eq hwf (target := target) (st := st) ho (hsc _ _ _ ho) (fun h => absurd h hne)
        have hseen : ∀ o ∈ pre ++ [⟨(i, cs) :: F, Γ, .step s⟩], ∀ s', o.cmd = .step s' →
            (s'.id, entries o.frames s') ∈ (s.id, entries ((i, cs) :: F) s) :: st.map := by
          intro o ho' s' hs'
          rcases List.mem_append.1 ho' with h | h
          · exact List.mem_cons_of_mem _ (hI.seen hst o h s' hs')
          · obtain rfl := List.mem_singleton.1 h
            simp only [Command.step.injEq] at hs'
            subst hs'; exact List.mem_cons_self ..
        refine ⟨_, by simpa [premVisit, hst, Pos.iter] using he, ?_, ?_, ?_, ?_, ?_, ?_⟩
        · intro kv hkv
          rcases List.mem_cons.1 hkv with rfl | h
          · exact ⟨_, _, _, ho, rfl⟩
          · exact hI.sound kv h
        · intro hstop
          simp only [hend, Bool.and_eq_true, beq_iff_eq, hI.opened hst, List.length_cons] at hstop
          have hF : F = [] := by
            have := hstop.2
            simp only [Bool.false_eq_true, if_false] at this
            cases F <;> simp_all
          subst hF
          refine stop_complete hall (.inl rfl) ?_ hseen
          have hnf : st.found = false := by
            cases hf : st.found
            · rfl
            · have := (hI.inside hst hf).2; simp at this
          rw [hnf] at hstop
          simp only [Bool.false_or, beq_iff_eq] at hstop
          exact ht _ _ _ ho hstop.1
        · intro _
          simp only [hend, Bool.false_eq_true, if_false, hI.opened hst, List.length_cons]
        · intro _; exact hseen
        · intro _ o ho' s' hs' hid
          rcases List.mem_append.1 ho' with h | h
          · simp [hI.found hst o h s' hs' hid]
          · obtain rfl := List.mem_singleton.1 h
            simp only [Command.step.injEq] at hs'
            subst hs'; simp [hid]
        · intro hns hf
          simp only [hend, Bool.false_eq_true, if_false, hI.opened hst, List.length_cons] at hns hf
          rw [hf] at hns
          have hFne : F ≠ [] := by rintro rfl; simp at hns
          obtain ⟨g, G, hF⟩ := List.exists_cons_of_ne_nil hFne
          · refine ⟨?_, by simp [hF]⟩
            rw [htop g G hF]
            rcases Bool.or_eq_true_iff.1 hf with hf | hf
            · exact (hI.inside hst hf).1
            · exact ht _ _ _ ho (by simpa using hf)
  · intro pre post i cs F Γ ds as n st hall ho hI
    by_cases hst : st.stopped = true
    · refine ⟨st, by simp [premVisit, hst], hI.sound, hI.stop, ?_, ?_, ?_, ?_⟩ <;> simp [hst]
    · have hst : st.stopped = false := by simpa using hst
      refine ⟨{ st with opened := st.opened + 1 }, by simp [premVisit, hst], hI.sound, hI.stop, ?_, ?_, ?_, ?_⟩
      · intro _; simp [hI.opened hst]
      · intro _ o ho s hs
        rcases List.mem_append.1 ho with h | h
        · exact hI.seen hst o h s hs
        · obtain rfl := List.mem_singleton.1 h; simp at hs
      · intro _ o ho s hs
        rcases List.mem_append.1 ho with h | h
        · exact hI.found hst o h s hs
        · obtain rfl := List.mem_singleton.1 h; simp at hs
      · intro _ hf
        exact ⟨by rw [topIdx_cons]; exact (hI.inside hst hf).1, by simp⟩
  · intro pre post j ds i cs F Γ s as n st hall hp ho hj hI
    have hend : Iter.isEndStep (Frames.iter ((j, ds) :: (i, cs) :: F)) = true := (isEndStep_iff _).2 hj
    by_cases hst : st.stopped = true
    · refine ⟨st, by simp [premVisit, hst], hI.sound, hI.stop, ?_, ?_, ?_, ?_⟩ <;> simp [hst]
    · have hst : st.stopped = false := by simpa using hst
      have hop : st.opened = F.length + 1 := by rw [hI.opened hst]; rfl
      have he := premStep_eq hwf (target := target) (st := st) ho (hsc _ _ _ ho) (fun _ => by omega)
      have hseen : ∀ o ∈ pre ++ [⟨(j, ds) :: (i, cs) :: F, Γ ++ [as], .step s⟩], ∀ s', o.cmd = .step s' →
          (s'.id, entries o.frames s') ∈ (s.id, entries ((j, ds) :: (i, cs) :: F) s) :: st.map := by
        intro o ho' s' hs'
        rcases List.mem_append.1 ho' with h | h
        · exact List.mem_cons_of_mem _ (hI.seen hst o h s' hs')
        · obtain rfl := List.mem_singleton.1 h
          simp only [Command.step.injEq] at hs'
          subst hs'; exact List.mem_cons_self ..
      have htop : (st.found || s.id == target) = true → topIdx ((j, ds) :: (i, cs) :: F) = i0 := by
        intro hf
        rcases Bool.or_eq_true_iff.1 hf with hf | hf
        · exact (hI.inside hst hf).1
        · exact ht _ _ _ ho (by simpa using hf)
      refine ⟨_, by simpa [premVisit, hst, Pos.iter] using he, ?_, ?_, ?_, ?_, ?_, ?_⟩
      · intro kv hkv
        rcases List.mem_cons.1 hkv with rfl | h
        · exact ⟨_, _, _, ho, rfl⟩
        · exact hI.sound kv h
      · intro hstop
        simp only [hend, if_true, hop, Bool.and_eq_true, beq_iff_eq] at hstop
        have hF : F = [] := by
          have := hstop.2
          cases F <;> simp_all
        subst hF
        exact stop_complete hall (.inr ⟨rfl, hj⟩) (htop hstop.1) hseen
      · intro _
        simp [hend, hop]
      · intro _; exact hseen
      · intro _ o ho' s' hs' hid
        rcases List.mem_append.1 ho' with h | h
        · simp [hI.found hst o h s' hs' hid]
        · obtain rfl := List.mem_singleton.1 h
          simp only [Command.step.injEq] at hs'
          subst hs'; simp [hid]
      · intro hns hf
        simp only [hend, if_true, hop] at hns hf
        rw [hf] at hns
        have hFne : F ≠ [] := by rintro rfl; simp at hns
        obtain ⟨g, G, hF⟩ := List.exists_cons_of_ne_nil hFne
        refine ⟨?_, by simp [hF]⟩
        have := htop hf
        rw [topIdx_cons] at this
        rw [← this, hF]
        exact topIdx_head ..

/-- The map from steps to what they refer to. -/
theorem stepToPremises_ok (hsc : ∀ F Γ s, Occ proof F Γ (.step s) → s.wellScoped F) (hu : IdsUsedOnce proof) {F Γ s}
    (ho : Occ proof F Γ (.step s)) :
    ∃ m, stepToPremises proof s.id = .ok m ∧ (∀ kv ∈ m, ∃ F Γ s, Occ proof F Γ (.step s) ∧ kv = (s.id, entries F s)) ∧
      ∀ F' Γ' s', Occ proof F' Γ' (.step s') → topIdx F' ≤ topIdx F → m.lookup s'.id = some (entries F' s') := by
  have ht : ∀ F' Γ' s', Occ proof F' Γ' (.step s') → s'.id = s.id → topIdx F' = topIdx F := by
    intro F' Γ' s' h' e
    rw [hu _ _ _ _ _ _ s.id h' ho rfl rfl (by rw [← e]; rfl) rfl]
  obtain ⟨st, e, hI⟩ := (premInv_fold hwf hsc ht).visits hwf (st := {}) ⟨by simp, by simp, by simp, by simp, by simp, by simp⟩
  have hst : st.stopped = true := by
    cases hst : st.stopped
    · have := hI.found hst ⟨F, Γ, .step s⟩ (allPositions_iff.2 ho) s rfl rfl
      have := (hI.inside hst this).2
      simp at this
    · rfl
  refine ⟨st.map, bind_ok.2 ⟨st, e, rfl⟩, hI.sound, ?_⟩
  intro F' Γ' s' ho' hle
  have hmem := hI.stop hst F' Γ' s' ho' hle
  have huniq : ∀ v, (s'.id, v) ∈ st.map → v = entries F' s' := by
    intro v hv
    obtain ⟨F2, Γ2, s2, h2, e2⟩ := hI.sound _ hv
    simp only [Prod.mk.injEq] at e2
    obtain rfl := hu _ _ _ _ _ _ s'.id ho' h2 rfl rfl rfl (by rw [e2.1]; rfl)
    have := ho'.cmd_inj h2
    simp only [Command.step.injEq] at this
    rw [e2.2, this]
  clear hst hI e
  generalize st.map = m at *
  induction m with
  | nil => simp at hmem
  | cons a m ih =>
    obtain ⟨k, v⟩ := a
    rw [List.lookup_cons]
    by_cases hk : s'.id = k
    · subst hk
      simp only [beq_self_eq_true]
      rw [huniq v (List.mem_cons_self ..)]
    · have : (s'.id == k) = false := by simpa using hk
      simp only [this]
      refine ih ?_ (fun v hv => huniq v (List.mem_cons_of_mem _ hv))
      rcases List.mem_cons.1 hmem with h | h
      · simp only [Prod.mk.injEq] at h; exact absurd h.1 hk
      · exact h

end

end Carcara
