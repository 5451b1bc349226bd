import Verif.Lemmas.SliceOut

/-!
# C38: slicing keeps the step
-/

namespace Carcara

/-! ## C38 -/

/-- **C38, in full.** Slicing a proof at a step gives a slice, whatever the distance. The steps refer to commands that come before them,
as the parser guarantees. -/
def C38Full : Prop :=
  ∀ (proof : List Command) (F : Frames) (Γ : List (List AnchorArg)) (s : Step) (d : Nat), Command.wfL proof = true →
    (∀ F Γ s, Occ proof F Γ (.step s) → s.wellScoped F) → Occ proof F Γ (.step s) →
    ∃ out asserts, slice proof s.id d = .ok (some (out, asserts)) ∧ IsSlice proof F s out asserts

section
variable {proof : List Command} (hwf : Command.wfL proof = true) (hsc : ∀ F Γ s, Occ proof F Γ (.step s) → s.wellScoped F)
  (hu : IdsUsedOnce proof) {F : Frames} {Γ : List (List AnchorArg)} {s : Step} (ho : Occ proof F Γ (.step s)) (he : EndsHaveNoPremises F s)
  {d : Nat} (hd : d < maxUsize)
include hwf hsc hu ho he hd

/-- **C38, for identifiers used once.** The assertions contain the assumptions if these come first. Missing: proofs whose assumptions
come later, proofs that use an identifier in two closed
subproofs, enclosing steps with premises, and the largest distance; each of them is refuted below. -/
theorem c38_slice_partial :
    ∃ out asserts, slice proof s.id d = .ok (some (out, asserts)) ∧ SliceSteps proof F s out ∧
      (AssumesFirst proof → IsSlice proof F s out asserts) := by
  obtain ⟨keep, p, ch, c, h1, h2, h3, h4, h5, h6⟩ := sliceBody_ok hwf hu hsc ho he hd
  have hkept : ∀ {F'} {s'}, Copied proof keep (Frames.before F') s' →
      (∃ F Γ s, Occ proof F Γ (.step s) ∧ (keep.lookup s.id = some true → KeptStep F F' s s') ∧ s'.id = s.id ∧
        (KeptStep F F' s s' ∨ TrustedStep F' s s')) ∧ s'.premisesScoped F' := by
    rintro F' s' ⟨F0, Γ0, s0, q1, q2, q3, ⟨q4, q5, q6, q7⟩ | ⟨q4, q5, q6, q7⟩⟩
    · have hk : KeptStep F0 F' s0 s' :=
        ⟨q2, q3, q5, q6, q7.imp fun a b ⟨c, c', r1, r2, r3⟩ => ⟨c, c', r1, (lookupV_before r2).1, r3⟩⟩
      refine ⟨⟨F0, Γ0, s0, q1, fun _ => hk, q2, .inl hk⟩, fun r hr => ?_⟩
      obtain ⟨a, -, c, c', -, r2, -⟩ := forall₂_mem_right q7 hr
      exact (lookupV_before r2).2
    · refine ⟨⟨F0, Γ0, s0, q1, fun h => by rw [q4] at h; simp at h, q2, .inr ⟨q2, q3, q5, q6, fun r hr => ?_⟩⟩, fun r hr => ?_⟩
      · obtain ⟨c, hc⟩ := q7 r hr
        exact ⟨c, (lookupV_before hc).1⟩
      · obtain ⟨c, hc⟩ := q7 r hr
        exact (lookupV_before hc).2
  have hend : ∀ {s0 : Step}, s0.premises = [ch] → s0.premisesScoped [(p.length, p ++ [.step s0])] ∧
      ∃ c, Frames.lookup [(p.length, p ++ [.step s0])] ch = some c := by
    intro s0 hs0
    have hb : Frames.before [(p.length, p ++ [.step s0])] = [p] := by simp [Frames.before]
    have := lookupV_before (hb ▸ h4)
    refine ⟨fun r hr => ?_, c, this.1⟩
    rw [hs0, List.mem_singleton] at hr
    subst hr
    exact this.2
  have hst : SliceSteps proof F s (p ++ [.step { id := "slice_end", clause := [], rule := "hole", premises := [ch], args := [trustTerm] }]) := by
    refine ⟨?_, ?_, ?_⟩
    · obtain ⟨F', Γ', s', q1, q2, q3⟩ := hasL_occ h5
        (out := p ++ [.step { id := "slice_end", clause := [], rule := "hole", premises := [ch], args := [trustTerm] }]) fun j c hj =>
        ⟨_, _, .top (by rw [List.getElem?_append_left (List.getElem?_eq_some_iff.1 hj).1]; exact hj), by
          have := h3.get hj
          simpa [Frames.before, List.take_append_of_le_length (Nat.le_of_lt (List.getElem?_eq_some_iff.1 hj).1)] using this⟩
      obtain ⟨⟨F0, Γ0, s0, r1, r2, r3, -⟩, -⟩ := hkept q3
      have hid : s0.id = s.id := by rw [← r3, q2]
      obtain rfl := hu _ _ _ _ _ _ s.id r1 ho rfl rfl (by rw [← hid]; rfl) rfl
      have := r1.cmd_inj ho
      cases this
      exact ⟨F', Γ', s', q1, r2 h2⟩
    · intro F' Γ' s' hs'
      rcases occ_ok h3 hs' with ⟨rfl, e⟩ | h
      · right
        cases e
        refine ⟨rfl, rfl, rfl, rfl, fun r hr => ?_⟩
        rw [List.mem_singleton] at hr
        subst hr
        exact (hend rfl).2
      · rw [OkC] at h
        obtain ⟨⟨F0, Γ0, s0, r1, -, -, r4⟩, -⟩ := hkept h
        exact .inl ⟨F0, Γ0, s0, r1, r4⟩
    · intro F' Γ' s' hs'
      rcases occ_ok h3 hs' with ⟨rfl, e⟩ | h
      · cases e
        exact (hend rfl).1
      · rw [OkC] at h
        exact (hkept h).2
  refine ⟨_, _, bind_ok.2 ⟨_, h1, rfl⟩, hst, fun ⟨n, hn⟩ => ⟨hst, fun i t hi => ?_⟩⟩
  refine mem_leadingAssumes (h6 n ⟨fun j hj c hc => (hn j c hc).2 hj, fun j hj c hc => ?_⟩) (i := i) ?_
  · cases hca : c.isAssume
    · rfl
    · exact absurd ((hn j c hc).1 hca) (by omega)
  · simpa using hi

end

private def pA : Term := .var "a" .bool
private def pB : Term := .var "b" .bool

/-- A proof with a subproof, in which steps refer to commands outside. -/
private def sliceExample : List Command :=
  [.assume "h0" pA, .assume "h1" pA, .step { id := "t0", clause := [pA], rule := "r", premises := [(0, 1)] },
    .subproof
      [.assume "h2" pA, .assume "h3" pB, .step { id := "t1", clause := [pB], rule := "r", premises := [(1, 1), (0, 2)] },
        .step { id := "t2", clause := [pB], rule := "r", premises := [(1, 2), (0, 0)] },
        .step { id := "t3", clause := [.op .not [pA], .op .not [pB], pB], rule := "subproof", discharge := [(1, 0), (1, 1)] }] [] 0,
    .step { id := "t4", clause := [], rule := "r", premises := [(0, 3)] }]

private def t1Frames : Frames :=
  [(2, [.assume "h2" pA, .assume "h3" pB, .step { id := "t1", clause := [pB], rule := "r", premises := [(1, 1), (0, 2)] },
    .step { id := "t2", clause := [pB], rule := "r", premises := [(1, 2), (0, 0)] },
    .step { id := "t3", clause := [.op .not [pA], .op .not [pB], pB], rule := "subproof", discharge := [(1, 0), (1, 1)] }]), (3, sliceExample)]

-- a step inside a subproof; the slice has the subproof, with a hole for `t2`, and only one of the two assumptions
example : ∃ out asserts, slice sliceExample "t1" 5 = .ok (some (out, asserts)) ∧ out ≠ [] ∧ asserts = [pA] ∧
    IsSlice sliceExample t1Frames { id := "t1", clause := [pB], rule := "r", premises := [(1, 1), (0, 2)] } out asserts := by
  have ho : Occ sliceExample t1Frames ([] ++ [[]]) (.step { id := "t1", clause := [pB], rule := "r", premises := [(1, 1), (0, 2)] }) :=
    .sub (as := []) (n := 0) (.top rfl) rfl
  obtain ⟨out, asserts, h, -, h2⟩ := c38_slice_partial (d := 5) (by decide +kernel) (fun _ _ _ => scoped_of (by decide +kernel))
    (uniqueIds_of (by decide +kernel)) ho (by
      intro f hf e he hne
      simp only [t1Frames, List.dropLast, List.mem_singleton] at hf
      subst hf
      simp at he
      subst he
      rfl) (by decide)
  have hc : (slice sliceExample "t1" 5).map (·.map fun r => (decide (r.1 = []), r.2)) = .ok (some (false, [pA])) := by decide +kernel
  refine ⟨out, asserts, h, ?_, ?_, h2 ⟨2, ?_⟩⟩
  · rw [h] at hc; simp [Except.map] at hc; exact hc.1
  · rw [h] at hc; simp [Except.map] at hc; exact hc.2
  · intro j c hj
    match j, hj with
    | 0, hj => cases hj; decide
    | 1, hj => cases hj; decide
    | 2, hj => cases hj; decide
    | 3, hj => cases hj; decide
    | 4, hj => cases hj; decide
    | j + 5, hj => simp [sliceExample] at hj

/-! ## Refutations -/

/-- An assumption after a step. -/
private def lateAssume : List Command :=
  [.step { id := "t1", clause := [pA], rule := "r" }, .assume "h" pB,
    .step { id := "t2", clause := [], rule := "q", premises := [(0, 0), (0, 1)] }]

/-- **C38 fails** for assumptions: an assumption after a step is kept, but not asserted. -/
theorem c38_assumes_fails : ∃ (proof : List Command) (F : Frames) (Γ : List (List AnchorArg)) (s : Step) (out : List Command) (asserts : List Term),
    Command.wfL proof = true ∧ (∀ F Γ s, Occ proof F Γ (.step s) → s.wellScoped F) ∧ IdsUsedOnce proof ∧ Occ proof F Γ (.step s) ∧
      slice proof s.id 5 = .ok (some (out, asserts)) ∧ ∃ i t, .assume i t ∈ out ∧ t ∉ asserts := by
  refine ⟨lateAssume, [(2, lateAssume)], [], { id := "t2", clause := [], rule := "q", premises := [(0, 0), (0, 1)] },
    lateAssume ++ [.step { id := "slice_end", clause := [], rule := "hole", premises := [(0, 2)], args := [trustTerm] }], [], by decide +kernel,
    fun _ _ _ => scoped_of (by decide +kernel), uniqueIds_of (by decide +kernel), .top rfl, by decide +kernel, "h", pB, ?_, by simp⟩
  simp [lateAssume]

/-- A subproof whose last step has a premise. -/
private def endPremises : List Command :=
  [.step { id := "t1", clause := [pA], rule := "r" },
    .subproof [.step { id := "t2", clause := [pB], rule := "r" }, .step { id := "t3", clause := [pB], rule := "r" },
      .step { id := "t4", clause := [pB], rule := "onepoint", premises := [(0, 0)] }] [] 0]

private def t2Frames : Frames :=
  [(0, [.step { id := "t2", clause := [pB], rule := "r" }, .step { id := "t3", clause := [pB], rule := "r" },
      .step { id := "t4", clause := [pB], rule := "onepoint", premises := [(0, 0)] }]), (1, endPremises)]

/-- **C38 fails** inside a subproof whose last step has premises: these are not kept, and slicing panics. -/
theorem c38_end_premises_fails : ∃ (proof : List Command) (F : Frames) (Γ : List (List AnchorArg)) (s : Step),
    Command.wfL proof = true ∧ (∀ F Γ s, Occ proof F Γ (.step s) → s.wellScoped F) ∧ IdsUsedOnce proof ∧ AssumesFirst proof ∧
      Occ proof F Γ (.step s) ∧ slice proof s.id 5 = panic := by
  refine ⟨endPremises, t2Frames, [] ++ [[]], { id := "t2", clause := [pB], rule := "r" }, by decide +kernel,
    fun _ _ _ => scoped_of (by decide +kernel), uniqueIds_of (by decide +kernel), ⟨0, ?_⟩, .sub (as := []) (n := 0) (.top rfl) rfl,
    by decide +kernel⟩
  intro j c hj
  match j, hj with
  | 0, hj => cases hj; decide
  | 1, hj => cases hj; decide
  | j + 2, hj => simp [endPremises] at hj

/-- An identifier is used again after the subproof that contains it. -/
private def reusedId : List Command :=
  [.subproof [.step { id := "x", clause := [pA], rule := "r" }, .step { id := "t1", clause := [pB], rule := "r" },
      .step { id := "t2", clause := [pB], rule := "subproof", premises := [(1, 0)] }] [] 0,
    .step { id := "x", clause := [pB], rule := "r" }, .step { id := "t3", clause := [], rule := "r", premises := [(0, 0), (0, 1)] }]

/-- **C38 fails** for identifiers used again: the step has a premise that is not in scope. -/
theorem c38_reused_ids_fails : ∃ (proof : List Command) (F : Frames) (Γ : List (List AnchorArg)) (s : Step) (out : List Command) (asserts : List Term),
    Command.wfL proof = true ∧ (∀ F Γ s, Occ proof F Γ (.step s) → s.wellScoped F) ∧ AssumesFirst proof ∧ EndsHaveNoPremises F s ∧
      Occ proof F Γ (.step s) ∧ slice proof s.id 5 = .ok (some (out, asserts)) ∧
      ∃ F' Γ' s', Occ out F' Γ' (.step s') ∧ s'.id = s.id ∧ ∃ p ∈ s'.premises, F'.lookup p = none := by
  refine ⟨reusedId, [(2, reusedId)], [], { id := "t3", clause := [], rule := "r", premises := [(0, 0), (0, 1)] },
    reusedId.take 2 ++ [.step { id := "t3", clause := [], rule := "r", premises := [(0, 0), (1, 0)] },
      .step { id := "slice_end", clause := [], rule := "hole", premises := [(0, 2)], args := [trustTerm] }], [], by decide +kernel,
    fun _ _ _ => scoped_of (by decide +kernel), ⟨0, ?_⟩, by intro f hf; simp at hf, .top rfl, by decide +kernel,
    _, _, { id := "t3", clause := [], rule := "r", premises := [(0, 0), (1, 0)] }, .top (i := 2) rfl, rfl, (1, 0), by simp, rfl⟩
  intro j c hj
  match j, hj with
  | 0, hj => cases hj; decide
  | 1, hj => cases hj; decide
  | 2, hj => cases hj; decide
  | j + 3, hj => simp [reusedId] at hj

/-- A subproof that discharges its second assumption only. -/
private def secondDischarged : List Command :=
  [.subproof [.assume "h1" pA, .assume "h2" pB, .step { id := "t1", clause := [pB], rule := "r", premises := [(1, 1)] },
      .step { id := "t2", clause := [.op .not [pB], pB], rule := "subproof", discharge := [(1, 1)] }] [] 0,
    .step { id := "t3", clause := [], rule := "r", premises := [(0, 0)] }]

private def secondDischargedSlice : List Command :=
  [.assume "h2" pB, .step { id := "t1", clause := [pB], rule := "r", premises := [(1, 0)] },
    .step { id := "t2", clause := [.op .not [pB], pB], rule := "subproof", discharge := [(1, 1)] }]

/-- Discharged assumptions are not part of C38; they do not survive: the references to them are copied without change. In the slice the
step `t2` discharges `t1`, which is not an assumption. -/
theorem c38_discharge_fails : ∃ (proof : List Command) (F : Frames) (Γ : List (List AnchorArg)) (s : Step) (out : List Command) (asserts : List Term),
    Command.wfL proof = true ∧ (∀ F Γ s, Occ proof F Γ (.step s) → s.wellScoped F) ∧ IdsUsedOnce proof ∧ AssumesFirst proof ∧
      EndsHaveNoPremises F s ∧ Occ proof F Γ (.step s) ∧ slice proof s.id 5 = .ok (some (out, asserts)) ∧
      (∀ F Γ s, Occ proof F Γ (.step s) → ∀ p ∈ s.discharge, ∃ c, F.lookup p = some c ∧ c.isAssume = true) ∧
      ∃ F' Γ' s', Occ out F' Γ' (.step s') ∧ ∃ p ∈ s'.discharge, ∃ c, F'.lookup p = some c ∧ c.isAssume = false := by
  refine ⟨secondDischarged, [(1, secondDischarged)], [], { id := "t3", clause := [], rule := "r", premises := [(0, 0)] },
    [.subproof secondDischargedSlice [] 0, .step { id := "t3", clause := [], rule := "r", premises := [(0, 0)] },
      .step { id := "slice_end", clause := [], rule := "hole", premises := [(0, 1)], args := [trustTerm] }], [], by decide +kernel,
    fun _ _ _ => scoped_of (by decide +kernel), uniqueIds_of (by decide +kernel), ⟨0, ?_⟩, by intro f hf; simp at hf, .top rfl, by decide +kernel,
    ?_, _, _, _, .sub (cs := secondDischargedSlice) (as := []) (n := 0) (j := 2) (.top (i := 0) rfl) rfl, (1, 1), by simp, _, rfl, rfl⟩
  · intro j c hj
    match j, hj with
    | 0, hj => cases hj; decide
    | 1, hj => cases hj; decide
    | j + 2, hj => simp [secondDischarged] at hj
  · have h : ((allPositions secondDischarged).all fun o => match o.cmd with
        | .step s => s.discharge.all fun p => ((o.frames.lookup p).map Command.isAssume) == some true
        | _ => true) = true := by decide +kernel
    intro F Γ s ho p hp
    have := List.all_eq_true.1 h ⟨F, Γ, .step s⟩ (allPositions_iff.2 ho)
    have := List.all_eq_true.1 this p hp
    simp only [beq_iff_eq, Option.map_eq_some_iff] at this
    exact this

/-- **C38 fails** for the largest distance: the addition overflows. -/
theorem c38_distance_fails : ∃ (proof : List Command) (F : Frames) (Γ : List (List AnchorArg)) (s : Step),
    Command.wfL proof = true ∧ (∀ F Γ s, Occ proof F Γ (.step s) → s.wellScoped F) ∧ IdsUsedOnce proof ∧ AssumesFirst proof ∧
      Occ proof F Γ (.step s) ∧ slice proof s.id maxUsize = panic := by
  refine ⟨[.step { id := "t", clause := [], rule := "r" }], [(0, _)], [], { id := "t", clause := [], rule := "r" }, by decide +kernel,
    fun _ _ _ => scoped_of (by decide +kernel), uniqueIds_of (by decide +kernel), ⟨0, ?_⟩, .top rfl, by decide +kernel⟩
  intro j c hj
  match j, hj with
  | 0, hj => cases hj; decide
  | j + 1, hj => simp at hj

/-- **C38 fails.** -/
theorem c38_fails : ¬ C38Full := by
  intro h
  obtain ⟨proof, F, Γ, s, h1, h2, -, -, h3, h4⟩ := c38_end_premises_fails
  obtain ⟨out, asserts, h5, -⟩ := h proof F Γ s 5 h1 h2 h3
  rw [h4] at h5
  simp at h5

end Carcara
