import Verif.Lemmas.SlicePrem

/-!
# Which commands are kept
-/

namespace Carcara

/-! ## Looking for the step -/

theorem map_dropLast_head (i j : Nat) (cs : List Command) (F : Frames) :
    List.map (·.2) (List.dropLast ((i, cs) :: F)) = List.map (·.2) (List.dropLast ((j, cs) :: F)) := by cases F <;> simp

theorem before_mem {proof : List Command} {pre post : List Pos} {o : Pos} (hall : allPositions proof = pre ++ o :: post) {F Γ c}
    (h : Occ proof F Γ c) (hlt : pathLt F.path o.frames.path) : (⟨F, Γ, c⟩ : Pos) ∈ pre := by
  have hmem : (⟨F, Γ, c⟩ : Pos) ∈ allPositions proof := allPositions_iff.2 h
  have hsort := allPositions_sorted proof
  rw [hall] at hmem hsort
  rcases List.mem_append.1 hmem with h | h
  · exact h
  · exfalso
    rcases List.mem_cons.1 h with h | h
    · rw [← h] at hlt; exact pathLt_irrefl _ hlt
    · have h2 := (List.pairwise_cons.1 (List.pairwise_append.1 hsort).2.1).1 _ h
      have : ∀ p q, pathLt p q → ¬ pathLt q p := by
        intro p
        induction p with
        | nil => intro q; cases q <;> simp [pathLt]
        | cons a p ih =>
          intro q
          cases q with
          | nil => simp [pathLt]
          | cons b q =>
            simp only [pathLt]
            rintro (h | ⟨rfl, h⟩) (h' | ⟨e, h'⟩)
            · omega
            · omega
            · omega
            · exact ih q h h'
      exact this _ _ hlt h2

theorem not_visited {proof : List Command} {pre post : List Pos} {o o' : Pos} (hall : allPositions proof = pre ++ o :: post) (h : o' ∈ pre) :
    pathLt o'.frames.path o.frames.path := by
  have hsort := allPositions_sorted proof
  rw [hall] at hsort
  exact (List.pairwise_append.1 hsort).2.2 _ h _ (List.mem_cons_self ..)

/-- The invariant of the search. -/
structure FindInv (id : String) (Ft : Frames) (pre : List Pos) (F : Frames) (st : FindState) : Prop where
  stack : st.result = none → st.subproofs = F.dropLast.map (·.2)
  before : st.result = none → ∀ o ∈ pre, o.cmd.name ≠ id
  found : ∀ c, st.result = some c → st.subproofs = Ft.dropLast.map (·.2) ∧ c.name = id ∧ c.id = .ok id ∧ c.isAssume = false

section
variable {proof : List Command} (hwf : Command.wfL proof = true) (hu : IdsUsedOnce proof)
include hwf hu

theorem findInv_fold {Ft Γt} {t : Step} (ht : Occ proof Ft Γt (.step t)) :
    FoldInv proof (fun st o => findVisit t.id st (o.cmd, o.iter)) (FindInv t.id Ft) := by
  have hdone : ∀ (st : FindState) c, st.result = some c → ∀ v, findVisit t.id st v = .ok st := by
    intro st c h v; simp [findVisit, h]
  refine ⟨?_, ?_, ?_⟩
  · intro pre post i cs F Γ c st hall ho hleaf hne hI
    cases hr : st.result with
    | some c' =>
      exact ⟨st, hdone st c' hr _, by simp [hr], by simp [hr], hI.found⟩
    | none =>
      have hend : Iter.isEndStep (Frames.iter ((i, cs) :: F)) = false := by
        cases hh : Iter.isEndStep (Frames.iter ((i, cs) :: F))
        · rfl
        · exact absurd ((isEndStep_iff _).1 hh) hne
      have hit : Pos.iter ⟨(i, cs) :: F, Γ, c⟩ = Frames.iter ((i, cs) :: F) := by
        cases c with
        | subproof ds as n => exact absurd rfl (hleaf ds as n)
        | _ => rfl
      have hid := Command.id_name (ho.wf hwf)
      have hstack : (match c with
          | .subproof cs _ _ => cs :: st.subproofs
          | _ => st.subproofs) = st.subproofs := by
        cases c with
        | subproof ds as n => exact absurd rfl (hleaf ds as n)
        | _ => rfl
      refine ⟨{ subproofs := st.subproofs, result := if c.name = t.id then some c else none }, ?_, ?_, ?_, ?_⟩
      · simp only [findVisit, hr, hit, hend, hstack]
        exact bind_ok.2 ⟨_, hid, by simp⟩
      · intro _
        rw [map_dropLast_head (i + 1) i]; exact hI.stack hr
      · intro hn o ho'
        rcases List.mem_append.1 ho' with h | h
        · exact hI.before hr o h
        · obtain rfl := List.mem_singleton.1 h
          intro e; simp only at hn e; rw [if_pos e] at hn; simp at hn
      · intro c' hc'
        by_cases hn : c.name = t.id
        · simp only [hn, if_true, Option.some.injEq] at hc'
          subst hc'
          have hlf := name_leaf hwf hu ho ht hn
          have hFt : (i, cs) :: F = Ft := by
            cases c with
            | subproof ds as n => exact absurd rfl (hleaf ds as n)
            | _ => exact hlf
          refine ⟨by rw [← hFt]; exact hI.stack hr, hn, by rw [hid, hn], ?_⟩
          subst hFt
          rw [ho.cmd_inj ht]; rfl
        · simp [hn] at hc'
  · intro pre post i cs F Γ ds as n st hall ho hI
    cases hr : st.result with
    | some c' =>
      exact ⟨st, hdone st c' hr _, by simp [hr], by simp [hr], hI.found⟩
    | none =>
      obtain ⟨s, hs, hsn, -, hlen⟩ := sub_close hwf ho
      have hend : Iter.isEndStep (Pos.iter ⟨(i, cs) :: F, Γ, .subproof ds as n⟩) = false := by
        simp [Pos.iter, Iter.isEndStep, Iter.isInSubproof, Iter.depth, Frames.iter]
        omega
      have hid := Command.id_name (ho.wf hwf)
      refine ⟨{ subproofs := ds :: st.subproofs,
                result := if (Command.subproof ds as n).name = t.id then some (.subproof ds as n) else none }, ?_, ?_, ?_, ?_⟩
      · simp only [findVisit, hr, hend]
        exact bind_ok.2 ⟨_, hid, by simp⟩
      · intro _
        simp [hI.stack hr]
      · intro hn o ho'
        rcases List.mem_append.1 ho' with h | h
        · exact hI.before hr o h
        · obtain rfl := List.mem_singleton.1 h
          intro e; simp only at hn e; rw [if_pos e] at hn; simp at hn
      · intro c' hc'
        by_cases hn : (Command.subproof ds as n).name = t.id
        · simp only [hn, if_true, Option.some.injEq] at hc'
          subst hc'
          have hlf := name_leaf hwf hu ho ht hn
          simp only [leafFrames] at hlf
          refine ⟨by rw [← hlf]; simp [hI.stack hr], hn, by rw [hid, hn], rfl⟩
        · simp [hn] at hc'
  · intro pre post j ds i cs F Γ s as n st hall hp ho hj hI
    cases hr : st.result with
    | some c' =>
      exact ⟨st, hdone st c' hr _, by simp [hr], by simp [hr], hI.found⟩
    | none =>
      have hend : Iter.isEndStep (Frames.iter ((j, ds) :: (i, cs) :: F)) = true := (isEndStep_iff _).2 hj
      obtain ⟨Γ', as', n', -, hp', hnm⟩ := close_name hwf ho hj
      have hb : (⟨(i, cs) :: F, Γ', .subproof ds as' n'⟩ : Pos) ∈ pre := by
        refine before_mem hall hp' ?_
        have : Frames.path ((j, ds) :: (i, cs) :: F) = Frames.path ((i, cs) :: F) ++ [j] := by simp [Frames.path]
        rw [this]
        have := (pathLt_append (Frames.path ((i, cs) :: F)) [] [j]).2 (by simp [pathLt])
        simpa using this
      have hne : s.id ≠ t.id := by
        have := hI.before hr _ hb
        simp only [hnm] at this; exact this
      refine ⟨{ subproofs := st.subproofs.tail, result := none }, ?_, ?_, ?_, ?_⟩
      · simp only [findVisit, hr, Pos.iter, hend]
        exact bind_ok.2 ⟨s.id, rfl, by simp [hne]⟩
      · intro _
        rw [hI.stack hr, map_dropLast_head (i + 1) i]; simp
      · intro _ o ho'
        rcases List.mem_append.1 ho' with h | h
        · exact hI.before hr o h
        · obtain rfl := List.mem_singleton.1 h; simpa using hne
      · simp

/-- The search finds the step, or the subproof it closes. -/
theorem find_ok {Ft Γt} {t : Step} (ht : Occ proof Ft Γt (.step t)) :
    ∃ st c, (Iter.start proof).visits.foldlM (findVisit t.id) {} = .ok st ∧ st.result = some c ∧ c.id = .ok t.id ∧ c.isAssume = false ∧
      st.subproofs = Ft.dropLast.map (·.2) := by
  obtain ⟨st, e, hI⟩ := (findInv_fold hwf hu ht).visits hwf (st := {}) ⟨by simp, by simp, by simp⟩
  cases hr : st.result with
  | none => exact absurd rfl (hI.before hr ⟨Ft, Γt, .step t⟩ (allPositions_iff.2 ht))
  | some c =>
    obtain ⟨h1, -, h3, h4⟩ := hI.found c hr
    exact ⟨st, c, e, hr, h3, h4, h1⟩

end

/-! ## Breadth first search -/

theorem lookup_foldl_true : ∀ (ids : List String) (keep : KeepMap) (j : String),
    (ids.foldl (fun keep i => (i, true) :: keep) keep).lookup j = if j ∈ ids then some true else keep.lookup j
  | [], keep, j => by simp
  | i :: ids, keep, j => by
    rw [List.foldl_cons, lookup_foldl_true ids]
    by_cases h : j ∈ ids
    · simp [h]
    · by_cases hj : j = i
      · subst hj; simp [h]
      · have : (j == i) = false := by simpa using hj
        simp [h, hj, List.lookup_cons, this]

theorem lookup_foldl_keep : ∀ (ids : List String) (keep : KeepMap) (j : String),
    (ids.foldl (fun keep i => (i, (keep.lookup i).getD false) :: keep) keep).lookup j =
      if j ∈ ids then some ((keep.lookup j).getD false) else keep.lookup j
  | [], keep, j => by simp
  | i :: ids, keep, j => by
    rw [List.foldl_cons, lookup_foldl_keep ids]
    by_cases hj : j = i
    · subst hj; by_cases h : j ∈ ids <;> simp [h]
    · have : (j == i) = false := by simpa using hj
      by_cases h : j ∈ ids <;> simp [h, hj, List.lookup_cons, this]

section
variable {m : PremiseMap}

theorem keepLevels_true : ∀ {d : Nat} {ids : List String} {keep : KeepMap} {i : String}, keep.lookup i = some true →
    (keepLevels m d ids keep).lookup i = some true
  | 0, ids, keep, i, h => by rw [keepLevels, lookup_foldl_keep]; simp [h]
  | d + 1, ids, keep, i, h => by
    rw [keepLevels]
    exact keepLevels_true (by rw [lookup_foldl_true]; simp [h])

theorem keepLevels_some : ∀ {d : Nat} {ids : List String} {keep : KeepMap} {i : String}, (keep.lookup i).isSome = true ∨ i ∈ ids →
    ((keepLevels m d ids keep).lookup i).isSome = true
  | 0, ids, keep, i, h => by
    rw [keepLevels, lookup_foldl_keep]
    by_cases hi : i ∈ ids
    · simp [hi]
    · simpa [hi] using h
  | d + 1, ids, keep, i, h => by
    rw [keepLevels]
    refine keepLevels_some (.inl ?_)
    rw [lookup_foldl_true]
    by_cases hi : i ∈ ids
    · simp [hi]
    · simpa [hi] using h

theorem keepLevels_start {d : Nat} {ids : List String} {keep : KeepMap} {i : String} (h : i ∈ ids) :
    (keepLevels m (d + 1) ids keep).lookup i = some true := by
  rw [keepLevels]
  exact keepLevels_true (by rw [lookup_foldl_true]; simp [h])

theorem keepLevels_closed : ∀ {d : Nat} {ids : List String} {keep : KeepMap} {i : String},
    (keepLevels m d ids keep).lookup i = some true → keep.lookup i = some true ∨
      ∀ j ∈ premisesOf m i, ((keepLevels m d ids keep).lookup j).isSome = true
  | 0, ids, keep, i, h => by
    rw [keepLevels, lookup_foldl_keep] at h
    left
    split at h
    · cases hk : keep.lookup i <;> simp_all
    · exact h
  | d + 1, ids, keep, i, h => by
    rw [keepLevels] at h ⊢
    rcases keepLevels_closed h with h1 | h1
    · rw [lookup_foldl_true] at h1
      split at h1
      · next hi => exact .inr fun j hj => keepLevels_some (.inr (List.mem_flatMap.2 ⟨i, hi, hj⟩))
      · exact .inl h1
    · exact .inr h1

theorem keepLevels_all {Q : String → Prop} : ∀ {d : Nat} {ids : List String} {keep : KeepMap}, (∀ i ∈ ids, Q i) →
    (∀ i, Q i → (keepLevels m d ids keep).lookup i = some true → ∀ j ∈ premisesOf m i, Q j) →
    ∀ i, ((keepLevels m d ids keep).lookup i).isSome = true → (keep.lookup i).isSome = true ∨ Q i
  | 0, ids, keep, hq, _, i, h => by
    rw [keepLevels, lookup_foldl_keep] at h
    split at h
    · next hi => exact .inr (hq i hi)
    · exact .inl h
  | d + 1, ids, keep, hq, hs, i, h => by
    rw [keepLevels] at h
    have ha : ∀ j ∈ ids.flatMap (premisesOf m), Q j := by
      intro j hj
      obtain ⟨i', hi', hj'⟩ := List.mem_flatMap.1 hj
      exact hs i' (hq i' hi') (keepLevels_start hi') j hj'
    rcases keepLevels_all (Q := Q) ha (fun i' hi' ht => hs i' hi' (by rw [keepLevels]; exact ht)) i h with h1 | h1
    · rw [lookup_foldl_true] at h1
      split at h1
      · next hi => exact .inr (hq i hi)
      · exact .inl h1
    · exact .inr h1

end

/-! ## The enclosing subproofs -/

/-- The identifier of a subproof. -/
def endName (cs : List Command) : String := (Command.subproof cs [] 0).name

theorem endName_eq (cs : List Command) (as : List AnchorArg) (n : Nat) : (Command.subproof cs as n).name = endName cs := by
  simp only [endName, Command.name, Command.id]

theorem keepAssumes_lookup {i : String} : ∀ {cs : List Command} {keep : KeepMap}, (∀ (k : Nat) t, cs[k]? ≠ some (Command.assume i t)) →
    (keepAssumes cs keep).lookup i = keep.lookup i
  | [], keep, _ => by simp [keepAssumes]
  | .assume i' t :: cs, keep, h => by
    rw [keepAssumes, keepAssumes_lookup (fun k t => by simpa using h (k + 1) t), List.lookup_cons]
    have : (i == i') = false := by
      have := h 0 t
      simp only [List.getElem?_cons_zero, ne_eq, Option.some.injEq, Command.assume.injEq, and_true] at this
      simpa using fun e => this e.symm
    simp [this]
  | .step s :: cs, keep, _ => by simp [keepAssumes]
  | .subproof ds as n :: cs, keep, _ => by simp [keepAssumes]

theorem keepAssumes_origin {i : String} : ∀ {cs : List Command} {keep : KeepMap} {b : Bool}, (keepAssumes cs keep).lookup i = some b →
    keep.lookup i = some b ∨ (b = false ∧ ∃ (k : Nat) (t : Term), cs[k]? = some (Command.assume i t))
  | [], keep, b, h => by simp only [keepAssumes] at h; exact .inl h
  | .assume i' t :: cs, keep, b, h => by
    rw [keepAssumes] at h
    rcases keepAssumes_origin h with h | ⟨hb, k, t', hk⟩
    · rw [List.lookup_cons] at h
      by_cases hi : i = i'
      · subst hi; simp only [beq_self_eq_true, Option.some.injEq] at h
        exact .inr ⟨h.symm, 0, t, rfl⟩
      · have : (i == i') = false := by simpa using hi
        rw [this] at h; exact .inl h
    · exact .inr ⟨hb, k + 1, t', by simpa using hk⟩
  | .step s :: cs, keep, b, h => by simp only [keepAssumes] at h; exact .inl h
  | .subproof ds as n :: cs, keep, b, h => by simp only [keepAssumes] at h; exact .inl h

theorem keepAssumes_some {i : String} : ∀ {cs : List Command} {keep : KeepMap}, (keep.lookup i).isSome = true →
    ((keepAssumes cs keep).lookup i).isSome = true
  | [], keep, h => by simpa [keepAssumes] using h
  | .assume i' t :: cs, keep, h => by
    rw [keepAssumes]
    refine keepAssumes_some ?_
    rw [List.lookup_cons]
    split
    · rfl
    · exact h
  | .step s :: cs, keep, h => by simpa [keepAssumes] using h
  | .subproof ds as n :: cs, keep, h => by simpa [keepAssumes] using h

theorem keepContext_ok {cs : List Command} (hcs : ∃ as n, (Command.subproof cs as n).wf = true) (keep : KeepMap) :
    ∃ keep', keepContext keep cs = .ok keep' ∧
      (∀ i, (keep.lookup i).isSome = true → (keep'.lookup i).isSome = true) ∧
      keep'.lookup (endName cs) = some true ∧
      (∀ i, keep.lookup i = some true → (∀ (k : Nat) t, cs[k]? ≠ some (Command.assume i t)) → keep'.lookup i = some true) ∧
      (∀ i, (keep'.lookup i).isSome = true → (keep.lookup i).isSome = true ∨ ∃ (k : Nat) (c : Command), cs[k]? = some c ∧ c.name = i) ∧
      (∀ i, keep'.lookup i = some true → keep.lookup i = some true ∨ i = endName cs) := by
  obtain ⟨as, n, hw⟩ := hcs
  obtain ⟨init, s, hds, hl, hwl⟩ := wf_split hw
  have hlen : cs.length = init.length + 1 := by rw [hds]; simp
  obtain ⟨pen, hpen⟩ : ∃ pen, cs[cs.length - 2]? = some pen := ⟨_, List.getElem?_eq_getElem (by omega)⟩
  have hult : cs[cs.length - 1]? = some (.step s) := by rw [hds]; simp
  have hend : endName cs = s.id := by rw [endName, hds, name_subproof_snoc]; rfl
  have hpid := Command.id_name (wfL_getElem hwl hpen)
  let keep1 := keepAssumes cs keep
  let keep2 := if (keep1.lookup pen.name).isSome then keep1 else (pen.name, false) :: keep1
  have h2 : ∀ i, keep2.lookup i = keep1.lookup i ∨ (i = pen.name ∧ keep1.lookup i = none ∧ keep2.lookup i = some false) := by
    intro i
    simp only [keep2]
    split
    · exact .inl rfl
    · next hn =>
      by_cases hi : i = pen.name
      · subst hi; exact .inr ⟨rfl, Option.not_isSome_iff_eq_none.1 hn, by simp⟩
      · have : (i == pen.name) = false := by simpa using hi
        left; simp [List.lookup_cons, this]
  refine ⟨(s.id, true) :: keep2, ?_, ?_, ?_, ?_, ?_, ?_⟩
  · simp only [keepContext, if_neg (show ¬ cs.length < 2 by omega)]
    refine bind_ok.2 ⟨pen, ?_, bind_ok.2 ⟨pen.name, hpid, bind_ok.2 ⟨Command.step s, ?_, bind_ok.2 ⟨s.id, rfl, rfl⟩⟩⟩⟩
    · rw [hpen]; rfl
    · rw [hult]; rfl
  · intro i hi
    rw [List.lookup_cons]
    split
    · rfl
    · have := keepAssumes_some (cs := cs) hi
      rcases h2 i with h | ⟨_, h, _⟩
      · rw [h]; exact this
      · simp only [keep1] at h; rw [h] at this; simp at this
  · rw [hend]; simp
  · intro i hi ha
    rw [List.lookup_cons]
    split
    · rfl
    · have := keepAssumes_lookup (keep := keep) ha
      rcases h2 i with h | ⟨_, h, _⟩
      · rw [h]; exact this.trans hi
      · simp only [keep1] at h; rw [h, hi] at this; simp at this
  · intro i hi
    rw [List.lookup_cons] at hi
    split at hi
    · next he => exact .inr ⟨_, _, hult, by simpa using (beq_iff_eq.1 he).symm⟩
    · rcases h2 i with h | ⟨h, _, _⟩
      · rw [h] at hi
        obtain ⟨b, hb⟩ := Option.isSome_iff_exists.1 hi
        rcases keepAssumes_origin hb with h | ⟨_, k, t, hk⟩
        · exact .inl (by rw [h]; rfl)
        · exact .inr ⟨k, _, hk, rfl⟩
      · exact .inr ⟨_, _, hpen, h.symm⟩
  · intro i hi
    rw [List.lookup_cons] at hi
    split at hi
    · next he => exact .inr (by rw [hend]; exact beq_iff_eq.1 he)
    · rcases h2 i with h | ⟨_, _, h⟩
      · rw [h] at hi
        rcases keepAssumes_origin hi with h | ⟨h, _⟩
        · exact .inl h
        · simp at h
      · rw [h] at hi; simp at hi

theorem keepContexts_ok : ∀ {L : List (List Command)}, (∀ cs ∈ L, ∃ as n, (Command.subproof cs as n).wf = true) →
    (∀ cs ∈ L, ∀ cs' ∈ L, ∀ (k : Nat) t, cs'[k]? ≠ some (Command.assume (endName cs) t)) → ∀ keep : KeepMap,
    ∃ keep', L.foldlM keepContext keep = .ok keep' ∧
      (∀ i, (keep.lookup i).isSome = true → (keep'.lookup i).isSome = true) ∧
      (∀ cs ∈ L, keep'.lookup (endName cs) = some true) ∧
      (∀ i, keep.lookup i = some true → (∀ cs ∈ L, ∀ (k : Nat) t, cs[k]? ≠ some (Command.assume i t)) → keep'.lookup i = some true) ∧
      (∀ i, (keep'.lookup i).isSome = true → (keep.lookup i).isSome = true ∨ ∃ cs ∈ L, ∃ (k : Nat) (c : Command), cs[k]? = some c ∧ c.name = i) ∧
      (∀ i, keep'.lookup i = some true → keep.lookup i = some true ∨ ∃ cs ∈ L, i = endName cs)
  | [], _, _, keep => ⟨keep, rfl, fun _ h => h, by simp, fun _ h _ => h, fun _ h => .inl h, fun _ h => .inl h⟩
  | cs :: L, hw, hna, keep => by
    obtain ⟨k1, e1, a1, a2, a3, a4, a5⟩ := keepContext_ok (hw cs (List.mem_cons_self ..)) keep
    obtain ⟨k2, e2, b1, b2, b3, b4, b5⟩ := keepContexts_ok (L := L) (fun c hc => hw c (List.mem_cons_of_mem _ hc))
      (fun c hc c' hc' => hna c (List.mem_cons_of_mem _ hc) c' (List.mem_cons_of_mem _ hc')) k1
    refine ⟨k2, bind_ok.2 ⟨k1, e1, e2⟩, fun i h => b1 i (a1 i h), ?_, ?_, ?_, ?_⟩
    · intro c hc
      rcases List.mem_cons.1 hc with rfl | hc
      · exact b3 _ a2 (fun c' hc' => hna c (List.mem_cons_self ..) c' (List.mem_cons_of_mem _ hc'))
      · exact b2 c hc
    · intro i hi ha
      exact b3 i (a3 i hi (ha cs (List.mem_cons_self ..))) (fun c hc => ha c (List.mem_cons_of_mem _ hc))
    · intro i hi
      rcases b4 i hi with h | ⟨c, hc, r⟩
      · rcases a4 i h with h | h
        · exact .inl h
        · exact .inr ⟨cs, List.mem_cons_self .., h⟩
      · exact .inr ⟨c, List.mem_cons_of_mem _ hc, r⟩
    · intro i hi
      rcases b5 i hi with h | ⟨c, hc, r⟩
      · rcases a5 i h with h | h
        · exact .inl h
        · exact .inr ⟨cs, List.mem_cons_self .., h⟩
      · exact .inr ⟨c, List.mem_cons_of_mem _ hc, r⟩

/-! ## What the map guarantees -/

/-- All subproofs around a position are kept as such. -/
def IsOpen (keep : KeepMap) : Frames → Prop
  | f :: g :: F => keep.lookup (endName f.2) = some true ∧ IsOpen keep (g :: F)
  | _ => True

theorem IsOpen.head {keep : KeepMap} {i j : Nat} {cs : List Command} {F : Frames} (h : IsOpen keep ((i, cs) :: F)) :
    IsOpen keep ((j, cs) :: F) := by cases F <;> simpa [IsOpen] using h

theorem IsOpen.suffix {keep : KeepMap} : ∀ {A B : Frames}, IsOpen keep (A ++ B) → IsOpen keep B
  | [], _, h => h
  | [a], [], _ => trivial
  | [a], b :: B, h => h.2
  | a :: a' :: A, B, h => IsOpen.suffix (A := a' :: A) h.2

theorem isOpen_of {keep : KeepMap} : ∀ {F : Frames}, (∀ cs ∈ F.dropLast.map (·.2), keep.lookup (endName cs) = some true) → IsOpen keep F
  | [], _ => trivial
  | [f], _ => trivial
  | f :: g :: F, h => ⟨h _ (by simp), isOpen_of fun cs hc => h cs (by
      simp only [List.dropLast_cons₂, List.map_cons, List.mem_cons]; exact .inr hc)⟩

/-- What the rest of slicing relies on. -/
structure KeepOK (proof : List Command) (prem : PremiseMap) (keep : KeepMap) (target : String) : Prop where
  target : keep.lookup target = some true
  isOpen : ∀ F Γ c, Occ proof F Γ c → ¬ F.isEnd → (keep.lookup c.name).isSome = true → IsOpen keep F
  prem : ∀ F Γ s, Occ proof F Γ (.step s) → keep.lookup s.id = some true → prem.lookup s.id = some (entries F s) ∧
    ∀ p ∈ s.premises, (keep.lookup (nameAt F p)).isSome = true

theorem mem_of_lookup {α : Type} {k : String} {v : α} : ∀ {l : List (String × α)}, l.lookup k = some v → (k, v) ∈ l
  | [], h => by simp at h
  | (k', v') :: l, h => by
    rw [List.lookup_cons] at h
    split at h
    · next he => cases h; rw [beq_iff_eq.1 he]; exact List.mem_cons_self ..
    · exact List.mem_cons_of_mem _ (mem_of_lookup h)

theorem mem_dropLast_split {α : Type} {x : α} : ∀ {F : List α}, x ∈ F.dropLast → ∃ A g B, F = A ++ x :: g :: B
  | [], h => by simp at h
  | [f], h => by simp at h
  | f :: g :: F, h => by
    rw [List.dropLast_cons₂] at h
    rcases List.mem_cons.1 h with rfl | h
    · exact ⟨[], g, F, rfl⟩
    · obtain ⟨A, g', B, e⟩ := mem_dropLast_split h
      exact ⟨f :: A, g', B, by rw [e]; rfl⟩

theorem topIdx_append (A : Frames) (f : Nat × List Command) (B : Frames) : topIdx (A ++ f :: B) = topIdx (f :: B) := by
  have : (f :: B).getLast? ≠ none := by simp
  obtain ⟨x, hx⟩ := Option.ne_none_iff_exists'.1 this
  simp [topIdx, hx]

section
variable {proof : List Command} (hwf : Command.wfL proof = true) (hu : IdsUsedOnce proof)
include hwf hu

/-- Steps and assumptions have different identifiers. -/
theorem not_assume {F Γ s F' Γ' i t} (h : Occ proof F Γ (.step s)) (h' : Occ proof F' Γ' (.assume i t)) : s.id ≠ i := by
  intro e
  obtain rfl := hu _ _ _ _ _ _ s.id h h' rfl rfl rfl (by rw [e]; rfl)
  exact absurd (h.cmd_inj h') (by simp)

theorem keep_ok (hsc : ∀ F Γ s, Occ proof F Γ (.step s) → s.wellScoped F) {Ft Γt} {t : Step} (ht : Occ proof Ft Γt (.step t))
    (hctx : ∀ f ∈ Ft.dropLast, ∀ e, f.2.getLast? = some (.step e) → e.id ≠ t.id → e.premises = []) {m : PremiseMap}
    (hm1 : ∀ kv ∈ m, ∃ F Γ s, Occ proof F Γ (.step s) ∧ kv = (s.id, entries F s))
    (hm2 : ∀ F' Γ' s', Occ proof F' Γ' (.step s') → topIdx F' ≤ topIdx Ft → m.lookup s'.id = some (entries F' s')) (d : Nat) :
    ∃ keep, (Ft.dropLast.map (·.2)).reverse.foldlM keepContext (keepLevels m (d + 1) [t.id] []) = .ok keep ∧ KeepOK proof m keep t.id := by
  -- the enclosing subproofs
  have henc : ∀ cs ∈ (Ft.dropLast.map (·.2)).reverse, ∃ A j g B Γ as n, Ft = A ++ (j, cs) :: g :: B ∧ Occ proof (g :: B) Γ (.subproof cs as n) := by
    intro cs hcs
    rw [List.mem_reverse, List.mem_map] at hcs
    obtain ⟨⟨j, cs'⟩, hf, rfl⟩ := hcs
    obtain ⟨A, g, B, e⟩ := mem_dropLast_split hf
    obtain ⟨Γ', c', ho⟩ := ht.suffix (G := (j, cs') :: g :: B) (by rw [e]; exact List.suffix_append ..) (by simp)
    obtain ⟨Γ'', as, n, -, hp⟩ := ho.parent
    exact ⟨A, j, g, B, Γ'', as, n, e, hp⟩
  have hna : ∀ {F Γ s}, Occ proof F Γ (.step s) → ∀ cs ∈ (Ft.dropLast.map (·.2)).reverse, ∀ (k : Nat) t', cs[k]? ≠ some (Command.assume s.id t') := by
    intro F Γ s hs cs hcs k t' hk
    obtain ⟨A, j, g, B, Γ', as, n, -, hp⟩ := henc cs hcs
    exact not_assume hwf hu hs (Occ.sub hp hk) rfl
  have hcl : ∀ cs ∈ (Ft.dropLast.map (·.2)).reverse, ∃ F Γ s, Occ proof F Γ (.step s) ∧ s.id = endName cs ∧ cs.getLast? = some (.step s) ∧
      ∃ j g B, F = (j, cs) :: g :: B ∧ topIdx F = topIdx Ft := by
    intro cs hcs
    obtain ⟨A, j, g, B, Γ', as, n, e, hp⟩ := henc cs hcs
    obtain ⟨s, h1, h2, -, h4⟩ := sub_close hwf hp
    refine ⟨_, _, s, h1, by rw [h2, endName_eq], ?_, cs.length - 1, g, B, rfl, ?_⟩
    · rw [List.getLast?_eq_getElem?]; exact h1.head
    · rw [e, topIdx_append, topIdx_cons, topIdx_cons]
  obtain ⟨keep, e, k1, k2, k3, k4, k5⟩ := keepContexts_ok (L := (Ft.dropLast.map (·.2)).reverse)
    (fun cs hcs => by obtain ⟨A, j, g, B, Γ', as, n, -, hp⟩ := henc cs hcs; exact ⟨as, n, hp.wf hwf⟩)
    (fun cs hcs cs' hcs' k t' => by
      obtain ⟨F, Γ, s, hs, hsn, -⟩ := hcl cs hcs
      rw [← hsn]; exact hna hs cs' hcs' k t') (keepLevels m (d + 1) [t.id] [])
  refine ⟨keep, e, ?_⟩
  have hopent : IsOpen keep Ft := isOpen_of fun cs hcs => k2 cs (List.mem_reverse.2 hcs)
  have htrue : ∀ {F Γ s}, Occ proof F Γ (.step s) → (keepLevels m (d + 1) [t.id] []).lookup s.id = some true → keep.lookup s.id = some true :=
    fun ho h => k3 _ h (hna ho)
  -- identifiers of commands inside kept subproofs
  let Q : String → Prop := fun i => ∀ F Γ c, Occ proof F Γ c → ¬ F.isEnd → c.name = i → IsOpen keep F ∧ topIdx F ≤ topIdx Ft
  have hQof : ∀ {F Γ c}, Occ proof F Γ c → IsOpen keep F → topIdx F ≤ topIdx Ft → Q c.name := by
    intro F Γ c ho hop htop F' Γ' c' ho' hne' hn
    by_cases hne : F.isEnd
    · match F, ho, hne, hop, htop with
      | (j, ds) :: f :: F, ho, hne, hop, htop =>
        have hstep : ∃ s, c = .step s := by
          obtain ⟨Γ'', as, n, -, hp⟩ := ho.parent
          obtain ⟨s, h1, -⟩ := sub_close hwf hp
          simp only [Frames.isEnd] at hne
          rw [show ds.length - 1 = j by omega] at h1
          exact ⟨s, ho.cmd_inj h1⟩
        obtain ⟨s, rfl⟩ := hstep
        obtain ⟨Γ'', as, n, -, hp, hpn⟩ := close_name hwf ho hne
        obtain ⟨rfl, -⟩ := name_inj hwf hu ho' hp hne' (sub_not_end hwf hp) (by rw [hpn, hn]; rfl)
        exact ⟨hop.2, by rw [topIdx_cons] at htop; exact htop⟩
    · obtain ⟨rfl, -⟩ := name_inj hwf hu ho' ho hne' hne hn
      exact ⟨hop, htop⟩
  have hQopen : ∀ {F Γ s}, Occ proof F Γ (.step s) → keep.lookup s.id = some true → Q s.id → IsOpen keep F ∧ topIdx F ≤ topIdx Ft := by
    intro F Γ s ho hk hq
    by_cases hne : F.isEnd
    · match F, ho, hne with
      | (j, ds) :: f :: F, ho, hne =>
        obtain ⟨Γ'', as, n, -, hp, hpn⟩ := close_name hwf ho hne
        obtain ⟨h1, h2⟩ := hq _ _ _ hp (sub_not_end hwf hp) hpn
        refine ⟨⟨?_, h1⟩, by rw [topIdx_cons]; exact h2⟩
        rw [endName_eq] at hpn
        simp only [hpn]; exact hk
    · exact hq _ _ _ ho hne rfl
  have hQstep : ∀ i, Q i → (keepLevels m (d + 1) [t.id] []).lookup i = some true → ∀ j ∈ premisesOf m i, Q j := by
    intro i hq hi j hj
    simp only [premisesOf] at hj
    cases hl : m.lookup i with
    | none => rw [hl] at hj; simp at hj
    | some v =>
      rw [hl] at hj
      obtain ⟨F, Γ, s, ho, hs⟩ := hm1 _ (mem_of_lookup hl)
      simp only [Prod.mk.injEq] at hs
      obtain ⟨rfl, rfl⟩ := hs
      obtain ⟨hop, htop⟩ := hQopen ho (htrue ho hi) hq
      have hrefs : ∀ p ∈ s.premises ++ s.discharge, Q (nameAt F p) := by
        intro p hp
        obtain ⟨A, k, cs, B, Γ', c, hF, hB, hlt, hc, hlk, hoc, hec⟩ := ref_occ ho (hsc _ _ _ ho) hp
        rw [nameAt, hlk]
        refine hQof hoc ?_ ?_
        · rw [hF] at hop; exact (hop.suffix).head
        · rw [hF, topIdx_append] at htop
          cases B with
          | nil => simp [topIdx] at htop ⊢; omega
          | cons b B => rw [topIdx_head p.2 k]; exact htop
      simp only [Option.getD_some, entries, List.map_append, List.map_map, List.mem_append, List.mem_map, Function.comp] at hj
      rcases hj with (⟨p, hp, rfl⟩ | ⟨p, hp, rfl⟩) | hj
      · exact hrefs p (List.mem_append_left _ hp)
      · exact hrefs p (List.mem_append_right _ hp)
      · obtain ⟨a, ha, rfl⟩ := hj
        split at ha
        · next hend =>
          rw [isEndStep_iff] at hend
          match F, ho, hend, hop, htop, ha with
          | (k, ds) :: f :: F, ho, hend, hop, htop, ha =>
            obtain ⟨-, c', hk1, hc', hn, hoc'⟩ := endPremise_eq hwf ho hend
            simp only [List.mem_singleton] at ha
            rw [ha]
            simp only [hn]
            exact hQof hoc' hop.head (by rw [topIdx_head (k - 1) k]; exact htop)
        · simp at ha
  have hQt : Q t.id := hQof ht hopent (Nat.le_refl _)
  have hQall : ∀ i, (keep.lookup i).isSome = true → Q i := by
    intro i hi
    rcases k4 i hi with h | ⟨cs, hcs, k, c, hk, hn⟩
    · rcases keepLevels_all (Q := Q) (by intro i hi; rw [List.mem_singleton.1 hi]; exact hQt) hQstep i h with h | h
      · simp at h
      · exact h
    · obtain ⟨A, j, g, B, Γ', as, n, hF, hp⟩ := henc cs hcs
      rw [← hn]
      refine hQof (Occ.sub hp hk) ?_ ?_
      · rw [hF] at hopent; exact hopent.suffix.head
      · rw [hF, topIdx_append, topIdx_head k j]; exact Nat.le_refl _
  refine ⟨htrue ht (keepLevels_start (List.mem_singleton.2 rfl)), ?_, ?_⟩
  · intro F Γ c ho hne hk
    exact (hQall _ hk F Γ c ho hne rfl).1
  · intro F Γ s ho hk
    have hlk := hm2 F Γ s ho (hQopen ho hk (hQall _ (by rw [hk]; rfl))).2
    refine ⟨hlk, ?_⟩
    have hmain : (keepLevels m (d + 1) [t.id] []).lookup s.id = some true → ∀ p ∈ s.premises, (keep.lookup (nameAt F p)).isSome = true := by
      intro h p hp
      rcases keepLevels_closed h with h | h
      · simp at h
      · refine k1 _ (h _ ?_)
        simp only [premisesOf, hlk, Option.getD_some, entries, List.map_append, List.map_map, List.mem_append, List.mem_map, Function.comp]
        exact .inl (.inl ⟨p, hp, rfl⟩)
    rcases k5 _ hk with h | ⟨cs, hcs, hn⟩
    · exact hmain h
    · obtain ⟨F', Γ', s', hs', hsn, hlast, j, g, B, hF', -⟩ := hcl cs hcs
      obtain rfl := hu _ _ _ _ _ _ s.id ho hs' rfl rfl rfl (by rw [hn, ← hsn]; rfl)
      have := ho.cmd_inj hs'
      simp only [Command.step.injEq] at this
      subst this
      by_cases hid : s.id = t.id
      · exact hmain (by rw [hid]; exact keepLevels_start (List.mem_singleton.2 rfl))
      · obtain ⟨A, j', g', B', _, _, _, hF, _⟩ := henc cs hcs
        rw [List.mem_reverse, List.mem_map] at hcs
        obtain ⟨f, hf, rfl⟩ := hcs
        rw [hctx f hf s hlast hid]
        simp

end

end Carcara
