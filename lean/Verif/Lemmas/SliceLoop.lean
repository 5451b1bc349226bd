import Verif.Lemmas.SliceCopy

/-!
# The loop that copies keeps its invariant
-/

namespace Carcara

section
variable {proof : List Command} (hwf : Command.wfL proof = true) (hu : IdsUsedOnce proof)
  (hsc : ∀ F Γ s, Occ proof F Γ (.step s) → s.wellScoped F) {keep : KeepMap} {target : String} {prem : PremiseMap}
  (hk : KeepOK proof prem keep target)
include hwf hu

/-- A command that has not been visited has no place yet. -/
theorem not_indexed {pre post : List Pos} {F Γ} {c : Command} {F' : Frames} {st : SliceState} {G p L} {o : Pos}
    (hall : allPositions proof = pre ++ o :: post) (h : Placed proof keep target pre F' st G p L) (ho : Occ proof F Γ c)
    (hc : c.isLeaf = true) (hlt : F = o.frames) (hk : F.isEnd → keep.lookup c.name ≠ some true) : st.index.lookup c.name = none := by
  cases hi : st.index.lookup c.name with
  | none => rfl
  | some v =>
    exfalso
    obtain ⟨o', h1, h2, h3⟩ := h.keys _ _ hi
    have ho' : Occ proof o'.frames o'.ctx o'.cmd := allPositions_iff.1 (by rw [hall]; exact List.mem_append_left _ h1)
    have hlt' := not_visited hall h1
    have hl := name_leaf hwf hu ho' ho h2
    have hlc : leafFrames F c = F := by cases c <;> first | rfl | simp [Command.isLeaf] at hc
    rw [hlc] at hl
    by_cases hleaf : o'.cmd.isLeaf = true
    · have : leafFrames o'.frames o'.cmd = o'.frames := by
        cases hh : o'.cmd <;> first | rfl | (rw [hh] at hleaf; simp [Command.isLeaf] at hleaf)
      rw [this] at hl
      rw [hl, hlt] at hlt'
      exact pathLt_irrefl _ hlt'
    · have hke := h3.resolve_left hleaf
      cases hh : o'.cmd with
      | subproof ds as n =>
        rw [hh] at ho' hl
        refine hk ?_ hke
        rw [← hl]
        exact isEnd_leaf hwf ho'
      | _ => rw [hh] at hleaf; simp [Command.isLeaf] at hleaf

include hsc hk in
theorem sliceInv_fold : FoldInv proof (fun st o => sliceVisit keep prem target st (o.cmd, o.iter)) (SliceInv proof keep target) := by
  refine ⟨?_, ?_, ?_⟩
  · -- neither a subproof nor a step that closes one
    intro pre post i cs F Γ c st hall ho hleaf hne ⟨G, p, L, h⟩
    have hid := Command.id_name (ho.wf hwf)
    have hcl : c.isLeaf = true := by
      cases c with
      | subproof ds as n => exact absurd rfl (hleaf ds as n)
      | _ => rfl
    have htop : topIdx ((i, cs) :: F) ≤ topIdx ((i + 1, cs) :: F) := by
      cases F with
      | nil => simp [topIdx]
      | cons g F => rw [topIdx_head i (i + 1)]; exact Nat.le_refl _
    cases hkc : keep.lookup c.name with
    | none =>
      refine ⟨st, ?_, ?_⟩
      · simp only [sliceVisit]
        exact bind_ok.2 ⟨_, hid, by rw [hkc]⟩
      · have hnt : ∀ s, c = .step s → s.id ≠ target := by
          rintro s rfl e
          simp only [Command.name_step, e, hk.target] at hkc
          simp at hkc
        rcases h.isOpen.next with ⟨rfl, hop⟩ | hop
        · refine ⟨_, p, L, h.skip hop h.holders.head ⟨?_, h.levels.2⟩ htop hnt⟩
          intro j hj d hd hkd
          by_cases hji : j = i
          · subst hji
            have := ho.head
            rw [hd] at this; cases this
            rw [hkc] at hkd; simp at hkd
          · exact h.levels.1 j (by omega) d hd hkd
        · exact ⟨G, p, L, h.skip hop h.holders h.levels htop hnt⟩
    | some need =>
      obtain rfl := h.isOpen.eq (hk.isOpen _ _ _ ho hne (by rw [hkc]; rfl))
      cases c with
      | subproof ds as n => exact absurd rfl (hleaf ds as n)
      | assume id t =>
        simp only [Command.name_assume] at hkc
        refine ⟨_, bind_ok.2 ⟨id, rfl, ?_⟩, _, p ++ [.assume id t], L, Placed.add hwf hu h rfl ho hne
          (c' := .assume id t) (child' := st.child) ?_ ?_ rfl rfl (.inr rfl) (by simp) rfl⟩
        · rw [hkc]
          refine bind_ok.2 ⟨_, by rw [h.stack]; exact place_stackOf .., ?_⟩
          simp [← h.seen]
        · exact ⟨id, [t], rfl, rfl, rfl, rfl⟩
        · simp [OkC]
      | step s =>
        simp only [Command.name_step] at hkc
        have hend : Iter.isEndStep (Frames.iter ((i, cs) :: F)) = false := by
          cases hh : Iter.isEndStep (Frames.iter ((i, cs) :: F))
          · rfl
          · exact absurd ((isEndStep_iff _).1 hh) hne
        obtain ⟨b, hb⟩ := isPenult_ok hwf ho s.id
        obtain ⟨s', e1, e2, e3, e4⟩ := copyStep_ok hsc hk h ho hkc (fun _ => rfl) b
        have hidx : st.index.lookup s.id = none := not_indexed hwf hu hall h ho rfl rfl (fun he => absurd he hne)
        refine ⟨_, bind_ok.2 ⟨s.id, rfl, ?_⟩, _, p ++ [.step s'], L, Placed.add hwf hu h rfl ho hne
          (c' := .step s') (child' := if s.id = target then some (L.length, p.length) else st.child) ?_ ?_ rfl rfl ?_ ?_ rfl⟩
        · rw [hkc]
          refine bind_ok.2 ⟨b, hb, bind_ok.2 ⟨s', e1, bind_ok.2 ⟨_, by rw [h.stack]; exact place_stackOf .., ?_⟩⟩⟩
          simp only [Pos.iter, hend, Bool.false_and, Bool.false_eq_true, if_false, hidx, Option.isSome_none, Command.name_step]
          by_cases ht : s.id = target
          · simp [ht]
          · have : (s.id == target) = false := by simpa using ht
            simp [ht, h.seen]
        · exact ⟨s.id, s.clause, rfl, by simp [Command.id, e2], rfl, by simp [Command.clause, e3]⟩
        · rw [OkC]; exact e4
        · by_cases ht : s.id = target
          · left; simp [ht]
          · right; simp [ht]
        · intro s1 hs1 hid1
          simp only [Command.step.injEq] at hs1
          subst hs1
          exact ⟨by simp [hid1], by simp [Command.has, e2, hid1]⟩
  · -- a subproof
    intro pre post i cs F Γ ds as n st hall ho ⟨G, p, L, h⟩
    have hid := Command.id_name (ho.wf hwf)
    have hne := sub_not_end hwf ho
    rw [endName_eq] at hid
    have htop : topIdx ((i, cs) :: F) ≤ topIdx ((0, ds) :: (i, cs) :: F) := by rw [topIdx_cons]; exact Nat.le_refl _
    have hskip : keep.lookup (endName ds) ≠ some true →
        SliceInv proof keep target (pre ++ [⟨(i, cs) :: F, Γ, .subproof ds as n⟩]) ((0, ds) :: (i, cs) :: F) st :=
      fun hnt => ⟨G, p, L, h.skip (h.isOpen.push hnt) h.holders h.levels htop (by simp)⟩
    cases hkc : keep.lookup (endName ds) with
    | none => exact ⟨st, bind_ok.2 ⟨_, hid, by rw [hkc]⟩, hskip (by rw [hkc]; simp)⟩
    | some need =>
      cases need with
      | false => exact ⟨st, bind_ok.2 ⟨_, hid, by rw [hkc]; rfl⟩, hskip (by rw [hkc]; simp)⟩
      | true =>
        have hop := hk.isOpen _ _ _ ho hne (by rw [endName_eq, hkc]; rfl)
        obtain rfl := h.isOpen.eq hop
        have hlen : F.length = L.length := by have := h.holders.length; simpa using this
        have hvis : ∀ A i' cs' B, (i, cs) :: F = A ++ (i', cs') :: B → ∀ j < i', ∀ c, cs'[j]? = some c → c.name ≠ endName ds :=
          fun A i' cs' B e j hj c hc => by rw [← endName_eq ds as n]; exact visible_name_ne hwf hu ho e hj hc
        have hanc : ∀ A j ds' g B, (i, cs) :: F = A ++ (j, ds') :: g :: B → endName ds' ≠ endName ds :=
          fun A j ds' g B e => by rw [← endName_eq ds as n]; exact ancestor_name_ne hwf hu ho hne e
        refine ⟨{ st with stack := stackOf [] ((p, as, n) :: L), index := (endName ds, (L.length, p.length)) :: st.index },
          bind_ok.2 ⟨_, hid, ?_⟩, (0, ds) :: (i, cs) :: F, [], (p, as, n) :: L, ?_⟩
        · rw [hkc]
          refine bind_ok.2 ⟨_, by rw [h.stack]; exact place_stackOf .., ?_⟩
          simp [stackOf]
        · refine ⟨⟨⟨hkc, hop⟩, by simp, .inl rfl⟩, rfl, ⟨ho.head, ?_, h.holders.insert hanc⟩,
            ⟨fun j hj => absurd hj (by omega), h.levels.insert hvis⟩, ⟨by simp [OkL], h.ok⟩, ?_, ?_, h.seen, ?_, ?_⟩
          · simp [hlen]
          · intro x v hx
            rw [List.lookup_cons] at hx
            split at hx
            · next he =>
              rw [beq_iff_eq] at he
              refine ⟨_, List.mem_append_right _ (List.mem_singleton.2 rfl), by simp only [endName_eq]; exact he.symm, .inr (by rw [he]; exact hkc)⟩
            · obtain ⟨o', h1, h2⟩ := h.keys x v hx
              exact ⟨o', List.mem_append_left _ h1, h2⟩
          · intro ch hch
            obtain ⟨c, hc⟩ := h.child ch hch
            refine ⟨c, ?_⟩
            simp only [lookupV, Option.bind_eq_bind, Option.bind_eq_some_iff, List.map_cons] at hc ⊢
            obtain ⟨l, h1, h2⟩ := hc
            refine ⟨l, ?_, h2⟩
            rw [List.reverse_cons, List.getElem?_append_left (List.getElem?_eq_some_iff.1 h1).1]; exact h1
          · rintro ⟨o', ho', s, hs, hid'⟩
            rcases List.mem_append.1 ho' with h1 | h1
            · obtain ⟨h2, q, hq, hh⟩ := h.target ⟨o', h1, s, hs, hid'⟩
              exact ⟨h2, q, List.mem_cons_of_mem _ hq, hh⟩
            · obtain rfl := List.mem_singleton.1 h1
              simp at hs
          · intro nA hA q hq
            rw [topIdx_cons]
            exact h.sorted nA hA q (by simpa using hq)
  · -- a step that closes a subproof
    intro pre post j ds i cs F Γ s as n st hall hp ho hj ⟨G, p, L, h⟩
    obtain ⟨Γ', as', n', -, hp', hpn⟩ := close_name hwf ho hj
    have hne := sub_not_end hwf hp'
    rw [endName_eq] at hpn
    have hend : Iter.isEndStep (Frames.iter ((j, ds) :: (i, cs) :: F)) = true := (isEndStep_iff _).2 hj
    have hFe : Frames.isEnd ((j, ds) :: (i, cs) :: F) := hj
    have htop : topIdx ((j, ds) :: (i, cs) :: F) ≤ topIdx ((i + 1, cs) :: F) := by
      rw [topIdx_cons]
      cases F with
      | nil => simp [topIdx]
      | cons g F => rw [topIdx_head i (i + 1)]; exact Nat.le_refl _
    cases hkc : keep.lookup s.id with
    | none =>
      refine ⟨st, bind_ok.2 ⟨_, rfl, by rw [hkc]⟩, ?_⟩
      have hnt : ∀ s', Command.step s = .step s' → s'.id ≠ target := by
        intro s' e hid
        cases e
        rw [hid, hk.target] at hkc; simp at hkc
      have hpop := h.isOpen.pop (by simp) (by rw [hpn, hkc]; simp)
      rcases hpop.next with ⟨rfl, hop⟩ | hop
      · refine ⟨_, p, L, h.skip hop h.holders.head ⟨?_, h.levels.2⟩ htop hnt⟩
        intro k hk' d hd hkd
        by_cases hki : k = i
        · subst hki
          have := hp'.head
          rw [hd] at this; cases this
          rw [endName_eq, hpn, hkc] at hkd; simp at hkd
        · exact h.levels.1 k (by omega) d hd hkd
      · exact ⟨G, p, L, h.skip hop h.holders h.levels htop hnt⟩
    | some need =>
      have hop := hk.isOpen _ _ _ hp' hne (by rw [endName_eq, hpn, hkc]; rfl)
      obtain ⟨b, hb⟩ := isPenult_ok hwf ho s.id
      cases need with
      | false =>
        have hpop := h.isOpen.pop (by simp) (by rw [hpn, hkc]; simp)
        obtain rfl := hpop.eq hop
        obtain ⟨s', e1, e2, e3, e4⟩ := copyStep_ok hsc hk h ho hkc (by simp) b
        have hidx : st.index.lookup s.id = none :=
          not_indexed hwf hu hall h ho rfl rfl (fun _ => by rw [Command.name_step, hkc]; simp)
        have hntgt : s.id ≠ target := by rintro e; rw [e, hk.target] at hkc; simp at hkc
        have hsc' : (Command.subproof ds as' n').clause = .ok s.clause := by
          obtain ⟨s2, q1, -, q3, -⟩ := sub_close hwf hp'
          rw [show ds.length - 1 = j by omega] at q1
          have := q1.cmd_inj ho
          cases this; exact q3
        refine ⟨_, bind_ok.2 ⟨s.id, rfl, ?_⟩, _, p ++ [.step s'], L, Placed.add hwf hu h (topIdx_cons ..) hp' hne
          (c' := .step s') (o := ⟨(j, ds) :: (i, cs) :: F, Γ ++ [as], .step s⟩) (child' := st.child) ?_ ?_ ?_ rfl (.inr rfl) ?_ rfl⟩
        · rw [hkc]
          refine bind_ok.2 ⟨b, hb, bind_ok.2 ⟨s', e1, bind_ok.2 ⟨_, by rw [h.stack]; exact place_stackOf .., ?_⟩⟩⟩
          have : (s.id == target) = false := by simpa using hntgt
          simp [hidx, hntgt, h.seen, endName_eq, hpn]
        · refine ⟨s.id, s.clause, ?_, by simp [Command.id, e2], hsc', by simp [Command.clause, e3]⟩
          rw [Command.id_name (hp'.wf hwf), endName_eq, hpn]
        · rw [OkC]; exact e4
        · rw [endName_eq, hpn]; rfl
        · intro s1 hs1 hid1
          simp only [Command.step.injEq] at hs1
          subst hs1
          exact absurd hid1 hntgt
      | true =>
        obtain rfl := h.isOpen.eq (F := (j, ds) :: (i, cs) :: F) ⟨by rw [hpn]; exact hkc, hop⟩
        obtain ⟨s', e1, e2, e3, e4⟩ := copyStep_ok hsc hk h ho hkc (fun _ => rfl) b
        match L, h, e4 with
        | (p1, as1, n1) :: L, h, e4 =>
          obtain ⟨hh1, hh2, hh3⟩ := h.holders
          rw [hp'.head] at hh1
          simp only [Option.some.injEq, Command.subproof.injEq, true_and] at hh1
          obtain ⟨rfl, rfl⟩ := hh1
          rw [hpn] at hh2
          have hlen : F.length = L.length := by have := hh3.length; simpa using this
          have hsc' : (Command.subproof ds as' n').clause = .ok s.clause := by
            obtain ⟨s2, q1, -, q3, -⟩ := sub_close hwf hp'
            rw [show ds.length - 1 = j by omega] at q1
            have := q1.cmd_inj ho
            cases this; exact q3
          let new : Command := .subproof (p ++ [.step s']) as' n'
          let child' : Option (Nat × Nat) := if (st.seen || s.id == target) then some (L.length, p1.length) else
            (if s.id = target then some (L.length + 1, p.length) else st.child)
          have hchild' : child'.isSome = (st.seen || s.id == target) := by
            simp only [child']
            cases hs : (st.seen || s.id == target)
            · have := (Bool.or_eq_false_iff.1 hs)
              have hne' : s.id ≠ target := by simpa using this.2
              simp only [Bool.false_eq_true, if_false, hne', ← h.seen, this.1]
            · simp
          have hchild : ∀ ch, child' = some ch → ch = (L.length, p1.length) := by
            intro ch hch
            have hs : (st.seen || s.id == target) = true := by rw [← hchild', hch]; rfl
            simp only [child', hs, if_true, Option.some.injEq] at hch
            exact hch.symm
          refine ⟨{ stack := stackOf (p1 ++ [new]) L, index := st.index, seen := st.seen || s.id == target, child := child' },
            bind_ok.2 ⟨s.id, rfl, ?_⟩, (i + 1, cs) :: F, p1 ++ [new], L, ?_⟩
          · rw [hkc]
            refine bind_ok.2 ⟨b, hb, bind_ok.2 ⟨s', e1, bind_ok.2 ⟨_, by rw [h.stack]; exact place_stackOf .., ?_⟩⟩⟩
            simp only [Pos.iter, hend, Bool.and_self, if_true, hh2, Option.isSome_some, closeFrame, stackOf, List.map_cons,
              List.getLast?_append, List.getLast?_singleton, Option.some_or, List.length_map, List.length_cons, List.length_append,
              List.length_nil, List.dropLast_concat, List.nil_append]
            rfl
          · refine ⟨⟨hop.head, by simp, .inl rfl⟩, rfl, hh3.head, ⟨?_, h.levels.2.2⟩, ⟨?_, h.ok.2.2⟩, ?_, ?_, hchild'.symm, ?_, ?_⟩
            · intro k hk' d hd hkd
              by_cases hki : k = i
              · subst hki
                have := hp'.head
                rw [hd] at this; cases this
                refine ⟨p1.length, new, by rw [endName_eq, hpn]; exact hh2, by simp, ?_⟩
                refine ⟨s.id, s.clause, ?_, ?_, hsc', ?_⟩
                · rw [Command.id_name (hp'.wf hwf), endName_eq, hpn]
                · exact (id_subproof_snoc ..).trans (by simp [Command.id, e2])
                · simp only [new, Command.clause, clauseLast_snoc, e3]
              · obtain ⟨k', d', q1, q2, q3⟩ := h.levels.2.1 k (by omega) d hd hkd
                refine ⟨k', d', q1, ?_, q3⟩
                rw [List.getElem?_append_left (List.getElem?_eq_some_iff.1 q2).1, q2]
            · refine h.ok.2.1.snoc ?_
              simp only [new]
              rw [OkC]
              refine OkL.snoc (by simpa using h.ok.1) ?_
              rw [OkC]
              simpa using e4
            · intro x v hx
              obtain ⟨o', h1, h2⟩ := h.keys x v hx
              exact ⟨o', List.mem_append_left _ h1, h2⟩
            · intro ch hch
              rw [hchild ch hch]
              have := lookupV_of [] (p1 ++ [new]) (L.map (·.1)) p1.length
              simp only [List.nil_append, List.length_map] at this
              exact ⟨new, by rw [this]; simp⟩
            · rintro ⟨o', ho', s1, hs1, hid1⟩
              rcases List.mem_append.1 ho' with h1 | h1
              · obtain ⟨h2, q, hq, hh⟩ := h.target ⟨o', h1, s1, hs1, hid1⟩
                refine ⟨by simp [h2], ?_⟩
                rcases List.mem_cons.1 hq with rfl | hq
                · exact ⟨p1 ++ [new], List.mem_cons_self .., by simp [new, hasL_append, Command.hasL, Command.has, hh]⟩
                · rcases List.mem_cons.1 hq with rfl | hq
                  · exact ⟨_, List.mem_cons_self .., by simp [hasL_append, hh]⟩
                  · exact ⟨q, List.mem_cons_of_mem _ hq, hh⟩
              · obtain rfl := List.mem_singleton.1 h1
                simp only [Command.step.injEq] at hs1
                subst hs1
                exact ⟨by simp [hid1], p1 ++ [new], List.mem_cons_self .., by simp [new, hasL_append, Command.hasL, Command.has, e2, hid1]⟩
            · intro nA hA q hq
              cases L with
              | nil =>
                have hF0 : F = [] := List.length_eq_zero_iff.1 (by simpa using hlen)
                subst hF0
                obtain ⟨q1, q2⟩ := h.sorted nA hA p1 (by simp)
                simp only [List.map_nil, List.getLast?_singleton, Option.some.injEq] at hq
                subst hq
                have hcs : cs = proof := by
                  obtain ⟨k, hk⟩ := hp'.last
                  simp at hk; exact hk.2
                subst hcs
                refine ⟨List.pairwise_append.2 ⟨q1, by simp, ?_⟩, ?_⟩
                · intro a _ b' hb' hba
                  rw [List.mem_singleton.1 hb'] at hba
                  simp [new, Command.isAssume] at hba
                · intro hle
                  exfalso
                  have ht : topIdx [(i + 1, cs)] = i + 1 := rfl
                  rw [ht] at hle
                  have := hA.1 i (by omega) _ hp'.head
                  simp [Command.isAssume] at this
              | cons l L =>
                obtain ⟨g, F0, rfl⟩ := List.exists_cons_of_ne_nil (l := F) (by rintro rfl; simp at hlen)
                have := h.sorted nA hA q (by simpa using hq)
                rw [topIdx_head (i + 1) i]
                rw [topIdx_cons] at this
                exact this

end

end Carcara
