import Verif.Lemmas.Checker

/-!
# Invariants of loops over all positions of a proof
-/

namespace Carcara

/-- What has to be shown of an invariant `I`, which speaks about the positions already visited, about the frames of the next command, and
about the state. -/
structure FoldInv {σ : Type} (proof : List Command) (f : σ → Pos → Res σ) (I : List Pos → Frames → σ → Prop) : Prop where
  leaf : ∀ {pre post i cs F Γ c st}, allPositions proof = pre ++ ⟨(i, cs) :: F, Γ, c⟩ :: post → Occ proof ((i, cs) :: F) Γ c →
    (∀ ds as n, c ≠ .subproof ds as n) → ¬ Frames.isEnd ((i, cs) :: F) → I pre ((i, cs) :: F) st →
    ∃ st', f st ⟨(i, cs) :: F, Γ, c⟩ = .ok st' ∧ I (pre ++ [⟨(i, cs) :: F, Γ, c⟩]) ((i + 1, cs) :: F) st'
  sub : ∀ {pre post i cs F Γ ds as n st}, allPositions proof = pre ++ ⟨(i, cs) :: F, Γ, .subproof ds as n⟩ :: post →
    Occ proof ((i, cs) :: F) Γ (.subproof ds as n) → I pre ((i, cs) :: F) st →
    ∃ st', f st ⟨(i, cs) :: F, Γ, .subproof ds as n⟩ = .ok st' ∧
      I (pre ++ [⟨(i, cs) :: F, Γ, .subproof ds as n⟩]) ((0, ds) :: (i, cs) :: F) st'
  close : ∀ {pre post j ds i cs F Γ s as n st}, allPositions proof = pre ++ ⟨(j, ds) :: (i, cs) :: F, Γ ++ [as], .step s⟩ :: post →
    Occ proof ((i, cs) :: F) Γ (.subproof ds as n) → Occ proof ((j, ds) :: (i, cs) :: F) (Γ ++ [as]) (.step s) → j + 1 = ds.length →
    I pre ((j, ds) :: (i, cs) :: F) st →
    ∃ st', f st ⟨(j, ds) :: (i, cs) :: F, Γ ++ [as], .step s⟩ = .ok st' ∧
      I (pre ++ [⟨(j, ds) :: (i, cs) :: F, Γ ++ [as], .step s⟩]) ((i + 1, cs) :: F) st'

theorem foldlM_append_ok {α σ : Type} {f : σ → α → Res σ} : ∀ {l l' : List α} {a b c : σ}, l.foldlM f a = .ok b → l'.foldlM f b = .ok c →
    (l ++ l').foldlM f a = .ok c
  | [], _, a, b, c, h, h' => by
    simp only [List.foldlM_nil] at h
    cases h; exact h'
  | x :: l, l', a, b, c, h, h' => by
    simp only [List.foldlM_cons, List.cons_append] at h ⊢
    obtain ⟨a', h1, h2⟩ := bind_ok.1 h
    exact bind_ok.2 ⟨a', h1, foldlM_append_ok h2 h'⟩

theorem foldlM_single_ok {α σ : Type} {f : σ → α → Res σ} {x : α} {a b : σ} (h : f a x = .ok b) : [x].foldlM f a = .ok b := by
  simp only [List.foldlM_cons, List.foldlM_nil]
  exact bind_ok.2 ⟨b, h, rfl⟩

theorem positionsL_concat (F : Frames) (Γ cs) : ∀ (l l' : List Command) (i : Nat),
    positionsL F Γ cs i (l ++ l') = positionsL F Γ cs i l ++ positionsL F Γ cs (i + l.length) l'
  | [], l', i => by simp [positionsL]
  | c :: l, l', i => by
    simp only [List.cons_append, positionsL, positionsL_concat F Γ cs l l' (i + 1), List.append_assoc, List.length_cons]
    rw [show i + 1 + l.length = i + (l.length + 1) by omega]

theorem wf_split {ds : List Command} {as : List AnchorArg} {n : Nat} (h : (Command.subproof ds as n).wf = true) :
    ∃ init s, ds = init ++ [.step s] ∧ 1 ≤ init.length ∧ Command.wfL ds = true := by
  simp only [Command.wf, Bool.and_eq_true, decide_eq_true_eq, beq_iff_eq] at h
  obtain ⟨⟨h1, h2⟩, h3⟩ := h
  rcases List.eq_nil_or_concat ds with rfl | ⟨init, c, rfl⟩
  · simp at h1
  · cases c with
    | step s => exact ⟨init, s, by simp, by simpa using h1, h3⟩
    | _ => simp [Command.isStep] at h2

theorem FoldInv.run_aux {σ : Type} {proof : List Command} {f : σ → Pos → Res σ} {I : List Pos → Frames → σ → Prop}
    (h : FoldInv proof f I) (hwf : Command.wfL proof = true) (k : Nat) :
    (∀ (c : Command) i cs F Γ pre post st, c.size ≤ k → Occ proof ((i, cs) :: F) Γ c → ¬ Frames.isEnd ((i, cs) :: F) →
      allPositions proof = pre ++ positions ((i, cs) :: F) Γ c ++ post → I pre ((i, cs) :: F) st →
      ∃ st', (positions ((i, cs) :: F) Γ c).foldlM f st = .ok st' ∧ I (pre ++ positions ((i, cs) :: F) Γ c) ((i + 1, cs) :: F) st') ∧
    (∀ (l : List Command) i cs F Γ pre post st, Command.sizeL l ≤ k →
      (∀ j c, l[j]? = some c → Occ proof ((i + j, cs) :: F) Γ c ∧ ¬ Frames.isEnd ((i + j, cs) :: F)) →
      allPositions proof = pre ++ positionsL F Γ cs i l ++ post → I pre ((i, cs) :: F) st →
      ∃ st', (positionsL F Γ cs i l).foldlM f st = .ok st' ∧ I (pre ++ positionsL F Γ cs i l) ((i + l.length, cs) :: F) st') := by
  induction k with
  | zero =>
    refine ⟨fun c _ _ _ _ _ _ _ h => absurd h (by have := c.size_pos; omega), ?_⟩
    intro l i cs F Γ pre post st hl _ _ hI
    cases l with
    | nil => exact ⟨st, rfl, by simpa [positionsL] using hI⟩
    | cons c l => rw [Command.sizeL] at hl; have := c.size_pos; omega
  | succ k ih =>
    have h1 : ∀ (c : Command) i cs F Γ pre post st, c.size ≤ k + 1 → Occ proof ((i, cs) :: F) Γ c → ¬ Frames.isEnd ((i, cs) :: F) →
      allPositions proof = pre ++ positions ((i, cs) :: F) Γ c ++ post → I pre ((i, cs) :: F) st →
      ∃ st', (positions ((i, cs) :: F) Γ c).foldlM f st = .ok st' ∧
        I (pre ++ positions ((i, cs) :: F) Γ c) ((i + 1, cs) :: F) st' := by
      intro c i cs F Γ pre post st hs ho hne hall hI
      cases c with
      | assume id t =>
        simp only [positions] at hall ⊢
        obtain ⟨st', e, hI'⟩ := h.leaf (by simpa using hall) ho (by simp) hne hI
        exact ⟨st', foldlM_single_ok e, hI'⟩
      | step s =>
        simp only [positions] at hall ⊢
        obtain ⟨st', e, hI'⟩ := h.leaf (by simpa using hall) ho (by simp) hne hI
        exact ⟨st', foldlM_single_ok e, hI'⟩
      | subproof ds as n =>
        rw [Command.size] at hs
        obtain ⟨init, s, hds, hlen, hwf'⟩ := wf_split (ho.wf hwf)
        have hsz : Command.sizeL init ≤ k := by
          have : ∀ (l : List Command) c, Command.sizeL l ≤ Command.sizeL (l ++ [c]) := by
            intro l c
            induction l with
            | nil => simp [Command.sizeL]
            | cons a l ih => simp only [List.cons_append, Command.sizeL]; omega
          have := this init (.step s)
          rw [hds] at hs; omega
        have hpos : positions ((i, cs) :: F) Γ (.subproof ds as n) =
            [⟨(i, cs) :: F, Γ, .subproof ds as n⟩] ++ positionsL ((i, cs) :: F) (Γ ++ [as]) ds 0 init ++
              [⟨(init.length, ds) :: (i, cs) :: F, Γ ++ [as], .step s⟩] := by
          rw [positions]
          conv => lhs; rw [show positionsL ((i, cs) :: F) (Γ ++ [as]) ds 0 ds =
            positionsL ((i, cs) :: F) (Γ ++ [as]) ds 0 (init ++ [.step s]) by rw [← hds]]
          rw [positionsL_concat]
          simp [positionsL, positions]
        rw [hpos] at hall ⊢
        obtain ⟨st1, e1, hI1⟩ := h.sub (post := positionsL ((i, cs) :: F) (Γ ++ [as]) ds 0 init ++
              [⟨(init.length, ds) :: (i, cs) :: F, Γ ++ [as], .step s⟩] ++ post) (by simpa using hall) ho hI
        obtain ⟨st2, e2, hI2⟩ := ih.2 init 0 ds ((i, cs) :: F) (Γ ++ [as]) (pre ++ [⟨(i, cs) :: F, Γ, .subproof ds as n⟩])
          ([⟨(init.length, ds) :: (i, cs) :: F, Γ ++ [as], .step s⟩] ++ post) st1 hsz
          (fun j c hj => by
            have hj' : j < init.length := (List.getElem?_eq_some_iff.1 hj).1
            have hdj : ds[j]? = some c := by rw [hds, List.getElem?_append_left hj']; exact hj
            refine ⟨by simpa using Occ.sub ho hdj, ?_⟩
            have hl : ds.length = init.length + 1 := by rw [hds]; simp
            simp only [Frames.isEnd]; omega)
          (by simpa using hall) hI1
        have hl : ds.length = init.length + 1 := by rw [hds]; simp
        obtain ⟨st3, e3, hI3⟩ := h.close (pre := pre ++ [⟨(i, cs) :: F, Γ, .subproof ds as n⟩] ++
          positionsL ((i, cs) :: F) (Γ ++ [as]) ds 0 init) (j := init.length) (ds := ds) (post := post) (s := s) (by simpa using hall) ho
          (Occ.sub ho (by rw [hds]; simp)) hl.symm (by simpa using hI2)
        refine ⟨st3, foldlM_append_ok (foldlM_append_ok (foldlM_single_ok e1) e2) (foldlM_single_ok e3), by simpa using hI3⟩
    refine ⟨h1, ?_⟩
    intro l
    induction l with
    | nil => intro i cs F Γ pre post st _ _ _ hI; exact ⟨st, rfl, by simpa [positionsL] using hI⟩
    | cons c l ihl =>
      intro i cs F Γ pre post st hl hocc hall hI
      rw [Command.sizeL] at hl
      rw [positionsL] at hall ⊢
      obtain ⟨ho, hne⟩ := hocc 0 c rfl
      obtain ⟨st1, e1, hI1⟩ := h1 c i cs F Γ pre (positionsL F Γ cs (i + 1) l ++ post) st (by omega) (by simpa using ho) (by simpa using hne)
        (by simpa using hall) hI
      obtain ⟨st2, e2, hI2⟩ := ihl (i + 1) cs F Γ (pre ++ positions ((i, cs) :: F) Γ c) post st1 (by omega)
        (fun j c hj => by
          have := hocc (j + 1) c (by simpa using hj)
          rwa [show i + (j + 1) = i + 1 + j by omega] at this)
        (by simpa using hall) hI1
      refine ⟨st2, foldlM_append_ok e1 e2, ?_⟩
      rw [List.length_cons, show i + (l.length + 1) = i + 1 + l.length by omega]
      simpa using hI2

/-- The principle. -/
theorem FoldInv.run {σ : Type} {proof : List Command} {f : σ → Pos → Res σ} {I : List Pos → Frames → σ → Prop}
    (h : FoldInv proof f I) (hwf : Command.wfL proof = true) {st : σ} (h0 : I [] [(0, proof)] st) :
    ∃ st', (allPositions proof).foldlM f st = .ok st' ∧ I (allPositions proof) [(proof.length, proof)] st' := by
  obtain ⟨st', e, hI⟩ := (h.run_aux hwf _).2 proof 0 proof [] [] [] [] st (Nat.le_refl _)
    (fun j c hj => ⟨by simpa using Occ.top hj, by simp [Frames.isEnd]⟩) (by simp [allPositions]) h0
  exact ⟨st', e, by simpa [allPositions] using hI⟩

theorem FoldInv.visits {σ : Type} {proof : List Command} {f : σ → Command × Iter → Res σ} {I : List Pos → Frames → σ → Prop}
    (h : FoldInv proof (fun st o => f st (o.cmd, o.iter)) I) (hwf : Command.wfL proof = true) {st : σ} (h0 : I [] [(0, proof)] st) :
    ∃ st', (Iter.start proof).visits.foldlM f st = .ok st' ∧ I (allPositions proof) [(proof.length, proof)] st' := by
  rw [visits_start, List.foldlM_map]
  exact h.run hwf h0

end Carcara
