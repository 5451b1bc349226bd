import Verif.Spec.Proof
import Verif.Lemmas.MapRes

/-!
# The loop as a fold over the positions of the proof
-/

namespace Carcara

/-- A position: frames, anchors, command. -/
structure Pos where
  frames : Frames
  ctx : List (List AnchorArg)
  cmd : Command

mutual
/-- Positions of a command and of everything inside it, in document order. -/
def positions (F : Frames) (Γ : List (List AnchorArg)) : Command → List Pos
  | .subproof cs as n => ⟨F, Γ, .subproof cs as n⟩ :: positionsL F (Γ ++ [as]) cs 0 cs
  | c => [⟨F, Γ, c⟩]
/-- Positions of the commands `l`, which start at index `i` of the list `cs`. -/
def positionsL (F : Frames) (Γ : List (List AnchorArg)) (cs : List Command) (i : Nat) : List Command → List Pos
  | [] => []
  | c :: l => positions ((i, cs) :: F) Γ c ++ positionsL F Γ cs (i + 1) l
end

/-- The iterator state while a position is being checked. -/
def Frames.iter (F : Frames) : Iter := F.map fun f => (f.1 + 1, f.2)

theorem Frames.getPremise_iter (F : Frames) (p : Nat × Nat) : F.iter.getPremise p = orPanic (F.lookup p) := by
  simp only [Iter.getPremise, Frames.iter, Frames.lookup, ← List.map_reverse, List.getElem?_map]
  cases F.reverse[p.1]? <;> simp [orPanic, bind, Except.bind, panic]

/-- Iterator state after `next` returned the command of a position. -/
def Pos.iter (o : Pos) : Iter := match o.cmd with
  | .subproof cs _ _ => (0, cs) :: o.frames.iter
  | _ => o.frames.iter

theorem Iter.visits_none {it : Iter} (h : it.next = none) : it.visits = [] := by
  rw [Iter.visits]; split <;> simp_all

theorem Iter.visits_some {it it' : Iter} {c : Command} (h : it.next = some (c, it')) :
    it.visits = (c, it') :: it'.visits := by
  rw [Iter.visits]; split
  · simp_all
  · next c' it'' h' => rw [h] at h'; simp only [Option.some.injEq, Prod.mk.injEq] at h'; rw [h'.1, h'.2]

theorem Iter.next_nil {i : Nat} {cs : List Command} {rest : Iter} (h : cs.drop i = []) :
    Iter.next ((i, cs) :: rest) = if rest = [] then none else rest.next := by
  have : cs[i]? = none := by simpa using h
  rw [Iter.next, this]

theorem Iter.next_cons {i : Nat} {cs l : List Command} {c : Command} {rest : Iter} (h : cs.drop i = c :: l) :
    Iter.next ((i, cs) :: rest) = some (c, match c with
      | .subproof sub _ _ => (0, sub) :: (i + 1, cs) :: rest
      | _ => (i + 1, cs) :: rest) := by
  have : cs[i]? = some c := by
    have := List.getElem?_drop (xs := cs) (i := i) (j := 0)
    rw [h] at this; simpa using this.symm
  rw [Iter.next, this]
  cases c <;> rfl

theorem drop_succ_of_cons {α : Type} {cs l : List α} {i : Nat} {c : α} (h : cs.drop i = c :: l) :
    cs.drop (i + 1) = l := by
  rw [← List.drop_drop, h]; rfl

/-- The iterator enumerates the positions. -/
theorem Iter.visits_eq (k : Nat) : ∀ (F : Frames) (Γ : List (List AnchorArg)) (cs : List Command) (i : Nat),
    Command.sizeL (cs.drop i) ≤ k →
    Iter.visits ((i, cs) :: F.iter) = (positionsL F Γ cs i (cs.drop i)).map (fun o => (o.cmd, o.iter)) ++
      (if F = [] then [] else Iter.visits F.iter) := by
  induction k with
  | zero =>
    intro F Γ cs i hk
    have hnil : cs.drop i = [] := by
      cases hd : cs.drop i with
      | nil => rfl
      | cons c l => rw [hd, Command.sizeL] at hk; have := c.size_pos; omega
    rw [hnil]
    simp only [positionsL, List.map_nil, List.nil_append]
    cases F with
    | nil => exact Iter.visits_none (by rw [Iter.next_nil hnil]; simp [Frames.iter])
    | cons f F =>
      rw [Iter.visits.eq_def, Iter.visits.eq_def (Frames.iter (f :: F))]
      simp only [reduceCtorEq, if_false]
      rw [Iter.next_nil hnil]
      simp [Frames.iter]
  | succ k ih =>
    intro F Γ cs i hk
    cases hd : cs.drop i with
    | nil =>
      simp only [positionsL, List.map_nil, List.nil_append]
      cases F with
      | nil => exact Iter.visits_none (by rw [Iter.next_nil hd]; simp [Frames.iter])
      | cons f F =>
        rw [Iter.visits.eq_def, Iter.visits.eq_def (Frames.iter (f :: F))]
        simp only [reduceCtorEq, if_false]
        rw [Iter.next_nil hd]
        simp [Frames.iter]
    | cons c l =>
      rw [hd, Command.sizeL] at hk
      have hl := drop_succ_of_cons hd
      have hc := c.size_pos
      have htail := ih F Γ cs (i + 1) (by rw [hl]; omega)
      rw [hl] at htail
      rw [Iter.visits_some (Iter.next_cons hd)]
      cases c with
      | subproof sub as n =>
        simp only [Command.size] at hk
        have hsub := ih ((i, cs) :: F) (Γ ++ [as]) sub 0 (by simp only [List.drop_zero]; omega)
        simp only [List.drop_zero, reduceCtorEq, if_false] at hsub
        have e : Frames.iter ((i, cs) :: F) = (i + 1, cs) :: F.iter := rfl
        rw [e] at hsub
        simp only [hsub, htail, positionsL, positions, List.map_append, List.map_cons, List.cons_append,
          List.append_assoc, Pos.iter, e]
      | assume id t =>
        have e : Frames.iter ((i, cs) :: F) = (i + 1, cs) :: F.iter := rfl
        simp only [htail, positionsL, positions, List.map_append, List.map_cons, List.map_nil, List.cons_append,
          List.nil_append, Pos.iter, e]
      | step s =>
        have e : Frames.iter ((i, cs) :: F) = (i + 1, cs) :: F.iter := rfl
        simp only [htail, positionsL, positions, List.map_append, List.map_cons, List.map_nil, List.cons_append,
          List.nil_append, Pos.iter, e]

/-- All positions of a proof. -/
def allPositions (proof : List Command) : List Pos := positionsL [] [] proof 0 proof

theorem visits_start (proof : List Command) :
    (Iter.start proof).visits = (allPositions proof).map (fun o => (o.cmd, o.iter)) := by
  have := Iter.visits_eq _ [] [] proof 0 (Nat.le_refl _)
  simpa [allPositions, Iter.start, Frames.iter] using this

/-- The loop is a fold over what the iterator returns. -/
theorem checkLoop_visits (P : Params) (cfg : Config) (prem : List Term) (k : Nat) : ∀ (it : Iter) (st : State),
    it.remaining ≤ k →
    checkLoop P cfg prem it st = it.visits.foldlM (fun st v => visitCommand P cfg prem v.2 st v.1) st := by
  induction k with
  | zero =>
    intro it st hk
    rw [checkLoop.eq_def]
    split
    · next h => rw [Iter.visits_none h]; rfl
    · next h => have := Iter.next_remaining _ _ _ h; omega
  | succ k ih =>
    intro it st hk
    rw [checkLoop.eq_def]
    split
    · next h => rw [Iter.visits_none h]; rfl
    · next c it' h =>
      have := Iter.next_remaining _ _ _ h
      rw [Iter.visits_some h, List.foldlM_cons]
      congr 1
      funext st'
      exact ih it' st' (by omega)

theorem checkLoop_start (P : Params) (cfg : Config) (prem : List Term) (proof : List Command) (st : State) :
    checkLoop P cfg prem (Iter.start proof) st =
      (allPositions proof).foldlM (fun st o => visitCommand P cfg prem o.iter st o.cmd) st := by
  rw [checkLoop_visits P cfg prem _ _ _ (Nat.le_refl _), visits_start, List.foldlM_map]

/-! ## Positions are the occurrences -/

theorem mem_positions_occ {proof : List Command} (k : Nat) :
    (∀ (c : Command) F Γ, c.size ≤ k → Occ proof F Γ c → ∀ o ∈ positions F Γ c, Occ proof o.frames o.ctx o.cmd) ∧
    (∀ (l : List Command) F Γ cs i, Command.sizeL l ≤ k → cs.drop i = l →
      (∀ j c, i ≤ j → cs[j]? = some c → Occ proof ((j, cs) :: F) Γ c) →
      ∀ o ∈ positionsL F Γ cs i l, Occ proof o.frames o.ctx o.cmd) := by
  induction k with
  | zero =>
    refine ⟨fun c _ _ h => absurd h (by have := c.size_pos; omega), ?_⟩
    intro l F Γ cs i h hd hocc o ho
    cases l with
    | nil => simp [positionsL] at ho
    | cons c l => rw [Command.sizeL] at h; have := c.size_pos; omega
  | succ k ih =>
    have h1 : ∀ (c : Command) F Γ, c.size ≤ k + 1 → Occ proof F Γ c →
        ∀ o ∈ positions F Γ c, Occ proof o.frames o.ctx o.cmd := by
      intro c F Γ hs hocc o ho
      cases c with
      | subproof cs as n =>
        rw [positions] at ho
        rcases List.mem_cons.1 ho with rfl | ho
        · exact hocc
        · rw [Command.size] at hs
          exact ih.2 cs F (Γ ++ [as]) cs 0 (by omega) rfl (fun j c _ hj => hocc.sub hj) o ho
      | assume id t =>
        rw [positions] at ho
        · obtain rfl := List.mem_singleton.1 ho; exact hocc
        · simp
      | step s =>
        rw [positions] at ho
        · obtain rfl := List.mem_singleton.1 ho; exact hocc
        · simp
    refine ⟨h1, ?_⟩
    intro l
    induction l with
    | nil => intro F Γ cs i h hd hocc o ho; simp [positionsL] at ho
    | cons c l ihl =>
      intro F Γ cs i h hd hocc o ho
      rw [Command.sizeL] at h
      rw [positionsL] at ho
      have hci : cs[i]? = some c := by
        have := List.getElem?_drop (xs := cs) (i := i) (j := 0)
        rw [hd] at this; simpa using this.symm
      rcases List.mem_append.1 ho with ho | ho
      · exact h1 c _ _ (by omega) (hocc i c (Nat.le_refl _) hci) o ho
      · exact ihl F Γ cs (i + 1) (by omega) (drop_succ_of_cons hd) (fun j c hj hc => hocc j c (by omega) hc) o ho

theorem mem_positionsL {F : Frames} {Γ cs} : ∀ (l : List Command) (i j : Nat) (c : Command), l[j]? = some c →
    ∀ o ∈ positions ((i + j, cs) :: F) Γ c, o ∈ positionsL F Γ cs i l
  | [], i, j, c, h, o, ho => by simp at h
  | a :: l, i, 0, c, h, o, ho => by
    simp only [List.getElem?_cons_zero, Option.some.injEq] at h
    subst h
    rw [positionsL]
    exact List.mem_append_left _ ho
  | a :: l, i, j + 1, c, h, o, ho => by
    simp only [List.getElem?_cons_succ] at h
    rw [positionsL]
    refine List.mem_append_right _ (mem_positionsL l (i + 1) j c h o ?_)
    rw [show i + 1 + j = i + (j + 1) by omega]; exact ho

theorem self_mem_positions (F : Frames) (Γ) (c : Command) : ⟨F, Γ, c⟩ ∈ positions F Γ c := by
  cases c <;> simp [positions]

theorem mem_allPositions {proof : List Command} {F Γ c} (h : Occ proof F Γ c) :
    ∀ o ∈ positions F Γ c, o ∈ allPositions proof := by
  induction h with
  | @top i c h =>
    intro o ho
    exact mem_positionsL proof 0 i c h o (by simpa using ho)
  | @sub F Γ cs as n j c _ hj ih =>
    intro o ho
    refine ih o ?_
    rw [positions]
    exact List.mem_cons_of_mem _ (mem_positionsL cs 0 j c hj o (by simpa using ho))

/-- The enumeration is exactly the set of occurrences. -/
theorem allPositions_iff {proof : List Command} {o : Pos} :
    o ∈ allPositions proof ↔ Occ proof o.frames o.ctx o.cmd := by
  constructor
  · intro h
    exact (mem_positions_occ _).2 proof [] [] proof 0 (Nat.le_refl _) rfl (fun j c _ hj => .top hj) o h
  · intro h
    exact mem_allPositions h _ (self_mem_positions _ _ _)

/-! ## Document order -/

theorem pathLt_append (p : List Nat) : ∀ q r, pathLt (p ++ q) (p ++ r) ↔ pathLt q r := by
  induction p with
  | nil => simp
  | cons a p ih => intro q r; simp [pathLt, ih]

theorem pathLt_irrefl : ∀ p, ¬ pathLt p p
  | [] => by simp [pathLt]
  | a :: p => by simp [pathLt, pathLt_irrefl p]

theorem positions_sorted (k : Nat) :
    (∀ (c : Command) F Γ, c.size ≤ k →
      (∀ o ∈ positions F Γ c, ∃ q, o.frames.path = F.path ++ q) ∧
      (positions F Γ c).Pairwise (fun a b => pathLt a.frames.path b.frames.path)) ∧
    (∀ (l : List Command) F Γ cs i, Command.sizeL l ≤ k →
      (∀ o ∈ positionsL F Γ cs i l, ∃ j q, i ≤ j ∧ o.frames.path = F.path ++ j :: q) ∧
      (positionsL F Γ cs i l).Pairwise (fun a b => pathLt a.frames.path b.frames.path)) := by
  induction k with
  | zero =>
    refine ⟨fun c _ _ h => absurd h (by have := c.size_pos; omega), ?_⟩
    intro l F Γ cs i h
    cases l with
    | nil => simp [positionsL]
    | cons c l => rw [Command.sizeL] at h; have := c.size_pos; omega
  | succ k ih =>
    have h1 : ∀ (c : Command) F Γ, c.size ≤ k + 1 →
        (∀ o ∈ positions F Γ c, ∃ q, o.frames.path = F.path ++ q) ∧
        (positions F Γ c).Pairwise (fun a b => pathLt a.frames.path b.frames.path) := by
      intro c F Γ hs
      cases c with
      | subproof cs as n =>
        rw [Command.size] at hs
        obtain ⟨ha, hb⟩ := ih.2 cs F (Γ ++ [as]) cs 0 (by omega)
        rw [positions]
        refine ⟨?_, ?_⟩
        · intro o ho
          rcases List.mem_cons.1 ho with rfl | ho
          · exact ⟨[], by simp⟩
          · obtain ⟨j, q, _, hq⟩ := ha o ho; exact ⟨_, hq⟩
        · refine List.pairwise_cons.2 ⟨?_, hb⟩
          intro o ho
          obtain ⟨j, q, _, hq⟩ := ha o ho
          rw [hq]
          have := (pathLt_append F.path [] (j :: q)).2 (by simp [pathLt])
          simpa using this
      | assume id t =>
        rw [positions]
        · exact ⟨by rintro o ho; obtain rfl := List.mem_singleton.1 ho; exact ⟨[], by simp⟩, by simp⟩
        · simp
      | step s =>
        rw [positions]
        · exact ⟨by rintro o ho; obtain rfl := List.mem_singleton.1 ho; exact ⟨[], by simp⟩, by simp⟩
        · simp
    refine ⟨h1, ?_⟩
    intro l
    induction l with
    | nil => intro F Γ cs i h; simp [positionsL]
    | cons c l ihl =>
      intro F Γ cs i h
      rw [Command.sizeL] at h
      obtain ⟨ha, hb⟩ := h1 c ((i, cs) :: F) Γ (by omega)
      obtain ⟨hc, hd⟩ := ihl F Γ cs (i + 1) (by omega)
      have hp : Frames.path ((i, cs) :: F) = F.path ++ [i] := by simp [Frames.path]
      rw [positionsL]
      refine ⟨?_, List.pairwise_append.2 ⟨hb, hd, ?_⟩⟩
      · intro o ho
        rcases List.mem_append.1 ho with ho | ho
        · obtain ⟨q, hq⟩ := ha o ho
          exact ⟨i, q, Nat.le_refl _, by rw [hq, hp]; simp⟩
        · obtain ⟨j, q, hj, hq⟩ := hc o ho
          exact ⟨j, q, by omega, hq⟩
      · intro a hA b hB
        obtain ⟨q, hq⟩ := ha a hA
        obtain ⟨j, r, hj, hr⟩ := hc b hB
        rw [hq, hr, hp, List.append_assoc]
        refine (pathLt_append _ _ _).2 ?_
        simp only [List.cons_append, List.nil_append, pathLt]
        left; omega

theorem allPositions_sorted (proof : List Command) :
    (allPositions proof).Pairwise (fun a b => pathLt a.frames.path b.frames.path) :=
  ((positions_sorted _).2 proof [] [] proof 0 (Nat.le_refl _)).2

/-! ## The context stack follows the anchors -/

/-- The context stack after a position has been checked. -/
def Pos.after (o : Pos) : List (List AnchorArg) := match o.cmd with
  | .subproof _ as _ => o.ctx ++ [as]
  | .step _ => if o.frames.iter.isEndStep then o.ctx.dropLast else o.ctx
  | .assume _ _ => o.ctx

/-- Each position starts with the context the previous one ends with. -/
def Linked : List (List AnchorArg) → List Pos → List (List AnchorArg) → Prop
  | Γ, [], Δ => Γ = Δ
  | Γ, o :: os, Δ => o.ctx = Γ ∧ Linked o.after os Δ

theorem Linked.append : ∀ {os Γ Δ os' Θ}, Linked Γ os Δ → Linked Δ os' Θ → Linked Γ (os ++ os') Θ
  | [], _, _, _, _, h, h' => by rw [Linked] at h; subst h; exact h'
  | _ :: os, _, _, _, _, h, h' => ⟨h.1, Linked.append h.2 h'⟩

theorem isEndStep_iter (i : Nat) (cs : List Command) (F : Frames) :
    Iter.isEndStep (Frames.iter ((i, cs) :: F)) = (decide (F ≠ []) && decide (i + 1 = cs.length)) := by
  cases F <;> simp [Iter.isEndStep, Frames.iter, Iter.isInSubproof, Iter.depth]
  rfl

theorem isEndStep_iff (F : Frames) : F.iter.isEndStep = true ↔ F.isEnd := by
  match F with
  | [] => simp [Iter.isEndStep, Frames.iter, Frames.isEnd]
  | [(i, cs)] => simp [isEndStep_iter, Frames.isEnd]
  | (i, cs) :: f :: F => simp [isEndStep_iter, Frames.isEnd]

theorem linked_positions (k : Nat) :
    (∀ (c : Command) (F : Frames) Γ, c.size ≤ k → c.wf = true → (c.isStep = true → F.iter.isEndStep = false) → F ≠ [] →
      Linked Γ (positions F Γ c) Γ) ∧
    (∀ (l : List Command) F Γ cs i, Command.sizeL l ≤ k → Command.wfL l = true → cs.drop i = l →
      (F ≠ [] → l ≠ [] ∧ cs.getLast?.map Command.isStep = some true) →
      Linked Γ (positionsL F Γ cs i l) (if F = [] then Γ else Γ.dropLast)) := by
  induction k with
  | zero =>
    refine ⟨fun c _ _ h => absurd h (by have := c.size_pos; omega), ?_⟩
    intro l F Γ cs i h _ _ hF
    cases l with
    | nil =>
      by_cases hF' : F = []
      · simp [positionsL, hF', Linked]
      · exact absurd rfl (hF hF').1
    | cons c l => rw [Command.sizeL] at h; have := c.size_pos; omega
  | succ k ih =>
    have h1 : ∀ (c : Command) (F : Frames) Γ, c.size ≤ k + 1 → c.wf = true → (c.isStep = true → F.iter.isEndStep = false) →
        F ≠ [] → Linked Γ (positions F Γ c) Γ := by
      intro c F Γ hs hwf hend hF
      cases c with
      | subproof cs as n =>
        rw [Command.size] at hs
        simp only [Command.wf, Bool.and_eq_true, decide_eq_true_eq, beq_iff_eq] at hwf
        have := ih.2 cs F (Γ ++ [as]) cs 0 (by omega) hwf.2 rfl (fun _ => ⟨by rintro rfl; simp at hwf, hwf.1.2⟩)
        rw [positions]
        refine ⟨rfl, ?_⟩
        simpa [hF, Pos.after] using this
      | assume id t =>
        rw [positions]
        · exact ⟨rfl, rfl⟩
        · simp
      | step s =>
        rw [positions]
        · exact ⟨rfl, by simp [Pos.after, hend rfl, Linked]⟩
        · simp
    refine ⟨h1, ?_⟩
    intro l
    induction l with
    | nil =>
      intro F Γ cs i h _ _ hF
      by_cases hF' : F = []
      · simp [positionsL, hF', Linked]
      · exact absurd rfl (hF hF').1
    | cons c l ihl =>
      intro F Γ cs i h hwf hd hF
      rw [Command.sizeL] at h
      simp only [Command.wfL, Bool.and_eq_true] at hwf
      have hl := drop_succ_of_cons hd
      have hlen : cs.length = i + 1 + l.length := by
        have := congrArg List.length hd
        simp only [List.length_drop, List.length_cons] at this; omega
      rw [positionsL]
      by_cases hlast : F ≠ [] ∧ l = []
      · obtain ⟨hF', rfl⟩ := hlast
        have hst := (hF hF').2
        have hcs : cs.getLast? = some c := by
          have : cs = cs.take i ++ [c] := by rw [← hd, List.take_append_drop]
          rw [this]; simp
        rw [hcs] at hst
        cases c with
        | step s =>
          rw [positions]
          · refine ⟨rfl, ?_⟩
            simp [positionsL, Linked, Pos.after, isEndStep_iter, hF', hlen]
          · simp
        | _ => simp [Command.isStep] at hst
      · have hne : Iter.isEndStep (Frames.iter ((i, cs) :: F)) = false := by
          rw [isEndStep_iter]
          by_cases hF' : F = []
          · simp [hF']
          · have : l ≠ [] := fun e => hlast ⟨hF', e⟩
            have : 0 < l.length := List.length_pos_iff.2 this
            simp only [Bool.and_eq_false_imp, decide_eq_true_eq, decide_eq_false_iff_not]
            intro _; omega
        refine Linked.append (h1 c _ Γ (by omega) hwf.1 (fun _ => hne) (by simp)) ?_
        by_cases hF' : F = []
        · exact ihl F Γ cs (i + 1) (by omega) hwf.2 hl (fun h => absurd hF' h)
        · exact ihl F Γ cs (i + 1) (by omega) hwf.2 hl (fun h => ⟨fun e => hlast ⟨hF', e⟩, (hF hF').2⟩)

theorem anyRes_true {α : Type} {f : α → Res Bool} : ∀ {l : List α}, anyRes f l = .ok true → ∃ a ∈ l, f a = .ok true
  | [], h => by simp [anyRes] at h
  | a :: l, h => by
    simp only [anyRes, bind_ok] at h
    obtain ⟨r, h1, h2⟩ := h
    split at h2
    · next hr => exact ⟨a, by simp, hr ▸ h1⟩
    · obtain ⟨b, hb, h3⟩ := anyRes_true h2; exact ⟨b, by simp [hb], h3⟩

/-! ## Characterisation of acceptance -/

/-- What the loop verifies at a position. -/
def PosOK (P : Params) (cfg : Config) (prem : List Term) (F : Frames) (Γ : List (List AnchorArg)) :
    Command → Prop
  | .assume _ t => checkAssume P cfg prem F.iter.isInSubproof t = .ok true
  | .step s => ∃ a h, ruleArgs cfg F.iter Γ s = .ok a ∧ checkStepCore P cfg F.iter a s = .ok h
  | .subproof cs as n => ∃ i, Command.id (.subproof cs as n) = .ok i

theorem checkStepCore_holey {P : Params} {cfg : Config} {it : Iter} {a : RuleArgs} {s : Step} {h : Bool}
    (hc : checkStepCore P cfg it a s = .ok h) : h = true ↔ s.holey P cfg := by
  unfold checkStepCore at hc
  unfold Step.holey
  split at hc
  · next hm => simp only [ok_inj] at hc; simp [← hc, hm]
  next hm =>
  split at hc
  · simp at hc
  split at hc
  · next hn =>
    split at hc
    · simp only [ok_inj] at hc; simp [← hc, hn]
    · simp at hc
  · next r hr =>
    simp only [bind_ok, ok_inj] at hc
    obtain ⟨_, _, hc⟩ := hc
    simp [← hc, hm, hr]

theorem outermost_iff {F : Frames} {Γ : List (List AnchorArg)} (hΓ : Γ.length + 1 = F.length) :
    (if F.iter.isEndStep then Γ.dropLast else Γ) = [] ↔ F.outermost := by
  unfold Frames.outermost
  by_cases he : F.isEnd
  · rw [if_pos ((isEndStep_iff F).2 he)]
    have h2 : 2 ≤ F.length := by
      match F, he with
      | _ :: _ :: _, _ => simp
    constructor
    · intro h
      have := congrArg List.length h
      simp only [List.length_dropLast, List.length_nil] at this
      right; exact ⟨by omega, he⟩
    · rintro (h | ⟨h, -⟩)
      · omega
      · apply List.eq_nil_of_length_eq_zero; simp; omega
  · rw [if_neg (fun h => he ((isEndStep_iff F).1 h))]
    constructor
    · intro h; rw [h] at hΓ; left; simpa using hΓ.symm
    · rintro (h | ⟨-, h⟩)
      · apply List.eq_nil_of_length_eq_zero; omega
      · exact absurd h he

theorem Occ.ctx_length {proof : List Command} {F Γ c} (h : Occ proof F Γ c) : Γ.length + 1 = F.length := by
  induction h with
  | top _ => rfl
  | sub _ _ ih => simp [ih]

/-- The flags a position contributes. -/
def Pos.flags (P : Params) (cfg : Config) (o : Pos) : Prop × Prop := match o.cmd with
  | .step s => (s.clause = [] ∧ o.frames.outermost, s.holey P cfg)
  | _ => (False, False)

theorem iter_isInSubproof (F : Frames) : F.iter.isInSubproof = decide (1 < F.length) := by
  simp only [Iter.isInSubproof, Iter.depth, Frames.iter, List.length_map]
  congr 1; apply propext; omega

theorem visit_pos {P : Params} {cfg : Config} {prem : List Term} {o : Pos} {st st' : State}
    (hctx : o.ctx = st.context) (hlen : o.ctx.length + 1 = o.frames.length) :
    visitCommand P cfg prem o.iter st o.cmd = .ok st' ↔
      PosOK P cfg prem o.frames o.ctx o.cmd ∧ st'.context = o.after ∧
      (st'.reached = true ↔ st.reached = true ∨ (o.flags P cfg).1) ∧
      (st'.holey = true ↔ st.holey = true ∨ (o.flags P cfg).2) := by
  obtain ⟨F, Γ, c⟩ := o
  obtain ⟨ctx, r, hy⟩ := st
  obtain ⟨ctx', r', hy'⟩ := st'
  simp only at hctx hlen
  subst hctx
  cases c with
  | assume id t =>
    simp only [visitCommand, PosOK, Pos.iter, Pos.after, Pos.flags, or_false]
    cases h : checkAssume P cfg prem (Frames.iter F).isInSubproof t with
    | error f => simp [bind, Except.bind]
    | ok v =>
      cases v with
      | false => simp [bind, Except.bind]
      | true =>
        simp only [bind, Except.bind, if_true, ok_inj, State.mk.injEq, true_and]
        constructor
        · rintro ⟨rfl, rfl, rfl⟩; simp
        · rintro ⟨rfl, h1, h2⟩; exact ⟨rfl, (Bool.eq_iff_iff.2 h1).symm, (Bool.eq_iff_iff.2 h2).symm⟩
  | subproof cs as n =>
    simp only [visitCommand, PosOK, Pos.after, Pos.flags, or_false, bind_ok, ok_inj, State.mk.injEq, exists_and_right]
    constructor
    · rintro ⟨h, rfl, rfl, rfl⟩; exact ⟨h, rfl, Iff.rfl, Iff.rfl⟩
    · rintro ⟨h, rfl, h1, h2⟩
      exact ⟨h, rfl, (Bool.eq_iff_iff.2 h1).symm, (Bool.eq_iff_iff.2 h2).symm⟩
  | step s =>
    simp only [visitCommand, visitStep, PosOK, Pos.iter, Pos.after, Pos.flags, bind_ok, ok_inj, State.mk.injEq]
    have ho := outermost_iff hlen
    constructor
    · rintro ⟨a, ha, h, hh, rfl, rfl, rfl⟩
      refine ⟨⟨a, h, ha, hh⟩, rfl, ?_, ?_⟩
      · simp only [Bool.or_eq_true, Bool.and_eq_true, List.isEmpty_iff]
        exact or_congr Iff.rfl (and_congr Iff.rfl ho)
      · simp only [Bool.or_eq_true, checkStepCore_holey hh]
    · rintro ⟨⟨a, h, ha, hh⟩, rfl, h1, h2⟩
      refine ⟨a, ha, h, hh, rfl, ?_, ?_⟩
      · rw [Bool.eq_iff_iff, h1]
        simp only [Bool.or_eq_true, Bool.and_eq_true, List.isEmpty_iff]
        exact or_congr Iff.rfl (and_congr Iff.rfl ho)
      · rw [Bool.eq_iff_iff, h2]
        simp only [Bool.or_eq_true, checkStepCore_holey hh]

theorem fold_positions {P : Params} {cfg : Config} {prem : List Term} : ∀ (os : List Pos) (st st' : State) (Δ),
    Linked st.context os Δ → (∀ o ∈ os, o.ctx.length + 1 = o.frames.length) →
    (os.foldlM (fun st o => visitCommand P cfg prem o.iter st o.cmd) st = .ok st' ↔
      (∀ o ∈ os, PosOK P cfg prem o.frames o.ctx o.cmd) ∧ st'.context = Δ ∧
      (st'.reached = true ↔ st.reached = true ∨ ∃ o ∈ os, (o.flags P cfg).1) ∧
      (st'.holey = true ↔ st.holey = true ∨ ∃ o ∈ os, (o.flags P cfg).2))
  | [], st, st', Δ, hl, hlen => by
    obtain ⟨ctx, r, hy⟩ := st
    obtain ⟨ctx', r', hy'⟩ := st'
    rw [Linked] at hl
    simp only at hl
    subst hl
    simp only [List.foldlM_nil, pure_ok, State.mk.injEq, List.not_mem_nil, false_and, exists_false, or_false]
    constructor
    · rintro ⟨rfl, rfl, rfl⟩; exact ⟨by simp, rfl, Iff.rfl, Iff.rfl⟩
    · rintro ⟨-, rfl, h1, h2⟩
      exact ⟨rfl, (Bool.eq_iff_iff.2 h1).symm, (Bool.eq_iff_iff.2 h2).symm⟩
  | o :: os, st, st', Δ, hl, hlen => by
    rw [List.foldlM_cons, bind_ok]
    have hv := fun st'' => visit_pos (P := P) (cfg := cfg) (prem := prem) (st' := st'') hl.1 (hlen o (by simp))
    constructor
    · rintro ⟨st1, h1, h2⟩
      obtain ⟨ok, hc, hr, hh⟩ := (hv st1).1 h1
      obtain ⟨oks, hc', hr', hh'⟩ := (fold_positions os st1 st' Δ (hc ▸ hl.2)
        (fun o ho => hlen o (List.mem_cons_of_mem _ ho))).1 h2
      refine ⟨List.forall_mem_cons.2 ⟨ok, oks⟩, hc', ?_, ?_⟩
      · rw [hr', hr]; simp [or_assoc]
      · rw [hh', hh]; simp [or_assoc]
    · rintro ⟨hok, hc, hr, hh⟩
      obtain ⟨ok, oks⟩ := List.forall_mem_cons.1 hok
      classical
      let st1 : State := ⟨o.after, decide (st.reached = true ∨ (o.flags P cfg).1),
        decide (st.holey = true ∨ (o.flags P cfg).2)⟩
      refine ⟨st1, (hv st1).2 ⟨ok, rfl, by simp [st1], by simp [st1]⟩, ?_⟩
      refine (fold_positions os st1 st' Δ hl.2 (fun o ho => hlen o (List.mem_cons_of_mem _ ho))).2
        ⟨oks, hc, ?_, ?_⟩
      · rw [hr]; simp [st1, or_assoc]
      · rw [hh]; simp [st1, or_assoc]

/-- Acceptance of a well-formed proof: every position is fine, the flag says whether some step is holey, and some
outermost step concludes the empty clause. -/
theorem check_iff {P : Params} {cfg : Config} {prem : List Term} {proof : List Command} {b : Bool}
    (hwf : Command.wfL proof = true) :
    check P cfg prem proof = .ok b ↔
      (∀ F Γ c, Occ proof F Γ c → PosOK P cfg prem F Γ c) ∧
      (b = true ↔ ∃ F Γ s, Occ proof F Γ (.step s) ∧ s.holey P cfg) ∧
      (∃ F Γ s, Occ proof F Γ (.step s) ∧ s.clause = [] ∧ F.outermost) := by
  have hlink : Linked [] (allPositions proof) [] := by
    have := (linked_positions _).2 proof [] [] proof 0 (Nat.le_refl _) hwf rfl (fun h => absurd rfl h)
    simpa [allPositions] using this
  have hfold := fun st' => fold_positions (P := P) (cfg := cfg) (prem := prem) (allPositions proof) {} st' [] hlink
    (fun o ho => (allPositions_iff.1 ho).ctx_length)
  have hpos : (∀ o ∈ allPositions proof, PosOK P cfg prem o.frames o.ctx o.cmd) ↔
      ∀ F Γ c, Occ proof F Γ c → PosOK P cfg prem F Γ c := by
    constructor
    · intro h F Γ c ho; exact h ⟨F, Γ, c⟩ (allPositions_iff.2 ho)
    · intro h o ho; exact h _ _ _ (allPositions_iff.1 ho)
  have hfl1 : (∃ o ∈ allPositions proof, (o.flags P cfg).1) ↔
      ∃ F Γ s, Occ proof F Γ (.step s) ∧ s.clause = [] ∧ F.outermost := by
    constructor
    · rintro ⟨⟨F, Γ, c⟩, ho, hf⟩
      cases c with
      | step s => exact ⟨F, Γ, s, allPositions_iff.1 ho, hf⟩
      | _ => exact absurd hf (by simp [Pos.flags])
    · rintro ⟨F, Γ, s, ho, hf⟩
      exact ⟨⟨F, Γ, .step s⟩, allPositions_iff.2 ho, hf⟩
  have hfl2 : (∃ o ∈ allPositions proof, (o.flags P cfg).2) ↔
      ∃ F Γ s, Occ proof F Γ (.step s) ∧ s.holey P cfg := by
    constructor
    · rintro ⟨⟨F, Γ, c⟩, ho, hf⟩
      cases c with
      | step s => exact ⟨F, Γ, s, allPositions_iff.1 ho, hf⟩
      | _ => exact absurd hf (by simp [Pos.flags])
    · rintro ⟨F, Γ, s, ho, hf⟩
      exact ⟨⟨F, Γ, .step s⟩, allPositions_iff.2 ho, hf⟩
  rw [check, bind_ok]
  constructor
  · rintro ⟨st', h1, h2⟩
    rw [checkLoop_start] at h1
    obtain ⟨hok, -, hr, hh⟩ := (hfold st').1 h1
    split at h2
    · next hreach =>
      simp only [ok_inj] at h2
      subst h2
      refine ⟨hpos.1 hok, ?_, ?_⟩
      · rw [hh, hfl2]; simp
      · rw [← hfl1]; simpa [hreach] using hr
    · simp at h2
  · rintro ⟨hok, hb, hre⟩
    refine ⟨⟨[], true, b⟩, ?_, by simp⟩
    rw [checkLoop_start]
    refine (hfold _).2 ⟨hpos.2 hok, rfl, ?_, ?_⟩
    · rw [hfl1]; simpa using hre
    · rw [hfl2]; simpa using hb

/-! ## What a step is checked with -/

theorem wfL_getElem {cs : List Command} : Command.wfL cs = true → ∀ {j : Nat} {c : Command}, cs[j]? = some c →
    c.wf = true := by
  induction cs with
  | nil => simp
  | cons a cs ih =>
    intro h j c hj
    simp only [Command.wfL, Bool.and_eq_true] at h
    cases j with
    | zero => simp at hj; exact hj ▸ h.1
    | succ j => exact ih h.2 (by simpa using hj)

theorem Occ.wf {proof : List Command} {F Γ c} (h : Occ proof F Γ c) (hwf : Command.wfL proof = true) :
    c.wf = true := by
  induction h with
  | top hj => exact wfL_getElem hwf hj
  | sub _ hj ih =>
    simp only [Command.wf, Bool.and_eq_true] at ih
    exact wfL_getElem ih.2 hj

theorem Occ.two_le {proof : List Command} {F : Frames} {Γ c} (h : Occ proof F Γ c) (hwf : Command.wfL proof = true)
    (he : F.isEnd) : ∃ i cs f F', F = (i + 1, cs) :: f :: F' ∧ i + 2 = cs.length := by
  cases h with
  | top hj => simp [Frames.isEnd] at he
  | @sub F Γ cs as n j c ho hj =>
    have := ho.wf hwf
    simp only [Command.wf, Bool.and_eq_true, decide_eq_true_eq] at this
    have hl := this.1.1
    cases F with
    | nil => cases ho
    | cons f F' =>
      simp only [Frames.isEnd] at he
      obtain ⟨i, rfl⟩ : ∃ i, j = i + 1 := ⟨j - 1, by omega⟩
      exact ⟨i, cs, f, F', rfl, by omega⟩

theorem previousCommand_ok {proof : List Command} {cfg : Config} {F : Frames} {Γ c} (h : Occ proof F Γ c)
    (hwf : Command.wfL proof = true) {prev : Option (List Term)} :
    previousCommand cfg F.iter = .ok prev ↔ F.previous prev := by
  unfold previousCommand Frames.previous
  by_cases he : F.isEnd
  · rw [if_pos ((isEndStep_iff F).2 he)]
    obtain ⟨i, cs, f, F', rfl, hl⟩ := h.two_le hwf he
    have hcs : Iter.currentSubproof (Frames.iter ((i + 1, cs) :: f :: F')) = some cs := by
      simp [Iter.currentSubproof, Iter.isInSubproof, Iter.depth, Frames.iter]
    simp only [hcs]
    rw [if_neg (by omega)]
    have hi : cs.length - 2 = i := by omega
    rw [hi]
    obtain ⟨c', hc'⟩ : ∃ c', cs[i]? = some c' := ⟨_, List.getElem?_eq_getElem (by omega)⟩
    rw [hc']
    simp only [bind_ok, ok_inj, he, true_and, not_true_eq_false, false_and, or_false]
    constructor
    · rintro ⟨cl, hcl, rfl⟩
      exact ⟨i, cs, _, c', cl, rfl, hc', hcl, rfl⟩
    · rintro ⟨i', cs', F'', c'', cl, e, hc, hcl, rfl⟩
      simp only [List.cons.injEq, Prod.mk.injEq, Nat.add_right_cancel_iff] at e
      obtain ⟨⟨rfl, rfl⟩, rfl⟩ := e
      rw [hc'] at hc
      cases hc
      exact ⟨cl, hcl, rfl⟩
  · have : F.iter.isEndStep = false := by
      cases hh : F.iter.isEndStep
      · rfl
      · exact absurd ((isEndStep_iff F).1 hh) he
    rw [this]
    simp [he, eq_comm]

theorem premiseClause_iter (F : Frames) (p : Nat × Nat) (cl : List Term) :
    premiseClause F.iter p = .ok cl ↔ ∃ c, F.lookup p = some c ∧ c.clause = .ok cl := by
  simp only [premiseClause, bind_ok, Frames.getPremise_iter, orPanic_ok]

theorem ruleArgs_ok {proof : List Command} {cfg : Config} {F : Frames} {Γ c} (h : Occ proof F Γ c)
    (hwf : Command.wfL proof = true) {s : Step} {a : RuleArgs} :
    ruleArgs cfg F.iter Γ s = .ok a ↔ F.argsFor Γ s a := by
  have hp : (fun p cl => premiseClause F.iter p = .ok cl) =
      (fun p cl => ∃ c, F.lookup p = some c ∧ c.clause = .ok cl) :=
    funext fun p => funext fun cl => propext (premiseClause_iter F p cl)
  have hd : (fun p c => Iter.getPremise F.iter p = .ok c) = (fun p c => F.lookup p = some c) :=
    funext fun p => funext fun cl => propext (by rw [Frames.getPremise_iter, orPanic_ok])
  simp only [ruleArgs, bind_ok, ok_inj, Frames.argsFor, mapRes_ok, hp, hd, previousCommand_ok h hwf]
  constructor
  · rintro ⟨prev, h1, ps, h2, ds, h3, rfl⟩
    exact ⟨rfl, rfl, rfl, h2, h3, h1⟩
  · rintro ⟨h1, h2, h3, h4, h5, h6⟩
    refine ⟨_, h6, _, h4, _, h5, ?_⟩
    obtain ⟨_, _, _, _, _, _⟩ := a
    simp only at h1 h2 h3
    subst h1 h2 h3
    rfl

theorem checkDischarge_ok {i : Nat} {cs : List Command} {F : Frames} {s : Step} {d : Nat}
    (hd : d = F.length) :
    checkDischarge cs d s.discharge = .ok () ↔ Frames.discharged ((i, cs) :: F) s := by
  subst hd
  simp only [checkDischarge, require_ok, Frames.discharged, List.length_cons, Nat.add_sub_cancel]
  constructor
  · intro h i' cs' F' e j id t hj
    simp only [List.cons.injEq, Prod.mk.injEq] at e
    obtain ⟨⟨rfl, rfl⟩, rfl⟩ := e
    exact h (.assume id t, j) (List.mem_zipIdx_iff_getElem?.2 hj) rfl
  · rintro h ⟨c, j⟩ hx hc
    have hj := List.mem_zipIdx_iff_getElem?.1 hx
    cases c with
    | assume id t => exact h i cs F rfl j id t hj
    | step _ => simp [Command.isAssume] at hc
    | subproof _ _ _ => simp [Command.isAssume] at hc

/-- What acceptance of a step means. -/
theorem posOK_step {P : Params} {cfg : Config} {prem : List Term} {proof : List Command} {F : Frames} {Γ}
    {s : Step} (h : Occ proof F Γ (.step s)) (hwf : Command.wfL proof = true) :
    PosOK P cfg prem F Γ (.step s) ↔
      (∃ a, F.argsFor Γ s a) ∧
      (s.rule ∈ cfg.allowed ∨
       (s.rule ∉ cfg.allowed ∧ (s.discharge ≠ [] → s.rule = "subproof") ∧ P.rule s.rule = none ∧
        cfg.ignoreUnknown = true) ∨
       s.verified P F Γ) := by
  have huniq : ∀ a b, F.argsFor Γ s a → F.argsFor Γ s b → a = b := by
    intro a b ha hb
    have h1 := (ruleArgs_ok (cfg := cfg) h hwf).2 ha
    have h2 := (ruleArgs_ok (cfg := cfg) h hwf).2 hb
    rw [h1] at h2
    exact ok_inj.1 h2
  have hrun : ∀ r a, runRule r F.iter a s = .ok () ↔ r a = .ok () ∧ (F.isEnd → F.discharged s) := by
    intro r a
    simp only [runRule, bind_ok]
    by_cases he : F.isEnd
    · obtain ⟨i, cs, f, F', rfl, hl⟩ := h.two_le hwf he
      have hcs : Iter.currentSubproof (Frames.iter ((i + 1, cs) :: f :: F')) = some cs := by
        simp [Iter.currentSubproof, Iter.isInSubproof, Iter.depth, Frames.iter]
      rw [(isEndStep_iff _).2 he, hcs]
      simp only
      rw [checkDischarge_ok (i := i + 1) (F := f :: F') (by simp [Iter.depth, Frames.iter])]
      exact ⟨fun ⟨_, h1, h2⟩ => ⟨h1, fun _ => h2⟩, fun ⟨h1, h2⟩ => ⟨(), h1, h2 he⟩⟩
    · have : F.iter.isEndStep = false := by
        cases hh : F.iter.isEndStep
        · rfl
        · exact absurd ((isEndStep_iff F).1 hh) he
      rw [this]
      exact ⟨fun ⟨_, h1, _⟩ => ⟨h1, fun h => absurd h he⟩, fun ⟨h1, _⟩ => ⟨(), h1, rfl⟩⟩
  simp only [PosOK, ruleArgs_ok h hwf]
  constructor
  · rintro ⟨a, hh, ha, hc⟩
    refine ⟨⟨a, ha⟩, ?_⟩
    unfold checkStepCore at hc
    split at hc
    · next hm => exact Or.inl hm
    next hm =>
    split at hc
    · simp at hc
    next hdis =>
    have hdis' : s.discharge ≠ [] → s.rule = "subproof" := by
      intro h1
      by_contra h2
      exact hdis ⟨h1, h2⟩
    split at hc
    · next hn =>
      split at hc
      · next hi => exact Or.inr (Or.inl ⟨hm, hdis', hn, hi⟩)
      · simp at hc
    · next r hr =>
      simp only [bind_ok, ok_inj] at hc
      obtain ⟨_, h1, _⟩ := hc
      obtain ⟨h2, h3⟩ := (hrun r a).1 h1
      exact Or.inr (Or.inr ⟨r, a, hr, ha, h2, hdis', h3⟩)
  · rintro ⟨⟨a, ha⟩, h1 | ⟨hm, hdis, hn, hi⟩ | ⟨r, a', hr, ha', h2, hdis, h3⟩⟩
    · exact ⟨a, true, ha, by simp [checkStepCore, h1]⟩
    · refine ⟨a, true, ha, ?_⟩
      unfold checkStepCore
      rw [if_neg hm, if_neg (by rintro ⟨h1, h2⟩; exact h2 (hdis h1)), hn]
      simp [hi]
    · refine ⟨a', ?_⟩
      by_cases hm : s.rule ∈ cfg.allowed
      · exact ⟨true, ha', by simp [checkStepCore, hm]⟩
      · refine ⟨decide (s.rule = "hole" ∨ s.rule = "lia_generic"), ha', ?_⟩
        unfold checkStepCore
        rw [if_neg hm, if_neg (by rintro ⟨h1, h2⟩; exact h2 (hdis h1)), hr]
        simp only [(hrun r a').2 ⟨h2, h3⟩]
        rfl

end Carcara
