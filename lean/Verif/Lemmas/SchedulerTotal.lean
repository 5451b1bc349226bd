import Verif.Lemmas.SchedulerRun

/-! # The scheduler: the recursion over the proof -/

namespace Carcara

open Spec

/-! ## Paths of subproofs -/

mutual
theorem subproofsOf_prefix {p : List Nat} {n : Nat} : ∀ {c : Command} {path : List Nat} {i : Nat}, (p, n) ∈ subproofsOf path i c →
    path ++ [i] <+: p
  | .assume _ _, _, _, h => by simp [subproofsOf] at h
  | .step _, _, _, h => by simp [subproofsOf] at h
  | .subproof sub _ _, path, i, h => by
    simp only [subproofsOf, List.mem_cons, Prod.mk.injEq] at h
    rcases h with ⟨rfl, -⟩ | h
    · exact List.prefix_refl _
    · obtain ⟨j, -, h⟩ := subproofsFrom_prefix h
      exact (List.prefix_append _ _).trans h
theorem subproofsFrom_prefix {p : List Nat} {n : Nat} : ∀ {cs : List Command} {path : List Nat} {i : Nat}, (p, n) ∈ subproofsFrom path i cs →
    ∃ j, i ≤ j ∧ path ++ [j] <+: p
  | [], _, _, h => by simp [subproofsFrom] at h
  | c :: cs, path, i, h => by
    simp only [subproofsFrom, List.mem_append] at h
    rcases h with h | h
    · exact ⟨i, Nat.le_refl _, subproofsOf_prefix h⟩
    · obtain ⟨j, h1, h2⟩ := subproofsFrom_prefix h
      exact ⟨j, by omega, h2⟩
end

theorem prefix_snoc_inj {α : Type} {path p : List α} {i j : α} (h1 : path ++ [i] <+: p) (h2 : path ++ [j] <+: p) : i = j := by
  obtain ⟨a, rfl⟩ := h1
  obtain ⟨b, h⟩ := h2
  simp only [List.append_assoc, List.cons_append, List.nil_append, List.append_cancel_left_eq, List.cons.injEq] at h
  exact h.1.symm

mutual
theorem subproofsOf_nodup : ∀ (c : Command) (path : List Nat) (i : Nat), ((subproofsOf path i c).map (·.1)).Nodup
  | .assume _ _, _, _ => by simp [subproofsOf]
  | .step _, _, _ => by simp [subproofsOf]
  | .subproof sub _ _, path, i => by
    simp only [subproofsOf, List.map_cons, List.nodup_cons]
    refine ⟨fun h => ?_, subproofsFrom_nodup sub _ _⟩
    obtain ⟨⟨p, n⟩, h1, h2⟩ := List.mem_map.1 h
    simp only at h2
    subst h2
    obtain ⟨j, -, h3⟩ := subproofsFrom_prefix h1
    have := h3.length_le
    simp at this
theorem subproofsFrom_nodup : ∀ (cs : List Command) (path : List Nat) (i : Nat), ((subproofsFrom path i cs).map (·.1)).Nodup
  | [], _, _ => by simp [subproofsFrom]
  | c :: cs, path, i => by
    simp only [subproofsFrom, List.map_append]
    refine List.nodup_append.2 ⟨subproofsOf_nodup c path i, subproofsFrom_nodup cs path (i + 1), ?_⟩
    rintro p hp q hq rfl
    obtain ⟨⟨p', n⟩, h1, rfl⟩ := List.mem_map.1 hp
    obtain ⟨⟨p'', m⟩, h2, h3⟩ := List.mem_map.1 hq
    simp only at h3
    subst h3
    obtain ⟨j, h4, h5⟩ := subproofsFrom_prefix h2
    have := prefix_snoc_inj (subproofsOf_prefix h1) h5
    omega
end

theorem weightOf_subproof (sub : List Command) (as : List AnchorArg) (n : Nat) : weightOf (.subproof sub as n) = weightSum sub := by
  rw [weightOf]

section
variable {proof : List Command} {workers : Nat} {O : SchedOrder}

theorem drop_cons_getElem? {α : Type} {l l' : List α} {a : α} {i : Nat} (h : l.drop i = a :: l') : l[i]? = some a ∧ l.drop (i + 1) = l' := by
  have h1 : l[i]? = some a := by
    have := congrArg (·[0]?) h
    simpa using this
  refine ⟨h1, ?_⟩
  rw [show i + 1 = i + 1 from rfl, ← List.drop_drop, h]
  rfl

mutual
theorem runCommand_inv : ∀ (c : Command) {path : List Nat} {i : Nat} {done : List (List Nat × Nat)} {A B : List (List Nat × Nat)} {s : Sched},
    commandAt proof path i = some c → subproofs proof = A ++ subproofsOf path i c ++ B →
    SInv proof workers path done (A.map (·.1)) s → OthersAt proof path s none →
    (NumberedContexts proof → 0 < workers → ∀ W, QueueLe W s → W + weightOf c < 2 ^ 64 →
      ∃ s' w s'', assignCommand O i c s = .ok (s', w) ∧ runCommand O w i c s' = .ok s'') ∧
    ∀ s' w s'', assignCommand O i c s = .ok (s', w) → runCommand O w i c s' = .ok s'' →
      SInv proof workers path (done ++ leavesOf path i c) ((A ++ subproofsOf path i c).map (·.1)) s'' ∧ OthersAt proof path s'' none ∧
        ∀ W, QueueLe W s → QueueLe (W + weightOf c) s''
  | .assume id t, path, i, done, A, B, s, hc, hsub, h, ho => by
    have key := assign_inv (O := O) (index := i) (c := .assume id t) h ho
    refine ⟨fun hN hpos W hW hlt => ?_, fun s' w s'' h1 h2 => ?_⟩
    · obtain ⟨⟨s', w⟩, h1⟩ := key.1 hN hpos W hW hlt
      exact ⟨s', w, s', h1, rfl⟩
    · obtain ⟨s1, load, top, hP, rfl, hq⟩ := key.2 s' w h1
      simp only [runCommand, Except.ok.injEq] at h2
      subst h2
      obtain ⟨g1, g2⟩ := hP.leaf hc (by simp)
      exact ⟨by simpa [leavesOf, subproofsOf] using g1, g2, hq⟩
  | .step st, path, i, done, A, B, s, hc, hsub, h, ho => by
    have key := assign_inv (O := O) (index := i) (c := .step st) h ho
    refine ⟨fun hN hpos W hW hlt => ?_, fun s' w s'' h1 h2 => ?_⟩
    · obtain ⟨⟨s', w⟩, h1⟩ := key.1 hN hpos W hW hlt
      exact ⟨s', w, s', h1, rfl⟩
    · obtain ⟨s1, load, top, hP, rfl, hq⟩ := key.2 s' w h1
      simp only [runCommand, Except.ok.injEq] at h2
      subst h2
      obtain ⟨g1, g2⟩ := hP.leaf hc (by simp)
      exact ⟨by simpa [leavesOf, subproofsOf] using g1, g2, hq⟩
  | .subproof sub as n, path, i, done, A, B, s, hc, hsub, h, ho => by
    have key := assign_inv (O := O) (index := i) (c := .subproof sub as n) h ho
    have hsub' : subproofs proof = (A ++ [(path ++ [i], n)]) ++ subproofsFrom (path ++ [i]) 0 sub ++ B := by
      rw [hsub, subproofsOf]
      simp
    have hN : NumberedContexts proof → n = (A.map (·.1)).length ∧ path ++ [i] ∉ A.map (·.1) := by
      intro hN
      constructor
      · have := congrArg (·[A.length]?) hN
        rw [hsub'] at this
        simp at this
        simpa using this
      · have := subproofsFrom_nodup proof [] 0
        rw [show subproofsFrom [] 0 proof = subproofs proof from rfl, hsub'] at this
        simp only [List.append_assoc, List.map_append, List.map_cons, List.map_nil] at this
        intro hmem
        exact (List.nodup_append.1 this).2.2 _ hmem (path ++ [i]) (by simp) rfl
    have hcmds : commandsAt proof (path ++ [i]) = some sub := commandsAt_snoc.2 ⟨as, n, hc⟩
    -- the state in which the commands of the subproof are run
    have inner : ∀ s' w, assignCommand O i (.subproof sub as n) s = .ok (s', w) →
        SInv proof workers (path ++ [i]) done ((A ++ [(path ++ [i], n)]).map (·.1)) { s' with
          stack := s'.stack ++ [⟨sub, some (s'.stack.length - 1, i), [w]⟩], usage := s'.usage ++ [1] } ∧
        OthersAt proof (path ++ [i]) { s' with
          stack := s'.stack ++ [⟨sub, some (s'.stack.length - 1, i), [w]⟩], usage := s'.usage ++ [1] } none ∧
        ∀ W, QueueLe W s → QueueLe W s' := by
      intro s' w h1
      obtain ⟨s1, load, top, hP, rfl, hq⟩ := key.2 s' w h1
      obtain ⟨g1, g2⟩ := hP.subproof (index := i) hc hN
      have hl : (s1.stack.set path.length { top with usedBy := insertUser top.usedBy w }).length - 1 = path.length := by
        simp [hP.inv.length]
      refine ⟨?_, ?_, fun W hW => by simpa [stepWeight] using hq W hW⟩
      · simp only [hl]
        simpa using g1
      · simp only [hl]
        exact g2
    refine ⟨fun hN' hpos W hW hlt => ?_, fun s' w s'' h1 h2 => ?_⟩
    · rw [weightOf_subproof] at hlt
      obtain ⟨⟨s', w⟩, h1⟩ := key.1 hN' hpos W hW (by simp only [stepWeight]; omega)
      obtain ⟨i1, i2, i3⟩ := inner s' w h1
      have run := runCommands_inv sub (i := 0) hcmds (by simp) hsub' i1 i2
      obtain ⟨s2, h2⟩ := run.1 hN' hpos W (i3 W hW) hlt
      obtain ⟨j1, j2, -⟩ := run.2 s2 h2
      obtain ⟨s3, h3⟩ := (closeLevel_inv (O := O) j1 j2).1 hN'
      exact ⟨s', w, s3, h1, bind_ok.2 ⟨s2, h2, h3⟩⟩
    · obtain ⟨i1, i2, i3⟩ := inner s' w h1
      have run := runCommands_inv sub (i := 0) hcmds (by simp) hsub' i1 i2
      obtain ⟨s2, h3, h4⟩ := bind_ok.1 h2
      obtain ⟨j1, j2, j3⟩ := run.2 s2 h3
      obtain ⟨g1, g2, g3⟩ := (closeLevel_inv (O := O) j1 j2).2 s'' h4
      refine ⟨?_, g2, fun W hW => ?_⟩
      · rw [leavesOf, subproofsOf]
        simpa using g1
      · have := j3 W (i3 W hW)
        rw [weightOf_subproof]
        intro x hx
        rw [g3] at hx
        exact this x hx
theorem runCommands_inv : ∀ (cs : List Command) {path : List Nat} {i : Nat} {all : List Command} {done : List (List Nat × Nat)}
    {A B : List (List Nat × Nat)} {s : Sched},
    commandsAt proof path = some all → all.drop i = cs → subproofs proof = A ++ subproofsFrom path i cs ++ B →
    SInv proof workers path done (A.map (·.1)) s → OthersAt proof path s none →
    (NumberedContexts proof → 0 < workers → ∀ W, QueueLe W s → W + weightSum cs < 2 ^ 64 → ∃ s', runCommands O i cs s = .ok s') ∧
    ∀ s', runCommands O i cs s = .ok s' →
      SInv proof workers path (done ++ leavesFrom path i cs) ((A ++ subproofsFrom path i cs).map (·.1)) s' ∧ OthersAt proof path s' none ∧
        ∀ W, QueueLe W s → QueueLe (W + weightSum cs) s'
  | [], path, i, all, done, A, B, s, _, _, _, h, ho => by
    refine ⟨fun _ _ _ _ _ => ⟨s, rfl⟩, fun s' hs' => ?_⟩
    simp only [runCommands, Except.ok.injEq] at hs'
    subst hs'
    exact ⟨by simpa [leavesFrom, subproofsFrom] using h, ho, fun W hW => by simpa [weightSum] using hW⟩
  | c :: cs, path, i, all, done, A, B, s, hall, hdrop, hsub, h, ho => by
    obtain ⟨hci, hcs⟩ := drop_cons_getElem? hdrop
    have hc : commandAt proof path i = some c := by rw [commandAt, hall, Option.bind_some, hci]
    have first := runCommand_inv c (B := subproofsFrom path (i + 1) cs ++ B) hc
      (by rw [hsub, subproofsFrom]; simp only [List.append_assoc]) h ho
    refine ⟨fun hN hpos W hW hlt => ?_, fun s' hs' => ?_⟩
    · rw [weightSum] at hlt
      obtain ⟨s1, w, s2, h1, h2⟩ := first.1 hN hpos W hW (by omega)
      obtain ⟨g1, g2, g3⟩ := first.2 s1 w s2 h1 h2
      obtain ⟨s', h3⟩ := (runCommands_inv cs (B := B) hall hcs (by rw [hsub, subproofsFrom]; simp only [List.append_assoc]) g1 g2).1 hN hpos
        _ (g3 W hW) (by omega)
      exact ⟨s', bind_ok.2 ⟨(s1, w), h1, bind_ok.2 ⟨s2, h2, h3⟩⟩⟩
    · rw [runCommands] at hs'
      obtain ⟨⟨s1, w⟩, h1, hs'⟩ := bind_ok.1 hs'
      obtain ⟨s2, h2, h3⟩ := bind_ok.1 hs'
      obtain ⟨g1, g2, g3⟩ := first.2 s1 w s2 h1 h2
      obtain ⟨k1, k2, k3⟩ := (runCommands_inv cs (B := B) hall hcs (by rw [hsub, subproofsFrom]; simp only [List.append_assoc]) g1 g2).2 s' h3
      refine ⟨?_, k2, fun W hW => ?_⟩
      · rw [leavesFrom, subproofsFrom]
        simpa only [List.append_assoc] using k1
      · have := k3 _ (g3 W hW)
        rw [weightSum, ← Nat.add_assoc]
        exact this
end

/-! ## The beginning and the end -/

theorem foldl_push_perm (q : List (Nat × Nat)) : ∀ l : List Nat, (l.foldl (fun q i => O.push (0, i) q) q).Perm (q ++ l.map fun i => (0, i)) := by
  intro l
  induction l generalizing q with
  | nil => simp
  | cons a l ih =>
    rw [List.foldl_cons, List.map_cons]
    refine (ih _).trans (((O.push_perm _ _).append_right _).trans ?_)
    exact List.perm_middle.symm

theorem initial_inv : SInv proof workers [] [] [] (initialSched O workers proof) ∧ OthersAt proof [] (initialSched O workers proof) none ∧
    QueueLe 0 (initialSched O workers proof) := by
  have hp := foldl_push_perm (O := O) [] (List.range workers)
  rw [List.nil_append] at hp
  refine ⟨⟨rfl, ?_, ?_, ?_, by simp [initialSched], ?_, ?_, fun _ => ⟨by simp, rfl, by simp, by simp, ?_⟩⟩, ?_, ?_⟩
  · intro j lv hj
    cases j with
    | zero => cases hj; rfl
    | succ j => simp [initialSched] at hj
  · intro j lv hj
    cases j with
    | zero => cases hj; simp
    | succ j => simp [initialSched] at hj
  · intro j lv hj
    simp [initialSched] at hj
  · have := hp.map (·.2)
    rw [List.map_map, show ((fun x : Nat × Nat => x.2) ∘ fun i : Nat => ((0 : Nat), i)) = id from rfl, List.map_id] at this
    exact this
  · rw [show (initialSched O workers proof).loads = List.replicate workers [] from rfl]
    rw [List.flatMap_eq_nil_iff.2]
    intro l hl
    rw [List.mem_replicate] at hl
    rw [hl.2]
    rfl
  · intro l hl p hp
    rw [show (initialSched O workers proof).loads = List.replicate workers [] from rfl, List.mem_replicate] at hl
    rw [hl.2] at hp
    simp [openedOf, replay_nil] at hp
  · intro w load _ hl
    have hl' := List.mem_of_getElem? hl
    rw [show (initialSched O workers proof).loads = List.replicate workers [] from rfl, List.mem_replicate] at hl'
    obtain ⟨-, rfl⟩ := hl'
    refine ⟨0, Nat.le_refl _, ⟨_, replay_nil _, rfl⟩, ?_, by omega, fun h => absurd rfl h⟩
    rintro j ⟨lv, hj, hx⟩
    cases j with
    | zero => exact Nat.le_refl _
    | succ j => simp [initialSched] at hj
  · intro x hx
    have := hp.mem_iff.1 hx
    simp only [List.mem_map] at this
    obtain ⟨i, -, rfl⟩ := this
    exact Nat.le_refl _

/-- The end of the schedule: each worker that has been used gets a closing entry, but a worker without entries panics. -/
theorem closeAll_root {done : List (List Nat × Nat)} {started : List (List Nat)} : ∀ {rem : List Nat} {s : Sched}, rem.Nodup →
    (∀ w ∈ rem, w < workers) → SInv proof workers [] done started s →
    (∀ w ∈ rem, ∀ load, s.loads[w]? = some load → ∃ r, replay proof load = some r ∧ r.at_ = some []) →
    (NumberedContexts proof → (∀ w ∈ rem, s.loads[w]? ≠ some []) → ∃ s', closeAll rem s = .ok s') ∧ ∀ s', closeAll rem s = .ok s' →
      SInv proof workers [] done started s' ∧ (∀ w, w ∉ rem → s'.loads[w]? = s.loads[w]?) ∧
      ∀ w ∈ rem, ∀ load, s'.loads[w]? = some load → ∃ r, replay proof load = some r ∧ r.at_ = none
  | [], s, _, _, h, _ => ⟨fun _ _ => ⟨s, rfl⟩, fun s' hs' => by cases hs'; exact ⟨h, fun _ _ => rfl, by simp⟩⟩
  | x :: rem, s, hnd, hlt, h, hr => by
    rw [List.nodup_cons] at hnd
    obtain ⟨load, hl⟩ : ∃ l, s.loads[x]? = some l := ⟨_, List.getElem?_eq_getElem (by rw [h.loads]; exact hlt x (by simp))⟩
    obtain ⟨r, hr1, hr2⟩ := hr x (by simp) load hl
    have next : ∀ s1, load ≠ [] → closeFor s x = .ok s1 → SInv proof workers [] done started s1 ∧ ∃ load' r', s1.loads = s.loads.set x load' ∧
        replay proof load' = some r' ∧ r'.at_ = none := by
      intro s1 hne h1
      obtain ⟨-, -, k3, load', r', k4, k5, k6⟩ := (closeFor_inv h hl hr1 hr2 hne).2 s1 h1
      exact ⟨k3, load', r', k4, k5, by simpa using k6⟩
    have later : ∀ (s1 : Sched) (load' : Load), s1.loads = s.loads.set x load' → ∀ w ∈ rem, ∀ lw : Load, s1.loads[w]? = some lw →
        ∃ r, replay proof lw = some r ∧ r.at_ = some [] := by
      intro s1 load' h1 w hw lw hlw
      have hwx : x ≠ w := fun e => hnd.1 (e ▸ hw)
      rw [h1, List.getElem?_set_ne hwx] at hlw
      exact hr w (by simp [hw]) lw hlw
    refine ⟨fun hN hne => ?_, fun s' hs' => ?_⟩
    · have hne' : load ≠ [] := fun e => hne x (by simp) (e ▸ hl)
      obtain ⟨s1, h1⟩ := (closeFor_inv h hl hr1 hr2 hne').1 hN
      obtain ⟨k1, load', r', k2, -⟩ := next s1 hne' h1
      obtain ⟨s', h2⟩ := (closeAll_root (rem := rem) hnd.2 (fun w hw => hlt w (by simp [hw])) k1 (later s1 load' k2)).1 hN (fun w hw => by
        have hxw : x ≠ w := fun e => hnd.1 (e ▸ hw)
        rw [k2, List.getElem?_set_ne hxw]
        exact hne w (by simp [hw]))
      exact ⟨s', bind_ok.2 ⟨s1, h1, h2⟩⟩
    · obtain ⟨s1, h1, h2⟩ := bind_ok.1 hs'
      have hne : load ≠ [] := by
        rintro rfl
        simp only [closeFor, hl, orPanic, bind, Except.bind, List.getLast?_nil] at h1
        cases h1
      obtain ⟨k1, load', r', k2, k3, k4⟩ := next s1 hne h1
      obtain ⟨g1, g2, g3⟩ := (closeAll_root (rem := rem) hnd.2 (fun w hw => hlt w (by simp [hw])) k1 (later s1 load' k2)).2 s' h2
      refine ⟨g1, fun w hw => ?_, fun w hw lw hlw => ?_⟩
      · rw [g2 w (fun h => hw (by simp [h])), k2, List.getElem?_set_ne (fun e => hw (by simp [e]))]
      · by_cases hwr : w ∈ rem
        · exact g3 w hwr lw hlw
        · have e : w = x := (List.mem_cons.1 hw).resolve_right hwr
          subst e
          rw [g2 w hwr, k2, List.getElem?_set_self (lt_of_getElem? hl), Option.some.injEq] at hlw
          subst hlw
          exact ⟨r', k3, k4⟩

/-- Everything about the result. -/
theorem schedule_ok {loads : List Load} {usage : List Nat} (h : schedule O workers proof = .ok (loads, usage)) :
    loads.length = workers ∧ (∀ load ∈ loads, load = [] ∨ ∃ r, replay proof load = some r ∧ r.at_ = none) ∧
    (loads.flatMap (visitedOf proof)).Perm (leaves proof) ∧
    (NumberedContexts proof → ∀ (k : Nat) (p : List Nat), (subproofs proof)[k]? = some (p, k) → usage[k]? = some (openCount proof loads p)) ∧
    (NumberedContexts proof → usage.length = (subproofs proof).length) := by
  simp only [schedule, bind_ok] at h
  obtain ⟨s1, h1, s2, h2, h3⟩ := h
  cases h3
  obtain ⟨i1, i2, i3⟩ := initial_inv (proof := proof) (workers := workers) (O := O)
  obtain ⟨k1, k2, -⟩ := (runCommands_inv proof (path := []) (i := 0) (A := []) (B := []) (done := []) rfl rfl
    (by simp [subproofs]) i1 i2).2 s1 h1
  simp only [List.nil_append] at k1
  have hlen := k1.length
  simp only [List.length_nil, Nat.zero_add] at hlen
  have htop : s1.stack[0]? = some (s1.stack[0]'(by omega)) := List.getElem?_eq_getElem (by omega)
  generalize s1.stack[0]'(by omega) = top at htop
  have hlast : s1.stack.getLast? = some top := by rw [List.getLast?_eq_getElem?, hlen]; exact htop
  simp only [closeLevel, hlast, orPanic, bind, Except.bind] at h2
  obtain ⟨s3, h4, h5⟩ := bind_ok.1 (show (closeAll (O.hash top.usedBy) s1 >>= fun s => .ok { s with stack := s.stack.dropLast }) = .ok s2 from h2)
  cases h5
  have husers := k1.users 0 top htop
  have hperm := O.hash_perm top.usedBy
  have hat : ∀ (w : Nat) (load : Load), s1.loads[w]? = some load → ∃ r, replay proof load = some r ∧ r.at_ = some [] := by
    intro w load hl
    obtain ⟨m, hm⟩ := k2 w load (by simp) hl
    obtain ⟨r, hr, hq⟩ := hm.replay
    exact ⟨r, hr, by simpa using hq⟩
  obtain ⟨g1, g2, g3⟩ := (closeAll_root (hperm.nodup_iff.2 husers.1) (fun w hw => husers.2 w (hperm.mem_iff.1 hw)) k1
    (fun w _ => hat w)).2 s3 h4
  refine ⟨g1.loads, fun load hload => ?_, g1.visited, fun hN k p hkp => ?_, fun hN => ?_⟩
  · obtain ⟨w, hw, rfl⟩ := List.mem_iff_getElem.1 hload
    by_cases hmem : w ∈ O.hash top.usedBy
    · exact .inr (g3 w hmem _ (List.getElem?_eq_getElem hw))
    · left
      have h6 := g2 w hmem
      rw [List.getElem?_eq_getElem hw] at h6
      obtain ⟨m, hm⟩ := k2 w _ (by simp) h6.symm
      by_contra hne
      obtain ⟨lv, h7, h8⟩ := hm.used_zero hne
      rw [htop] at h7
      cases h7
      exact hmem (hperm.mem_iff.2 h8)
  · have := (g1.usage hN).count k p
    rw [show subproofsFrom [] 0 proof = subproofs proof from rfl, List.getElem?_map, hkp] at this
    exact this rfl
  · have := (g1.usage hN).length
    rw [this, show subproofsFrom [] 0 proof = subproofs proof from rfl, List.length_map]

/-- What is needed so that the schedule exists: before the last closing every worker that has been used has an entry. -/
theorem schedule_total (hN : NumberedContexts proof) (hpos : 0 < workers) (hw : weightSum proof < 2 ^ 64) :
    ∃ s, runCommands O 0 proof (initialSched O workers proof) = .ok s ∧ SInv proof workers [] (leaves proof) ((subproofs proof).map (·.1)) s ∧
      ((∀ top, s.stack[0]? = some top → ∀ w ∈ top.usedBy, s.loads[w]? ≠ some []) → ∃ r, schedule O workers proof = .ok r) := by
  obtain ⟨i1, i2, i3⟩ := initial_inv (proof := proof) (workers := workers) (O := O)
  have run := runCommands_inv (O := O) proof (path := []) (i := 0) (A := []) (B := []) (done := []) rfl rfl
    (by simp [subproofs]) i1 i2
  obtain ⟨s, hs⟩ := run.1 hN hpos 0 i3 (by omega)
  obtain ⟨k1, k2, -⟩ := run.2 s hs
  simp only [List.nil_append] at k1
  refine ⟨s, hs, k1, fun hne => ?_⟩
  have hlen := k1.length
  simp only [List.length_nil, Nat.zero_add] at hlen
  have htop : s.stack[0]? = some (s.stack[0]'(by omega)) := List.getElem?_eq_getElem (by omega)
  generalize s.stack[0]'(by omega) = top at htop
  have hlast : s.stack.getLast? = some top := by rw [List.getLast?_eq_getElem?, hlen]; exact htop
  have husers := k1.users 0 top htop
  have hperm := O.hash_perm top.usedBy
  obtain ⟨s', hs'⟩ := (closeAll_root (hperm.nodup_iff.2 husers.1) (fun w hw => husers.2 w (hperm.mem_iff.1 hw)) k1
    (fun w _ load hl => by
      obtain ⟨m, hm⟩ := k2 w load (by simp) hl
      obtain ⟨r, hr, hq⟩ := hm.replay
      exact ⟨r, hr, by simpa using hq⟩)).1 hN (fun w hw => hne top htop w (hperm.mem_iff.1 hw))
  refine ⟨(s'.loads, s'.usage), ?_⟩
  simp only [schedule, hs, closeLevel, hlast, orPanic, hs', bind, Except.bind]

/-- Without subproofs, a worker is only used by getting an entry. -/
theorem run_flat : ∀ {cs : List Command} {i : Nat} {s s' : Sched}, (∀ c ∈ cs, ∀ a b n, c ≠ .subproof a b n) → s.stack.length = 1 →
    (∀ top, s.stack[0]? = some top → ∀ w ∈ top.usedBy, s.loads[w]? ≠ some []) → runCommands O i cs s = .ok s' →
    ∀ top, s'.stack[0]? = some top → ∀ w ∈ top.usedBy, s'.loads[w]? ≠ some []
  | [], i, s, s', _, _, h, hs' => by
    simp only [runCommands, Except.ok.injEq] at hs'
    exact hs' ▸ h
  | c :: cs, i, s, s', hc, hl, h, hs' => by
    rw [runCommands] at hs'
    obtain ⟨⟨s1, w⟩, h1, hs'⟩ := bind_ok.1 hs'
    obtain ⟨s2, h2, h3⟩ := bind_ok.1 hs'
    have e : s2 = s1 := by
      cases c with
      | subproof a b n => exact absurd rfl (hc _ (by simp) a b n)
      | assume | step => simpa [runCommand] using h2.symm
    subst e
    have key : s2.stack.length = 1 ∧ ∀ top, s2.stack[0]? = some top → ∀ w ∈ top.usedBy, s2.loads[w]? ≠ some [] := by
      simp only [assignCommand, bind_ok, orPanic_ok, Prod.exists, hl, Nat.sub_self] at h1
      obtain ⟨n, w', q, hq, h1⟩ := h1
      split at h1
      · cases h1
      · simp only [bind_ok, orPanic_ok] at h1
        obtain ⟨load, h4, layer, h5, s3, h6, load', h7, top', h8, h9⟩ := h1
        rw [Nat.zero_sub] at h6
        cases h6
        cases h9
        refine ⟨by simpa using hl, fun top ht x hx => ?_⟩
        simp only at ht h7 h8 ⊢
        rw [List.getElem?_set_self (by omega), Option.some.injEq] at ht
        subst ht
        by_cases hxw : w = x
        · subst hxw
          rw [List.getElem?_set_self (lt_of_getElem? h7)]
          simp
        · rw [List.getElem?_set_ne hxw]
          refine h top' h8 x ?_
          simp only [insertUser] at hx
          split at hx
          · exact hx
          · simpa [Ne.symm hxw] using hx
    exact run_flat (fun c h => hc c (by simp [h])) key.1 key.2 h3

end

end Carcara
