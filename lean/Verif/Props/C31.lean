import Verif.Lemmas.SchedulerIter
import Mathlib.Data.List.Nodup

/-!
# C31: parallel scheduling covers the proof exactly once

`loads` stands for the schedules of the workers. What a schedule does is defined by `Spec.replay`: every entry must refer to a command of the
subproof that is open, a subproof is opened before its commands, and closed at the depth where it was opened. The theorems hold for every order
in which the priority queue presents equal loads, and in which hash sets are iterated (`O`).
-/

namespace Carcara

open Spec

/-! ## Examples -/

namespace C31

private def p : Term := .var "p" .bool

/-- An assumption, a subproof with a nested one, and a step. -/
private def nested : List Command :=
  [.assume "h" p,
   .subproof [.assume "t1.h" p, .subproof [.step ⟨"t1.t1.t1", [], "refl", [], [], []⟩, .step ⟨"t1.t1", [], "bind", [], [], []⟩] [] 1,
     .step ⟨"t1", [], "subproof", [], [], []⟩] [] 0,
   .step ⟨"t2", [], "resolution", [], [], []⟩]

/-- The proof `(assume h p) (assume g (not p)) (anchor :step t1) (assume t1.h p) (step t1 (cl (not p) p) :rule subproof :discharge (t1.h))
(step t2 (cl) :rule resolution :premises (h g))`. -/
private def small : List RawCommand :=
  [.assume "h" p, .assume "g" (.op .not [p]), .anchor "t1" [], .assume "t1.h" p,
   .step ⟨"t1", [.op .not [p], p], "subproof", [], [], ["t1.h"]⟩, .step ⟨"t2", [], "resolution", ["h", "g"], [], []⟩]

private def smallProof : List Command :=
  [.assume "h" p, .assume "g" (.op .not [p]),
   .subproof [.assume "t1.h" p, .step ⟨"t1", [.op .not [p], p], "subproof", [], [], [(1, 0)]⟩] [] 0,
   .step ⟨"t2", [], "resolution", [(0, 0), (0, 1)], [], []⟩]

end C31
open C31

/-! ## Coverage -/

/-- The positions of the steps and assumptions are listed without repetition. -/
theorem c31_leaves (proof : List Command) : (leaves proof).Nodup ∧
    ∀ path i, (path, i) ∈ leaves proof ↔ ∃ c, commandAt proof path i = some c ∧ ∀ sub as n, c ≠ .subproof sub as n :=
  ⟨leavesFrom_nodup _ _ _, fun _ _ => mem_leaves⟩

/-- Each load is empty or can be replayed and ends with closing the proof itself, and together they visit exactly the steps and assumptions. -/
theorem c31_covers {O : SchedOrder} {workers : Nat} {proof : List Command} {loads : List Load} {usage : List Nat}
    (h : schedule O workers proof = .ok (loads, usage)) :
    ∃ rs : List Replay, rs.length = workers ∧
      List.Forall₂ (fun load r => replay proof load = some r ∧ (load = [] ∨ r.at_ = none)) loads rs ∧
      (rs.flatMap (·.visited)).Perm (leaves proof) := by
  obtain ⟨h1, h2, h3, -⟩ := schedule_ok h
  refine ⟨loads.map fun l => (replay proof l).getD {}, by simp [h1], ?_, ?_⟩
  · rw [List.forall₂_map_right_iff, List.forall₂_same]
    intro load hl
    rcases h2 load hl with rfl | ⟨r, hr, hn⟩
    · exact ⟨rfl, .inl rfl⟩
    · rw [hr]
      exact ⟨rfl, .inr hn⟩
  · rw [List.flatMap_map]
    have : (fun a : Load => ((replay proof a).getD {}).visited) = visitedOf proof := by
      funext a
      unfold visitedOf
      cases replay proof a <;> rfl
    rw [this]
    exact h3

/-- Every step and assumption is visited by exactly one worker, exactly once. -/
theorem c31_exactly_once {O : SchedOrder} {workers : Nat} {proof : List Command} {loads : List Load} {usage : List Nat}
    (h : schedule O workers proof = .ok (loads, usage)) {path : List Nat} {i : Nat} {c : Command} (hc : commandAt proof path i = some c)
    (hl : ∀ sub as n, c ≠ .subproof sub as n) :
    ∃ w load r, loads[w]? = some load ∧ replay proof load = some r ∧ r.visited.count (path, i) = 1 ∧
      ∀ (w' : Nat) (load' : Load) (r' : Replay), loads[w']? = some load' → replay proof load' = some r' → (path, i) ∈ r'.visited → w' = w := by
  obtain ⟨rs, -, hf, hp⟩ := c31_covers h
  have hmem := hp.mem_iff.2 (mem_leaves.2 ⟨c, hc, hl⟩)
  have hnd := hp.nodup_iff.2 (c31_leaves proof).1
  obtain ⟨r, hr, hv⟩ := List.mem_flatMap.1 hmem
  obtain ⟨w, hw, rfl⟩ := List.mem_iff_getElem.1 hr
  have hlen := hf.length_eq
  have hget : ∀ (w' : Nat) (load' : Load) (r' : Replay), loads[w']? = some load' → replay proof load' = some r' → rs[w']? = some r' := by
    intro w' load' r' h1 h2
    obtain ⟨hw', rfl⟩ := List.getElem?_eq_some_iff.1 h1
    have := (List.forall₂_iff_get.1 hf).2 w' hw' (hlen ▸ hw')
    simp only [List.get_eq_getElem] at this
    rw [List.getElem?_eq_getElem (hlen ▸ hw')]
    rw [h2] at this
    exact this.1.symm
  have hone : (rs[w].visited).Nodup := (List.nodup_flatMap.1 hnd).1 _ hr
  have hpair := (List.nodup_flatMap.1 hnd).2
  refine ⟨w, loads[w]'(hlen ▸ hw), rs[w], List.getElem?_eq_getElem _, ?_, List.count_eq_one_of_mem hone hv, ?_⟩
  · exact ((List.forall₂_iff_get.1 hf).2 w (hlen ▸ hw) hw).1
  · intro w' load' r' h1 h2 h3
    have h4 := hget w' load' r' h1 h2
    obtain ⟨hw', rfl⟩ := List.getElem?_eq_some_iff.1 h4
    rcases Nat.lt_trichotomy w' w with hlt | he | hlt
    · exact absurd hv (List.pairwise_iff_getElem.1 hpair w' w hw' hw hlt h3)
    · exact he
    · exact absurd h3 (List.pairwise_iff_getElem.1 hpair w w' hw hw' hlt hv)

/-- Three workers and nested subproofs: each of the workers opens the first subproof, and two of them the second one. -/
example : (schedule .heap 3 nested).toOption = some
    ([[.cmd 0 0, .cmd 0 1, .cmd 1 2, .close 1, .cmd 0 2, .close 0], [.cmd 0 1, .cmd 1 1, .cmd 2 0, .close 2, .close 1, .close 0],
      [.cmd 0 1, .cmd 1 0, .cmd 1 1, .cmd 2 1, .close 2, .close 1, .close 0]], [3, 2]) := by
  decide_cbv
example : ((replay nested [.cmd 0 1, .cmd 1 1, .cmd 2 0, .close 2, .close 1, .close 0]).map fun r => (r.at_, r.visited, r.opened)) =
    some (none, [([1, 1], 0)], [[1], [1, 1]]) := by decide
example : commandAt nested [1, 1] 0 = some (.step ⟨"t1.t1.t1", [], "refl", [], [], []⟩) := by decide
example : replay nested [.cmd 1 2] |>.isNone := by decide

/-! ## The users of contexts -/

/-- The parser numbers the contexts in the order in which subproofs are opened. -/
theorem c31_numbered {cs : List RawCommand} {proof : List Command} (h : parseProof cs = .ok proof) : NumberedContexts proof :=
  parseLoop_ids h (by simp) (by rfl)

example : parseProof small = .ok smallProof := by decide +kernel

/-- For each context, the usage is the number of times that the loads open its subproof. -/
theorem c31_usage {O : SchedOrder} {workers : Nat} {proof : List Command} {loads : List Load} {usage : List Nat}
    (h : schedule O workers proof = .ok (loads, usage)) (hN : NumberedContexts proof) :
    ∃ rs : List Replay, List.Forall₂ (fun load r => replay proof load = some r) loads rs ∧
      usage = (subproofs proof).map fun s => (rs.map fun r => r.opened.count s.1).sum := by
  obtain ⟨-, h2, -, h4, h5⟩ := schedule_ok h
  refine ⟨loads.map fun l => (replay proof l).getD {}, ?_, ?_⟩
  · rw [List.forall₂_map_right_iff, List.forall₂_same]
    intro load hl
    rcases h2 load hl with rfl | ⟨r, hr, hn⟩
    · rfl
    · rw [hr]
      rfl
  · have e : ∀ s : List Nat, ((loads.map fun l => (replay proof l).getD {}).map fun r => r.opened.count s).sum = openCount proof loads s := by
      intro s
      unfold openCount
      rw [List.map_map]
      congr 1
      refine List.map_congr_left fun l _ => ?_
      simp only [Function.comp, openedOf]
      cases replay proof l <;> rfl
    refine List.ext_getElem? fun k => ?_
    rw [List.getElem?_map]
    by_cases hk : k < (subproofs proof).length
    · have hid : ((subproofs proof)[k]).2 = k := by
        have := congrArg (·[k]?) hN
        simp only [List.getElem?_map, List.getElem?_eq_getElem hk, Option.map_some, List.getElem?_range hk, Option.some.injEq] at this
        exact this
      have hg : (subproofs proof)[k]? = some (((subproofs proof)[k]).1, k) := by
        rw [List.getElem?_eq_getElem hk]
        exact congrArg some (Prod.ext rfl hid)
      rw [h4 hN k _ hg, hg, Option.map_some, e]
    · rw [List.getElem?_eq_none (by rw [h5 hN]; omega), List.getElem?_eq_none (by omega), Option.map_none]

example : NumberedContexts nested := by unfold NumberedContexts; decide
example : NumberedContexts smallProof := by unfold NumberedContexts; decide

/-! ## The iterator -/

/-- The iterator over a load that can be replayed returns the commands at the positions of the load, until it returns `None`; the stack of the
iterator always consists of the commands of the subproofs that enclose the position. -/
theorem c31_iterator {proof : List Command} {load : Load} {r : Replay} (h : replay proof load = some r) :
    ∃ l, IterYields (SIter.start proof load) l ∧ List.Forall₂ (AtPosition proof) (positions proof (some []) load) l :=
  yields_positions (r := {}) h (fun path hp => by cases hp; exact StackAt.start proof)

/-- What the iterator reports at a position. -/
theorem c31_iterator_at {proof : List Command} {path : List Nat} {i : Nat} {c : Command} {it : SIter} (h : AtPosition proof (path, i) (c, it))
    (hc : ∀ sub as n, c ≠ .subproof sub as n) :
    it.depth = path.length ∧ it.isInSubproof = decide (path ≠ []) ∧
    (path ≠ [] → it.currentSubproof = commandsAt proof path) ∧ (path = [] → it.currentSubproof = none) ∧
    (it.isEndStep = true ↔ path ≠ [] ∧ commandAt proof path (i + 1) = none) ∧
    ∀ d j, d ≤ path.length → it.getPremise (d, j) = orPanic (commandAt proof (path.take d) j) := by
  obtain ⟨h1, h2, ⟨d, h3⟩⟩ := h
  have e : pathAfter proof (path, i) = path := by
    unfold pathAfter
    simp only at h1 ⊢
    rw [h1]
    cases c with
    | subproof a b n => exact absurd rfl (hc a b n)
    | assume | step => rfl
  rw [e] at h2
  simp only at h1 h2 h3
  have hd : it.depth = path.length := by rw [SIter.depth, h2.length]; rfl
  have hin : it.isInSubproof = decide (path ≠ []) := by
    rw [SIter.isInSubproof, hd]
    cases path <;> simp
  have htop := h2.top
  refine ⟨hd, hin, fun hp => ?_, fun hp => ?_, ?_, fun d j hd => ?_⟩
  · rw [SIter.currentSubproof, hin, decide_eq_true hp]
    exact htop
  · rw [SIter.currentSubproof, hin, hp]
    rfl
  · rw [SIter.isEndStep, hin, h3, Bool.and_eq_true, decide_eq_true_eq]
    refine and_congr_right fun hp => ?_
    unfold commandAt at h1 ⊢
    obtain ⟨cs, hcs, hi⟩ := Option.bind_eq_some_iff.1 h1
    rw [hcs] at htop ⊢
    have hlt := lt_of_getElem? hi
    cases hs : it.stack with
    | nil => rw [hs] at htop; cases htop
    | cons top rest =>
      rw [hs] at htop
      cases htop
      simp only [beq_iff_eq, Option.bind_some, List.getElem?_eq_none_iff]
      omega
  · have := h2.get d hd
    rw [SIter.getPremise, commandAt]
    cases hcs : commandsAt proof (path.take d) with
    | none => rw [hcs] at this; simp only [this]; rfl
    | some cs => rw [hcs] at this; simp only [this]; rfl

example : positions nested (some []) [.cmd 0 1, .cmd 1 2, .close 1, .close 0] = [([], 1), ([1], 2)] := by decide

/-! ## Existence of the schedule -/

/-- The full statement would be that a schedule always exists; what is missing are several workers and subproofs, where it is false. With one
worker, or without subproofs, there is a schedule, if there is at least one step or assumption and the weights do not overflow. -/
theorem c31_total_partial {O : SchedOrder} {workers : Nat} {proof : List Command} (hN : NumberedContexts proof) (hpos : 0 < workers)
    (hw : weightSum proof < 2 ^ 64) (hcase : (workers = 1 ∧ leaves proof ≠ []) ∨ ∀ c ∈ proof, ∀ sub as n, c ≠ .subproof sub as n) :
    ∃ r, schedule O workers proof = .ok r := by
  obtain ⟨s, hs, hinv, hgoal⟩ := schedule_total (O := O) hN hpos hw
  apply hgoal
  rcases hcase with ⟨rfl, hl⟩ | hflat
  · intro top htop w hw he
    have hlt := (hinv.users 0 top htop).2 w hw
    obtain rfl : w = 0 := by omega
    have h1 := hinv.loads
    match hld : s.loads, h1 with
    | [load], _ =>
      rw [hld] at he
      cases he
      have := hinv.visited
      rw [hld] at this
      have h2 : (leaves proof).Perm [] := this.symm
      exact hl h2.eq_nil
  · exact run_flat hflat rfl (fun top htop w hw => by cases htop; simp at hw) hs

example : (schedule .heap 1 nested).toOption = some
    ([[.cmd 0 0, .cmd 0 1, .cmd 1 0, .cmd 1 1, .cmd 2 0, .cmd 2 1, .close 2, .cmd 1 2, .close 1, .cmd 0 2, .close 0]], [1, 1]) := by
  decide_cbv
example : weightSum nested < 2 ^ 64 := by decide +kernel
example : leaves nested = [([], 0), ([1], 0), ([1, 1], 0), ([1, 1], 1), ([1], 2), ([], 2)] := by decide

/-- A worker may get nothing but the opening of a subproof. The entry is removed when the subproof ends, but the worker remains a user of the
outer level, and the scheduler panics when it looks for the worker's last entry. Here the proof is what the parser builds, and there are 16
workers. -/
theorem c31_total_fails : parseProof small = .ok smallProof ∧ NumberedContexts smallProof ∧ weightSum smallProof < 2 ^ 64 ∧
    ∀ r, schedule .heap 16 smallProof ≠ .ok r := by
  refine ⟨by decide +kernel, by unfold NumberedContexts; decide, by decide +kernel, ?_⟩
  have : (schedule .heap 16 smallProof).toOption = none := by decide_cbv
  intro r h
  rw [h] at this
  cases this

end Carcara
