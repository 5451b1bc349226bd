import Verif.Spec.Scheduler
import Mathlib.Data.List.Basic
import Mathlib.Data.List.Perm.Basic
import Mathlib.Algebra.BigOperators.Group.List.Basic

/-! # The scheduler: invariants -/

namespace Carcara

open Spec

/-! ## Positions -/

theorem commandsAt_snoc {cs : List Command} {path : List Nat} {i : Nat} {sub : List Command} :
    commandsAt cs (path ++ [i]) = some sub ↔ ∃ as n, commandAt cs path i = some (.subproof sub as n) := by
  induction path generalizing cs with
  | nil =>
    simp only [List.nil_append, commandsAt, commandAt, Option.bind_some]
    split
    · rename_i s a k h
      simp only [h, Option.some.injEq, Command.subproof.injEq]
      exact ⟨fun h => ⟨_, _, h, rfl, rfl⟩, fun ⟨_, _, h, _⟩ => h⟩
    · rename_i h
      simp only [reduceCtorEq, false_iff]
      rintro ⟨as, n, h'⟩
      exact h _ _ _ h'
  | cons j path ih =>
    simp only [List.cons_append, commandsAt, commandAt]
    split
    · rename_i s a k h
      rw [ih]
      rfl
    · simp

theorem replay_nil (proof : List Command) : replay proof [] = some {} := rfl

theorem replay_snoc {proof : List Command} {load : Load} {e : Entry} :
    replay proof (load ++ [e]) = (replay proof load).bind (replayStep proof · e) := by
  simp only [replay, List.foldlM_append, List.foldlM_cons, List.foldlM_nil, Option.bind_eq_bind, Option.pure_def, Option.bind_some]
  simp

def visitedOf (proof : List Command) (load : Load) : List (List Nat × Nat) := ((replay proof load).map (·.visited)).getD []
def openedOf (proof : List Command) (load : Load) : List (List Nat) := ((replay proof load).map (·.opened)).getD []

/-! ## The invariant -/

/-- A worker is at the subproof with the first `m` indices of the path, and is a user of the levels up to `k`. -/
structure WorkerAt (proof : List Command) (path : List Nat) (load : Load) (used : Nat → Prop) (k m : Nat) : Prop where
  le : m ≤ path.length
  replay : ∃ r, replay proof load = some r ∧ r.at_ = some (path.take m)
  used_le : ∀ j, used j → j ≤ m
  le_used : ∀ j, 1 ≤ j → j ≤ k → used j
  used_zero : load ≠ [] → used 0

def usedAt (s : Sched) (w j : Nat) : Prop := ∃ lv, s.stack[j]? = some lv ∧ w ∈ lv.usedBy

/-- The number of times that the loads open a subproof. -/
def openCount (proof : List Command) (loads : List Load) (p : List Nat) : Nat := (loads.map fun l => (openedOf proof l).count p).sum

structure UsageInv (proof : List Command) (path : List Nat) (started : List (List Nat)) (s : Sched) : Prop where
  nodup : started.Nodup
  length : s.usage.length = started.length
  count : ∀ (k : Nat) (p : List Nat), started[k]? = some p → s.usage[k]? = some (openCount proof s.loads p)
  ids : ∀ j, (hj : j < path.length) → ∀ sub as n, commandAt proof (path.take j) path[j] = some (.subproof sub as n) →
    started[n]? = some (path.take (j + 1))
  opened : ∀ load ∈ s.loads, ∀ p ∈ openedOf proof load, p ∈ started

/-- What holds of everything but the positions of the workers. -/
structure SInv (proof : List Command) (workers : Nat) (path : List Nat) (done : List (List Nat × Nat)) (started : List (List Nat))
    (s : Sched) : Prop where
  length : s.stack.length = path.length + 1
  cmds : ∀ (j : Nat) (lv : Level), s.stack[j]? = some lv → commandsAt proof (path.take j) = some lv.cmds
  users : ∀ (j : Nat) (lv : Level), s.stack[j]? = some lv → lv.usedBy.Nodup ∧ ∀ w ∈ lv.usedBy, w < workers
  preReq : ∀ (j : Nat) (lv : Level), s.stack[j + 1]? = some lv → lv.preReq = path[j]?.map (j, ·)
  loads : s.loads.length = workers
  queue : (s.queue.map (·.2)).Perm (List.range workers)
  visited : (s.loads.flatMap (visitedOf proof)).Perm done
  usage : NumberedContexts proof → UsageInv proof path started s

/-- All workers but possibly one are where they should be. -/
def OthersAt (proof : List Command) (path : List Nat) (s : Sched) (w₀ : Option Nat) : Prop :=
  ∀ w load, some w ≠ w₀ → s.loads[w]? = some load → ∃ m, WorkerAt proof path load (usedAt s w) m m

/-! ## Replacing one load -/

theorem perm_flatMap_set {α β : Type} (f : α → List β) {x : α} {e : List β} : ∀ {l : List α} {w : Nat} {y : α}, l[w]? = some y →
    f x = f y ++ e → ((l.set w x).flatMap f).Perm (l.flatMap f ++ e)
  | [], _, _, h, _ => by simp at h
  | a :: l, 0, y, h, hx => by
    simp only [List.getElem?_cons_zero, Option.some.injEq] at h
    subst h
    simp only [List.set_cons_zero, List.flatMap_cons, hx, List.append_assoc]
    exact List.Perm.append_left _ List.perm_append_comm
  | a :: l, w + 1, y, h, hx => by
    simp only [List.getElem?_cons_succ] at h
    simp only [List.set_cons_succ, List.flatMap_cons, List.append_assoc]
    exact List.Perm.append_left _ (perm_flatMap_set f h hx)

theorem sum_set {α : Type} (f : α → Nat) {x : α} {a b : Nat} : ∀ {l : List α} {w : Nat} {y : α}, l[w]? = some y →
    f x + a = f y + b → ((l.set w x).map f).sum + a = (l.map f).sum + b
  | [], _, _, h, _ => by simp at h
  | c :: l, 0, y, h, hx => by
    simp only [List.getElem?_cons_zero, Option.some.injEq] at h
    subst h
    simp only [List.set_cons_zero, List.map_cons, List.sum_cons]
    omega
  | c :: l, w + 1, y, h, hx => by
    simp only [List.getElem?_cons_succ] at h
    simp only [List.set_cons_succ, List.map_cons, List.sum_cons]
    have := sum_set f h hx
    omega

/-! ## The last entry of a load -/

theorem replay_last {proof : List Command} {load : Load} {r : Replay} (h : replay proof load = some r) :
    (load = [] ∧ r = {}) ∨ ∃ l e r', load = l ++ [e] ∧ replay proof l = some r' ∧ replayStep proof r' e = some r := by
  rcases List.eq_nil_or_concat load with rfl | ⟨l, e, rfl⟩
  · rw [replay_nil] at h
    exact .inl ⟨rfl, (Option.some.inj h).symm⟩
  · rw [List.concat_eq_append, replay_snoc, Option.bind_eq_some_iff] at h
    obtain ⟨r', h1, h2⟩ := h
    exact .inr ⟨l, e, r', List.concat_eq_append .., h1, h2⟩

/-- The cases of an entry. -/
theorem replayStep_cases {proof : List Command} {r r' : Replay} {e : Entry} (h : replayStep proof r' e = some r) :
    (∃ path i c, e = .cmd path.length i ∧ r'.at_ = some path ∧ commandAt proof path i = some c ∧ (∀ a b n, c ≠ .subproof a b n) ∧
      r.at_ = some path ∧ r.visited = r'.visited ++ [(path, i)] ∧ r.opened = r'.opened) ∨
    (∃ path i sub as n, e = .cmd path.length i ∧ r'.at_ = some path ∧ commandAt proof path i = some (.subproof sub as n) ∧
      r.at_ = some (path ++ [i]) ∧ r.visited = r'.visited ∧ r.opened = r'.opened ++ [path ++ [i]]) ∨
    (∃ path, e = .close path.length ∧ r'.at_ = some path ∧ r.at_ = (if path = [] then none else some path.dropLast) ∧
      r.visited = r'.visited ∧ r.opened = r'.opened) := by
  unfold replayStep at h
  split at h
  · split at h
    · simp at h
    · rename_i path hp
      split at h
      · simp at h
      · rename_i hd
        simp only [ne_eq, Decidable.not_not] at hd
        subst hd
        split at h
        · simp at h
        · rename_i sub as n hc
          cases h
          exact .inr (.inl ⟨path, _, sub, as, n, rfl, hp, hc, rfl, rfl, rfl⟩)
        · rename_i c hne hc
          cases h
          exact .inl ⟨path, _, c, rfl, hp, hc, fun a b n e => hne a b n e, hp, rfl, rfl⟩
  · split at h
    · simp at h
    · rename_i path hp
      split at h
      · simp at h
      · rename_i hd
        simp only [ne_eq, Decidable.not_not] at hd
        subst hd
        cases h
        exact .inr (.inr ⟨path, rfl, hp, rfl, rfl, rfl⟩)

theorem last_ne_opening {proof : List Command} {load : Load} {r : Replay} {q : List Nat} (hr : replay proof load = some r)
    (hq : r.at_ = some q) {i : Nat} {sub : List Command} {as : List AnchorArg} {n : Nat}
    (hc : commandAt proof q i = some (.subproof sub as n)) : load.getLast? ≠ some (.cmd q.length i) := by
  rcases replay_last hr with ⟨rfl, rfl⟩ | ⟨l, e, r', rfl, hl, he⟩
  · simp
  · rw [List.getLast?_append, List.getLast?_singleton, Option.some_or, ne_eq, Option.some.injEq]
    rcases replayStep_cases he with ⟨path, j, c, rfl, h1, h2, h3, h4, -⟩ | ⟨path, j, s', a', n', rfl, h1, h2, h3, -⟩ | ⟨path, rfl, -⟩
    · rw [hq] at h4
      cases h4
      intro h
      cases h
      rw [hc] at h2
      exact h3 _ _ _ (Option.some.inj h2).symm
    · rw [hq] at h3
      cases h3
      intro h
      simp at h
    · simp

theorem initialLayer_ok {proof : List Command} {load : Load} {r : Replay} {q : List Nat} (hr : replay proof load = some r)
    (hq : r.at_ = some q) : initialLayer load = .ok q.length ∨
      ∃ q' i, q = q' ++ [i] ∧ initialLayer load = .ok q'.length ∧ load.getLast? = some (.cmd q'.length i) := by
  unfold initialLayer
  rcases replay_last hr with ⟨rfl, rfl⟩ | ⟨l, e, r', rfl, hl, he⟩
  · cases hq
    exact .inl rfl
  · rw [List.getLast?_append, List.getLast?_singleton, Option.some_or]
    rcases replayStep_cases he with ⟨path, j, c, rfl, h1, h2, h3, h4, -⟩ | ⟨path, j, s', a', n', rfl, h1, h2, h3, -⟩ | ⟨path, rfl, h1, h2, -⟩
    · rw [hq] at h4
      cases h4
      exact .inl rfl
    · rw [hq] at h3
      cases h3
      exact .inr ⟨path, j, rfl, rfl, rfl⟩
    · rw [hq] at h2
      split at h2
      · cases h2
      · rename_i hne
        cases h2
        left
        have : path.length ≠ 0 := by simpa using hne
        simp [this]

theorem mem_insertUser {l : List Nat} {w x : Nat} : x ∈ insertUser l w ↔ x ∈ l ∨ x = w := by
  unfold insertUser
  split
  · rename_i h
    exact ⟨.inl, fun h' => h'.elim id (fun e => e ▸ h)⟩
  · simp

theorem nodup_insertUser {l : List Nat} {w : Nat} (h : l.Nodup) : (insertUser l w).Nodup := by
  unfold insertUser
  split
  · exact h
  · rename_i hw
    exact List.nodup_append.2 ⟨h, by simp, by rintro a ha b hb rfl; simp at hb; exact hw (hb ▸ ha)⟩

theorem lt_of_getElem? {α : Type} {l : List α} {i : Nat} {a : α} (h : l[i]? = some a) : i < l.length := (List.getElem?_eq_some_iff.1 h).1

section
variable {proof : List Command} {workers : Nat} {path : List Nat} {done : List (List Nat × Nat)} {started : List (List Nat)} {s : Sched}

/-- The commands of the path are subproofs. -/
theorem SInv.on_path (h : SInv proof workers path done started s) {j : Nat} (hj : j < path.length) :
    ∃ sub as n outer, commandAt proof (path.take j) path[j] = some (.subproof sub as n) ∧ s.stack[j]? = some outer ∧
      outer.cmds[path[j]]? = some (.subproof sub as n) := by
  have hs : j + 1 < s.stack.length := by rw [h.length]; omega
  have h1 := h.cmds (j + 1) _ (List.getElem?_eq_getElem hs)
  rw [List.take_succ_eq_append_getElem hj, commandsAt_snoc] at h1
  obtain ⟨as, n, h1⟩ := h1
  have h2 := h.cmds j _ (List.getElem?_eq_getElem (by omega))
  refine ⟨_, as, n, _, h1, List.getElem?_eq_getElem (by omega), ?_⟩
  rw [commandAt, h2] at h1
  simpa using h1

theorem usedAt_set {w x j m : Nat} {outer : Level} (ho : s.stack[m]? = some outer) {loads : List Load} {q : List (Nat × Nat)} {u : List Nat} :
    usedAt ⟨loads, s.stack.set m { outer with usedBy := insertUser outer.usedBy w }, q, u⟩ x j ↔ usedAt s x j ∨ (x = w ∧ j = m) := by
  simp only [usedAt, List.getElem?_set]
  have hm := lt_of_getElem? ho
  by_cases e : m = j
  · subst e
    simp only [if_true, hm, Option.some.injEq, exists_eq_left', mem_insertUser, ho, and_true]
  · simp only [if_neg e, Ne.symm e, and_false, or_false]

theorem openCount_set {loads : List Load} {w : Nat} {load load' : Load} {p P : List Nat} (hl : loads[w]? = some load)
    (h : openedOf proof load' = openedOf proof load ++ [P]) :
    openCount proof (loads.set w load') p = openCount proof loads p + if p = P then 1 else 0 := by
  have := sum_set (fun l => (openedOf proof l).count p) (x := load') (a := 0) (b := if p = P then 1 else 0) hl
    (by
      simp only [h, List.count_append, List.count_singleton, beq_iff_eq]
      by_cases e : p = P
      · simp [e]
      · simp [e, Ne.symm e])
  simpa [openCount] using this

theorem openCount_set_same {loads : List Load} {w : Nat} {load load' : Load} {p : List Nat} (hl : loads[w]? = some load)
    (h : openedOf proof load' = openedOf proof load) :
    openCount proof (loads.set w load') p = openCount proof loads p := by
  have := sum_set (fun l => (openedOf proof l).count p) (x := load') (a := 0) (b := 0) hl (by simp only [h])
  simpa [openCount] using this

theorem openFor_inv (h : SInv proof workers path done started s) {w : Nat} (hothers : OthersAt proof path s (some w)) {load : Load}
    (hl : s.loads[w]? = some load) {k m : Nat} (hw : WorkerAt proof path load (usedAt s w) k m) (hk : m ≤ k + 1) (hm : m < path.length) :
    (NumberedContexts proof → ∃ s', openFor w (m + 1) s = .ok s') ∧ ∀ s', openFor w (m + 1) s = .ok s' →
      SInv proof workers path done started s' ∧ OthersAt proof path s' (some w) ∧ s'.queue = s.queue ∧
      ∃ load', s'.loads[w]? = some load' ∧ WorkerAt proof path load' (usedAt s' w) m (m + 1) := by
  obtain ⟨sub, as, n, outer, hc, ho, hcm⟩ := h.on_path hm
  obtain ⟨r, hr, hq⟩ := hw.replay
  have hs : m + 1 < s.stack.length := by rw [h.length]; omega
  have hpre := h.preReq m _ (List.getElem?_eq_getElem hs)
  rw [List.getElem?_eq_getElem hm, Option.map_some] at hpre
  have hlen : (path.take m).length = m := by simp; omega
  have hne := last_ne_opening hr hq hc
  rw [hlen] at hne
  have heq : openFor w (m + 1) s = (orPanic s.usage[n]? >>= fun u => .ok { s with
        loads := s.loads.set w (load ++ [.cmd m path[m]])
        stack := s.stack.set m { outer with usedBy := insertUser outer.usedBy w }
        usage := s.usage.set n (u + 1) }) := by
    simp only [openFor, List.getElem?_eq_getElem hs, orPanic, hpre, hl, bind, Except.bind, if_neg hne, ho, hcm]
  rw [heq]
  have hstep : replay proof (load ++ [.cmd m path[m]]) =
      some { r with at_ := some (path.take (m + 1)), opened := r.opened ++ [path.take (m + 1)] } := by
    rw [replay_snoc, hr, Option.bind_some]
    simp only [replayStep, hq, hlen, ne_eq, not_true, if_false, hc]
    rw [List.take_succ_eq_append_getElem hm]
  have hopened : openedOf proof (load ++ [.cmd m path[m]]) = openedOf proof load ++ [path.take (m + 1)] := by
    simp [openedOf, hstep, hr]
  have hvisited : visitedOf proof (load ++ [.cmd m path[m]]) = visitedOf proof load ++ [] := by
    simp [visitedOf, hstep, hr]
  refine ⟨fun hN => ?_, fun s' hs' => ?_⟩
  · have hu := h.usage hN
    have := lt_of_getElem? (hu.ids m hm sub as n hc)
    rw [← hu.length] at this
    exact ⟨_, by simp [List.getElem?_eq_getElem this, orPanic, bind, Except.bind]; rfl⟩
  · obtain ⟨u, hu, hs'⟩ := bind_ok.1 hs'
    rw [orPanic_ok] at hu
    cases hs'
    have hwlt : w < workers := h.loads ▸ lt_of_getElem? hl
    refine ⟨⟨?_, ?_, ?_, ?_, ?_, ?_, ?_, ?_⟩, ?_, rfl, load ++ [.cmd m path[m]], ?_, ?_⟩
    · simpa using h.length
    · intro j lv hj
      simp only [List.getElem?_set] at hj
      split at hj
      · rename_i e
        subst e
        rw [if_pos (lt_of_getElem? ho)] at hj
        cases hj
        exact h.cmds m outer ho
      · exact h.cmds j lv hj
    · intro j lv hj
      simp only [List.getElem?_set] at hj
      split at hj
      · rename_i e
        subst e
        rw [if_pos (lt_of_getElem? ho)] at hj
        cases hj
        have := h.users m outer ho
        refine ⟨nodup_insertUser this.1, fun x hx => ?_⟩
        rcases mem_insertUser.1 hx with hx | rfl
        · exact this.2 x hx
        · exact hwlt
      · exact h.users j lv hj
    · intro j lv hj
      simp only [List.getElem?_set] at hj
      split at hj
      · rename_i e
        subst e
        rw [if_pos (lt_of_getElem? ho)] at hj
        cases hj
        exact h.preReq j outer ho
      · exact h.preReq j lv hj
    · simpa using h.loads
    · exact h.queue
    · have := perm_flatMap_set (visitedOf proof) hl hvisited
      rw [List.append_nil] at this
      exact this.trans h.visited
    · intro hN
      have hU := h.usage hN
      have hid := hU.ids m hm sub as n hc
      refine ⟨hU.nodup, by simpa using hU.length, fun k p hkp => ?_, hU.ids, fun l hl' p hp => ?_⟩
      · simp only [List.getElem?_set]
        rw [openCount_set hl hopened]
        by_cases e : n = k
        · subst e
          rw [hid, Option.some.injEq] at hkp
          subst hkp
          have := hU.count n _ hid
          rw [hu, Option.some.injEq] at this
          simp [lt_of_getElem? hu, this]
        · have hpe : p ≠ path.take (m + 1) := by
            rintro rfl
            exact e ((List.getElem?_inj (lt_of_getElem? hid) hU.nodup).1 (hid.trans hkp.symm))
          rw [if_neg e, if_neg hpe, Nat.add_zero]
          exact hU.count k p hkp
      · rcases List.mem_or_eq_of_mem_set hl' with hl' | rfl
        · exact hU.opened l hl' p hp
        · rw [hopened] at hp
          rcases List.mem_append.1 hp with hp | hp
          · exact hU.opened load (List.mem_of_getElem? hl) p hp
          · rw [List.mem_singleton] at hp
            subst hp
            exact List.mem_of_getElem? hid
    · intro x lx hx hlx
      have hxw : x ≠ w := fun e => hx (e ▸ rfl)
      simp only [List.getElem?_set, Ne.symm hxw, if_false] at hlx
      obtain ⟨mx, hmx⟩ := hothers x lx hx hlx
      refine ⟨mx, hmx.le, hmx.replay, fun j hj => hmx.used_le j ?_, fun j h1 h2 => ?_, fun h1 => ?_⟩
      · simpa [usedAt_set ho, hxw] using hj
      · simpa [usedAt_set ho, hxw] using hmx.le_used j h1 h2
      · simpa [usedAt_set ho, hxw] using hmx.used_zero h1
    · simp [lt_of_getElem? hl]
    · refine ⟨hm, ⟨_, hstep, rfl⟩, fun j hj => ?_, fun j h1 h2 => ?_, fun _ => ?_⟩
      · rcases (usedAt_set ho).1 hj with hj | ⟨-, rfl⟩
        · exact Nat.le_succ_of_le (hw.used_le j hj)
        · exact Nat.le_succ _
      · rw [usedAt_set ho]
        by_cases e : j = m
        · exact .inr ⟨rfl, e⟩
        · exact .inl (hw.le_used j h1 (by omega))
      · rw [usedAt_set ho]
        by_cases e : m = 0
        · exact .inr ⟨rfl, e.symm⟩
        · left
          apply hw.used_zero
          rintro rfl
          rw [replay_nil] at hr
          cases hr
          simp at hq
          rcases hq with hq | hq
          · exact e hq
          · simp [hq] at hm

theorem openLoop_inv {w : Nat} : ∀ {k₀ : Nat} {s : Sched} {load : Load} {k m : Nat}, SInv proof workers path done started s →
    OthersAt proof path s (some w) → s.loads[w]? = some load → WorkerAt proof path load (usedAt s w) k m → m ≤ k + 1 → path.length = m + k₀ →
    (NumberedContexts proof → ∃ s', openLoop w k₀ (m + 1) s = .ok s') ∧ ∀ s', openLoop w k₀ (m + 1) s = .ok s' →
      SInv proof workers path done started s' ∧ OthersAt proof path s' (some w) ∧ s'.queue = s.queue ∧
      ∃ load' k, s'.loads[w]? = some load' ∧ path.length ≤ k + 1 ∧ WorkerAt proof path load' (usedAt s' w) k path.length
  | 0, s, load, k, m, h, ho, hl, hw, hk, hp => by
    refine ⟨fun _ => ⟨s, rfl⟩, fun s' hs' => ?_⟩
    cases hs'
    rw [Nat.add_zero] at hp
    subst hp
    exact ⟨h, ho, rfl, load, k, hl, hk, hw⟩
  | k₀ + 1, s, load, k, m, h, ho, hl, hw, hk, hp => by
    have := openFor_inv h ho hl hw hk (by omega)
    refine ⟨fun hN => ?_, fun s' hs' => ?_⟩
    · obtain ⟨s1, h1⟩ := this.1 hN
      obtain ⟨h2, h3, -, load', h5, h6⟩ := this.2 s1 h1
      obtain ⟨s', h7⟩ := (openLoop_inv (k₀ := k₀) h2 h3 h5 h6 (Nat.le_refl _) (by omega)).1 hN
      exact ⟨s', bind_ok.2 ⟨s1, h1, h7⟩⟩
    · obtain ⟨s1, h1, h7⟩ := bind_ok.1 hs'
      obtain ⟨h2, h3, h4, load', h5, h6⟩ := this.2 s1 h1
      obtain ⟨g1, g2, g3, g4⟩ := (openLoop_inv (k₀ := k₀) h2 h3 h5 h6 (Nat.le_refl _) (by omega)).2 s' h7
      exact ⟨g1, g2, g3.trans h4, g4⟩

theorem SInv.setQueue (h : SInv proof workers path done started s) {q : List (Nat × Nat)} (hq : (q.map (·.2)).Perm (List.range workers)) :
    SInv proof workers path done started { s with queue := q } :=
  ⟨h.length, h.cmds, h.users, h.preReq, h.loads, hq, h.visited, fun hN =>
    ⟨(h.usage hN).nodup, (h.usage hN).length, (h.usage hN).count, (h.usage hN).ids, (h.usage hN).opened⟩⟩

/-- Every load is at most the given one. -/
def QueueLe (W : Nat) (s : Sched) : Prop := ∀ x ∈ s.queue, x.1 ≤ W

/-- The state before the last two assignments of `assignCommand`. -/
structure Prepared (proof : List Command) (workers : Nat) (path : List Nat) (done : List (List Nat × Nat)) (started : List (List Nat))
    (w : Nat) (load : Load) (top : Level) (s : Sched) : Prop where
  inv : SInv proof workers path done started s
  others : OthersAt proof path s (some w)
  load_eq : s.loads[w]? = some load
  top_eq : s.stack[path.length]? = some top
  worker : ∃ k, path.length ≤ k + 1 ∧ WorkerAt proof path load (usedAt s w) k path.length

/-- `assignCommand` after the worker has been chosen. -/
theorem assign_inv {O : SchedOrder} {index : Nat} {c : Command} (h : SInv proof workers path done started s)
    (ho : OthersAt proof path s none) :
    (NumberedContexts proof → 0 < workers → ∀ W, QueueLe W s → W + stepWeight c < 2 ^ 64 → ∃ r, assignCommand O index c s = .ok r) ∧
    ∀ s' w, assignCommand O index c s = .ok (s', w) → ∃ s1 load top, Prepared proof workers path done started w load top s1 ∧
      s' = { s1 with
        loads := s1.loads.set w (load ++ [.cmd path.length index])
        stack := s1.stack.set path.length { top with usedBy := insertUser top.usedBy w } } ∧
      ∀ W, QueueLe W s → QueueLe (W + stepWeight c) s' := by
  have hdepth : s.stack.length - 1 = path.length := by rw [h.length]; rfl
  -- what happens once a worker is picked
  have key : ∀ x w q, O.pop s.queue = some ((x, w), q) → ∃ load layer, s.loads[w]? = some load ∧ initialLayer load = .ok layer ∧
      (NumberedContexts proof → ∃ s', openLoop w (path.length - layer) (layer + 1) { s with queue := O.push (x + stepWeight c, w) q } = .ok s') ∧
      ∀ s', openLoop w (path.length - layer) (layer + 1) { s with queue := O.push (x + stepWeight c, w) q } = .ok s' →
        s'.queue = O.push (x + stepWeight c, w) q ∧ ∃ load' top, Prepared proof workers path done started w load' top s' := by
    intro x w q hpop
    have hperm := O.pop_perm hpop
    have hq : ((O.push (x + stepWeight c, w) q).map (·.2)).Perm (List.range workers) :=
      (((O.push_perm _ _).map _).trans (by simpa using (hperm.map (·.2)).symm)).trans h.queue
    have hwlt : w < workers := by
      have : w ∈ s.queue.map (·.2) := List.mem_map.2 ⟨(x, w), hperm.mem_iff.2 (by simp), rfl⟩
      simpa using h.queue.mem_iff.1 this
    obtain ⟨load₀, hl⟩ : ∃ l, s.loads[w]? = some l := ⟨_, List.getElem?_eq_getElem (by rw [h.loads]; exact hwlt)⟩
    obtain ⟨m, hm⟩ := ho w _ (by simp) hl
    obtain ⟨r, hr, hrq⟩ := hm.replay
    have hlen : (path.take m).length = m := by have := hm.le; simp; omega
    have hs0 := h.setQueue hq
    have hothers : OthersAt proof path { s with queue := O.push (x + stepWeight c, w) q } (some w) := fun y ly _ hly => ho y ly (by simp) hly
    have fin : ∀ s', openLoop w (path.length - m) (m + 1) { s with queue := O.push (x + stepWeight c, w) q } = .ok s' →
        s'.queue = O.push (x + stepWeight c, w) q ∧ ∃ load' top, Prepared proof workers path done started w load' top s' := by
      intro s' hs'
      obtain ⟨g1, g2, g3, load', k, g4, g5, g6⟩ := (openLoop_inv (k₀ := path.length - m) hs0 hothers hl hm (Nat.le_succ m)
        (by have := hm.le; omega)).2 s' hs'
      have : path.length < s'.stack.length := by rw [g1.length]; omega
      exact ⟨g3, load', _, g1, g2, g4, List.getElem?_eq_getElem this, k, g5, g6⟩
    have tot := (openLoop_inv (k₀ := path.length - m) hs0 hothers hl hm (Nat.le_succ m) (by have := hm.le; omega)).1
    rcases initialLayer_ok hr hrq with hi | ⟨q', i, hq', hi, hlast⟩
    · rw [hlen] at hi
      exact ⟨_, m, hl, hi, tot, fin⟩
    · have hm' : m = q'.length + 1 := by rw [← hlen, hq']; simp
      refine ⟨_, q'.length, hl, hi, ?_⟩
      have hskip : openFor w (q'.length + 1) { s with queue := O.push (x + stepWeight c, w) q } =
          .ok { s with queue := O.push (x + stepWeight c, w) q } := by
        have hlt : q'.length < path.length := by have := hm.le; omega
        have hs : q'.length + 1 < s.stack.length := by rw [h.length]; omega
        have hpre := h.preReq q'.length _ (List.getElem?_eq_getElem hs)
        have hpi : path[q'.length] = i := by
          have : (path.take m)[q'.length]? = some i := by rw [hq']; simp
          rw [List.getElem?_take_of_lt (by omega), List.getElem?_eq_getElem hlt] at this
          exact Option.some.inj this
        rw [List.getElem?_eq_getElem hlt, Option.map_some, hpi] at hpre
        simp only [openFor, List.getElem?_eq_getElem hs, orPanic, hpre, hl, bind, Except.bind, hlast, if_true]
      have hunf : openLoop w (path.length - q'.length) (q'.length + 1) { s with queue := O.push (x + stepWeight c, w) q } =
          openLoop w (path.length - m) (m + 1) { s with queue := O.push (x + stepWeight c, w) q } := by
        rw [show path.length - q'.length = (path.length - m) + 1 by have := hm.le; omega, openLoop, hskip, hm']
        rfl
      rw [hunf]
      exact ⟨tot, fin⟩
  refine ⟨fun hN hpos W hW hlt => ?_, fun s' w hs' => ?_⟩
  · have hne : s.queue ≠ [] := by
      intro e
      have := h.queue.length_eq
      simp [e] at this
      omega
    obtain ⟨⟨⟨x, w⟩, q⟩, hpop⟩ := Option.isSome_iff_exists.1 (O.pop_some hne)
    obtain ⟨load, layer, h1, h2, h3, h4⟩ := key x w q hpop
    obtain ⟨s1, h5⟩ := h3 hN
    obtain ⟨-, load', top, hP⟩ := h4 s1 h5
    have hx : x ≤ W := hW (x, w) ((O.pop_perm hpop).mem_iff.2 (by simp))
    refine ⟨({ s1 with
        loads := s1.loads.set w (load' ++ [.cmd path.length index])
        stack := s1.stack.set path.length { top with usedBy := insertUser top.usedBy w } }, w),
      bind_ok.2 ⟨((x, w), q), by rw [hpop]; rfl, ?_⟩⟩
    simp only
    rw [if_neg (by omega)]
    simp only [bind, Except.bind, h1, orPanic, h2, hdepth, h5, hP.load_eq, hP.top_eq]
  · simp only [assignCommand] at hs'
    obtain ⟨⟨⟨x, w'⟩, q⟩, hpop, hs'⟩ := bind_ok.1 hs'
    rw [orPanic_ok] at hpop
    simp only at hs'
    split at hs'
    · cases hs'
    obtain ⟨load, layer, h1, h2, -, h4⟩ := key x w' q hpop
    simp only [bind_ok, orPanic_ok, h1, Option.some.injEq, exists_eq_left', h2, Except.ok.injEq, hdepth] at hs'
    obtain ⟨s1, h5, load', h6, top, h7, h8⟩ := hs'
    cases h8
    obtain ⟨hqueue, load'', top', hP⟩ := h4 s1 h5
    have e1 := hP.load_eq
    rw [h6] at e1
    cases e1
    have e2 := hP.top_eq
    rw [h7] at e2
    cases e2
    refine ⟨s1, _, _, hP, rfl, fun W hW y hy => ?_⟩
    simp only [hqueue] at hy
    rcases List.mem_cons.1 ((O.push_perm _ _).mem_iff.1 hy) with rfl | hy
    · have := hW (x, w) ((O.pop_perm hpop).mem_iff.2 (by simp))
      simpa using this
    · exact Nat.le_add_right_of_le (hW y ((O.pop_perm hpop).mem_iff.2 (by simp [hy])))

end

end Carcara
