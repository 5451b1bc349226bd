import Verif.Lemmas.Scheduler

/-! # The scheduler: assigning commands and closing levels -/

namespace Carcara

open Spec

section
variable {proof : List Command} {workers : Nat} {path : List Nat} {done : List (List Nat × Nat)} {started started' : List (List Nat)} {s : Sched}

theorem SInv.update (h : SInv proof workers path done started s) {w m : Nat} {load load' : Load} {outer : Level} {usage : List Nat}
    {e : List (List Nat × Nat)} (hl : s.loads[w]? = some load) (ho : s.stack[m]? = some outer)
    (hv : visitedOf proof load' = visitedOf proof load ++ e)
    (hU : NumberedContexts proof → UsageInv proof path started' ⟨s.loads.set w load', s.stack.set m { outer with usedBy := insertUser outer.usedBy w },
      s.queue, usage⟩) :
    SInv proof workers path (done ++ e) started' ⟨s.loads.set w load', s.stack.set m { outer with usedBy := insertUser outer.usedBy w },
      s.queue, usage⟩ := by
  have hwlt : w < workers := h.loads ▸ lt_of_getElem? hl
  refine ⟨?_, ?_, ?_, ?_, ?_, ?_, ?_, hU⟩
  · simpa using h.length
  · intro j lv hj
    simp only [List.getElem?_set] at hj
    split at hj
    · rename_i e
      subst e
      rw [if_pos (lt_of_getElem? ho)] at hj
      cases hj
      exact h.cmds m outer ho
    · exact h.cmds j lv hj
  · intro j lv hj
    simp only [List.getElem?_set] at hj
    split at hj
    · rename_i e
      subst e
      rw [if_pos (lt_of_getElem? ho)] at hj
      cases hj
      have := h.users m outer ho
      refine ⟨nodup_insertUser this.1, fun x hx => ?_⟩
      rcases mem_insertUser.1 hx with hx | rfl
      · exact this.2 x hx
      · exact hwlt
    · exact h.users j lv hj
  · intro j lv hj
    simp only [List.getElem?_set] at hj
    split at hj
    · rename_i e
      subst e
      rw [if_pos (lt_of_getElem? ho)] at hj
      cases hj
      exact h.preReq j outer ho
    · exact h.preReq j lv hj
  · simpa using h.loads
  · exact h.queue
  · exact (perm_flatMap_set (visitedOf proof) hl hv).trans (h.visited.append_right e)

variable {w index : Nat} {load : Load} {top : Level}

/-- A step or an assumption has been assigned. -/
theorem Prepared.leaf (h : Prepared proof workers path done started w load top s) {c : Command} (hc : commandAt proof path index = some c)
    (hleaf : ∀ a b n, c ≠ .subproof a b n) :
    SInv proof workers path (done ++ [(path, index)]) started ⟨s.loads.set w (load ++ [.cmd path.length index]),
        s.stack.set path.length { top with usedBy := insertUser top.usedBy w }, s.queue, s.usage⟩ ∧
      OthersAt proof path ⟨s.loads.set w (load ++ [.cmd path.length index]),
        s.stack.set path.length { top with usedBy := insertUser top.usedBy w }, s.queue, s.usage⟩ none := by
  obtain ⟨k, hk, hw⟩ := h.worker
  obtain ⟨r, hr, hq⟩ := hw.replay
  rw [List.take_length] at hq
  have hstep : replay proof (load ++ [.cmd path.length index]) = some { r with visited := r.visited ++ [(path, index)] } := by
    rw [replay_snoc, hr, Option.bind_some]
    simp only [replayStep, hq, ne_eq, not_true, if_false, hc]
  have hopened : openedOf proof (load ++ [.cmd path.length index]) = openedOf proof load := by simp [openedOf, hstep, hr]
  refine ⟨h.inv.update h.load_eq h.top_eq (by simp [visitedOf, hstep, hr]) (fun hN => ?_), fun x lx _ hlx => ?_⟩
  · have hU := h.inv.usage hN
    refine ⟨hU.nodup, hU.length, fun j p hjp => ?_, hU.ids, fun l hl' p hp => ?_⟩
    · rw [openCount_set_same h.load_eq hopened]
      exact hU.count j p hjp
    · rcases List.mem_or_eq_of_mem_set hl' with hl' | rfl
      · exact hU.opened l hl' p hp
      · exact hU.opened load (List.mem_of_getElem? h.load_eq) p (hopened ▸ hp)
  · by_cases hxw : x = w
    · subst hxw
      simp only [List.getElem?_set_self (lt_of_getElem? h.load_eq), Option.some.injEq] at hlx
      subst hlx
      refine ⟨path.length, Nat.le_refl _, ⟨_, hstep, by simpa using hq⟩, fun j hj => ?_, fun j h1 h2 => ?_, fun _ => ?_⟩
      · rcases (usedAt_set h.top_eq).1 hj with hj | ⟨-, rfl⟩
        · exact hw.used_le j hj
        · exact Nat.le_refl _
      · rw [usedAt_set h.top_eq]
        by_cases e : j = path.length
        · exact .inr ⟨rfl, e⟩
        · exact .inl (hw.le_used j h1 (by omega))
      · rw [usedAt_set h.top_eq]
        by_cases e : path.length = 0
        · exact .inr ⟨rfl, e.symm⟩
        · left
          apply hw.used_zero
          rintro rfl
          rw [replay_nil] at hr
          cases hr
          simp at hq
          simp [hq] at e
    · simp only [List.getElem?_set, Ne.symm hxw, if_false] at hlx
      obtain ⟨mx, hmx⟩ := h.others x lx (fun e => hxw (Option.some.inj e)) hlx
      refine ⟨mx, hmx.le, hmx.replay, fun j hj => hmx.used_le j ?_, fun j h1 h2 => ?_, fun h1 => ?_⟩
      · simpa [usedAt_set h.top_eq, hxw] using hj
      · simpa [usedAt_set h.top_eq, hxw] using hmx.le_used j h1 h2
      · simpa [usedAt_set h.top_eq, hxw] using hmx.used_zero h1

/-- A subproof has been assigned and its level has been pushed. -/
theorem Prepared.subproof (h : Prepared proof workers path done started w load top s) {sub : List Command} {as : List AnchorArg} {n : Nat}
    (hc : commandAt proof path index = some (.subproof sub as n))
    (hN : NumberedContexts proof → n = started.length ∧ path ++ [index] ∉ started) :
    SInv proof workers (path ++ [index]) done (started ++ [path ++ [index]]) ⟨s.loads.set w (load ++ [.cmd path.length index]),
        s.stack.set path.length { top with usedBy := insertUser top.usedBy w } ++ [⟨sub, some (path.length, index), [w]⟩], s.queue,
        s.usage ++ [1]⟩ ∧
      OthersAt proof (path ++ [index]) ⟨s.loads.set w (load ++ [.cmd path.length index]),
        s.stack.set path.length { top with usedBy := insertUser top.usedBy w } ++ [⟨sub, some (path.length, index), [w]⟩], s.queue,
        s.usage ++ [1]⟩ none := by
  obtain ⟨k, hk, hw⟩ := h.worker
  obtain ⟨r, hr, hq⟩ := hw.replay
  rw [List.take_length] at hq
  have hslen := h.inv.length
  have hstep : replay proof (load ++ [.cmd path.length index]) =
      some { r with at_ := some (path ++ [index]), opened := r.opened ++ [path ++ [index]] } := by
    rw [replay_snoc, hr, Option.bind_some]
    simp only [replayStep, hq, ne_eq, not_true, if_false, hc]
  have hopened : openedOf proof (load ++ [.cmd path.length index]) = openedOf proof load ++ [path ++ [index]] := by
    simp [openedOf, hstep, hr]
  have hvisited : visitedOf proof (load ++ [.cmd path.length index]) = visitedOf proof load ++ [] := by
    simp [visitedOf, hstep, hr]
  have hwlt : w < workers := h.inv.loads ▸ lt_of_getElem? h.load_eq
  have htake : ∀ j, j ≤ path.length → (path ++ [index]).take j = path.take j := fun j hj => List.take_append_of_le_length hj
  -- the stack below the new level
  have hold : ∀ (j : Nat) (lv : Level), (s.stack.set path.length { top with usedBy := insertUser top.usedBy w } ++
      [⟨sub, some (path.length, index), [w]⟩])[j]? = some lv → (j ≤ path.length ∧ ∃ lv', s.stack[j]? = some lv' ∧ lv.cmds = lv'.cmds ∧
        lv.preReq = lv'.preReq ∧ lv.usedBy = if j = path.length then insertUser lv'.usedBy w else lv'.usedBy) ∨
      (j = path.length + 1 ∧ lv = ⟨sub, some (path.length, index), [w]⟩) := by
    intro j lv hj
    by_cases e : j < path.length + 1
    · rw [List.getElem?_append_left (by simpa [hslen] using e), List.getElem?_set] at hj
      left
      refine ⟨by omega, ?_⟩
      by_cases e' : path.length = j
      · subst e'
        simp only [if_true, lt_of_getElem? h.top_eq, Option.some.injEq] at hj
        subst hj
        exact ⟨top, h.top_eq, rfl, rfl, by simp⟩
      · rw [if_neg e'] at hj
        exact ⟨lv, hj, rfl, rfl, by rw [if_neg (Ne.symm e')]⟩
    · right
      have := lt_of_getElem? hj
      simp [hslen] at this
      have e2 : j = path.length + 1 := by omega
      subst e2
      rw [List.getElem?_append_right (by simp [hslen])] at hj
      simp [hslen] at hj
      exact ⟨rfl, hj.symm⟩
  -- users
  have hused : ∀ x j, usedAt ⟨s.loads.set w (load ++ [.cmd path.length index]),
        s.stack.set path.length { top with usedBy := insertUser top.usedBy w } ++ [⟨sub, some (path.length, index), [w]⟩], s.queue,
        s.usage ++ [1]⟩ x j ↔ usedAt s x j ∨ (x = w ∧ (j = path.length ∨ j = path.length + 1)) := by
    intro x j
    constructor
    · rintro ⟨lv, hj, hx⟩
      rcases hold j lv hj with ⟨hle, lv', h1, -, -, h2⟩ | ⟨rfl, rfl⟩
      · rw [h2] at hx
        split at hx
        · rename_i e
          rcases mem_insertUser.1 hx with hx | rfl
          · exact .inl ⟨lv', h1, hx⟩
          · exact .inr ⟨rfl, .inl e⟩
        · exact .inl ⟨lv', h1, hx⟩
      · simp at hx
        exact .inr ⟨hx, .inr rfl⟩
    · rintro (⟨lv, hj, hx⟩ | ⟨rfl, rfl | rfl⟩)
      · have hlt := lt_of_getElem? hj
        by_cases e : path.length = j
        · subst e
          rw [h.top_eq] at hj
          cases hj
          refine ⟨{ top with usedBy := insertUser top.usedBy w }, ?_, mem_insertUser.2 (.inl hx)⟩
          simp only
          rw [List.getElem?_append_left (by simpa using hlt), List.getElem?_set_self hlt]
        · refine ⟨lv, ?_, hx⟩
          simp only
          rw [List.getElem?_append_left (by simpa using hlt), List.getElem?_set_ne e, hj]
      · refine ⟨{ top with usedBy := insertUser top.usedBy x }, ?_, mem_insertUser.2 (.inr rfl)⟩
        simp only
        rw [List.getElem?_append_left (by simpa using lt_of_getElem? h.top_eq), List.getElem?_set_self (lt_of_getElem? h.top_eq)]
      · refine ⟨⟨sub, some (path.length, index), [x]⟩, ?_, by simp⟩
        simp only
        rw [List.getElem?_append_right (by simp [hslen])]
        simp [hslen]
  refine ⟨⟨?_, ?_, ?_, ?_, ?_, ?_, ?_, fun hN' => ?_⟩, fun x lx _ hlx => ?_⟩
  · simp [hslen]
  · intro j lv hj
    rcases hold j lv hj with ⟨hle, lv', h1, h2, -⟩ | ⟨rfl, rfl⟩
    · rw [htake j hle, h2]
      exact h.inv.cmds j lv' h1
    · rw [List.take_of_length_le (by simp), commandsAt_snoc]
      exact ⟨as, n, hc⟩
  · intro j lv hj
    rcases hold j lv hj with ⟨hle, lv', h1, -, -, h2⟩ | ⟨rfl, rfl⟩
    · have := h.inv.users j lv' h1
      rw [h2]
      split
      · exact ⟨nodup_insertUser this.1, fun x hx => (mem_insertUser.1 hx).elim (this.2 x) (fun e => e ▸ hwlt)⟩
      · exact this
    · simp [hwlt]
  · intro j lv hj
    rcases hold (j + 1) lv hj with ⟨hle, lv', h1, -, h2, -⟩ | ⟨e, rfl⟩
    · rw [h2, h.inv.preReq j lv' h1, List.getElem?_append_left (by omega)]
    · have : j = path.length := by omega
      subst this
      simp
  · simpa using h.inv.loads
  · exact h.inv.queue
  · have := perm_flatMap_set (visitedOf proof) h.load_eq hvisited
    rw [List.append_nil] at this
    exact this.trans h.inv.visited
  · have hU := h.inv.usage hN'
    obtain ⟨hn, hnew⟩ := hN hN'
    have hnotopen : ∀ l ∈ s.loads, (openedOf proof l).count (path ++ [index]) = 0 := fun l hl =>
      List.count_eq_zero.2 fun hp => hnew (hU.opened l hl _ hp)
    refine ⟨?_, by simp [hU.length], fun j p hjp => ?_, fun j hj sub' as' n' hc' => ?_, fun l hl' p hp => ?_⟩
    · exact List.nodup_append.2 ⟨hU.nodup, by simp, by rintro a ha b hb rfl; simp at hb; exact hnew (hb ▸ ha)⟩
    · simp only
      rw [openCount_set h.load_eq hopened]
      rcases Nat.lt_or_ge j started.length with hlt | hge
      · rw [List.getElem?_append_left hlt] at hjp
        rw [List.getElem?_append_left (by rw [hU.length]; exact hlt), hU.count j p hjp]
        have : p ≠ path ++ [index] := by
          rintro rfl
          exact hnew (List.mem_of_getElem? hjp)
        simp [this]
      · have := lt_of_getElem? hjp
        simp at this
        have e : j = started.length := by omega
        subst e
        simp at hjp
        subst hjp
        rw [List.getElem?_append_right (Nat.le_of_eq hU.length), hU.length]
        have : openCount proof s.loads (path ++ [index]) = 0 := by
          unfold openCount
          refine List.sum_eq_zero fun x hx => ?_
          obtain ⟨l, hl, rfl⟩ := List.mem_map.1 hx
          exact hnotopen l hl
        simp [this]
    · simp only [List.length_append, List.length_singleton] at hj
      rcases Nat.lt_or_ge j path.length with hlt | hge
      · rw [htake j (by omega), List.getElem_append_left hlt] at hc'
        rw [htake (j + 1) (by omega)]
        have := hU.ids j hlt sub' as' n' hc'
        rw [List.getElem?_append_left (lt_of_getElem? this), this]
      · have e : j = path.length := by omega
        subst e
        rw [htake _ (Nat.le_refl _), List.take_length, List.getElem_append_right (Nat.le_refl _)] at hc'
        simp only [Nat.sub_self, List.getElem_singleton] at hc'
        rw [hc] at hc'
        cases hc'
        rw [hn]
        simp
    · rcases List.mem_or_eq_of_mem_set hl' with hl' | rfl
      · exact List.mem_append_left _ (hU.opened l hl' p hp)
      · rw [hopened] at hp
        rcases List.mem_append.1 hp with hp | hp
        · exact List.mem_append_left _ (hU.opened load (List.mem_of_getElem? h.load_eq) p hp)
        · exact List.mem_append_right _ hp
  · by_cases hxw : x = w
    · subst hxw
      simp only [List.getElem?_set_self (lt_of_getElem? h.load_eq), Option.some.injEq] at hlx
      subst hlx
      refine ⟨path.length + 1, by simp, ⟨_, hstep, by simp⟩, fun j hj => ?_, fun j h1 h2 => ?_, fun _ => ?_⟩
      · rcases (hused x j).1 hj with hj | ⟨-, rfl | rfl⟩
        · exact Nat.le_succ_of_le (hw.used_le j hj)
        · exact Nat.le_succ _
        · exact Nat.le_refl _
      · rw [hused]
        by_cases e : j = path.length
        · exact .inr ⟨rfl, .inl e⟩
        · by_cases e' : j = path.length + 1
          · exact .inr ⟨rfl, .inr e'⟩
          · exact .inl (hw.le_used j h1 (by omega))
      · rw [hused]
        by_cases e : path.length = 0
        · exact .inr ⟨rfl, .inl e.symm⟩
        · left
          apply hw.used_zero
          rintro rfl
          rw [replay_nil] at hr
          cases hr
          simp at hq
          simp [hq] at e
    · simp only [List.getElem?_set, Ne.symm hxw, if_false] at hlx
      obtain ⟨mx, hmx⟩ := h.others x lx (fun e => hxw (Option.some.inj e)) hlx
      refine ⟨mx, by have := hmx.le; simp; omega, ?_, fun j hj => hmx.used_le j ?_, fun j h1 h2 => ?_, fun h1 => ?_⟩
      · rw [htake mx hmx.le]
        exact hmx.replay
      · simpa [hused, hxw] using hj
      · simpa [hused, hxw] using hmx.le_used j h1 h2
      · simpa [hused, hxw] using hmx.used_zero h1

/-! ## Closing -/

/-- What `closeFor` does for a worker in the innermost subproof. -/
theorem closeFor_inv (h : SInv proof workers path done started s) {x : Nat} (hl : s.loads[x]? = some load) {r : Replay}
    (hr : replay proof load = some r) (hq : r.at_ = some path) (hne : load ≠ []) :
    (NumberedContexts proof → ∃ s', closeFor s x = .ok s') ∧ ∀ s', closeFor s x = .ok s' →
      s'.stack = s.stack ∧ s'.queue = s.queue ∧ SInv proof workers path done started s' ∧ ∃ load' r', s'.loads = s.loads.set x load' ∧
        replay proof load' = some r' ∧ r'.at_ = if path = [] then none else some path.dropLast := by
  rcases replay_last hr with ⟨rfl, -⟩ | ⟨l, e, r', rfl, hr', he⟩
  · exact absurd rfl hne
  have hlast : (l ++ [e]).getLast? = some e := by simp
  have htop : path.length < s.stack.length := by rw [h.length]; omega
  -- the case where a closing entry is added
  have push : uselessOpening s.stack e = .ok none →
      (NumberedContexts proof → ∃ s', closeFor s x = .ok s') ∧ ∀ s', closeFor s x = .ok s' →
      s'.stack = s.stack ∧ s'.queue = s.queue ∧ SInv proof workers path done started s' ∧ ∃ load' r', s'.loads = s.loads.set x load' ∧
        replay proof load' = some r' ∧ r'.at_ = if path = [] then none else some path.dropLast := by
    intro hu
    have heq : closeFor s x = .ok { s with loads := s.loads.set x (l ++ [e] ++ [.close path.length]) } := by
      simp only [closeFor, hl, orPanic, bind, Except.bind, hlast, hu, h.length, Nat.add_sub_cancel]
    have hstep : replay proof (l ++ [e] ++ [.close path.length]) =
        some { r with at_ := if path = [] then none else some path.dropLast } := by
      rw [replay_snoc, hr, Option.bind_some]
      simp only [replayStep, hq, ne_eq, not_true, if_false]
    have hopened : openedOf proof (l ++ [e] ++ [.close path.length]) = openedOf proof (l ++ [e]) := by rw [openedOf, hstep, openedOf, hr]; rfl
    have hvisited : visitedOf proof (l ++ [e] ++ [.close path.length]) = visitedOf proof (l ++ [e]) ++ [] := by
      rw [visitedOf, hstep, visitedOf, hr, List.append_nil]; rfl
    rw [heq]
    refine ⟨fun _ => ⟨_, rfl⟩, fun s' hs' => ?_⟩
    cases hs'
    refine ⟨rfl, rfl, ⟨h.length, h.cmds, h.users, h.preReq, by simpa using h.loads, h.queue, ?_, fun hN => ?_⟩, _, _, rfl, hstep, rfl⟩
    · have := perm_flatMap_set (visitedOf proof) hl hvisited
      rw [List.append_nil] at this
      exact this.trans h.visited
    · have hU := h.usage hN
      refine ⟨hU.nodup, hU.length, fun j p hjp => ?_, hU.ids, fun m hm p hp => ?_⟩
      · rw [openCount_set_same hl hopened]
        exact hU.count j p hjp
      · rcases List.mem_or_eq_of_mem_set hm with hm | rfl
        · exact hU.opened m hm p hp
        · exact hU.opened _ (List.mem_of_getElem? hl) p (hopened ▸ hp)
  rcases replayStep_cases he with ⟨q, j, c, rfl, h1, h2, h3, h4, -⟩ | ⟨q, j, sub, as, n, rfl, h1, h2, h3, h4, h5⟩ | ⟨q, rfl, h1, h2, -⟩
  · rw [hq] at h4
    cases h4
    apply push
    have h5 := h.cmds path.length _ (List.getElem?_eq_getElem htop)
    rw [List.take_length] at h5
    rw [commandAt, h5, Option.bind_some] at h2
    simp only [uselessOpening, if_pos htop, List.getElem?_eq_getElem htop, orPanic, bind, Except.bind, h2]
  · rw [hq] at h3
    cases h3
    have hlt : q.length < s.stack.length := by simp at htop; omega
    have h6 := h.cmds q.length _ (List.getElem?_eq_getElem hlt)
    rw [List.take_append_of_le_length (Nat.le_refl _), List.take_length] at h6
    have h2' := h2
    rw [commandAt, h6, Option.bind_some] at h2'
    have hu : uselessOpening s.stack (.cmd q.length j) = .ok (some n) := by
      simp only [uselessOpening, if_pos hlt, List.getElem?_eq_getElem hlt, orPanic, bind, Except.bind, h2']
    have heq : closeFor s x = (orPanic s.usage[n]? >>= fun u => if u = 0 then panic else
        .ok { s with usage := s.usage.set n (u - 1), loads := s.loads.set x l }) := by
      simp only [closeFor, hl, orPanic, bind, Except.bind, hlast, hu, List.dropLast_concat]
    have hopened : openedOf proof (l ++ [.cmd q.length j]) = openedOf proof l ++ [q ++ [j]] := by simp [openedOf, hr, hr', h5]
    have hvisited : visitedOf proof l = visitedOf proof (l ++ [.cmd q.length j]) ++ [] := by simp [visitedOf, hr, hr', h4]
    have hcount : ∀ p, openCount proof (s.loads.set x l) p + (if p = q ++ [j] then 1 else 0) = openCount proof s.loads p := by
      intro p
      have := sum_set (fun l => (openedOf proof l).count p) (x := l) (a := if p = q ++ [j] then 1 else 0) (b := 0) hl
        (by
          simp only [hopened, List.count_append, List.count_singleton, beq_iff_eq]
          by_cases e : p = q ++ [j]
          · simp [e]
          · simp [e, Ne.symm e])
      simpa [openCount] using this
    have hid : NumberedContexts proof → started[n]? = some (q ++ [j]) := by
      intro hN
      have := (h.usage hN).ids q.length (by simp) sub as n (by simpa using h2)
      rwa [List.take_of_length_le (by simp)] at this
    rw [heq]
    refine ⟨fun hN => ?_, fun s' hs' => ?_⟩
    · have hU := h.usage hN
      have h7 := hU.count n _ (hid hN)
      have h8 := hcount (q ++ [j])
      rw [if_pos rfl] at h8
      rw [h7]
      refine ⟨{ s with usage := s.usage.set n (openCount proof s.loads (q ++ [j]) - 1), loads := s.loads.set x l }, ?_⟩
      simp only [orPanic, bind, Except.bind]
      rw [if_neg (by omega)]
    · obtain ⟨u, hu', hs'⟩ := bind_ok.1 hs'
      rw [orPanic_ok] at hu'
      split at hs'
      · cases hs'
      cases hs'
      refine ⟨rfl, rfl, ⟨h.length, h.cmds, h.users, h.preReq, by simpa using h.loads, h.queue, ?_, fun hN => ?_⟩, l, r', rfl, hr', ?_⟩
      · have := perm_flatMap_set (visitedOf proof) hl hvisited
        rw [List.append_nil] at this
        exact this.trans h.visited
      · have hU := h.usage hN
        have hid := hid hN
        refine ⟨hU.nodup, by simpa using hU.length, fun k p hkp => ?_, hU.ids, fun m hm p hp => ?_⟩
        · have h8 := hcount p
          have h9 := hU.count k p hkp
          simp only [List.getElem?_set]
          by_cases e : n = k
          · subst e
            rw [hid, Option.some.injEq] at hkp
            subst hkp
            rw [hu', Option.some.injEq] at h9
            rw [if_pos rfl] at h8
            rw [if_pos rfl, if_pos (lt_of_getElem? hu'), Option.some.injEq]
            omega
          · have hpe : p ≠ q ++ [j] := by
              rintro rfl
              exact e ((List.getElem?_inj (lt_of_getElem? hid) hU.nodup).1 (hid.trans hkp.symm))
            rw [if_neg hpe, Nat.add_zero] at h8
            rw [if_neg e, h8, h9]
        · rcases List.mem_or_eq_of_mem_set hm with hm | rfl
          · exact hU.opened m hm p hp
          · exact hU.opened _ (List.mem_of_getElem? hl) p (by rw [hopened]; exact List.mem_append_left _ hp)
      · simp [h1]
  · apply push
    rw [hq] at h2
    split at h2
    · cases h2
    · rename_i hne'
      cases h2
      have h5 := h.length
      have h6 : q.length ≠ 0 := by simpa using hne'
      rw [List.length_dropLast] at h5
      simp only [uselessOpening]
      rw [if_neg (by omega)]

/-- While a subproof is being closed: workers in the list are in it, the others are not. -/
def Closing (proof : List Command) (path : List Nat) (s : Sched) (rem : List Nat) : Prop :=
  ∀ w load, s.loads[w]? = some load → ∃ m, m ≤ path.length ∧ (w ∈ rem ↔ m = path.length) ∧
    (∃ r, replay proof load = some r ∧ r.at_ = some (path.take m)) ∧ (∀ j, j < path.length → usedAt s w j → j ≤ m) ∧
    (∀ j, 1 ≤ j → j ≤ m → usedAt s w j) ∧ (load ≠ [] → usedAt s w 0)

theorem closeAll_inv (hp : path ≠ []) : ∀ {rem : List Nat} {s : Sched}, rem.Nodup → (∀ w ∈ rem, w < workers) →
    SInv proof workers path done started s → Closing proof path s rem →
    (NumberedContexts proof → ∃ s', closeAll rem s = .ok s') ∧ ∀ s', closeAll rem s = .ok s' →
      s'.stack = s.stack ∧ s'.queue = s.queue ∧ SInv proof workers path done started s' ∧ Closing proof path s' []
  | [], s, _, _, h, hc => ⟨fun _ => ⟨s, rfl⟩, fun s' hs' => by cases hs'; exact ⟨rfl, rfl, h, hc⟩⟩
  | x :: rem, s, hnd, hlt, h, hc => by
    rw [List.nodup_cons] at hnd
    obtain ⟨load, hl⟩ : ∃ l, s.loads[x]? = some l := ⟨_, List.getElem?_eq_getElem (by rw [h.loads]; exact hlt x (by simp))⟩
    obtain ⟨m, hm, hmem, ⟨r, hr, hrq⟩, hc1, hc2, hc3⟩ := hc x load hl
    have hm' : m = path.length := hmem.1 (by simp)
    subst hm'
    rw [List.take_length] at hrq
    have hne : load ≠ [] := by
      rintro rfl
      rw [replay_nil] at hr
      cases hr
      simp at hrq
      exact hp hrq
    have key := closeFor_inv h hl hr hrq hne
    have next : ∀ s1, closeFor s x = .ok s1 → s1.stack = s.stack ∧ s1.queue = s.queue ∧ SInv proof workers path done started s1 ∧
        Closing proof path s1 rem := by
      intro s1 h1
      obtain ⟨k1, k2, k3, load', r', k4, k5, k6⟩ := key.2 s1 h1
      refine ⟨k1, k2, k3, fun w lw hlw => ?_⟩
      have hused : ∀ j, usedAt s1 w j ↔ usedAt s w j := fun j => by simp only [usedAt, k1]
      rw [k4] at hlw
      by_cases e : w = x
      · subst e
        rw [List.getElem?_set_self (lt_of_getElem? hl), Option.some.injEq] at hlw
        subst hlw
        have hlen : path.length ≠ 0 := by simpa using hp
        rw [if_neg hp] at k6
        refine ⟨path.length - 1, by omega, ⟨fun h => absurd h hnd.1, by omega⟩, ⟨r', k5, ?_⟩, fun j h1 h2 => by omega, fun j h1 h2 => ?_, fun _ => ?_⟩
        · rw [k6, List.dropLast_eq_take]
        · exact (hused j).2 (hc2 j h1 (by omega))
        · exact (hused 0).2 (hc3 hne)
      · rw [List.getElem?_set_ne (Ne.symm e)] at hlw
        obtain ⟨m, g1, g2, g3, g4, g5, g6⟩ := hc w lw hlw
        refine ⟨m, g1, ?_, g3, fun j h1 h2 => g4 j h1 ((hused j).1 h2), fun j h1 h2 => (hused j).2 (g5 j h1 h2), fun h => (hused 0).2 (g6 h)⟩
        rw [← g2]
        simp [e]
    refine ⟨fun hN => ?_, fun s' hs' => ?_⟩
    · obtain ⟨s1, h1⟩ := key.1 hN
      obtain ⟨k1, k2, k3, k4⟩ := next s1 h1
      obtain ⟨s', h2⟩ := (closeAll_inv hp (rem := rem) hnd.2 (fun w hw => hlt w (by simp [hw])) k3 k4).1 hN
      exact ⟨s', bind_ok.2 ⟨s1, h1, h2⟩⟩
    · obtain ⟨s1, h1, h2⟩ := bind_ok.1 hs'
      obtain ⟨k1, k2, k3, k4⟩ := next s1 h1
      obtain ⟨g1, g2, g3, g4⟩ := (closeAll_inv hp (rem := rem) hnd.2 (fun w hw => hlt w (by simp [hw])) k3 k4).2 s' h2
      exact ⟨g1.trans k1, g2.trans k2, g3, g4⟩

/-- Closing the innermost subproof. -/
theorem closeLevel_inv {O : SchedOrder} {i : Nat} (h : SInv proof workers (path ++ [i]) done started s)
    (ho : OthersAt proof (path ++ [i]) s none) :
    (NumberedContexts proof → ∃ s', closeLevel O s = .ok s') ∧ ∀ s', closeLevel O s = .ok s' →
      SInv proof workers path done started s' ∧ OthersAt proof path s' none ∧ s'.queue = s.queue := by
  have hlen : s.stack.length = path.length + 2 := by simpa using h.length
  have hsome : s.stack[path.length + 1]? = some (s.stack[path.length + 1]'(by omega)) := List.getElem?_eq_getElem (by omega)
  generalize s.stack[path.length + 1]'(by omega) = top at hsome
  have hlast : s.stack.getLast? = some top := by rw [List.getLast?_eq_getElem?, hlen]; exact hsome
  have husers := h.users _ top hsome
  have hperm := O.hash_perm top.usedBy
  have hnd : (O.hash top.usedBy).Nodup := hperm.nodup_iff.2 husers.1
  have hC : Closing proof (path ++ [i]) s (O.hash top.usedBy) := by
    intro w load hl
    obtain ⟨m, hm⟩ := ho w load (by simp) hl
    have hiff : w ∈ O.hash top.usedBy ↔ usedAt s w (path.length + 1) := by
      rw [hperm.mem_iff]
      refine ⟨fun hw => ⟨top, hsome, hw⟩, fun ⟨lv, h1, h2⟩ => ?_⟩
      rw [hsome] at h1
      cases h1
      exact h2
    refine ⟨m, hm.le, ?_, hm.replay, fun j _ hj => hm.used_le j hj, hm.le_used, hm.used_zero⟩
    rw [hiff]
    have := hm.le
    simp only [List.length_append, List.length_singleton] at this ⊢
    exact ⟨fun hu => Nat.le_antisymm this (hm.used_le _ hu), fun e => hm.le_used _ (by omega) (by omega)⟩
  have key := closeAll_inv (workers := workers) (by simp) hnd (fun w hw => husers.2 w (hperm.mem_iff.1 hw)) h hC
  have heq : closeLevel O s = (closeAll (O.hash top.usedBy) s >>= fun s => .ok { s with stack := s.stack.dropLast }) := by
    simp only [closeLevel, hlast, orPanic, bind, Except.bind]
  rw [heq]
  refine ⟨fun hN => ?_, fun s' hs' => ?_⟩
  · obtain ⟨s1, h1⟩ := key.1 hN
    exact ⟨_, bind_ok.2 ⟨s1, h1, rfl⟩⟩
  · obtain ⟨s1, h1, hs'⟩ := bind_ok.1 hs'
    cases hs'
    obtain ⟨k1, k2, k3, k4⟩ := key.2 s1 h1
    have hst : ∀ j : Nat, j < path.length + 1 → s1.stack.dropLast[j]? = s1.stack[j]? := fun j hj => by
      rw [List.getElem?_dropLast, if_pos (by rw [k1, hlen]; omega)]
    have hst' : ∀ (j : Nat) (lv : Level), s1.stack.dropLast[j]? = some lv → j < path.length + 1 ∧ s1.stack[j]? = some lv := fun j lv hj => by
      have := lt_of_getElem? hj
      rw [List.length_dropLast, k1, hlen] at this
      exact ⟨by omega, hst j (by omega) ▸ hj⟩
    have htake : ∀ j, j ≤ path.length → (path ++ [i]).take j = path.take j := fun j hj => List.take_append_of_le_length hj
    refine ⟨⟨?_, ?_, ?_, ?_, k3.loads, k3.queue, k3.visited, fun hN => ?_⟩, fun w load _ hl => ?_, k2⟩
    · simp [k1, hlen]
    · intro j lv hj
      obtain ⟨g1, g2⟩ := hst' j lv hj
      rw [← htake j (by omega)]
      exact k3.cmds j lv g2
    · intro j lv hj
      exact k3.users j lv (hst' j lv hj).2
    · intro j lv hj
      obtain ⟨g1, g2⟩ := hst' (j + 1) lv hj
      rw [k3.preReq j lv g2, List.getElem?_append_left (by omega)]
    · have hU := k3.usage hN
      refine ⟨hU.nodup, hU.length, hU.count, fun j hj sub as n hc => ?_, hU.opened⟩
      have := hU.ids j (by simp; omega) sub as n (by rw [htake j (by omega), List.getElem_append_left hj]; exact hc)
      rwa [htake (j + 1) (by omega)] at this
    · obtain ⟨m, g1, g2, g3, g4, g5, g6⟩ := k4 w load hl
      have hm : m ≤ path.length := by
        have : m ≠ (path ++ [i]).length := fun e => by simpa using g2.2 e
        simp at this g1
        omega
      have hused : ∀ j, usedAt { s1 with stack := s1.stack.dropLast } w j ↔ j < path.length + 1 ∧ usedAt s1 w j := by
        intro j
        constructor
        · rintro ⟨lv, h1, h2⟩
          obtain ⟨g, g'⟩ := hst' j lv h1
          exact ⟨g, lv, g', h2⟩
        · rintro ⟨h1, lv, h2, h3⟩
          exact ⟨lv, by simpa only [hst j h1] using h2, h3⟩
      refine ⟨m, hm, ?_, fun j hj => ?_, fun j h1 h2 => (hused j).2 ⟨by omega, g5 j h1 h2⟩, fun h => (hused 0).2 ⟨by omega, g6 h⟩⟩
      · rw [← htake m hm]
        exact g3
      · obtain ⟨h1, h2⟩ := (hused j).1 hj
        exact g4 j (by simp; omega) h2

end

end Carcara
