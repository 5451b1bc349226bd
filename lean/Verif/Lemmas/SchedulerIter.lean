import Verif.Lemmas.SchedulerTotal
import Verif.Model.ProofParser

/-! # The iterator over a load; the numbers of contexts -/

namespace Carcara

open Spec

/-! ## The iterator -/

/-- The results of calling `next` until it returns `None`. -/
inductive IterYields : SIter → List (Command × SIter) → Prop
  | nil {it : SIter} : SIter.next it.stack it.done it.todo = .ok none → IterYields it []
  | cons {it it' : SIter} {c : Command} {l : List (Command × SIter)} : SIter.next it.stack it.done it.todo = .ok (some (c, it')) →
    IterYields it' l → IterYields it ((c, it') :: l)

/-- The stack of the iterator when a subproof is open: its commands on top, and those of the enclosing ones. -/
structure StackAt (proof : List Command) (path : List Nat) (stack : List (List Command)) : Prop where
  length : stack.length = path.length + 1
  get : ∀ j ≤ path.length, stack.reverse[j]? = commandsAt proof (path.take j)

theorem StackAt.start (proof : List Command) : StackAt proof [] [proof] := by
  refine ⟨rfl, fun j hj => ?_⟩
  cases Nat.le_zero.1 hj
  rfl

theorem StackAt.push {proof : List Command} {path : List Nat} {stack : List (List Command)} {i : Nat} {sub : List Command}
    (h : StackAt proof path stack) (hs : commandsAt proof (path ++ [i]) = some sub) : StackAt proof (path ++ [i]) (sub :: stack) := by
  refine ⟨by simp [h.length], fun j hj => ?_⟩
  rw [List.reverse_cons]
  rw [List.length_append, List.length_singleton] at hj
  rcases Nat.lt_or_eq_of_le hj with hj | rfl
  · rw [List.getElem?_append_left (by rw [List.length_reverse, h.length]; exact hj), h.get j (by omega),
      List.take_append_of_le_length (by omega)]
  · rw [List.getElem?_append_right (by rw [List.length_reverse, h.length]; exact Nat.le_refl _), List.length_reverse, h.length, Nat.sub_self,
      List.take_of_length_le (by simp), hs]
    rfl

theorem StackAt.pop {proof : List Command} {path : List Nat} {stack : List (List Command)}
    (h : StackAt proof path stack) (hp : path ≠ []) : StackAt proof path.dropLast stack.tail := by
  have hl : 0 < path.length := List.length_pos_iff.2 hp
  refine ⟨by rw [List.length_tail, h.length, List.length_dropLast]; omega, fun j hj => ?_⟩
  rw [List.length_dropLast] at hj
  have := h.get j (by omega)
  rw [List.dropLast_eq_take, List.take_take, Nat.min_eq_left (by omega), ← this]
  have hs := h.length
  match stack, hs with
  | a :: stack, hs =>
    simp only [List.length_cons] at hs
    rw [List.tail_cons, List.reverse_cons, List.getElem?_append_left (by rw [List.length_reverse]; omega)]

theorem StackAt.top {proof : List Command} {path : List Nat} {stack : List (List Command)} (h : StackAt proof path stack) :
    stack.head? = commandsAt proof path := by
  have := h.get path.length (Nat.le_refl _)
  rw [List.take_of_length_le (Nat.le_refl _)] at this
  rw [← this, List.getElem?_reverse (by rw [h.length]; omega), h.length, List.head?_eq_getElem?]
  congr 1
  omega

/-- Where the iterator is when it has returned the command at a position. -/
def pathAfter (proof : List Command) (p : List Nat × Nat) : List Nat :=
  match commandAt proof p.1 p.2 with
  | some (.subproof _ _ _) => p.1 ++ [p.2]
  | _ => p.1

/-- What the iterator has returned with a position. -/
structure AtPosition (proof : List Command) (p : List Nat × Nat) (x : Command × SIter) : Prop where
  command : commandAt proof p.1 p.2 = some x.1
  stack : StackAt proof (pathAfter proof p) x.2.stack
  last : ∃ d, x.2.done.getLast? = some (.cmd d p.2)

theorem replay_cons {proof : List Command} {r r' : Replay} {e : Entry} {es : List Entry} (h : (e :: es).foldlM (replayStep proof) r = some r') :
    ∃ r1, replayStep proof r e = some r1 ∧ es.foldlM (replayStep proof) r1 = some r' := by
  rwa [List.foldlM_cons, Option.bind_eq_bind, Option.bind_eq_some_iff] at h

/-- The iterator returns the commands at the positions of the load. -/
theorem yields_positions {proof : List Command} : ∀ {es : List Entry} {r r' : Replay} {stack : List (List Command)} {done : List Entry},
    es.foldlM (replayStep proof) r = some r' → (∀ path, r.at_ = some path → StackAt proof path stack) →
    ∃ l, IterYields ⟨stack, done, es⟩ l ∧ List.Forall₂ (AtPosition proof) (positions proof r.at_ es) l
  | [], r, r', stack, done, _, _ => ⟨[], .nil rfl, by simp [positions]⟩
  | e :: es, r, r', stack, done, h, hs => by
    obtain ⟨r1, h1, h2⟩ := replay_cons h
    rcases replayStep_cases h1 with ⟨path, i, c, rfl, ha, hc, hne, hb, -⟩ | ⟨path, i, sub, as, n, rfl, ha, hc, hb, -⟩ | ⟨path, rfl, ha, hb, -⟩
    · have hst := hs path ha
      have htop := hst.top
      rw [commandAt, Option.bind_eq_some_iff] at hc
      obtain ⟨top, hc1, hc2⟩ := hc
      rw [hc1] at htop
      obtain ⟨l, hl, hf⟩ := yields_positions (done := done ++ [.cmd path.length i]) (stack := stack) h2
        (fun p hp => by rw [hb] at hp; cases hp; exact hst)
      have hcc : commandAt proof path i = some c := by rw [commandAt, hc1]; exact hc2
      have e1 : pathAfter proof (path, i) = path := by
        unfold pathAfter
        rw [hcc]
        cases c with
        | subproof a b n => exact absurd rfl (hne a b n)
        | assume | step => rfl
      have hn : SIter.next stack done (.cmd path.length i :: es) = .ok (some (c, ⟨stack, done ++ [.cmd path.length i], es⟩)) := by
        rw [SIter.next, htop]
        simp only [orPanic, bind, Except.bind, hc2]
      refine ⟨_, .cons hn hl, ?_⟩
      have hp : positions proof r.at_ (.cmd path.length i :: es) = (path, i) :: positions proof r1.at_ es := by
        rw [ha, hb, positions, hcc]
        cases c with
        | subproof a b n => exact absurd rfl (hne a b n)
        | assume | step => rfl
      rw [hp]
      refine .cons ⟨hcc, by rw [e1]; exact hst, ⟨path.length, by simp⟩⟩ hf
    · have hst := hs path ha
      have htop := hst.top
      have hsub := commandsAt_snoc.2 ⟨as, n, hc⟩
      have hcc := hc
      rw [commandAt, Option.bind_eq_some_iff] at hc
      obtain ⟨top, hc1, hc2⟩ := hc
      rw [hc1] at htop
      obtain ⟨l, hl, hf⟩ := yields_positions (done := done ++ [.cmd path.length i]) (stack := sub :: stack) h2
        (fun p hp => by rw [hb] at hp; cases hp; exact hst.push hsub)
      have hn : SIter.next stack done (.cmd path.length i :: es) =
          .ok (some (.subproof sub as n, ⟨sub :: stack, done ++ [.cmd path.length i], es⟩)) := by
        rw [SIter.next, htop]
        simp only [orPanic, bind, Except.bind, hc2]
      refine ⟨_, .cons hn hl, ?_⟩
      have hp : positions proof r.at_ (.cmd path.length i :: es) = (path, i) :: positions proof r1.at_ es := by
        rw [ha, hb, positions, hcc]
      have e1 : pathAfter proof (path, i) = path ++ [i] := by
        unfold pathAfter
        rw [hcc]
      rw [hp]
      refine .cons ⟨hcc, by rw [e1]; exact hst.push hsub, ⟨path.length, by simp⟩⟩ hf
    · have hst := hs path ha
      obtain ⟨l, hl, hf⟩ := yields_positions (done := done ++ [.close path.length]) (stack := stack.tail) h2
        (fun p hp => by
          rw [hb] at hp
          split at hp
          · cases hp
          · rename_i hne
            cases hp
            exact hst.pop hne)
      refine ⟨l, ?_, ?_⟩
      · have hn : SIter.next stack done (.close path.length :: es) = SIter.next stack.tail (done ++ [.close path.length]) es := by
          rw [SIter.next]
        cases hl with
        | nil h => exact .nil (hn.trans h)
        | cons h h' => exact .cons (hn.trans h) h'
      · rw [ha, positions, ← hb]
        exact hf

/-! ## Leaves -/

/-- A command that is not a subproof. -/
def Command.IsLeaf (c : Command) : Prop := ∀ a b n, c ≠ .subproof a b n

theorem commandAt_cons {cs : List Command} {k : Nat} {rest : List Nat} {j : Nat} {c : Command} :
    commandAt cs (k :: rest) j = some c ↔ ∃ sub as n, cs[k]? = some (.subproof sub as n) ∧ commandAt sub rest j = some c := by
  unfold commandAt
  rw [commandsAt]
  split
  · rename_i sub as n h
    constructor
    · exact fun h' => ⟨sub, as, n, h, h'⟩
    · rintro ⟨sub', as', n', h1, h2⟩
      rw [h] at h1
      cases h1
      exact h2
  · rename_i h
    simp only [Option.bind_none, reduceCtorEq, false_iff]
    rintro ⟨sub, as, n, h1, -⟩
    exact h _ _ _ h1

theorem commandAt_nil {cs : List Command} {j : Nat} : commandAt cs [] j = cs[j]? := rfl

mutual
theorem mem_leavesOf {q : List Nat} {j : Nat} : ∀ {c : Command} {path : List Nat} {i : Nat}, (q, j) ∈ leavesOf path i c ↔
    (c.IsLeaf ∧ q = path ∧ j = i) ∨ ∃ sub as n rest c', c = .subproof sub as n ∧ q = path ++ i :: rest ∧ commandAt sub rest j = some c' ∧ c'.IsLeaf
  | .assume _ _, path, i => by simp [leavesOf, Command.IsLeaf]
  | .step _, path, i => by simp [leavesOf, Command.IsLeaf]
  | .subproof sub as n, path, i => by
    rw [leavesOf, mem_leavesFrom (cs := sub)]
    constructor
    · rintro (⟨rfl, k, c, rfl, h1, h2⟩ | ⟨k, rest, c, rfl, h1, h2⟩)
      · exact .inr ⟨sub, as, n, [], c, rfl, rfl, by rw [commandAt_nil, Nat.zero_add]; exact h1, h2⟩
      · refine .inr ⟨sub, as, n, k :: rest, c, rfl, by simp, h1, h2⟩
    · rintro (⟨h, -⟩ | ⟨sub', as', n', rest, c, h, rfl, h1, h2⟩)
      · exact absurd rfl (h sub as n)
      · cases h
        cases rest with
        | nil => exact .inl ⟨rfl, j, c, (Nat.zero_add _).symm, h1, h2⟩
        | cons k rest => exact .inr ⟨k, rest, c, by simp, h1, h2⟩
theorem mem_leavesFrom {q : List Nat} {j : Nat} : ∀ {cs : List Command} {path : List Nat} {i : Nat}, (q, j) ∈ leavesFrom path i cs ↔
    (q = path ∧ ∃ k c, j = i + k ∧ cs[k]? = some c ∧ c.IsLeaf) ∨
      ∃ k rest c, q = path ++ (i + k) :: rest ∧ commandAt cs (k :: rest) j = some c ∧ c.IsLeaf
  | [], path, i => by
    simp only [leavesFrom, List.not_mem_nil, List.getElem?_nil, reduceCtorEq, false_and, and_false, exists_false, false_or, false_iff]
    rintro ⟨k, rest, c, -, h, -⟩
    rw [commandAt_cons] at h
    obtain ⟨_, _, _, h, -⟩ := h
    simp at h
  | c :: cs, path, i => by
    rw [leavesFrom, List.mem_append, mem_leavesOf (c := c), mem_leavesFrom (cs := cs)]
    constructor
    · rintro ((⟨h1, rfl, rfl⟩ | ⟨sub, as, n, rest, c', rfl, rfl, h1, h2⟩) | (⟨rfl, k, c', rfl, h1, h2⟩ | ⟨k, rest, c', rfl, h1, h2⟩))
      · exact .inl ⟨rfl, 0, c, rfl, rfl, h1⟩
      · exact .inr ⟨0, rest, c', rfl, commandAt_cons.2 ⟨sub, as, n, rfl, h1⟩, h2⟩
      · exact .inl ⟨rfl, k + 1, c', by omega, h1, h2⟩
      · refine .inr ⟨k + 1, rest, c', by rw [Nat.add_assoc, Nat.add_comm 1 k], ?_, h2⟩
        obtain ⟨sub, as, n, h3, h4⟩ := commandAt_cons.1 h1
        exact commandAt_cons.2 ⟨sub, as, n, h3, h4⟩
    · rintro (⟨rfl, k, c', rfl, h1, h2⟩ | ⟨k, rest, c', rfl, h1, h2⟩)
      · cases k with
        | zero =>
          cases h1
          exact .inl (.inl ⟨h2, rfl, rfl⟩)
        | succ k => exact .inr (.inl ⟨rfl, k, c', by omega, h1, h2⟩)
      · obtain ⟨sub, as, n, h3, h4⟩ := commandAt_cons.1 h1
        cases k with
        | zero =>
          cases h3
          exact .inl (.inr ⟨sub, as, n, rest, c', rfl, rfl, h4, h2⟩)
        | succ k =>
          exact .inr (.inr ⟨k, rest, c', by rw [Nat.add_assoc, Nat.add_comm 1 k], commandAt_cons.2 ⟨sub, as, n, h3, h4⟩, h2⟩)
end

mutual
theorem leavesOf_prefix {q : List Nat} {j : Nat} : ∀ {c : Command} {path : List Nat} {i : Nat}, (q, j) ∈ leavesOf path i c →
    path ++ [i] <+: q ++ [j]
  | .assume _ _, path, i, h => by simp [leavesOf] at h; simp [h]
  | .step _, path, i, h => by simp [leavesOf] at h; simp [h]
  | .subproof sub as n, path, i, h => by
    rw [leavesOf] at h
    obtain ⟨k, -, h⟩ := leavesFrom_prefix h
    exact (List.prefix_append _ _).trans h
theorem leavesFrom_prefix {q : List Nat} {j : Nat} : ∀ {cs : List Command} {path : List Nat} {i : Nat}, (q, j) ∈ leavesFrom path i cs →
    ∃ k, i ≤ k ∧ path ++ [k] <+: q ++ [j]
  | [], _, _, h => by simp [leavesFrom] at h
  | c :: cs, path, i, h => by
    rw [leavesFrom, List.mem_append] at h
    rcases h with h | h
    · exact ⟨i, Nat.le_refl _, leavesOf_prefix h⟩
    · obtain ⟨k, h1, h2⟩ := leavesFrom_prefix h
      exact ⟨k, by omega, h2⟩
end

mutual
theorem leavesOf_nodup : ∀ (c : Command) (path : List Nat) (i : Nat), (leavesOf path i c).Nodup
  | .assume _ _, _, _ => by simp [leavesOf]
  | .step _, _, _ => by simp [leavesOf]
  | .subproof sub _ _, path, i => by
    rw [leavesOf]
    exact leavesFrom_nodup sub _ _
theorem leavesFrom_nodup : ∀ (cs : List Command) (path : List Nat) (i : Nat), (leavesFrom path i cs).Nodup
  | [], _, _ => by simp [leavesFrom]
  | c :: cs, path, i => by
    rw [leavesFrom]
    refine List.nodup_append.2 ⟨leavesOf_nodup c path i, leavesFrom_nodup cs path (i + 1), ?_⟩
    rintro ⟨q, j⟩ h1 _ h2 rfl
    obtain ⟨k, h3, h4⟩ := leavesFrom_prefix h2
    have := prefix_snoc_inj (leavesOf_prefix h1) h4
    omega
end

theorem mem_leaves {proof : List Command} {path : List Nat} {i : Nat} :
    (path, i) ∈ leaves proof ↔ ∃ c, commandAt proof path i = some c ∧ c.IsLeaf := by
  rw [leaves, mem_leavesFrom]
  constructor
  · rintro (⟨rfl, k, c, rfl, h1, h2⟩ | ⟨k, rest, c, rfl, h1, h2⟩)
    · exact ⟨c, by rw [commandAt_nil, Nat.zero_add]; exact h1, h2⟩
    · exact ⟨c, by simpa using h1, h2⟩
  · rintro ⟨c, h1, h2⟩
    cases path with
    | nil => exact .inl ⟨rfl, i, c, (Nat.zero_add _).symm, h1, h2⟩
    | cons k rest => exact .inr ⟨k, rest, c, by simp, h1, h2⟩

/-! ## The numbers of contexts -/

mutual
/-- The contexts of a command, in the order in which they are opened. -/
def contextIdsOf : Command → List Nat
  | .subproof sub _ n => n :: contextIds sub
  | _ => []
def contextIds : List Command → List Nat
  | [] => []
  | c :: cs => contextIdsOf c ++ contextIds cs
end

mutual
theorem map_subproofsOf : ∀ (c : Command) (path : List Nat) (i : Nat), (subproofsOf path i c).map (·.2) = contextIdsOf c
  | .assume _ _, _, _ => by simp [subproofsOf, contextIdsOf]
  | .step _, _, _ => by simp [subproofsOf, contextIdsOf]
  | .subproof sub _ n, path, i => by
    simp only [subproofsOf, contextIdsOf, List.map_cons]
    rw [map_subproofsFrom sub]
theorem map_subproofsFrom : ∀ (cs : List Command) (path : List Nat) (i : Nat), (subproofsFrom path i cs).map (·.2) = contextIds cs
  | [], _, _ => by simp [subproofsFrom, contextIds]
  | c :: cs, path, i => by
    simp only [subproofsFrom, contextIds, List.map_append]
    rw [map_subproofsOf c, map_subproofsFrom cs]
end

theorem contextIds_append (l l' : List Command) : contextIds (l ++ l') = contextIds l ++ contextIds l' := by
  induction l with
  | nil => simp [contextIds]
  | cons c l ih => simp [contextIds, ih]

theorem numberedContexts_iff {proof : List Command} : NumberedContexts proof ↔ ∃ n, contextIds proof = List.range n := by
  unfold NumberedContexts subproofs
  rw [map_subproofsFrom]
  constructor
  · exact fun h => ⟨_, h⟩
  · rintro ⟨n, h⟩
    have := congrArg List.length (map_subproofsFrom proof [] 0)
    rw [h, List.length_map, List.length_range] at this
    rw [h, this]

/-- The contexts opened so far: those of the frames from the outermost. -/
def frameIds : List PFrame → List Nat
  | [] => []
  | [f] => contextIds f.commands
  | f :: fs => frameIds fs ++ f.contextId :: contextIds f.commands

theorem frameIds_cons {f : PFrame} {fs : List PFrame} (h : fs ≠ []) : frameIds (f :: fs) = frameIds fs ++ f.contextId :: contextIds f.commands := by
  cases fs with
  | nil => exact absurd rfl h
  | cons a fs => rw [frameIds]; simp

theorem frameIds_top {f : PFrame} {fs : List PFrame} {cs : List Command} :
    frameIds ({ f with commands := f.commands ++ cs } :: fs) = frameIds (f :: fs) ++ contextIds cs := by
  cases fs with
  | nil => simp [frameIds, contextIds_append]
  | cons a fs =>
    rw [frameIds_cons (fs := a :: fs) (by simp), frameIds_cons (f := f) (fs := a :: fs) (by simp)]
    simp [contextIds_append]

theorem addCommand_ids {st st' : PState} {id : String} {c : Command} (hc : contextIdsOf c = []) (h : addCommand st id c = .ok st')
    (hi : frameIds st.stack = List.range st.nextId) : frameIds st'.stack = List.range st'.nextId ∧ st'.stack ≠ [] := by
  simp only [addCommand, bind_ok, require_ok] at h
  obtain ⟨-, -, h⟩ := h
  split at h
  · cases h
  · rename_i top outer hst
    obtain ⟨st1, h1, h⟩ := bind_ok.1 h
    have key : frameIds st1.stack = List.range st1.nextId := by
      split at h1
      · unfold closeSubproof at h1
        split at h1
        · cases h1
        · simp only [bind_ok, require_ok] at h1
          obtain ⟨ids, -, -, -, -, -, h1⟩ := h1
          cases h1
          rename_i o os _
          simp only
          rw [frameIds_top, contextIds, contextIds, contextIdsOf, contextIds_append]
          rw [hst, frameIds_cons (by simp)] at hi
          simpa [contextIds, hc] using hi
      · cases h1
        simp only
        rw [frameIds_top, contextIds, contextIds, hc, ← hst]
        simpa using hi
    split at h
    · cases h
    · rename_i t ts ht
      obtain ⟨ids, -, h⟩ := bind_ok.1 h
      cases h
      exact ⟨key, by simp [ht]⟩

theorem parseCommand_ids {st st' : PState} {c : RawCommand} (h : parseCommand st c = .ok st') (hne : st.stack ≠ [])
    (hi : frameIds st.stack = List.range st.nextId) : frameIds st'.stack = List.range st'.nextId ∧ st'.stack ≠ [] := by
  cases c with
  | assume id t =>
    simp only [parseCommand] at h
    split at h
    · cases h
    · split at h
      · cases h
      · exact addCommand_ids rfl h hi
  | step r =>
    simp only [parseCommand] at h
    split at h
    · cases h
    · rename_i top outer hst
      obtain ⟨s, -, h⟩ := bind_ok.1 h
      refine addCommand_ids rfl h ?_
      rw [hst] at hi
      simp only
      rw [← hi]
      cases outer <;> rfl
  | anchor e as =>
    simp only [parseCommand] at h
    cases h
    refine ⟨?_, by simp⟩
    simp only
    rw [frameIds_cons hne, hi]
    simp [contextIds, List.range_succ]

theorem parseLoop_ids {cs : List RawCommand} {st : PState} {proof : List Command} (h : parseLoop st cs = .ok proof) (hne : st.stack ≠ [])
    (hi : frameIds st.stack = List.range st.nextId) : NumberedContexts proof := by
  induction cs generalizing st with
  | nil =>
    simp only [parseLoop] at h
    split at h
    · rename_i root hst
      cases h
      rw [hst] at hi
      exact numberedContexts_iff.2 ⟨_, hi⟩
    · cases h
  | cons c cs ih =>
    simp only [parseLoop] at h
    obtain ⟨st1, h1, h⟩ := bind_ok.1 h
    obtain ⟨k1, k2⟩ := parseCommand_ids h1 hne hi
    exact ih h k2 k1

end Carcara
