import Verif.Lemmas.IdHelper

/-!
# C41: identifiers generated for new steps are unique

For arbitrary sequences of calls this is false (`c41_distinct_fails`). It holds if after each `pop` an identifier is
requested before the next `push`, which is how `elaborator/polyeq.rs:333-347` uses the helper.
-/

namespace Carcara

/-- After every `pop` comes a `next` before any further `push` or `pop`; `dirty` says whether a `next` is owed. -/
def Disciplined (dirty : Bool) : List IdOp → Bool
  | [] => true
  | .next :: ops => Disciplined false ops
  | .push :: ops => !dirty && Disciplined false ops
  | .pop :: ops => !dirty && Disciplined true ops

open IdHelper in
theorem runIds_distinct {ops : List IdOp} {h h' : IdHelper} {ids : List String} {dirty : Bool}
    (hd : Disciplined dirty ops = true) (hr : runIds ops h = .ok (ids, h')) (hne : h.stack ≠ []) (used : List (List Nat))
    (hu : ∀ q ∈ used, Before q h.stack ∨ (dirty = true ∧ ∃ y e, q = h.stack ++ y :: e)) :
    ids.Nodup ∧ ∀ q ∈ used, h.root ++ suffix q ∉ ids := by
  induction ops generalizing h ids dirty used with
  | nil =>
    simp only [runIds, ok_inj, Prod.mk.injEq] at hr
    obtain ⟨rfl, _⟩ := hr
    simp
  | cons o ops ih =>
    cases o with
    | next =>
      simp only [runIds, nextId, bind_ok, ok_inj, orPanic_ok] at hr
      obtain ⟨⟨id, h1⟩, ⟨s, hs, he⟩, ⟨ids', h2⟩, hr', he'⟩ := hr
      simp only [Prod.mk.injEq] at he he'
      obtain ⟨rfl, rfl⟩ := he
      obtain ⟨rfl, rfl⟩ := he'
      have hs' : s ≠ [] := by
        have := bump_length hs
        intro e; subst e; simp at this; exact hne (List.length_eq_zero_iff.1 this.symm)
      have hd' : Disciplined false ops = true := hd
      obtain ⟨ih1, ih2⟩ := ih hd' hr' hs' (h.stack :: used) (by
        intro q hq
        left
        rcases List.mem_cons.1 hq with rfl | hq
        · simpa using bump_before hs []
        · rcases hu q hq with hb | ⟨-, y, e, rfl⟩
          · exact before_bump hs hb
          · exact bump_before hs _)
      refine ⟨List.nodup_cons.2 ⟨ih2 _ (by simp), ih1⟩, fun q hq => ?_⟩
      rw [List.mem_cons, not_or]
      refine ⟨fun e => ?_, ih2 q (by simp [hq])⟩
      have := id_inj e
      rcases hu q hq with hb | ⟨-, y, e, rfl⟩
      · exact hb.ne this
      · simp at this
    | push =>
      cases dirty with
      | true => simp [Disciplined] at hd
      | false =>
        refine ih (h := h.push) (dirty := false) (by simpa [Disciplined] using hd) hr (by simp [IdHelper.push]) used fun q hq => ?_
        rcases hu q hq with hb | ⟨hf, -⟩
        · exact Or.inl hb.push
        · cases hf
    | pop =>
      cases dirty with
      | true => simp [Disciplined] at hd
      | false =>
        simp only [runIds, IdHelper.pop, bind_ok] at hr
        obtain ⟨h1, he, hr⟩ := hr
        split at he
        · next hl =>
          simp only [ok_inj] at he
          subst he
          have hsplit : h.stack.dropLast ++ [h.stack.getLast hne] = h.stack := List.dropLast_append_getLast hne
          refine ih (dirty := true) (by simpa [Disciplined] using hd) hr (by
            intro e
            have := congrArg List.length e
            simp at this; omega) used fun q hq => ?_
          rcases hu q hq with hb | ⟨hf, -⟩
          · rw [← hsplit] at hb
            rcases before_dropLast hb with h | h
            · exact Or.inl h
            · exact Or.inr ⟨rfl, h⟩
          · cases hf
        · simp at he

/-- **C41**, partial: the identifiers are pairwise distinct for every disciplined sequence of calls. -/
theorem c41_distinct_partial {ops : List IdOp} {root : String} {ids : List String} {h : IdHelper}
    (hd : Disciplined false ops = true) (hr : runIds ops (.new root) = .ok (ids, h)) : ids.Nodup :=
  (runIds_distinct hd hr (by simp [IdHelper.new]) [] (by simp)).1

/-- **C41**, the full claim, is false: opening a second frame without requesting an identifier in between repeats
the identifiers of the first. -/
theorem c41_distinct_fails : ¬ ∀ (ops : List IdOp) (root : String) (ids : List String) (h : IdHelper),
    runIds ops (.new root) = .ok (ids, h) → ids.Nodup := by
  intro h
  have := h [.push, .next, .pop, .push, .next] "t" ["t.t1.t1", "t.t1.t1"] ⟨"t", [0, 1]⟩ (by decide)
  exact absurd this (by decide)

open IdHelper in
theorem runIds_prefix {ops : List IdOp} {h h' : IdHelper} {ids : List String}
    (hr : runIds ops h = .ok (ids, h')) (hne : h.stack ≠ []) :
    ∀ id ∈ ids, ∃ s : List Nat, s ≠ [] ∧ id = h.root ++ suffix s := by
  induction ops generalizing h ids with
  | nil =>
    simp only [runIds, ok_inj, Prod.mk.injEq] at hr
    obtain ⟨rfl, _⟩ := hr
    simp
  | cons o ops ih =>
    cases o with
    | next =>
      simp only [runIds, nextId, bind_ok, ok_inj, orPanic_ok] at hr
      obtain ⟨⟨id, h1⟩, ⟨s, hs, he⟩, ⟨ids', h2⟩, hr', he'⟩ := hr
      simp only [Prod.mk.injEq] at he he'
      obtain ⟨rfl, rfl⟩ := he
      obtain ⟨rfl, rfl⟩ := he'
      intro i hi
      rcases List.mem_cons.1 hi with rfl | hi
      · exact ⟨_, hne, rfl⟩
      · refine ih hr' ?_ i hi
        have := bump_length hs
        intro e; simp only at e; subst e; simp at this; exact hne (List.length_eq_zero_iff.1 this.symm)
    | push => exact ih (h := h.push) hr (by simp [IdHelper.push])
    | pop =>
      simp only [runIds, IdHelper.pop, bind_ok] at hr
      obtain ⟨h1, he, hr⟩ := hr
      split at he
      · simp only [ok_inj] at he
        subst he
        refine ih (h := { root := h.root, stack := h.stack.dropLast }) hr ?_
        intro e
        have := congrArg List.length e
        simp at this; omega
      · simp at he

/-- **C41.** For every sequence of calls each identifier has the root as a proper prefix, followed by a dot. -/
theorem c41_prefix {ops : List IdOp} {root : String} {ids : List String} {h : IdHelper}
    (hr : runIds ops (.new root) = .ok (ids, h)) :
    ∀ id ∈ ids, ∃ rest : List Char, id.toList = root.toList ++ '.' :: rest := by
  intro id hid
  obtain ⟨s, hs, rfl⟩ := runIds_prefix hr (by simp [IdHelper.new]) id hid
  cases s with
  | nil => exact absurd rfl hs
  | cons i is =>
    simp only [String.toList_append, IdHelper.suffix_toList, IdHelper.suffixChars]
    exact ⟨_, rfl⟩

/-- A disciplined sequence with two nested frames: all identifiers differ. -/
example : Disciplined false [.next, .push, .next, .push, .next, .pop, .next, .pop, .next] = true ∧
    (runIds [.next, .push, .next, .push, .next, .pop, .next, .pop, .next] (.new "t7")).map (·.1) =
      .ok ["t7.t1", "t7.t2.t1", "t7.t2.t2.t1", "t7.t2.t2", "t7.t2"] := by decide

end Carcara
