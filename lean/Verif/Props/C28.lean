import Verif.Lemmas.Utils
import Mathlib.Data.List.Induction
import Mathlib.Data.List.Nodup
import Mathlib.Data.List.Perm.Subperm

/-!
# C28: scoped symbol tables, C29: multisets, C30: deduplication
-/

namespace Carcara

variable {κ : Type} [DecidableEq κ] {ν : Type}

/-! ## C28 -/

namespace Spec

/-- Operations on a scoped map. -/
inductive ScopeOp (κ ν : Type) where
  | push
  | pop
  | insert (k : κ) (v : ν)

/-- Specification of lookup, by reading the history backwards (most recent operation first): the most recent
insertion of the key that lies in a scope that is still open. The number counts the closed scopes that the
reading is currently inside of. -/
def lookup (k : κ) : Nat → List (ScopeOp κ ν) → Option ν
  | _, [] => none
  | d, .pop :: h => lookup k (d + 1) h
  | 0, .push :: h => lookup k 0 h
  | d + 1, .push :: h => lookup k d h
  | 0, .insert k' v :: h => if k' = k then some v else lookup k 0 h
  | d + 1, .insert _ _ :: h => lookup k (d + 1) h

/-- Number of open scopes after a history (most recent operation first), `none` if some `pop` had no matching
`push`. -/
def depth : List (ScopeOp κ ν) → Option Nat
  | [] => some 0
  | .push :: h => (depth h).map (· + 1)
  | .pop :: h => match depth h with
    | some (n + 1) => some n
    | _ => none
  | .insert _ _ :: h => depth h

end Spec

open Spec

/-- Runs an operation. -/
def HashMapStack.step (m : HashMapStack κ ν) : ScopeOp κ ν → Res (HashMapStack κ ν)
  | .push => .ok m.pushScope
  | .pop => m.popScope
  | .insert k v => m.insert k v

/-- Runs a history, given with the most recent operation first, on a new map. -/
def HashMapStack.run : List (ScopeOp κ ν) → Res (HashMapStack κ ν)
  | [] => .ok .new
  | o :: h => do
    let m ← run h
    m.step o

omit [DecidableEq κ] in
private theorem dropLast_reverse {α : Type} (l : List α) : l.dropLast.reverse = l.reverse.drop 1 := by
  rw [← List.tail_reverse]; simp

theorem HashMapStack.run_spec (h : List (ScopeOp κ ν)) (m : HashMapStack κ ν) (hm : run h = .ok m) :
    depth h = some (m.scopes.length - 1) ∧ 1 ≤ m.scopes.length ∧
    ∀ k d, (m.scopes.reverse.drop d).findSome? (mapGet · k) = lookup k d h := by
  induction h generalizing m with
  | nil =>
    simp only [run, ok_inj] at hm
    subst hm
    refine ⟨rfl, by simp [new], fun k d => ?_⟩
    cases d <;> simp [new, lookup, mapGet]
  | cons o h ih =>
    simp only [run, bind_ok] at hm
    obtain ⟨m', h1, h2⟩ := hm
    obtain ⟨i1, i2, i3⟩ := ih m' h1
    cases o with
    | push =>
      simp only [step, ok_inj, pushScope] at h2
      subst h2
      refine ⟨by simp [depth, i1]; omega, by simp, fun k d => ?_⟩
      cases d with
      | zero => simp only [List.reverse_append, List.reverse_cons, List.reverse_nil, List.nil_append,
                  List.singleton_append, List.drop_zero, List.findSome?_cons, mapGet, lookup, ← i3 k 0]
      | succ d => simp [lookup, i3]
    | pop =>
      simp only [step, popScope] at h2
      split at h2
      · simp at h2
      · next hl =>
        simp only [ok_inj] at h2
        subst h2
        refine ⟨?_, by simp; omega, fun k d => ?_⟩
        · rw [depth, i1]
          obtain ⟨n, hn⟩ : ∃ n, m'.scopes.length - 1 = n + 1 := ⟨m'.scopes.length - 2, by omega⟩
          simp only [hn, List.length_dropLast, Nat.add_sub_cancel]
        · simp only [dropLast_reverse, List.drop_drop, lookup, ← i3 k (d + 1), Nat.add_comm 1 d]
    | insert k' v =>
      simp only [step, insert] at h2
      split at h2
      · next s hs =>
        simp only [ok_inj] at h2
        subst h2
        refine ⟨by simp [depth, i1], by simp, fun k d => ?_⟩
        have hrev : m'.scopes.reverse = s :: m'.scopes.dropLast.reverse := by
          rw [List.getLast?_eq_some_iff] at hs
          obtain ⟨ys, hys⟩ := hs
          simp [hys]
        cases d with
        | zero =>
          have := i3 k 0
          simp only [hrev, List.drop_zero, List.findSome?_cons] at this
          simp only [List.reverse_append, List.reverse_cons, List.reverse_nil, List.nil_append,
                  List.singleton_append, List.drop_zero, List.findSome?_cons, lookup, mapGet_insert]
          by_cases e : k' = k
          · simp [e]
          · simpa [e] using this
        | succ d =>
          have := i3 k (d + 1)
          simp only [hrev, List.drop_succ_cons] at this
          simpa [lookup] using this
      · simp at h2

/-- **C28.** After any history, lookup returns the most recent binding in the innermost still open scope that
has one. -/
theorem c28_get (h : List (ScopeOp κ ν)) (m : HashMapStack κ ν) (hm : HashMapStack.run h = .ok m) (k : κ) :
    m.get k = lookup k 0 h := by
  have := (HashMapStack.run_spec h m hm).2.2 k 0
  simpa [HashMapStack.get] using this

/-- **C28.** A history fails (panics) exactly when some `pop` has no matching `push`; otherwise the height is
the number of open scopes plus the global one. -/
theorem c28_panic (h : List (ScopeOp κ ν)) :
    (∀ n, depth h = some n → ∃ m, HashMapStack.run h = .ok m ∧ m.height = n + 1) ∧
    (depth h = none → HashMapStack.run h = panic) := by
  induction h with
  | nil => exact ⟨fun n hn => ⟨_, rfl, by simp [depth] at hn; subst hn; rfl⟩, by simp [depth]⟩
  | cons o h ih =>
    cases hd : depth h with
    | none =>
      have := ih.2 hd
      have hn : depth (o :: h) = none := by cases o <;> simp [depth, hd]
      refine ⟨fun n hn' => by simp [hn] at hn', fun _ => ?_⟩
      simp [HashMapStack.run, this, panic, bind, Except.bind]
    | some n =>
      obtain ⟨m, hm, hh⟩ := ih.1 n hd
      cases o with
      | push =>
        refine ⟨fun k hk => ⟨m.pushScope, by simp [HashMapStack.run, hm, HashMapStack.step, bind, Except.bind], ?_⟩,
          by simp [depth, hd]⟩
        simp [depth, hd] at hk
        simp [HashMapStack.height, HashMapStack.pushScope] at hh ⊢
        omega
      | pop =>
        have hl : m.scopes.length = n + 1 := hh
        cases n with
        | zero =>
          refine ⟨fun k hk => by simp [depth, hd] at hk, fun _ => ?_⟩
          simp [HashMapStack.run, hm, HashMapStack.step, HashMapStack.popScope, hl, bind, Except.bind]
        | succ n =>
          refine ⟨fun k hk => ⟨⟨m.scopes.dropLast⟩, ?_, ?_⟩, by simp [depth, hd]⟩
          · simp [HashMapStack.run, hm, HashMapStack.step, HashMapStack.popScope, hl, bind, Except.bind]
          · simp [depth, hd] at hk
            simp [HashMapStack.height, hl, hk]
      | insert k' v =>
        have hl : m.scopes.length = n + 1 := hh
        obtain ⟨s, hs⟩ : ∃ s, m.scopes.getLast? = some s := by
          cases hs : m.scopes.getLast? with
          | none => simp at hs; simp [hs] at hl
          | some s => exact ⟨s, rfl⟩
        refine ⟨fun k hk => ⟨⟨m.scopes.dropLast ++ [mapInsert s k' v]⟩, ?_, ?_⟩, by simp [depth, hd]⟩
        · simp [HashMapStack.run, hm, HashMapStack.step, HashMapStack.insert, hs, bind, Except.bind]
        · simp [depth, hd] at hk
          simp [HashMapStack.height, hl, hk]

/-- **C28.** Popping restores what was visible before the matching push, whatever was inserted in between. -/
theorem c28_restore (h ins : List (ScopeOp κ ν)) (hins : ∀ o ∈ ins, ∃ k v, o = .insert k v)
    (m m' : HashMapStack κ ν) (hm : HashMapStack.run h = .ok m)
    (hm' : HashMapStack.run (.pop :: ins ++ .push :: h) = .ok m') (k : κ) : m'.get k = m.get k := by
  rw [c28_get _ _ hm, c28_get _ _ hm']
  simp only [List.cons_append, lookup]
  clear hm hm'
  induction ins with
  | nil => rfl
  | cons o ins ih =>
    obtain ⟨k', v, rfl⟩ := hins o (by simp)
    exact ih (fun o ho => hins o (by simp [ho]))

/-- **C28.** `get_with_depth` finds the same value and reports the scope it lives in. -/
theorem c28_get_with_depth (m : HashMapStack κ ν) (k : κ) :
    (m.getWithDepth k).map (·.2) = m.get k ∧
    ∀ d v, m.getWithDepth k = some (d, v) → ∃ s, m.scopes[d]? = some s ∧ mapGet s k = some v ∧
      ∀ d' s', d < d' → m.scopes[d']? = some s' → mapGet s' k = none := by
  obtain ⟨scopes⟩ := m
  simp only [HashMapStack.getWithDepth, HashMapStack.get]
  induction scopes using List.reverseRecOn with
  | nil => simp
  | append_singleton l s ih =>
    simp only [List.zipIdx_append, List.zipIdx_singleton, List.reverse_append, List.reverse_cons,
      List.reverse_nil, List.nil_append, List.singleton_append, List.findSome?_cons, Nat.zero_add]
    cases hg : mapGet s k with
    | some v =>
      refine ⟨by simp, ?_⟩
      simp only [Option.map_some, Option.some.injEq, Prod.mk.injEq]
      rintro d v' ⟨rfl, rfl⟩
      refine ⟨s, by simp, hg, fun d' s' hd hs' => ?_⟩
      rw [List.getElem?_eq_none (by simp; omega)] at hs'
      simp at hs'
    | none =>
      simp only [Option.map_none]
      refine ⟨ih.1, fun d v hdv => ?_⟩
      obtain ⟨s1, h1, h2, h3⟩ := ih.2 d v hdv
      have hlt : d < l.length := by
        by_contra hc
        rw [List.getElem?_eq_none (by omega)] at h1
        simp at h1
      refine ⟨s1, by rw [List.getElem?_append_left hlt, h1], h2, fun d' s' hd hs' => ?_⟩
      rcases Nat.lt_trichotomy d' l.length with hl | hl | hl
      · rw [List.getElem?_append_left hl] at hs'
        exact h3 d' s' hd hs'
      · subst hl; simp at hs'; subst hs'; exact hg
      · rw [List.getElem?_eq_none (by simp; omega)] at hs'
        simp at hs'

/-- Non-trivial instance: shadowing and restoring. -/
example : ∃ m, HashMapStack.run (κ := String) (ν := Nat)
    [.pop, .insert "x" 2, .push, .insert "y" 7, .insert "x" 1] = .ok m ∧
    m.get "x" = some 1 ∧ m.get "y" = some 7 := ⟨_, rfl, by decide, by decide⟩

/-! ## C29 -/

namespace Spec

/-- Operations on a multiset. -/
inductive MSetOp (κ : Type) where
  | insert (a : κ) (n : Nat)
  | remove (a : κ) (n : Nat)

/-- Specification: the multiplicity of `a` after a history (most recent first); removal is truncated. -/
def multiplicity (a : κ) : List (MSetOp κ) → Nat
  | [] => 0
  | .insert b n :: h => multiplicity a h + if b = a then n else 0
  | .remove b n :: h => multiplicity a h - if b = a then n else 0

end Spec

/-- Runs a history of operations on the empty multiset. -/
def MultiSet.run : List (MSetOp κ) → MultiSet κ
  | [] => .new
  | .insert a n :: h => ((run h).insertN a n).1
  | .remove a n :: h => ((run h).removeN a n).1

theorem MultiSet.run_wf (h : List (MSetOp κ)) : (MultiSet.run h).WF := by
  induction h with
  | nil => exact .new
  | cons o h ih => cases o with
    | insert a n => exact ih.insertN a n
    | remove a n => exact ih.removeN a n

/-- **C29.** After every history the reported count of every element is its exact multiplicity. -/
theorem c29_get (h : List (MSetOp κ)) (a : κ) : (MultiSet.run h).get a = multiplicity a h := by
  induction h with
  | nil => rfl
  | cons o h ih => cases o with
    | insert b n => simp only [MultiSet.run, multiplicity, MultiSet.get_insertN, ih]
    | remove b n => simp only [MultiSet.run, multiplicity, MultiSet.get_removeN (MultiSet.run_wf h), ih]

/-- **C29.** The numbers returned by insertion and removal are the new multiplicities. -/
theorem c29_returned (h : List (MSetOp κ)) (a : κ) (n : Nat) :
    ((MultiSet.run h).insertN a n).2 = multiplicity a (.insert a n :: h) ∧
    ((MultiSet.run h).removeN a n).2 = multiplicity a (.remove a n :: h) := by
  simp [MultiSet.insertN_snd, MultiSet.removeN_snd, multiplicity, c29_get]

/-- **C29.** The symmetric difference of two multisets is empty exactly when they contain every element equally
often. -/
theorem c29_symmetric_difference (h h' : List (MSetOp κ)) :
    (MultiSet.run h).symmetricDifference (MultiSet.run h') = .none ↔
      ∀ a, multiplicity a h = multiplicity a h' := by
  rw [MultiSet.symmetricDifference_none (MultiSet.run_wf h) (MultiSet.run_wf h')]
  simp only [c29_get]

/-- **C29.** Equality of multisets (`==`) is equality of all multiplicities. -/
theorem c29_eq (h h' : List (MSetOp κ)) :
    (MultiSet.run h).eq (MultiSet.run h') = true ↔ ∀ a, multiplicity a h = multiplicity a h' := by
  rw [MultiSet.eq_iff (MultiSet.run_wf h) (MultiSet.run_wf h')]
  simp only [c29_get]

/-- **C29.** Building a multiset from a list and listing its contents is a permutation of the list. -/
theorem c29_roundtrip (l : List κ) : (MultiSet.ofList l).intoIter.Perm l := by
  rw [List.perm_iff_count]
  intro a
  refine Eq.trans ?_ (MultiSet.get_ofList l a)
  have w := MultiSet.WF.ofList l
  generalize MultiSet.ofList l = m at w
  obtain ⟨m⟩ := m
  simp only [MultiSet.intoIter, MultiSet.get]
  obtain ⟨hnd, hpos⟩ := w
  clear hpos
  induction m with
  | nil => simp [mapGet]
  | cons p m ih =>
    obtain ⟨k, n⟩ := p
    simp only [List.map_cons, List.nodup_cons] at hnd
    simp only [List.flatMap_cons, List.count_append, mapGet, List.count_replicate]
    rw [ih hnd.2]
    by_cases e : k = a
    · subst e
      simp [mapGet_none.2 hnd.1]
    · simp [e]

example : (MultiSet.run (κ := Nat) [.remove 3 1, .insert 3 2, .insert 5 1]).get 3 = 1 := by decide

/-! ## C30 -/

theorem mem_dedupFrom (seen l : List κ) (a : κ) : a ∈ dedupFrom seen l ↔ a ∈ l ∧ a ∉ seen := by
  induction l generalizing seen with
  | nil => simp [dedupFrom]
  | cons b l ih =>
    simp only [dedupFrom]
    split
    · next hb =>
      rw [ih]; constructor
      · exact fun ⟨h1, h2⟩ => ⟨by simp [h1], h2⟩
      · rintro ⟨h1, h2⟩
        rcases List.mem_cons.1 h1 with rfl | h1
        · exact absurd hb h2
        · exact ⟨h1, h2⟩
    · next hb =>
      simp only [List.mem_cons, ih, mem_setInsert, not_or]
      constructor
      · rintro (rfl | ⟨h1, h2, h3⟩)
        · exact ⟨Or.inl rfl, hb⟩
        · exact ⟨Or.inr h1, h2⟩
      · rintro ⟨h1, h2⟩
        by_cases e : a = b
        · exact Or.inl e
        · exact Or.inr ⟨h1.resolve_left e, h2, e⟩

/-- **C30.** `dedup` keeps exactly the elements that occur. -/
theorem c30_mem (l : List κ) (a : κ) : a ∈ dedup l ↔ a ∈ l := by simp [dedup, mem_dedupFrom]

/-- **C30.** `dedup` yields no element twice. -/
theorem c30_nodup (l : List κ) : (dedup l).Nodup := by
  unfold dedup
  generalize ([] : List κ) = seen
  induction l generalizing seen with
  | nil => simp [dedupFrom]
  | cons b l ih =>
    simp only [dedupFrom]
    split
    · exact ih _
    · rw [List.nodup_cons]
      exact ⟨by simp [mem_dedupFrom], ih _⟩

/-- **C30.** `dedup` keeps the first occurrences, in order: on a prefix it yields a prefix, and a new last
element is appended exactly if it has not occurred before. -/
theorem c30_first (l : List κ) (a : κ) : dedup (l ++ [a]) = if a ∈ l then dedup l else dedup l ++ [a] := by
  have key : ∀ seen : List κ, dedupFrom seen (l ++ [a]) =
      if a ∈ l ∨ a ∈ seen then dedupFrom seen l else dedupFrom seen l ++ [a] := by
    induction l with
    | nil => intro seen; simp only [List.nil_append, dedupFrom, List.not_mem_nil, false_or]
    | cons b l ih =>
      intro seen
      simp only [List.cons_append, dedupFrom]
      split
      · next hb =>
        rw [ih]
        by_cases e : a = b
        · subst e; simp [hb]
        · simp [e]
      · next hb =>
        rw [ih]
        by_cases e : a = b
        · subst e; simp
        · by_cases h1 : a ∈ l <;> by_cases h2 : a ∈ seen <;> simp [e, h1, h2]
  simpa [dedup] using key []

/-- **C30.** The result is a sublist of the input. -/
theorem c30_sublist (l : List κ) : (dedup l).Sublist l := by
  unfold dedup
  generalize ([] : List κ) = seen
  induction l generalizing seen with
  | nil => simp [dedupFrom]
  | cons b l ih =>
    simp only [dedupFrom]
    split
    · exact (ih _).cons b
    · exact (ih _).cons_cons b

example : dedup [3, 1, 3, 2, 1] = [3, 1, 2] := by decide

end Carcara
