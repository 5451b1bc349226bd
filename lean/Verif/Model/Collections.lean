import Mathlib.Data.List.Basic

/-!
# Insertion-ordered sets and maps

Model of the parts of the `indexmap` crate (`IndexSet`, `IndexMap`) that Carcara uses. Sets are duplicate-free
lists, maps are association lists with distinct keys; both in insertion order. `swap_remove` moves the last
entry into the hole, as in the crate. The crate itself is not part of `/repo`; this file is its trusted
description.
-/

namespace Carcara

variable {α β : Type} [DecidableEq α]

/-- `IndexSet::insert`: appends unless present. -/
def setInsert (s : List α) (a : α) : List α := if a ∈ s then s else s ++ [a]

/-- `FromIterator for IndexSet`. -/
def setOf (l : List α) : List α := l.foldl setInsert []

/-- Removal of the entry at an index by swapping in the last entry. -/
def swapRemoveIdx {γ : Type} (s : List γ) (i : Nat) : List γ :=
  match s.getLast? with
  | some z => (s.set i z).dropLast
  | none => s

/-- `IndexSet::swap_remove`, the new set and whether the element was present. -/
def setRemove (s : List α) (a : α) : List α × Bool :=
  if a ∈ s then (swapRemoveIdx s (s.idxOf a), true) else (s, false)

/-- `IndexMap::get`. -/
def mapGet : List (α × β) → α → Option β
  | [], _ => none
  | (k, v) :: m, a => if k = a then some v else mapGet m a

/-- `IndexMap::insert`: keeps the position of an existing key. -/
def mapInsert : List (α × β) → α → β → List (α × β)
  | [], a, b => [(a, b)]
  | (k, v) :: m, a, b => if k = a then (k, b) :: m else (k, v) :: mapInsert m a b

/-- `IndexMap::entry(k).or_insert(v)`. -/
def mapOrInsert (m : List (α × β)) (a : α) (b : β) : List (α × β) :=
  match mapGet m a with
  | some _ => m
  | none => m ++ [(a, b)]

/-- `IndexMap::swap_remove`. -/
def mapRemove (m : List (α × β)) (a : α) : List (α × β) :=
  if a ∈ m.map (·.1) then swapRemoveIdx m ((m.map (·.1)).idxOf a) else m

/-! ## Basic facts -/

@[simp] theorem mem_setInsert {s : List α} {a b : α} : b ∈ setInsert s a ↔ b ∈ s ∨ b = a := by
  unfold setInsert; split
  · constructor
    · exact Or.inl
    · rintro (h | rfl) <;> assumption
  · simp

theorem nodup_setInsert {s : List α} {a : α} (h : s.Nodup) : (setInsert s a).Nodup := by
  unfold setInsert; split
  · exact h
  · next ha =>
    rw [List.nodup_append]
    refine ⟨h, by simp, ?_⟩
    intro x hx y hy
    simp at hy; subst hy
    rintro rfl; exact ha hx

theorem mem_foldl_setInsert {l s : List α} {b : α} : b ∈ l.foldl setInsert s ↔ b ∈ s ∨ b ∈ l := by
  induction l generalizing s with
  | nil => simp
  | cons a l ih => simp [ih, or_assoc]

theorem nodup_foldl_setInsert {l s : List α} (h : s.Nodup) : (l.foldl setInsert s).Nodup := by
  induction l generalizing s with
  | nil => exact h
  | cons a l ih => exact ih (nodup_setInsert h)

@[simp] theorem mem_setOf {l : List α} {b : α} : b ∈ setOf l ↔ b ∈ l := by
  simp [setOf, mem_foldl_setInsert]

theorem nodup_setOf (l : List α) : (setOf l).Nodup := nodup_foldl_setInsert (by simp)

/-- `swap_remove` at a valid index removes exactly that entry, up to order. -/
theorem swapRemoveIdx_perm {γ : Type} (s : List γ) (i : Nat) (h : i < s.length) :
    (swapRemoveIdx s i).Perm (s.eraseIdx i) := by
  unfold swapRemoveIdx
  rcases List.eq_nil_or_concat s with rfl | ⟨t, z, rfl⟩
  · simp at h
  · simp only [List.concat_eq_append] at *
    simp only [List.getLast?_append, List.getLast?_singleton, Option.some_or]
    by_cases hi : i < t.length
    · rw [List.set_append_left _ _ hi, List.dropLast_concat, List.eraseIdx_append_of_lt_length hi]
      rw [List.set_eq_take_append_cons_drop, if_pos hi, List.eraseIdx_eq_take_drop_succ]
      rw [List.append_assoc]
      refine List.Perm.append_left _ ?_
      exact (List.perm_append_singleton z _).symm
    · have : i = t.length := by simp at h; omega
      subst this
      rw [List.set_append_right _ _ (Nat.le_refl _)]
      simp [List.eraseIdx_append_of_length_le]

theorem setRemove_perm {s : List α} {a : α} : (setRemove s a).1.Perm (s.erase a) := by
  unfold setRemove; split
  · next h =>
    rw [List.erase_eq_eraseIdx_of_idxOf rfl]
    exact swapRemoveIdx_perm _ _ (List.idxOf_lt_length_iff.2 h)
  · next h => simp [List.erase_of_not_mem h]

@[simp] theorem setRemove_snd {s : List α} {a : α} : (setRemove s a).2 = true ↔ a ∈ s := by
  unfold setRemove; split <;> simp_all

theorem nodup_setRemove {s : List α} {a : α} (h : s.Nodup) : (setRemove s a).1.Nodup :=
  setRemove_perm.nodup_iff.2 (h.erase a)

theorem mem_setRemove {s : List α} {a b : α} (h : s.Nodup) : b ∈ (setRemove s a).1 ↔ b ∈ s ∧ b ≠ a := by
  rw [setRemove_perm.mem_iff, h.mem_erase_iff, and_comm]

theorem mem_setRemove_of_ne {s : List α} {a b : α} (hb : b ≠ a) : b ∈ (setRemove s a).1 ↔ b ∈ s := by
  rw [setRemove_perm.mem_iff, List.mem_erase_of_ne hb]

theorem length_setRemove {s : List α} {a : α} (h : a ∈ s) : (setRemove s a).1.length = s.length - 1 := by
  rw [setRemove_perm.length_eq, List.length_erase_of_mem h]

theorem mapGet_eq_some_of_mem {m : List (α × β)} (h : (m.map (·.1)).Nodup) {a : α} {b : β} :
    mapGet m a = some b ↔ (a, b) ∈ m := by
  induction m with
  | nil => simp [mapGet]
  | cons p m ih =>
    obtain ⟨k, v⟩ := p
    simp only [List.map_cons, List.nodup_cons, List.mem_map, not_exists, not_and] at h
    simp only [mapGet, List.mem_cons, Prod.mk.injEq]
    split
    · next e =>
      subst e
      constructor
      · intro h; simp_all
      · rintro (⟨_, rfl⟩ | hm)
        · rfl
        · exact absurd rfl (h.1 _ hm)
    · next e => rw [ih h.2]; constructor
                · exact Or.inr
                · rintro (⟨rfl, _⟩ | h)
                  · exact absurd rfl e
                  · exact h

theorem mapGet_isSome {m : List (α × β)} {a : α} : (mapGet m a).isSome ↔ a ∈ m.map (·.1) := by
  induction m with
  | nil => simp [mapGet]
  | cons p m ih =>
    simp only [mapGet, List.map_cons, List.mem_cons]
    split
    · next e => simp [e]
    · next e => rw [ih]; simp [Ne.symm e]

theorem mapGet_none {m : List (α × β)} {a : α} : mapGet m a = none ↔ a ∉ m.map (·.1) := by
  rw [← mapGet_isSome]; cases mapGet m a <;> simp

theorem mapGet_insert {m : List (α × β)} {a c : α} {b : β} :
    mapGet (mapInsert m a b) c = if a = c then some b else mapGet m c := by
  induction m with
  | nil => simp [mapInsert, mapGet]
  | cons p m ih =>
    obtain ⟨k, v⟩ := p
    by_cases e : k = a
    · subst e; by_cases h : k = c <;> simp [mapInsert, mapGet, h]
    · by_cases h : k = c
      · subst h; simp [mapInsert, mapGet, e, Ne.symm e]
      · simp [mapInsert, mapGet, e, h, ih]

theorem mapGet_append {m m' : List (α × β)} {c : α} : mapGet (m ++ m') c = (mapGet m c).or (mapGet m' c) := by
  induction m with
  | nil => simp [mapGet]
  | cons p m ih =>
    obtain ⟨k, v⟩ := p
    simp only [List.cons_append, mapGet]
    split <;> simp_all

theorem mapGet_orInsert {m : List (α × β)} {a c : α} {b : β} :
    mapGet (mapOrInsert m a b) c = if a = c then some ((mapGet m a).getD b) else mapGet m c := by
  unfold mapOrInsert
  cases h : mapGet m a with
  | some v =>
    by_cases e : a = c
    · subst e; simp [h]
    · simp [e]
  | none =>
    rw [mapGet_append]
    by_cases e : a = c
    · subst e; simp [h, mapGet]
    · simp [e, mapGet]

theorem keys_insert {m : List (α × β)} {a : α} {b : β} :
    (mapInsert m a b).map (·.1) = setInsert (m.map (·.1)) a := by
  induction m with
  | nil => simp [mapInsert, setInsert]
  | cons p m ih =>
    obtain ⟨k, v⟩ := p
    by_cases e : k = a
    · subst e; simp [mapInsert, setInsert]
    · simp only [mapInsert, e, if_false, List.map_cons, ih]
      simp only [setInsert, List.mem_cons, Ne.symm e, false_or]
      split <;> simp

theorem keys_orInsert {m : List (α × β)} {a : α} {b : β} :
    (mapOrInsert m a b).map (·.1) = setInsert (m.map (·.1)) a := by
  unfold mapOrInsert
  cases h : mapGet m a with
  | some v =>
    have : a ∈ m.map (·.1) := mapGet_isSome.1 (by simp [h])
    simp only [setInsert, if_pos this]
  | none => simp only [List.map_append, setInsert, if_neg (mapGet_none.1 h)]; rfl

theorem nodup_keys_insert {m : List (α × β)} {a : α} {b : β} (h : (m.map (·.1)).Nodup) :
    ((mapInsert m a b).map (·.1)).Nodup := by rw [keys_insert]; exact nodup_setInsert h

theorem nodup_keys_orInsert {m : List (α × β)} {a : α} {b : β} (h : (m.map (·.1)).Nodup) :
    ((mapOrInsert m a b).map (·.1)).Nodup := by rw [keys_orInsert]; exact nodup_setInsert h

end Carcara
