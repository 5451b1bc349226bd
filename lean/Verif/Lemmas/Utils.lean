import Verif.Model.Utils
import Mathlib.Data.List.InsertIdx
import Mathlib.Data.List.Nodup
import Mathlib.Data.List.Perm.Subperm

/-! # Facts about the utility data structures -/

namespace Carcara

variable {κ : Type} [DecidableEq κ] {ν : Type}

theorem mapGet_remove {m : List (κ × ν)} (h : (m.map (·.1)).Nodup) {a c : κ} :
    mapGet (mapRemove m a) c = if a = c then none else mapGet m c := by
  unfold mapRemove
  split
  · next ha =>
    have hlt : (m.map (·.1)).idxOf a < m.length := by
      simpa using List.idxOf_lt_length_iff.2 ha
    have hp := swapRemoveIdx_perm m _ hlt
    have hp1 := hp.map (·.1)
    have hk : (m.eraseIdx ((m.map (·.1)).idxOf a)).map (·.1) = (m.map (·.1)).erase a := by
      rw [List.erase_eq_eraseIdx_of_idxOf rfl, List.eraseIdx_map]
    rw [hk] at hp1
    have hnd : ((swapRemoveIdx m ((m.map (·.1)).idxOf a)).map (·.1)).Nodup :=
      hp1.nodup_iff.2 (h.erase a)
    split
    · next e =>
      subst e
      rw [mapGet_none, hp1.mem_iff, h.mem_erase_iff]; simp
    · next e =>
      cases hg : mapGet m c with
      | none =>
        rw [mapGet_none] at hg ⊢
        rw [hp1.mem_iff]
        exact fun hm => hg (List.mem_of_mem_erase hm)
      | some v =>
        rw [mapGet_eq_some_of_mem h] at hg
        rw [mapGet_eq_some_of_mem hnd, hp.mem_iff]
        obtain ⟨j, hj, hje⟩ := List.mem_iff_getElem.1 hg
        rw [List.mem_eraseIdx_iff_getElem]
        refine ⟨j, hj, ?_, hje⟩
        rintro rfl
        have := List.getElem_idxOf (by simpa using hlt : (m.map (·.1)).idxOf a < (m.map (·.1)).length)
        simp only [List.getElem_map, hje] at this
        exact e this.symm
  · next ha =>
    split
    · next e => subst e; exact mapGet_none.2 ha
    · rfl

theorem nodup_keys_remove {m : List (κ × ν)} (h : (m.map (·.1)).Nodup) {a : κ} :
    ((mapRemove m a).map (·.1)).Nodup := by
  unfold mapRemove
  split
  · next ha =>
    have hlt : (m.map (·.1)).idxOf a < m.length := by simpa using List.idxOf_lt_length_iff.2 ha
    have hp1 := (swapRemoveIdx_perm m _ hlt).map (·.1)
    have hk : (m.eraseIdx ((m.map (·.1)).idxOf a)).map (·.1) = (m.map (·.1)).erase a := by
      rw [List.erase_eq_eraseIdx_of_idxOf rfl, List.eraseIdx_map]
    rw [hk] at hp1
    exact hp1.nodup_iff.2 (h.erase a)
  · exact h

namespace MultiSet

/-- Representation invariant: distinct keys, positive counts. -/
def WF (m : MultiSet κ) : Prop := (m.map.map (·.1)).Nodup ∧ ∀ p ∈ m.map, 0 < p.2

theorem WF.new : (new : MultiSet κ).WF := by simp [WF, MultiSet.new]

theorem get_insertN (m : MultiSet κ) (a c : κ) (n : Nat) :
    (m.insertN a n).1.get c = m.get c + if a = c then n else 0 := by
  unfold insertN
  split
  · next h => subst h; simp
  · next h =>
    simp only [get, mapGet_insert, mapGet_orInsert]
    by_cases e : a = c
    · subst e; simp
    · simp [e]

theorem insertN_snd (m : MultiSet κ) (a : κ) (n : Nat) : (m.insertN a n).2 = m.get a + n := by
  unfold insertN
  split
  · next h => subst h; simp
  · simp [get, mapGet_orInsert]

theorem mem_mapInsert {m : List (κ × ν)} {a : κ} {b : ν} {p : κ × ν} (h : p ∈ mapInsert m a b) :
    p ∈ m ∨ p = (a, b) := by
  induction m with
  | nil => simp [mapInsert] at h; exact Or.inr h
  | cons q m ih =>
    obtain ⟨k, v⟩ := q
    simp only [mapInsert] at h
    split at h
    · next e => subst e; simp at h; rcases h with rfl | h
                · exact Or.inr rfl
                · exact Or.inl (by simp [h])
    · simp at h
      rcases h with rfl | h
      · simp
      · rcases ih h with h | h
        · exact Or.inl (by simp [h])
        · exact Or.inr h

theorem WF.set {m : MultiSet κ} (h : m.WF) (a : κ) {v : Nat} (hv : 0 < v) :
    WF ⟨mapInsert (mapOrInsert m.map a 0) a v⟩ := by
  refine ⟨nodup_keys_insert (nodup_keys_orInsert h.1), ?_⟩
  have hnd := nodup_keys_insert (b := v) (a := a) (nodup_keys_orInsert (a := a) (b := 0) h.1)
  rintro ⟨k, c⟩ hp
  have hg := (mapGet_eq_some_of_mem hnd).2 hp
  rw [mapGet_insert] at hg
  split at hg
  · simp at hg; subst hg; exact hv
  · next e =>
    rw [mapGet_orInsert, if_neg e, mapGet_eq_some_of_mem h.1] at hg
    exact h.2 _ hg

theorem WF.insertN {m : MultiSet κ} (h : m.WF) (a : κ) (n : Nat) : (m.insertN a n).1.WF := by
  unfold MultiSet.insertN
  split
  · exact h
  · exact h.set a (by omega)

theorem get_removeN {m : MultiSet κ} (h : m.WF) (a c : κ) (n : Nat) :
    (m.removeN a n).1.get c = m.get c - if a = c then n else 0 := by
  unfold removeN
  split
  · next hle =>
    simp only [get, mapGet_remove h.1]
    by_cases e : a = c
    · subst e; simp [get] at hle ⊢; omega
    · simp [e]
  · simp only [get, mapGet_insert, mapGet_orInsert]
    by_cases e : a = c
    · subst e; simp
    · simp [e]

theorem removeN_snd (m : MultiSet κ) (a : κ) (n : Nat) : (m.removeN a n).2 = m.get a - n := by
  unfold removeN
  split
  · simp; omega
  · simp [get, mapGet_orInsert]

theorem mem_mapRemove {m : List (κ × ν)} {a : κ} {p : κ × ν} (h : p ∈ mapRemove m a) : p ∈ m := by
  unfold mapRemove at h
  split at h
  · next ha =>
    have hlt : (m.map (·.1)).idxOf a < m.length := by simpa using List.idxOf_lt_length_iff.2 ha
    exact List.mem_of_mem_eraseIdx ((swapRemoveIdx_perm m _ hlt).mem_iff.1 h)
  · exact h

theorem WF.removeN {m : MultiSet κ} (h : m.WF) (a : κ) (n : Nat) : (m.removeN a n).1.WF := by
  unfold MultiSet.removeN
  split
  · exact ⟨nodup_keys_remove h.1, fun p hp => h.2 p (mem_mapRemove hp)⟩
  · next hlt =>
    refine h.set a ?_
    simp only [mapGet_orInsert, if_pos]
    simp only [get] at hlt
    simp; omega

theorem get_eq {m : MultiSet κ} (h : m.WF) {a : κ} {n : Nat} (hm : (a, n) ∈ m.map) : m.get a = n := by
  simp [get, (mapGet_eq_some_of_mem h.1).2 hm]

theorem mem_of_get {m : MultiSet κ} (h : m.WF) {a : κ} (hm : m.get a ≠ 0) : (a, m.get a) ∈ m.map := by
  cases hg : mapGet m.map a with
  | none => simp [get, hg] at hm
  | some n => simpa [get, hg] using (mapGet_eq_some_of_mem h.1).1 hg

theorem WF.ofList_aux {l : List κ} {m : MultiSet κ} (h : m.WF) :
    (l.foldl (fun m a => (m.insert a).1) m).WF := by
  induction l generalizing m with
  | nil => exact h
  | cons a l ih => exact ih (h.insertN a 1)

theorem WF.ofList (l : List κ) : (MultiSet.ofList l).WF := WF.ofList_aux WF.new

theorem get_ofList_aux (l : List κ) (m : MultiSet κ) (c : κ) :
    (l.foldl (fun m a => (m.insert a).1) m).get c = m.get c + l.count c := by
  induction l generalizing m with
  | nil => simp
  | cons a l ih =>
    rw [List.foldl_cons, ih, insert, get_insertN, List.count_cons]
    by_cases e : a = c
    · simp [e]; omega
    · simp [e]

theorem get_ofList (l : List κ) (c : κ) : (MultiSet.ofList l).get c = l.count c := by
  rw [MultiSet.ofList, get_ofList_aux]; simp [MultiSet.new, get, mapGet]

theorem diffLoop_none (other : MultiSet κ) (b : Bool) (l : List (κ × Nat)) :
    diffLoop other b l = .none ↔ ∀ p ∈ l, other.get p.1 = p.2 := by
  induction l with
  | nil => simp [diffLoop]
  | cons q l ih =>
    obtain ⟨a, n⟩ := q
    simp only [diffLoop, List.mem_cons, forall_eq_or_imp]
    cases b <;> simp only [Bool.false_eq_true, if_false, if_true]
    all_goals
      split
      · simp; omega
      · split
        · simp; omega
        · rw [ih]; constructor
          · exact fun h => ⟨by omega, h⟩
          · exact fun h => h.2

theorem symmetricDifference_none {m n : MultiSet κ} (w : m.WF) (w' : n.WF) :
    m.symmetricDifference n = .none ↔ ∀ a, m.get a = n.get a := by
  have key : m.symmetricDifference n = .none ↔
      (∀ p ∈ m.map, n.get p.1 = p.2) ∧ (∀ p ∈ n.map, m.get p.1 = p.2) := by
    unfold MultiSet.symmetricDifference
    cases hd : MultiSet.diffLoop n false m.map with
    | none => simp only [MultiSet.diffLoop_none] at hd ⊢; exact ⟨fun x => ⟨hd, x⟩, fun x => x.2⟩
    | missing a =>
      simp only [reduceCtorEq, false_iff, not_and]
      intro hc; rw [(MultiSet.diffLoop_none _ _ _).2 hc] at hd; simp at hd
    | extra a =>
      simp only [reduceCtorEq, false_iff, not_and]
      intro hc; rw [(MultiSet.diffLoop_none _ _ _).2 hc] at hd; simp at hd
  rw [key]
  constructor
  · rintro ⟨h1, h2⟩ a
    by_cases ha : m.get a = 0
    · by_cases hb : n.get a = 0
      · rw [ha, hb]
      · exact h2 _ (MultiSet.mem_of_get w' hb)
    · exact (h1 _ (MultiSet.mem_of_get w ha)).symm
  · intro hall
    refine ⟨fun p hp => ?_, fun p hp => ?_⟩
    · rw [← hall, MultiSet.get_eq w hp]
    · rw [hall, MultiSet.get_eq w' hp]

theorem eq_iff {m n : MultiSet κ} (w : m.WF) (w' : n.WF) : m.eq n = true ↔ ∀ a, m.get a = n.get a := by
  have sub : ∀ {m n : MultiSet κ}, m.WF → n.WF → (∀ a, m.get a = n.get a) → m.map ⊆ n.map := by
    intro m n wm wn hall p hp
    have h1 := MultiSet.get_eq wm hp
    have h2 : n.get p.1 ≠ 0 := by rw [← hall, h1]; have := wm.2 p hp; omega
    have := MultiSet.mem_of_get wn h2
    rwa [← hall, h1] at this
  have nd : ∀ {m : MultiSet κ}, m.WF → m.map.Nodup := fun wm => List.Nodup.of_map _ wm.1
  simp only [MultiSet.eq, Bool.and_eq_true, decide_eq_true_eq, List.all_eq_true]
  constructor
  · rintro ⟨hl, hall⟩
    have hs : m.map ⊆ n.map := fun p hp => (mapGet_eq_some_of_mem w'.1).1 (hall p hp)
    have hp : m.map.Perm n.map := ((nd w).subperm hs).perm_of_length_le (by omega)
    intro a
    by_cases ha : m.get a = 0
    · by_cases hb : n.get a = 0
      · rw [ha, hb]
      · exact MultiSet.get_eq w (hp.mem_iff.2 (MultiSet.mem_of_get w' hb))
    · exact (MultiSet.get_eq w' (hp.mem_iff.1 (MultiSet.mem_of_get w ha))).symm
  · intro hall
    have h1 := sub w w' hall
    have h2 := sub w' w (fun a => (hall a).symm)
    refine ⟨Nat.le_antisymm ((nd w).subperm h1).length_le ((nd w').subperm h2).length_le, fun p hp => ?_⟩
    exact (mapGet_eq_some_of_mem w'.1).2 (h1 hp)

theorem ofList_perm {l l' : List κ} : (∀ a, (ofList l).get a = (ofList l').get a) ↔ l.Perm l' := by
  simp only [get_ofList, List.perm_iff_count]

end MultiSet

end Carcara
