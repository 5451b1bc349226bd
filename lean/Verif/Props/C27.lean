import Verif.Model.Pool
import Verif.Lemmas.Utils
import Mathlib.Data.List.Forall2
import Mathlib.Data.List.Nodup

/-!
# C27: equality of hash-consed terms is structural equality

For one pool. The layered pools of the parallel checker do not have the property in general
(`c27_local_pool_fails`): a term allocated in a thread's own pool is allocated again once the context pool has it. In
the code as it stands nothing is ever added to the context pool.
-/

namespace Carcara

/-- Terms as trees. -/
inductive Tree (L : Type) where
  | node (label : L) (children : List (Tree L))

variable {L : Type} [DecidableEq L]

/-- `PoolDenotes s p t`: the allocation `p` and everything it points to form the tree `t`. -/
inductive PoolDenotes (s : Storage L) : Nat → Tree L → Prop where
  | mk {p : Nat} {l : L} {cs : List Nat} {ts : List (Tree L)} : s[p]? = some ⟨l, cs⟩ →
      List.Forall₂ (PoolDenotes s) cs ts → PoolDenotes s p (.node l ts)

/-- What every sequence of additions to an empty pool maintains: no node occurs twice, and nodes point to earlier
allocations. -/
structure Storage.Inv (s : Storage L) : Prop where
  nodup : s.Nodup
  back : ∀ (p : Nat) (n : PoolNode L), s[p]? = some n → ∀ c ∈ n.children, c < p

theorem Storage.get_eq {s : Storage L} {n : PoolNode L} {i : Nat} (h : s.get n = some i) : s[i]? = some n := by
  unfold Storage.get at h
  split at h
  · next hm =>
    simp only [Option.some.injEq] at h
    subst h
    rw [List.getElem?_eq_getElem (List.idxOf_lt_length_of_mem hm), List.getElem_idxOf]
  · cases h

/-- Adding a node returns an allocation with that node and moves nothing. -/
theorem c27_add (s : Storage L) (n : PoolNode L) :
    (Storage.add s n).2[(Storage.add s n).1]? = some n ∧
    ∀ (p : Nat) (m : PoolNode L), s[p]? = some m → (Storage.add s n).2[p]? = some m := by
  unfold Storage.add
  split
  · next i h => exact ⟨Storage.get_eq h, fun _ _ h => h⟩
  · refine ⟨by simp, fun p m h => ?_⟩
    rw [List.getElem?_append_left (List.getElem?_eq_some_iff.1 h).1]
    exact h

/-- The invariant is kept when a node over existing allocations is added. -/
theorem c27_inv_add {s : Storage L} (hs : Storage.Inv s) {n : PoolNode L} (hn : ∀ c ∈ n.children, c < s.length) :
    Storage.Inv (Storage.add s n).2 := by
  unfold Storage.add
  split
  · exact hs
  · next h =>
    have hm : n ∉ s := by
      intro hm
      simp [Storage.get, hm] at h
    refine ⟨List.nodup_append'.2 ⟨hs.nodup, by simp, by simpa using hm⟩, fun p m hp c hc => ?_⟩
    rw [List.getElem?_append] at hp
    split at hp
    · exact hs.back p m hp c hc
    · next hl =>
      have : p - s.length = 0 := by
        by_contra hne
        rw [List.getElem?_eq_none (by simp; omega)] at hp
        cases hp
      rw [this] at hp
      simp only [List.getElem?_cons_zero, Option.some.injEq] at hp
      subst hp
      have := hn c hc
      omega

/-- Additions keep the meaning of every allocation. -/
theorem c27_add_stable {s : Storage L} {n : PoolNode L} {p : Nat} {t : Tree L} (h : PoolDenotes s p t) :
    PoolDenotes (Storage.add s n).2 p t := by
  induction h using PoolDenotes.rec (motive_2 := fun ps ts _ => List.Forall₂ (PoolDenotes (Storage.add s n).2) ps ts) with
  | mk hp _ ih => exact .mk ((c27_add s n).2 _ _ hp) ih
  | nil => exact .nil
  | cons _ _ h1 h2 => exact .cons h1 h2

/-- In a pool with the invariant every allocation denotes a tree. -/
theorem c27_denotes_total {s : Storage L} (hs : Storage.Inv s) : ∀ p, p < s.length → ∃ t, PoolDenotes s p t := by
  intro p
  induction p using Nat.strongRecOn with
  | ind p ih =>
    intro hp
    have hn := List.getElem?_eq_getElem hp
    have : ∀ cs : List Nat, (∀ c ∈ cs, c < p) → ∃ ts, List.Forall₂ (PoolDenotes s) cs ts := by
      intro cs
      induction cs with
      | nil => exact fun _ => ⟨[], .nil⟩
      | cons c cs ihc =>
        intro h
        obtain ⟨t, ht⟩ := ih c (h c (by simp)) (by have := h c (by simp); omega)
        obtain ⟨ts, hts⟩ := ihc (fun c hc => h c (by simp [hc]))
        exact ⟨t :: ts, .cons ht hts⟩
    obtain ⟨ts, hts⟩ := this _ (hs.back p _ hn)
    exact ⟨_, .mk hn hts⟩

/-- A pointer denotes at most one tree. -/
theorem c27_denotes_unique {s : Storage L} {p : Nat} {t u : Tree L} (h : PoolDenotes s p t) (h' : PoolDenotes s p u) :
    t = u := by
  induction h using PoolDenotes.rec (motive_2 := fun ps ts _ => ∀ us, List.Forall₂ (PoolDenotes s) ps us → ts = us)
    generalizing u with
  | mk hp _ ih =>
    cases h' with
    | mk hp' hts' =>
      rw [hp] at hp'
      cases hp'
      rw [ih _ hts']
  | nil => rename_i us h; cases h; rfl
  | cons _ _ h1 h2 => rename_i us h; cases h with
    | cons a b => rw [h1 a, h2 _ b]

/-- **C27.** In a pool with the invariant, pointers are equal exactly when the terms they denote are structurally
equal. -/
theorem c27_pointer_equality {s : Storage L} (hs : Storage.Inv s) {p q : Nat} {t u : Tree L} (hp : PoolDenotes s p t)
    (hq : PoolDenotes s q u) : p = q ↔ t = u := by
  refine ⟨fun e => c27_denotes_unique (e ▸ hp) hq, ?_⟩
  induction hp using PoolDenotes.rec
    (motive_2 := fun ps ts _ => ∀ qs, List.Forall₂ (PoolDenotes s) qs ts → ps = qs) generalizing q u with
  | mk hp _ ih =>
    rintro rfl
    cases hq with
    | mk hq hts =>
      have hc := ih _ hts
      subst hc
      obtain ⟨h1, e1⟩ := List.getElem?_eq_some_iff.1 hp
      obtain ⟨h2, e2⟩ := List.getElem?_eq_some_iff.1 hq
      exact (List.Nodup.getElem_inj_iff hs.nodup).1 (e1.trans e2.symm)
  | nil => rename_i us h; cases h; rfl
  | cons _ _ h1 h2 => rename_i us h; cases h with
    | cons a b => rw [h1 a rfl, h2 _ b]

/-- Each node only uses pointers handed out before it. -/
def Valid' : List (PoolNode L) → Storage L → Prop
  | [], _ => True
  | n :: ns, s => (∀ c ∈ n.children, c < s.length) ∧ Valid' ns (Storage.add s n).2

/-- **C27.** Every sequence of additions to an empty pool yields a pool with the invariant. -/
theorem c27_history {ns : List (PoolNode L)} (h : Valid' ns []) : Storage.Inv (addAll ns []).2 := by
  have : ∀ (ns : List (PoolNode L)) (s : Storage L), Storage.Inv s → Valid' ns s → Storage.Inv (addAll ns s).2 := by
    intro ns
    induction ns with
    | nil => intro s hs _; exact hs
    | cons n ns ih =>
      intro s hs hv
      simp only [addAll]
      exact ih _ (c27_inv_add hs hv.1) hv.2
  exact this ns [] ⟨by simp, by simp⟩ h

/-- **C27.** After every sequence of additions, two of the returned pointers are equal exactly if the terms they
denote are. -/
theorem c27_history_pointers {ns : List (PoolNode L)} (h : Valid' ns []) {p q : Nat} {t u : Tree L}
    (hp : PoolDenotes (addAll ns []).2 p t) (hq : PoolDenotes (addAll ns []).2 q u) : p = q ↔ t = u :=
  c27_pointer_equality (c27_history h) hp hq

/-- The layered pool of a worker thread does not have the property: if another component adds a term to the context
pool after this thread has added it, adding it again returns a different pointer. -/
theorem c27_local_pool_fails : ¬ ∀ (p : LocalPool String) (n m : PoolNode String),
    (p.add n).1 = (((p.add n).2.ctxAdd m).2.add n).1 := by
  intro h
  exact absurd (h ⟨[], [], []⟩ ⟨"x", []⟩ ⟨"x", []⟩) (by decide)

/-- It has the property as long as nothing is added to the context pool. -/
theorem c27_local_pool_partial {p : LocalPool L} (n : PoolNode L) : ((p.add n).2.add n).1 = (p.add n).1 := by
  unfold LocalPool.add
  cases hg : p.glob.get n with
  | some i => simp [hg]
  | none =>
    cases hc : p.ctx.get n with
    | some i => simp [hg, hc]
    | none =>
      simp only [hg, hc]
      congr 1
      cases ho : Storage.get p.own n with
      | some i => simp [Storage.add, ho]
      | none =>
        have hm : n ∉ p.own := by intro hm; simp [Storage.get, hm] at ho
        simp [Storage.add, Storage.get, List.idxOf_append, hm]

/-- `x`, `(f x)`, `x` again, `(f x)` again. -/
example : (addAll [⟨"x", []⟩, ⟨"f", [0]⟩, ⟨"x", []⟩, ⟨"f", [0]⟩, ⟨"f", [1]⟩] []).1 = [0, 1, 0, 1, 2] := by decide
example : Valid' [⟨"x", []⟩, ⟨"f", [0]⟩, ⟨"x", []⟩, ⟨"f", [0]⟩, ⟨"f", [1]⟩] [] := by
  simp [Valid', Storage.add, Storage.get]

end Carcara
