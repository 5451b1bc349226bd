import Verif.Lemmas.Uncrowding
import Verif.Lemmas.ElabTrans
import Verif.Props.C08
import Verif.Props.C13
import Verif.Props.C42

/-! # Uncrowding: chains without returning literals are handled -/

namespace Carcara

open Spec

/-! ## Chains on sets of literals -/

/-- The literal that a premise takes out of the clause so far and the one that goes out of the premise. -/
def RPremise.pair (p : RPremise) : Option (Lit × Lit) := p.pivot.map fun x => pivotPair x.1 x.2

/-- `SetRun S ps T`: resolving the clause with literals `S` with the premises gives the clause with literals `T`. -/
inductive SetRun : (Lit → Prop) → List RPremise → (Lit → Prop) → Prop where
  | done {S T : Lit → Prop} : (∀ x, S x ↔ T x) → SetRun S [] T
  | step {S S' T : Lit → Prop} {p : RPremise} {ps : List RPremise} {a b : Lit} : p.pair = some (a, b) → S a → b ∈ p.clause →
      (∀ x, S' x ↔ (S x ∧ x ≠ a) ∨ x ∈ p.clause.erase b) → SetRun S' ps T → SetRun S (p :: ps) T

/-- No premise contains a literal that it, or a premise before it, takes out. -/
def CleanRun : List RPremise → Prop
  | [] => True
  | p :: ps => (∀ a b, p.pair = some (a, b) → ∀ q ∈ p :: ps, a ∉ q.clause) ∧ CleanRun ps

/-- What a premise adds to the clause so far. -/
def RPremise.added (p : RPremise) : List Lit :=
  match p.pair with
  | some (_, b) => p.clause.erase b
  | none => p.clause

/-- How often the premises add a literal. -/
def totalAdded (l : Lit) (ps : List RPremise) : Nat := (ps.map fun p => p.added.count l).sum

/-- How often the premises take out a literal. -/
def elims (l : Lit) : List RPremise → Nat
  | [] => 0
  | p :: ps => (if (p.pair.map (·.1)) = some l then 1 else 0) + elims l ps

theorem totalAdded_append (l : Lit) (ps qs : List RPremise) : totalAdded l (ps ++ qs) = totalAdded l ps + totalAdded l qs := by
  simp [totalAdded]

theorem totalAdded_cons (l : Lit) (p : RPremise) (ps : List RPremise) :
    totalAdded l (p :: ps) = p.added.count l + totalAdded l ps := by simp [totalAdded]

theorem elims_append (l : Lit) : ∀ (ps qs : List RPremise), elims l (ps ++ qs) = elims l ps + elims l qs
  | [], qs => by simp [elims]
  | p :: ps, qs => by simp [elims, elims_append l ps qs]; omega

theorem elims_split {l : Lit} : ∀ {ps : List RPremise}, elims l ps ≠ 0 →
    ∃ pre p post b, ps = pre ++ p :: post ∧ p.pair = some (l, b) ∧ elims l pre = 0
  | [], h => by simp [elims] at h
  | p :: ps, h => by
    by_cases hp : (p.pair.map (·.1)) = some l
    · obtain ⟨⟨a, b⟩, h1, h2⟩ := Option.map_eq_some_iff.1 hp
      obtain rfl : a = l := h2
      exact ⟨[], p, ps, b, rfl, h1, rfl⟩
    · simp only [elims, if_neg hp] at h
      obtain ⟨pre, q, post, b, rfl, h1, h2⟩ := elims_split (l := l) (ps := ps) (by omega)
      exact ⟨p :: pre, q, post, b, rfl, h1, by simp [elims, hp, h2]⟩

theorem mem_of_added {p : RPremise} {l : Lit} (h : l ∈ p.added) : l ∈ p.clause := by
  unfold RPremise.added at h
  split at h
  · exact List.mem_of_mem_erase h
  · exact h

theorem totalAdded_pos {l : Lit} {ps : List RPremise} (h : totalAdded l ps ≠ 0) : ∃ p ∈ ps, l ∈ p.added := by
  induction ps with
  | nil => simp [totalAdded] at h
  | cons p ps ih =>
    rw [totalAdded_cons] at h
    by_cases h0 : p.added.count l = 0
    · obtain ⟨q, hq, h⟩ := ih (by omega)
      exact ⟨q, by simp [hq], h⟩
    · exact ⟨p, by simp, List.count_pos_iff.1 (by omega)⟩

theorem naiveLits_cons {cur : List Lit} {p : RPremise} {ps : List RPremise} {a b : Lit} (h : p.pair = some (a, b)) :
    naiveLits cur (p :: ps) = if a ∈ cur ∧ b ∈ p.clause then naiveLits (cur.erase a ++ p.clause.erase b) ps else panic := by
  obtain ⟨⟨x, y⟩, h1, h2⟩ := Option.map_eq_some_iff.1 h
  simp only at h2
  rw [naiveLits, h1]
  simp only [orPanic, bind, Except.bind, h2]
  by_cases ha : a ∈ cur <;> by_cases hb : b ∈ p.clause <;> simp [ha, hb]

theorem naiveLits_pair {cur out : List Lit} {p : RPremise} {ps : List RPremise} (h : naiveLits cur (p :: ps) = .ok out) :
    ∃ a b, p.pair = some (a, b) ∧ a ∈ cur ∧ b ∈ p.clause ∧ naiveLits (cur.erase a ++ p.clause.erase b) ps = .ok out := by
  cases hp : p.pair with
  | none =>
    rw [RPremise.pair, Option.map_eq_none_iff] at hp
    rw [naiveLits, hp] at h
    simp [orPanic, panic, bind, Except.bind] at h
  | some x =>
    obtain ⟨a, b⟩ := x
    rw [naiveLits_cons hp] at h
    split at h
    · next hh => exact ⟨a, b, rfl, hh.1, hh.2, h⟩
    · cases h

/-- The naive conclusion has every literal as often as it was there or was added, minus the times it was taken out. -/
theorem naiveLits_count {l : Lit} : ∀ {ps : List RPremise} {cur out : List Lit}, naiveLits cur ps = .ok out →
    out.count l + elims l ps = cur.count l + totalAdded l ps
  | [], cur, out, h => by cases h; simp [elims, totalAdded]
  | p :: ps, cur, out, h => by
    obtain ⟨a, b, hp, ha, hb, h⟩ := naiveLits_pair h
    have := naiveLits_count (l := l) h
    have hadd : p.added = p.clause.erase b := by simp [RPremise.added, hp]
    rw [totalAdded_cons, elims, hp, hadd]
    rw [List.count_append] at this
    by_cases e : a = l
    · subst e
      have h0 : 0 < cur.count a := List.count_pos_iff.2 ha
      rw [List.count_erase_self] at this
      simp
      omega
    · rw [List.count_erase_of_ne (Ne.symm e)] at this
      simp [e]
      omega

/-- The naive conclusion exists if the chain on sets does. -/
theorem naiveLits_total {S T : Lit → Prop} {ps : List RPremise} (h : SetRun S ps T) : ∀ {cur : List Lit},
    (∀ x, S x → x ∈ cur) → ∃ out, naiveLits cur ps = .ok out := by
  induction h with
  | done _ => exact fun _ => ⟨_, rfl⟩
  | @step S S' T p ps a b hp ha hb hS _ ih =>
    intro cur hc
    rw [naiveLits_cons hp, if_pos ⟨hc _ ha, hb⟩]
    refine ih fun x hx => ?_
    rcases (hS x).1 hx with ⟨h1, h2⟩ | h1
    · exact List.mem_append_left _ ((List.mem_erase_of_ne h2).2 (hc x h1))
    · exact List.mem_append_right _ h1

/-- A literal that is not there and never added is not taken out. -/
theorem SetRun.elims_zero {S T : Lit → Prop} {ps : List RPremise} (h : SetRun S ps T) {l : Lit} (hl : ¬ S l)
    (hps : ∀ p ∈ ps, l ∉ p.clause) : elims l ps = 0 ∧ ¬ T l := by
  induction h with
  | done hST => exact ⟨rfl, fun h => hl ((hST l).2 h)⟩
  | @step S S' T p ps a b hp ha hb hS _ ih =>
    obtain ⟨h1, h2⟩ := ih (fun h => by
      rcases (hS l).1 h with ⟨h, -⟩ | h
      · exact hl h
      · exact hps p (by simp) (List.mem_of_mem_erase h)) (fun q hq => hps q (by simp [hq]))
    refine ⟨?_, h2⟩
    rw [elims, h1, hp, Option.map_some, if_neg]
    rintro h
    obtain rfl : a = l := Option.some.inj h
    exact hl ha

/-- Under `CleanRun` a literal is taken out at most once, and then it is not in the result. -/
theorem SetRun.elims_le {S T : Lit → Prop} {ps : List RPremise} (h : SetRun S ps T) (hc : CleanRun ps) (l : Lit) :
    elims l ps ≤ 1 ∧ (elims l ps = 1 → ¬ T l) := by
  induction h with
  | done hST => simp [elims]
  | @step S S' T p ps a b hp ha hb hS hrun ih =>
    obtain ⟨h1, h2⟩ := ih hc.2
    rw [elims, hp, Option.map_some]
    by_cases e : a = l
    · subst e
      have := hrun.elims_zero (l := a) (fun h => by
        rcases (hS a).1 h with ⟨-, h⟩ | h
        · exact h rfl
        · exact hc.1 _ _ hp p (by simp) (List.mem_of_mem_erase h)) (fun q hq => hc.1 _ _ hp q (by simp [hq]))
      simp [this]
    · have e' : ¬ some a = some l := fun h => e (Option.some.inj h)
      rw [if_neg e', Nat.zero_add]
      exact ⟨h1, h2⟩

/-- A literal that is not taken out stays. -/
theorem SetRun.stays {S T : Lit → Prop} {ps : List RPremise} (h : SetRun S ps T) {l : Lit} (he : elims l ps = 0)
    (hl : S l ∨ totalAdded l ps ≠ 0) : T l := by
  induction h with
  | done hST => exact (hST l).1 (hl.resolve_right (by simp [totalAdded]))
  | @step S S' T p ps a b hp ha hb hS _ ih =>
    rw [elims, hp, Option.map_some] at he
    have e : a ≠ l := by rintro rfl; simp at he
    refine ih (by omega) ?_
    rw [totalAdded_cons] at hl
    rcases hl with hl | hl
    · exact .inl ((hS l).2 (.inl ⟨hl, Ne.symm e⟩))
    · by_cases h0 : p.added.count l = 0
      · exact .inr (by omega)
      · have : l ∈ p.added := List.count_pos_iff.1 (by omega)
        rw [RPremise.added, hp] at this
        exact .inl ((hS l).2 (.inr this))

/-! ## One segment -/

/-- The part `xs` of a chain, resolved naively from a clause with the right literals: if no literal is there twice when it is taken out, the
result has the right literals, too. -/
theorem segment_total {T : Lit → Prop} {ys : List RPremise} : ∀ {xs : List RPremise} {cur : List Lit},
    SetRun (· ∈ cur) (xs ++ ys) T →
    (∀ pre p post a b, xs = pre ++ p :: post → p.pair = some (a, b) → cur.count a + totalAdded a pre ≤ 1) →
    ∃ out, naiveLits cur xs = .ok out ∧ SetRun (· ∈ out) ys T ∧ SetRun (· ∈ cur) xs (· ∈ out)
  | [], cur, h, _ => ⟨cur, rfl, h, .done fun _ => Iff.rfl⟩
  | p :: xs, cur, h, hcount => by
    cases h with
    | @step _ S' _ _ _ a b hp ha hb hS hrun =>
      have h1 := hcount [] p xs a b rfl hp
      have hmem : ∀ x, x ∈ cur.erase a ↔ x ∈ cur ∧ x ≠ a := by
        intro x
        by_cases e : x = a
        · subst e
          have : (cur.erase x).count x = 0 := by rw [List.count_erase_self]; simp [totalAdded] at h1; omega
          simp only [ne_eq, not_true_eq_false, and_false, iff_false]
          exact List.count_eq_zero.1 this
        · simp [List.mem_erase_of_ne e, e]
      have hS' : ∀ x, S' x ↔ x ∈ cur.erase a ++ p.clause.erase b := fun x => by
        rw [hS, List.mem_append, hmem]
      have hS'' : S' = fun x => x ∈ cur.erase a ++ p.clause.erase b := funext fun x => propext (hS' x)
      subst hS''
      obtain ⟨out, h2, h3, h4⟩ := segment_total hrun (fun pre q post a' b' he hq => by
        have := hcount (p :: pre) q post a' b' (by rw [he]; rfl) hq
        rw [totalAdded_cons] at this
        have hadd : p.added = p.clause.erase b := by simp [RPremise.added, hp]
        rw [hadd] at this
        rw [List.count_append]
        have := (List.erase_sublist (l := cur) (a := a)).count_le a'
        omega)
      exact ⟨out, by rw [naiveLits_cons hp, if_pos ⟨ha, hb⟩, h2], h3, .step hp ha hb hS h4⟩

/-! ## The chain in terms -/

theorem SetRun.toTerms {S T : Lit → Prop} {ps : List RPremise} (h : SetRun S ps T) : ∀ {args : List Term},
    (∀ p ∈ ps, p.WF) → pivotArgs ps = .ok args →
    ResChain (fun t => S t.removeAllNegations) (ps.map fun p => p.node.clause) args (fun t => T t.removeAllNegations) := by
  induction h with
  | done hST => intro args _ h; cases h; exact .done fun t => hST _
  | @step S S' T p ps a b hp ha hb hS _ ih =>
    intro args hw h
    obtain ⟨⟨x, y⟩, h1, h2⟩ := Option.map_eq_some_iff.1 hp
    simp only [pivotArgs, h1, bind_ok, orPanic_ok] at h
    obtain ⟨_, hx, rest, h3, h⟩ := h
    cases hx
    cases h
    obtain ⟨t, rfl⟩ := (hw p (by simp)).pivot _ _ h1
    simp only [pivotPair_remove] at h2
    have ih' := ih (fun q hq => hw q (by simp [hq])) h3
    rw [(hw p (by simp)).clause] at hb hS
    rw [literalToTerm_remove]
    cases y with
    | true =>
      simp only [if_true, Prod.mk.injEq] at h2
      obtain ⟨rfl, rfl⟩ := h2
      rw [mem_map_remove] at hb
      refine .pos ⟨ha, hb, fun u => ?_⟩ ih'
      rw [hS, map_remove_erase, mem_map_remove]
      simp only [ne_eq, (⟨removeAll_injective, fun h => h ▸ rfl⟩ : u.removeAllNegations = t.removeAllNegations ↔ u = t)]
    | false =>
      simp only [Bool.false_eq_true, if_false, Prod.mk.injEq] at h2
      obtain ⟨rfl, rfl⟩ := h2
      rw [mem_map_remove] at hb
      refine .neg ⟨ha, hb, fun u => ?_⟩ ih'
      rw [hS, map_remove_erase, mem_map_remove]
      simp only [ne_eq, (⟨removeAll_injective, fun h => h ▸ rfl⟩ :
        u.removeAllNegations = (Term.op .not [t]).removeAllNegations ↔ u = .op .not [t])]

/-- The set of literals of a set of terms. -/
def litsOf (S : Term → Prop) (l : Lit) : Prop := ∃ t, S t ∧ l = t.removeAllNegations

theorem litsOf_remove {S : Term → Prop} {t : Term} : litsOf S t.removeAllNegations ↔ S t :=
  ⟨fun ⟨_, h, e⟩ => removeAll_injective e ▸ h, fun h => ⟨t, h, rfl⟩⟩

theorem litsOf_mem {ts : List Term} {l : Lit} : litsOf (· ∈ ts) l ↔ l ∈ ts.map Term.removeAllNegations := by
  simp [litsOf, eq_comm]

/-- A chain of resolutions on terms as one on literals. -/
theorem SetRun.ofTerms {S T : Term → Prop} {ds : List (List Term)} {args : List Term} (h : ResChain S ds args T) :
    ∀ {ns : List Node}, ns.map Node.clause = ds → ∃ ps, premisesFrom ns args = .ok ps ∧ ps.length = ns.length ∧
      ps.map (·.node) = ns ∧ SetRun (litsOf S) ps (litsOf T) := by
  induction h with
  | done hST =>
    intro ns hns
    obtain rfl := List.map_eq_nil_iff.1 hns
    exact ⟨[], rfl, rfl, rfl, .done fun x => ⟨fun ⟨t, h, e⟩ => ⟨t, (hST t).1 h, e⟩, fun ⟨t, h, e⟩ => ⟨t, (hST t).2 h, e⟩⟩⟩
  | @pos c e f d ds args pivot hr _ ih =>
    intro ns hns
    obtain ⟨n, ns, rfl, rfl, hns'⟩ := List.map_eq_cons_iff.1 hns
    obtain ⟨ps, h1, h2, h3, h4⟩ := ih hns'
    refine ⟨_, by rw [premisesFrom, h1]; rfl, by simp [h2], by simp [h3], .step (a := pivot.removeAllNegations)
      (b := (Term.op .not [pivot]).removeAllNegations) ?_ (litsOf_remove.2 hr.1) (mem_map_remove.2 hr.2.1) (fun x => ?_) h4⟩
    · simp [RPremise.pair, pivotPair_remove, Term.isBoolTrue]
    · simp only [map_remove_erase]
      constructor
      · rintro ⟨t, ht, rfl⟩
        rcases (hr.2.2 t).1 ht with ⟨h, h'⟩ | h
        · exact .inl ⟨litsOf_remove.2 h, fun e => h' (removeAll_injective e)⟩
        · exact .inr (mem_map_remove.2 h)
      · rintro (⟨⟨t, ht, rfl⟩, h⟩ | h)
        · exact litsOf_remove.2 ((hr.2.2 t).2 (.inl ⟨ht, fun e => h (e ▸ rfl)⟩))
        · obtain ⟨t, ht, rfl⟩ := List.mem_map.1 h
          exact litsOf_remove.2 ((hr.2.2 t).2 (.inr ht))
  | @neg c e f d ds args pivot hr _ ih =>
    intro ns hns
    obtain ⟨n, ns, rfl, rfl, hns'⟩ := List.map_eq_cons_iff.1 hns
    obtain ⟨ps, h1, h2, h3, h4⟩ := ih hns'
    refine ⟨_, by rw [premisesFrom, h1]; rfl, by simp [h2], by simp [h3], .step (a := (Term.op .not [pivot]).removeAllNegations)
      (b := pivot.removeAllNegations) ?_ (litsOf_remove.2 hr.1) (mem_map_remove.2 hr.2.1) (fun x => ?_) h4⟩
    · simp [RPremise.pair, pivotPair_remove, Term.isBoolTrue]
    · simp only [map_remove_erase]
      constructor
      · rintro ⟨t, ht, rfl⟩
        rcases (hr.2.2 t).1 ht with ⟨h, h'⟩ | h
        · exact .inl ⟨litsOf_remove.2 h, fun e => h' (removeAll_injective e)⟩
        · exact .inr (mem_map_remove.2 h)
      · rintro (⟨⟨t, ht, rfl⟩, h⟩ | h)
        · exact litsOf_remove.2 ((hr.2.2 t).2 (.inl ⟨ht, fun e => h (e ▸ rfl)⟩))
        · obtain ⟨t, ht, rfl⟩ := List.mem_map.1 h
          exact litsOf_remove.2 ((hr.2.2 t).2 (.inr ht))

/-! ## What is known about literals -/

theorem mapGet_modify (m : Infos) (k l : Lit) (f : LiteralInfo → LiteralInfo) :
    mapGet (modifyInfo m k f) l = if k = l then (mapGet m l).map f else mapGet m l := by
  unfold modifyInfo
  split
  · next i hi =>
    rw [mapGet_insert]
    split
    · next e => subst e; rw [hi]; rfl
    · rfl
  · next hi =>
    split
    · next e => subst e; rw [hi]; rfl
    · rfl

theorem nodup_modify {m : Infos} (h : (m.map (·.1)).Nodup) (k : Lit) (f : LiteralInfo → LiteralInfo) :
    ((modifyInfo m k f).map (·.1)).Nodup := by
  unfold modifyInfo
  split
  · exact nodup_keys_insert h
  · exact h

theorem initInfos_spec (ps : List RPremise) : ((initInfos ps).map (·.1)).Nodup ∧
    ∀ l, mapGet (initInfos ps) l = if ∃ p ∈ ps, l ∈ p.clause then some {} else none := by
  have key : ∀ (ls : List Lit) (m : Infos), (m.map (·.1)).Nodup →
      ((ls.foldl (fun m l => mapInsert m l {}) m).map (·.1)).Nodup ∧
      ∀ l, mapGet (ls.foldl (fun m l => mapInsert m l ({} : LiteralInfo)) m) l = if l ∈ ls then some {} else mapGet m l := by
    intro ls
    induction ls with
    | nil => intro m h; simpa using h
    | cons a ls ih =>
      intro m h
      obtain ⟨h1, h2⟩ := ih (mapInsert m a {}) (nodup_keys_insert h)
      refine ⟨h1, fun l => ?_⟩
      rw [List.foldl_cons, h2, mapGet_insert]
      by_cases e : a = l
      · subst e; simp
      · by_cases e' : l ∈ ls <;> simp [e, e', Ne.symm e]
  obtain ⟨h1, h2⟩ := key (ps.flatMap (·.clause)) [] (by simp)
  refine ⟨h1, fun l => ?_⟩
  have : mapGet (initInfos ps) l = _ := h2 l
  rw [this]
  simp [mapGet]

theorem markCrowding_spec {target : List Lit} : ∀ {naive : List Lit} {m : Infos}, (m.map (·.1)).Nodup →
    (∀ l ∈ naive, (mapGet m l).isSome) → ∃ m', markCrowding target naive m = .ok m' ∧ (m'.map (·.1)).Nodup ∧
      ∀ l, mapGet m' l = (mapGet m l).map fun i => if l ∈ naive ∧ l ∉ target then { i with crowding := true } else i
  | [], m, h, _ => ⟨m, rfl, h, fun l => by simp⟩
  | a :: ls, m, h, hs => by
    rw [markCrowding]
    split
    · next ha =>
      obtain ⟨m', h1, h2, h3⟩ := markCrowding_spec (target := target) (naive := ls) h (fun l hl => hs l (by simp [hl]))
      refine ⟨m', h1, h2, fun l => ?_⟩
      rw [h3]
      by_cases e : l = a
      · subst e; simp [ha]
      · simp [e]
    · next ha =>
      obtain ⟨i, hi⟩ := Option.isSome_iff_exists.1 (hs a (by simp))
      obtain ⟨m', h1, h2, h3⟩ := markCrowding_spec (target := target) (naive := ls) (m := mapInsert m a { i with crowding := true })
        (nodup_keys_insert h) (fun l hl => by
          rw [mapGet_insert]
          split
          · rfl
          · exact hs l (by simp [hl]))
      refine ⟨m', by rw [hi]; exact h1, h2, fun l => ?_⟩
      rw [h3, mapGet_insert]
      by_cases e : a = l
      · subst e
        rw [if_pos rfl, hi]
        simp [ha]
      · simp [e, Ne.symm e]

/-- The index of the last premise with a literal, or `v`. -/
def lastIdx (l : Lit) : Nat → List RPremise → Nat → Nat
  | _, [], v => v
  | i, p :: ps, v => lastIdx l (i + 1) ps (if l ∈ p.clause then i else v)

theorem foldl_inclusion (i : Nat) : ∀ (ls : List Lit) (m : Infos), (m.map (·.1)).Nodup →
    ((ls.foldl (fun m l => modifyInfo m l fun x => { x with lastInclusion := i }) m).map (·.1)).Nodup ∧
    ∀ l, mapGet (ls.foldl (fun m l => modifyInfo m l fun x => { x with lastInclusion := i }) m) l =
      (mapGet m l).map fun x => { x with lastInclusion := if l ∈ ls then i else x.lastInclusion }
  | [], m, h => ⟨h, fun l => by simp⟩
  | a :: ls, m, h => by
    obtain ⟨h1, h2⟩ := foldl_inclusion i ls (modifyInfo m a fun x => { x with lastInclusion := i }) (nodup_modify h _ _)
    refine ⟨h1, fun l => ?_⟩
    rw [List.foldl_cons, h2, mapGet_modify]
    by_cases e : a = l
    · subst e
      simp [Option.map_map, Function.comp_def]
    · simp [e, Ne.symm e]

theorem setInclusions_spec : ∀ {i : Nat} {ps : List RPremise} {m : Infos}, (m.map (·.1)).Nodup →
    ((setInclusions i ps m).map (·.1)).Nodup ∧ ∀ l, mapGet (setInclusions i ps m) l =
      (mapGet m l).map fun x => { x with lastInclusion := lastIdx l i ps x.lastInclusion }
  | i, [], m, h => ⟨h, fun l => by simp [setInclusions, lastIdx]⟩
  | i, p :: ps, m, h => by
    obtain ⟨h1, h2⟩ := foldl_inclusion i p.clause m h
    obtain ⟨h3, h4⟩ := setInclusions_spec (i := i + 1) (ps := ps) h1
    refine ⟨h3, fun l => ?_⟩
    rw [setInclusions, h4, h2]
    simp [Option.map_map, Function.comp_def, lastIdx]

/-- What the loop over the pivots does to the entry of one literal. -/
def elimFold (l : Lit) : Nat → List RPremise → LiteralInfo → LiteralInfo
  | _, [], x => x
  | i, p :: ps, x => elimFold l (i + 1) ps
      (if (p.pair.map (·.1)) = some l ∧ i > x.lastInclusion then { x with eliminator := i, polarity := (p.pivot.map (·.2)).getD false } else x)

theorem setEliminators_spec : ∀ {i : Nat} {ps : List RPremise} {m : Infos}, (m.map (·.1)).Nodup → (∀ p ∈ ps, p.pair.isSome) →
    ∃ m', setEliminators i ps m = .ok m' ∧ (m'.map (·.1)).Nodup ∧ ∀ l, mapGet m' l = (mapGet m l).map (elimFold l i ps)
  | i, [], m, h, _ => ⟨m, rfl, h, fun l => by simp [elimFold]⟩
  | i, p :: ps, m, h, hp => by
    obtain ⟨⟨x, y⟩, hx⟩ : ∃ x, p.pivot = some x := by
      have := hp p (by simp)
      simpa [RPremise.pair, Option.isSome_iff_exists] using this
    obtain ⟨m', h1, h2, h3⟩ := setEliminators_spec (i := i + 1) (ps := ps) (nodup_modify h (pivotPair x y).1 fun z =>
      if i > z.lastInclusion then { z with eliminator := i, polarity := y } else z) (fun q hq => hp q (by simp [hq]))
    refine ⟨m', by rw [setEliminators, hx]; exact h1, h2, fun l => ?_⟩
    rw [h3, mapGet_modify]
    have hpair : p.pair = some (pivotPair x y) := by simp [RPremise.pair, hx]
    by_cases e : (pivotPair x y).1 = l
    · rw [if_pos e, Option.map_map]
      congr 1
      funext z
      simp only [Function.comp, elimFold, hpair, hx, Option.map_some, e, true_and, Option.getD_some]
    · rw [if_neg e]
      congr 1
      funext z
      have e' : ¬ some (pivotPair x y).1 = some l := fun h => e (Option.some.inj h)
      simp only [elimFold, hpair, Option.map_some, e', false_and, if_false]

theorem elimFold_zero {l : Lit} : ∀ {i : Nat} {ps : List RPremise} {x : LiteralInfo}, elims l ps = 0 → elimFold l i ps x = x
  | i, [], x, _ => rfl
  | i, p :: ps, x, h => by
    by_cases hp : (p.pair.map (·.1)) = some l
    · simp [elims, hp] at h
    · rw [elims, if_neg hp, Nat.zero_add] at h
      rw [elimFold, if_neg (fun hh => hp hh.1), elimFold_zero h]

theorem elimFold_split {l : Lit} {p : RPremise} {post : List RPremise} {b : Lit} (hp : p.pair = some (l, b)) (hpost : elims l post = 0) :
    ∀ {pre : List RPremise} {i : Nat} {x : LiteralInfo}, elims l pre = 0 → x.lastInclusion < i + pre.length →
      ∃ pol, elimFold l i (pre ++ p :: post) x = { x with eliminator := i + pre.length, polarity := pol }
  | [], i, x, _, hx => by
    refine ⟨(p.pivot.map (·.2)).getD false, ?_⟩
    rw [List.nil_append, elimFold, if_pos ⟨by rw [hp]; rfl, by simpa using hx⟩, elimFold_zero hpost]
    rfl
  | q :: pre, i, x, h, hx => by
    by_cases hq : (q.pair.map (·.1)) = some l
    · simp [elims, hq] at h
    · rw [elims, if_neg hq, Nat.zero_add] at h
      obtain ⟨pol, he⟩ := elimFold_split hp hpost (pre := pre) (i := i + 1) (x := x) h (by simp at hx; omega)
      refine ⟨pol, ?_⟩
      rw [List.cons_append, elimFold, if_neg (fun hh => hq hh.1), he, List.length_cons]
      simp only [LiteralInfo.mk.injEq, true_and, and_true]
      omega

theorem lastIdx_bound {l : Lit} : ∀ {ps : List RPremise} {i v k : Nat}, (∀ q ∈ ps.drop k, l ∉ q.clause) → v < i + k →
    lastIdx l i ps v < i + k
  | [], i, v, k, _, hv => hv
  | p :: ps, i, v, 0, h, hv => by
    rw [lastIdx, if_neg (h p (by simp))]
    have := lastIdx_bound (ps := ps) (i := i + 1) (v := v) (k := 0) (fun q hq => h q (by simp_all)) (by omega)
    have h2 : ∀ (ps : List RPremise) (i : Nat), (∀ q ∈ ps, l ∉ q.clause) → lastIdx l i ps v = v := by
      intro ps
      induction ps with
      | nil => intros; rfl
      | cons q ps ih => intro i hq; rw [lastIdx, if_neg (hq q (by simp)), ih _ (fun r hr => hq r (by simp [hr]))]
    rw [h2 ps _ (fun q hq => h q (by simp [hq]))]
    exact hv
  | p :: ps, i, v, k + 1, h, hv => by
    rw [lastIdx]
    have := lastIdx_bound (ps := ps) (i := i + 1) (v := if l ∈ p.clause then i else v) (k := k) (fun q hq => h q (by simpa using hq))
      (by split <;> omega)
    omega

theorem lastIdx_ge {l : Lit} : ∀ {ps : List RPremise} {i v : Nat}, v ≤ i → v ≤ lastIdx l i ps v
  | [], i, v, _ => Nat.le_refl _
  | p :: ps, i, v, h => by
    rw [lastIdx]
    split
    · exact Nat.le_trans h (Nat.le_trans (Nat.le_refl i) (by
        have : i ≤ i + 1 := by omega
        exact lastIdx_ge this))
    · exact lastIdx_ge (by omega)

theorem lastIdx_last {l : Lit} : ∀ {ps : List RPremise} {i v k : Nat} {q : RPremise}, v ≤ i → ps[k]? = some q → l ∈ q.clause →
    i + k ≤ lastIdx l i ps v
  | [], i, v, k, q, _, h, _ => by simp at h
  | p :: ps, i, v, 0, q, hv, h, hl => by
    obtain rfl : p = q := by simpa using h
    rw [lastIdx, if_pos hl]
    exact lastIdx_ge (by omega)
  | p :: ps, i, v, k + 1, q, hv, h, hl => by
    rw [lastIdx]
    have := lastIdx_last (ps := ps) (i := i + 1) (v := if l ∈ p.clause then i else v) (k := k) (by split <;> omega) (by simpa using h) hl
    omega

/-! ## The cuts -/

theorem insertSorted_perm {α : Type} (le : α → α → Bool) (a : α) : ∀ l, (insertSorted le a l).Perm (a :: l)
  | [] => .refl _
  | b :: l => by
    unfold insertSorted
    split
    · exact .refl _
    · exact ((insertSorted_perm le a l).cons b).trans (.swap _ _ _)

theorem stableSort_perm {α : Type} (le : α → α → Bool) : ∀ l, (stableSort le l).Perm l
  | [] => .refl _
  | a :: l => (insertSorted_perm le a _).trans ((stableSort_perm le l).cons a)

theorem pairwise_insertSorted {α : Type} {le : α → α → Bool} (trans : ∀ a b c, le a b = true → le b c = true → le a c = true)
    (total : ∀ a b, (le a b || le b a) = true) (a : α) :
    ∀ {l : List α}, l.Pairwise (fun a b => le a b = true) → (insertSorted le a l).Pairwise (fun a b => le a b = true)
  | [], _ => by simp [insertSorted]
  | b :: l, h => by
    unfold insertSorted
    rw [List.pairwise_cons] at h
    split
    · rename_i hab
      refine List.pairwise_cons.2 ⟨fun c hc => ?_, List.pairwise_cons.2 h⟩
      rcases List.mem_cons.1 hc with rfl | hc
      · exact hab
      · exact trans _ _ _ hab (h.1 c hc)
    · rename_i hab
      refine List.pairwise_cons.2 ⟨fun c hc => ?_, pairwise_insertSorted trans total a h.2⟩
      rcases List.mem_cons.1 ((insertSorted_perm le a l).mem_iff.1 hc) with rfl | hc
      · have := total b c
        simpa [hab] using this
      · exact h.1 c hc

theorem pairwise_stableSort {α : Type} {le : α → α → Bool} (trans : ∀ a b c, le a b = true → le b c = true → le a c = true)
    (total : ∀ a b, (le a b || le b a) = true) : ∀ l : List α, (stableSort le l).Pairwise (fun a b => le a b = true)
  | [] => .nil
  | a :: l => pairwise_insertSorted trans total a (pairwise_stableSort trans total l)

theorem eventLe_trans (a b c : UEvent) (h1 : eventLe a b = true) (h2 : eventLe b c = true) : eventLe a c = true := by
  unfold eventLe at *
  split at h1 <;> split at h2 <;> split <;> simp_all <;> first | omega | (rcases h1 with h1 | h1 <;> simp_all)

theorem eventLe_total (a b : UEvent) : (eventLe a b || eventLe b a) = true := by
  unfold eventLe
  by_cases e : a.index = b.index
  · cases a.elimination <;> cases b.elimination <;> simp [e]
  · simp [e, Ne.symm e] <;> omega

theorem eventLe_le {a b : UEvent} (h : eventLe a b = true) : a.index ≤ b.index := by
  unfold eventLe at h
  split at h
  · omega
  · simp at h; omega

theorem eventLe_lt {a b : UEvent} (h : eventLe a b = true) (ha : a.elimination = false) (hb : b.elimination = true) :
    a.index < b.index := by
  unfold eventLe at h
  split at h
  · simp [ha, hb] at h
  · simpa using h

theorem contractionLoop_mem : ∀ {es : List UEvent} {need : List Lit} {c : Nat}, c ∈ contractionLoop es need →
    ∃ e ∈ es, e.elimination = true ∧ e.index = c
  | [], _, c, h => by simp [contractionLoop] at h
  | e :: es, need, c, h => by
    rw [contractionLoop] at h
    split at h
    · next he =>
      split at h
      · rcases List.mem_cons.1 h with rfl | h
        · exact ⟨e, by simp, he, rfl⟩
        · obtain ⟨e', h1, h2⟩ := contractionLoop_mem h
          exact ⟨e', by simp [h1], h2⟩
      · obtain ⟨e', h1, h2⟩ := contractionLoop_mem h
        exact ⟨e', by simp [h1], h2⟩
    · obtain ⟨e', h1, h2⟩ := contractionLoop_mem h
      exact ⟨e', by simp [h1], h2⟩

theorem contractionLoop_sorted : ∀ {es : List UEvent} {need : List Lit} {lo : Nat}, es.Pairwise (eventLe · ·) →
    (∀ e ∈ es, lo ≤ e.index) → (need ≠ [] → ∀ e ∈ es, e.elimination = true → lo < e.index) →
    (contractionLoop es need).Pairwise (· < ·) ∧ ∀ c ∈ contractionLoop es need, lo < c
  | [], _, lo, _, _, _ => by simp [contractionLoop]
  | e :: es, need, lo, hp, hlo, hneed => by
    rw [List.pairwise_cons] at hp
    rw [contractionLoop]
    split
    · next he =>
      split
      · next hm =>
        have hne : need ≠ [] := by rintro rfl; simp at hm
        obtain ⟨h1, h2⟩ := contractionLoop_sorted (need := []) (lo := e.index) hp.2 (fun x hx => eventLe_le (hp.1 x hx)) (by simp)
        have := hneed hne e (by simp) he
        refine ⟨List.pairwise_cons.2 ⟨h2, h1⟩, fun c hc => ?_⟩
        rcases List.mem_cons.1 hc with rfl | hc
        · exact this
        · exact Nat.lt_trans this (h2 c hc)
      · exact contractionLoop_sorted hp.2 (fun x hx => hlo x (by simp [hx])) (fun hn x hx => hneed hn x (by simp [hx]))
    · next he =>
      refine contractionLoop_sorted hp.2 (fun x hx => hlo x (by simp [hx])) (fun _ x hx hxe => ?_)
      have := eventLe_lt (hp.1 x hx) (by simpa using he) hxe
      have := hlo e (by simp)
      omega

/-- If a literal has to be contracted, a cut comes no later than its elimination. -/
theorem contractionLoop_need {l : Lit} {i : Nat} : ∀ {es : List UEvent} {need : List Lit} {lo : Nat}, es.Pairwise (eventLe · ·) →
    l ∈ need → (⟨l, true, i⟩ : UEvent) ∈ es → (∀ e ∈ es, e.elimination = true → lo < e.index) →
    ∃ c ∈ contractionLoop es need, lo < c ∧ c ≤ i
  | [], _, _, _, _, h, _ => by simp at h
  | e :: es, need, lo, hp, hl, hm, hlo => by
    rw [List.pairwise_cons] at hp
    rw [contractionLoop]
    have hle : e.index ≤ i := by
      rcases List.mem_cons.1 hm with h | h
      · rw [← h]
      · exact eventLe_le (hp.1 _ h)
    split
    · next he =>
      split
      · exact ⟨e.index, by simp, hlo e (by simp) he, hle⟩
      · next hn =>
        refine contractionLoop_need hp.2 hl (List.mem_of_ne_of_mem ?_ hm) (fun x hx => hlo x (by simp [hx]))
        rintro rfl
        exact hn hl
    · next he =>
      refine contractionLoop_need hp.2 (by simp [hl]) (List.mem_of_ne_of_mem ?_ hm) (fun x hx => hlo x (by simp [hx]))
      rintro rfl
      simp at he

/-- Between the last inclusion of a literal and its elimination there is a cut. -/
theorem contractionLoop_between {l : Lit} {i j : Nat} (hij : j < i) : ∀ {es : List UEvent} {need : List Lit},
    es.Pairwise (eventLe · ·) → (⟨l, false, j⟩ : UEvent) ∈ es → (⟨l, true, i⟩ : UEvent) ∈ es →
    ∃ c ∈ contractionLoop es need, j < c ∧ c ≤ i
  | [], _, _, h, _ => by simp at h
  | e :: es, need, hp, h1, h2 => by
    rw [List.pairwise_cons] at hp
    rw [contractionLoop]
    rcases List.mem_cons.1 h1 with rfl | h1'
    · rw [if_neg (by simp)]
      exact contractionLoop_need hp.2 (by simp) (List.mem_of_ne_of_mem (by simp) h2) (fun x hx hxe => eventLe_lt (hp.1 x hx) rfl hxe)
    · have h2' : (⟨l, true, i⟩ : UEvent) ∈ es := by
        rcases List.mem_cons.1 h2 with rfl | h2
        · have := eventLe_le (hp.1 _ h1')
          simp at this
          omega
        · exact h2
      split
      · split
        · obtain ⟨c, hc, h⟩ := contractionLoop_between hij (need := []) hp.2 h1' h2'
          exact ⟨c, by simp [hc], h⟩
        · exact contractionLoop_between hij hp.2 h1' h2'
      · exact contractionLoop_between hij hp.2 h1' h2'

theorem SetRun.pair {S T : Lit → Prop} {ps : List RPremise} (h : SetRun S ps T) : ∀ p ∈ ps, p.pair.isSome := by
  induction h with
  | done _ => simp
  | @step S S' T p ps a b hp ha hb hS hrun' ih =>
    intro q hq
    rcases List.mem_cons.1 hq with rfl | hq
    · rw [hp]; rfl
    · exact ih q hq

/-- What is known about the cuts of a chain in which no literal returns. -/
theorem cuts_spec {O : HashOrder} {p0 : RPremise} {rest : List RPremise} {T : Lit → Prop} {target naive : List Lit}
    (hrun : SetRun (· ∈ p0.clause) rest T) (hclean : CleanRun rest) (hnd : p0.clause.Nodup) (hT : ∀ l, T l ↔ l ∈ target)
    (hnaive : naiveLits p0.clause rest = .ok naive) :
    ∃ m, findCrowding naive target (p0 :: rest) = .ok m ∧ (neededContractions O m).Pairwise (· < ·) ∧
      (∀ c ∈ neededContractions O m, 2 ≤ c ∧ c ≤ rest.length) ∧
      ∀ pre p post a b, rest = pre ++ p :: post → p.pair = some (a, b) → 2 ≤ p0.clause.count a + totalAdded a pre →
        ∃ c ∈ neededContractions O m, c ≤ pre.length + 1 ∧ ∀ j q, c ≤ j + 1 → rest[j]? = some q → a ∉ q.clause := by
  have hcleanAt : ∀ (pre : List RPremise) (p : RPremise) (post : List RPremise) (ps : List RPremise), ps = pre ++ p :: post →
      CleanRun ps → ∀ a b, p.pair = some (a, b) → ∀ q ∈ p :: post, a ∉ q.clause := by
    intro pre
    induction pre with
    | nil => rintro p post _ rfl h a b hp; exact h.1 a b hp
    | cons x pre ih => rintro p post _ rfl h; exact ih p post _ rfl h.2
  have hcount := fun l => naiveLits_count (l := l) hnaive
  have hsome : ∀ l, l ∈ naive → ∃ p ∈ p0 :: rest, l ∈ p.clause := by
    intro l hl
    have h0 : 0 < naive.count l := List.count_pos_iff.2 hl
    have := hcount l
    by_cases h1 : p0.clause.count l = 0
    · obtain ⟨q, hq, hl'⟩ := totalAdded_pos (l := l) (ps := rest) (by omega)
      exact ⟨q, by simp [hq], mem_of_added hl'⟩
    · exact ⟨p0, by simp, List.count_pos_iff.1 (by omega)⟩
  obtain ⟨i1, i2⟩ := initInfos_spec (p0 :: rest)
  obtain ⟨m1, e1, n1, g1⟩ := markCrowding_spec (target := target) (naive := naive) i1 (fun l hl => by rw [i2, if_pos (hsome l hl)]; rfl)
  obtain ⟨n2, g2⟩ := setInclusions_spec (i := 0) (ps := p0 :: rest) n1
  obtain ⟨m, e3, n3, g3⟩ := setEliminators_spec (i := 1) (ps := rest) n2 hrun.pair
  have hget : ∀ l, mapGet m l = if ∃ p ∈ p0 :: rest, l ∈ p.clause then
      some (elimFold l 1 rest ⟨decide (l ∈ naive ∧ l ∉ target), lastIdx l 0 (p0 :: rest) 0, 0, false⟩) else none := by
    intro l
    rw [g3, g2, g1, i2]
    by_cases h : ∃ p ∈ p0 :: rest, l ∈ p.clause
    · simp only [if_pos h, Option.map_some]
      by_cases h' : l ∈ naive ∧ l ∉ target <;> simp [h']
    · simp only [if_neg h, Option.map_none]
  -- the entry of a literal that is taken out
  have hentry : ∀ pre p post a b, rest = pre ++ p :: post → p.pair = some (a, b) → a ∈ naive → a ∉ target →
      lastIdx a 0 (p0 :: rest) 0 < 1 + pre.length ∧ ∃ pol, mapGet m a =
        some ⟨true, lastIdx a 0 (p0 :: rest) 0, 1 + pre.length, pol⟩ := by
    intro pre p post a b he hp hn ht
    have hone : elims a pre = 0 ∧ elims a post = 0 := by
      have := (hrun.elims_le hclean a).1
      rw [he, elims_append, elims, hp, Option.map_some, if_pos rfl] at this
      omega
    have hlast : lastIdx a 0 (p0 :: rest) 0 < 0 + (1 + pre.length) := by
      refine lastIdx_bound (fun q hq => ?_) (by omega)
      rw [he, Nat.add_comm, List.drop_succ_cons, List.drop_left] at hq
      exact hcleanAt pre p post rest he hclean a b hp q hq
    refine ⟨by omega, ?_⟩
    obtain ⟨pol, h⟩ := elimFold_split hp hone.2 (pre := pre) (i := 1)
      (x := ⟨decide (a ∈ naive ∧ a ∉ target), lastIdx a 0 (p0 :: rest) 0, 0, false⟩) hone.1 (by simpa using hlast)
    refine ⟨pol, ?_⟩
    rw [hget, if_pos (hsome a hn)]
    conv_lhs => rw [show elimFold a 1 rest = elimFold a 1 (pre ++ p :: post) by rw [he]]
    rw [h]
    simp [hn, ht]
  -- a literal that has to go is taken out
  have hgone : ∀ l, l ∈ naive → l ∉ target → elims l rest ≠ 0 := by
    intro l hn ht h0
    refine ht ((hT l).1 (hrun.stays h0 ?_))
    have h1 : 0 < naive.count l := List.count_pos_iff.2 hn
    have := hcount l
    by_cases h2 : p0.clause.count l = 0
    · exact .inr (by omega)
    · exact .inl (List.count_pos_iff.1 (by omega))
  have hev : ∀ x, x ∈ stableSort eventLe (O.events (m.flatMap literalEvents)) ↔ ∃ e ∈ m, x ∈ literalEvents e := by
    intro x
    rw [(stableSort_perm _ _).mem_iff, (O.events_perm _).mem_iff, List.mem_flatMap]
  have hsorted : (stableSort eventLe (O.events (m.flatMap literalEvents))).Pairwise (fun a b => eventLe a b = true) :=
    pairwise_stableSort eventLe_trans eventLe_total _
  have hbounds : ∀ c ∈ neededContractions O m, 2 ≤ c ∧ c ≤ rest.length := by
    intro c hc
    obtain ⟨e, he, hel, rfl⟩ := contractionLoop_mem hc
    obtain ⟨⟨l, i⟩, hm, hx⟩ := (hev e).1 he
    have hg := (mapGet_eq_some_of_mem n3).2 hm
    unfold literalEvents at hx
    split at hx
    · next hcr =>
      have hx' : e = ⟨l, true, i.eliminator⟩ := by
        rcases List.mem_cons.1 hx with rfl | hx
        · simp at hel
        · simpa using hx
      subst hx'
      have hcr' : l ∈ naive ∧ l ∉ target := by
        rw [hget] at hg
        split at hg
        · have hcf : ∀ (ps : List RPremise) (j : Nat) (x : LiteralInfo), (elimFold l j ps x).crowding = x.crowding := by
            intro ps
            induction ps with
            | nil => intros; rfl
            | cons q ps ih =>
              intro j x
              rw [elimFold, ih]
              split <;> rfl
          rw [← Option.some.inj hg, hcf] at hcr
          simpa using hcr
        · cases hg
      obtain ⟨pre, p, post, b, hr, hp, hpre⟩ := elims_split (hgone l hcr'.1 hcr'.2)
      obtain ⟨hlt, pol, hen⟩ := hentry pre p post l b hr hp hcr'.1 hcr'.2
      rw [hg] at hen
      obtain rfl := Option.some.inj hen
      simp only
      have hlen : rest.length = pre.length + post.length + 1 := by rw [hr]; simp; omega
      refine ⟨?_, by omega⟩
      rcases pre with _ | ⟨x, pre⟩
      · exfalso
        have hall := hcleanAt [] p post rest hr hclean l b hp
        have htot : totalAdded l rest = 0 := by
          by_contra h0
          obtain ⟨q, hq, hl⟩ := totalAdded_pos h0
          rw [hr] at hq
          exact hall q hq (mem_of_added hl)
        have h1 : 0 < naive.count l := List.count_pos_iff.2 hcr'.1
        have h2 := hcount l
        have h3 := hgone l hcr'.1 hcr'.2
        have h4 := List.nodup_iff_count_le_one.1 hnd l
        omega
      · simp
        omega
    · simp at hx
  refine ⟨m, ?_, ?_, hbounds, ?_⟩
  · rw [findCrowding, e1]
    exact e3
  · exact (contractionLoop_sorted (lo := 0) hsorted (by simp) (by simp)).1
  · intro pre p post a b he hp h2
    have h1 := (hrun.elims_le hclean a)
    have hone : elims a rest = 1 := by
      have : elims a rest ≠ 0 := by
        rw [he, elims_append, elims, hp, Option.map_some, if_pos rfl]
        omega
      omega
    have hn : a ∈ naive := by
      have := hcount a
      rw [hone, he, totalAdded_append] at this
      exact List.count_pos_iff.1 (by omega)
    have ht : a ∉ target := fun h => h1.2 hone ((hT a).2 h)
    obtain ⟨hlt, pol, hen⟩ := hentry pre p post a b he hp hn ht
    have hm := (mapGet_eq_some_of_mem n3).1 hen
    obtain ⟨c, hc, hc1, hc2⟩ := contractionLoop_between (l := a) (need := []) hlt hsorted
      ((hev _).2 ⟨_, hm, by simp [literalEvents]⟩) ((hev _).2 ⟨_, hm, by simp [literalEvents]⟩)
    refine ⟨c, hc, by omega, fun j q hj hq hl => ?_⟩
    have := lastIdx_last (l := a) (ps := p0 :: rest) (i := 0) (v := 0) (k := j + 1) (by omega) (by simpa using hq) hl
    omega

/-! ## The steps -/

theorem contraction_complete {c p : List Term} (h1 : ∀ t, c.count t ≤ p.count t) (h2 : ∀ t ∈ p, t ∈ c) : contraction c [p] = .ok () := by
  simp only [contraction, bind_ok, require_ok, get1_ok]
  refine ⟨p, rfl, (), ⟨?_, ?_⟩⟩
  · intro e he
    have := MultiSet.get_eq (.ofList p) he
    rw [MultiSet.get_ofList] at this
    have hp : 0 < e.2 := (MultiSet.WF.ofList p).2 e he
    have hc : 0 < c.count e.1 := List.count_pos_iff.2 (h2 _ (List.count_pos_iff.1 (by omega)))
    have := h1 e.1
    simp only [MultiSet.get_ofList]
    omega
  · intro e he
    have := MultiSet.get_eq (.ofList c) he
    rw [MultiSet.get_ofList] at this ⊢
    have := h1 e.1
    omega

/-- A step whose premises are derived and that is accepted, with the right literals and without repetitions unless it is the target. -/
def GoodStep (E : TableEnv) (el : Bool) (given : List Node) (target : List Term) (depth : Nat) (n : Node) : Prop :=
  ∃ d qs, n = .mk d qs ∧ (∀ q ∈ qs, Derived E el given q) ∧ StepOK E el d qs ∧ d.depth = depth ∧
    (n.clause = target ∨ n.clause.Nodup)

theorem GoodStep.derived {E : TableEnv} {el : Bool} {given : List Node} {target : List Term} {depth : Nat} {n : Node}
    (h : GoodStep E el given target depth n) : Derived E el given n := by
  obtain ⟨d, qs, rfl, h1, h2, -⟩ := h
  exact .step h1 h2

theorem stepOK_resolution {E : TableEnv} {el : Bool} {d : NodeData} {qs : List Node} (hr : d.rule = "resolution")
    (h : resolutionWithArgs d.clause (qs.map Node.clause) d.args = .ok ()) : StepOK E el d qs := by
  unfold StepOK
  rw [hr]
  cases el with
  | true => exact ⟨resolutionWithArgs, rfl, h⟩
  | false => exact ⟨resolution, rfl, (c42_resolution_elaborated h).1⟩

theorem stepOK_contraction {E : TableEnv} {el : Bool} {d : NodeData} {q : Node} (hr : d.rule = "contraction")
    (h : contraction d.clause [q.clause] = .ok ()) : StepOK E el d [q] := by
  unfold StepOK
  rw [hr]
  exact ⟨fun c ps _ => contraction c ps, rfl, h⟩

theorem stepOK_weakening {E : TableEnv} {el : Bool} {d : NodeData} {q : Node} (hr : d.rule = "weakening")
    (h : q.clause <+: d.clause) : StepOK E el d [q] := by
  unfold StepOK
  rw [hr]
  exact ⟨weakening, rfl, (c11_weakening_exact _ _ _).2 ⟨_, rfl, h⟩⟩

theorem stepOK_reordering {E : TableEnv} {el : Bool} {d : NodeData} {q : Node} (hr : d.rule = "reordering")
    (h : d.clause.Perm q.clause) : StepOK E el d [q] := by
  unfold StepOK
  rw [hr]
  exact ⟨reordering, rfl, (c11_reordering_exact _ _ _).2 ⟨_, rfl, h⟩⟩

/-- One partial step. -/
theorem partialStep_total {E : TableEnv} {el : Bool} {given : List Node} {depth : Nat} {target : List Term} {ids : IdHelper}
    {cur : RPremise} {xs : List RPremise} {out : List Lit} (hids : ids.stack ≠ []) (hxs : xs ≠ [])
    (hw : ∀ p ∈ cur :: xs, p.WF ∧ Derived E el given p.node) (hrun : SetRun (· ∈ cur.clause) xs (· ∈ out))
    (hn : naiveLits cur.clause xs = .ok out) :
    ∃ n c ids', partialStep ids depth (cur :: xs) target = .ok (n, c, ids') ∧ ids'.stack ≠ [] ∧ GoodStep E el given target depth n ∧
      c = n.clause.map Term.removeAllNegations ∧ (∀ l, l ∈ c ↔ l ∈ out) ∧ ∀ l, c.count l ≤ out.count l := by
  obtain ⟨x, xs', rfl⟩ : ∃ x xs', xs = x :: xs' := by
    cases xs with
    | nil => exact absurd rfl hxs
    | cons x xs' => exact ⟨x, xs', rfl⟩
  have hcur := (hw cur (by simp)).1.clause
  have hn' := hn
  rw [hcur] at hn'
  have hwx : ∀ p ∈ x :: xs', p.WF := fun p hp => (hw p (List.mem_cons_of_mem _ hp)).1
  obtain ⟨args, e, ha, -, rfl⟩ := naiveLits_ok hwx hn'
  have hchain := hrun.toTerms hwx ha
  rw [hcur] at hchain
  simp only [mem_map_remove] at hchain
  obtain ⟨id, ids1, hid, hs1⟩ := IdHelper.nextId_total hids
  obtain ⟨id2, ids2, hid2, hs2⟩ := IdHelper.nextId_total hs1
  have hok : StepOK E el ⟨id, depth, e, "resolution", args⟩ ((cur :: x :: xs').map (·.node)) := by
    refine stepOK_resolution rfl ?_
    simp only [List.map_map, List.map_cons]
    rw [c08_resolution_with_args_exact]
    exact ⟨by simp, by simpa [Function.comp_def] using hchain⟩
  have hds : ∀ q ∈ (cur :: x :: xs').map (·.node), Derived E el given q := fun q hq => by
    obtain ⟨p, hp, rfl⟩ := List.mem_map.1 hq
    exact (hw p hp).2
  rw [partialStep]
  simp only [naiveConclusion, hn, List.tail_cons, ha, hid, bind, Except.bind, map_toTerm_remove, dedup_map_remove, List.length_map]
  split
  · next ht =>
    exact ⟨_, _, _, rfl, hs1, ⟨_, _, rfl, hds, hok, rfl, .inl ht⟩, rfl, fun l => Iff.rfl, fun l => Nat.le_refl _⟩
  · split
    · rw [hid2]
      have hsub := (c30_sublist e)
      refine ⟨_, _, _, rfl, hs2, ⟨_, _, rfl, fun q hq => ?_, stepOK_contraction rfl
        (contraction_complete (fun t => hsub.count_le t) (fun t ht => (c30_mem e t).2 ht)), rfl, .inr (c30_nodup e)⟩, rfl,
        fun l => ?_, fun l => (hsub.map _).count_le l⟩
      · rw [List.mem_singleton] at hq
        subst hq
        exact .step hds hok
      · simp only [List.mem_map, c30_mem]
    · next hl =>
      have hnd := dedup_eq_of_length (not_not.1 hl)
      exact ⟨_, _, _, rfl, hs1, ⟨_, _, rfl, hds, hok, rfl, .inr (hnd ▸ c30_nodup e)⟩, rfl, fun l => Iff.rfl, fun l => Nat.le_refl _⟩

theorem CleanRun.append_right : ∀ {xs ys : List RPremise}, CleanRun (xs ++ ys) → CleanRun ys
  | [], _, h => h
  | _ :: _, _, h => CleanRun.append_right h.2

/-- The loop over the cuts succeeds. -/
theorem cutLoop_total {E : TableEnv} {el : Bool} {given : List Node} {depth : Nat} {target : List Term} {T : Lit → Prop}
    (hT : ∀ l, T l ↔ l ∈ target.map Term.removeAllNegations) :
    ∀ (cuts : List Nat) (L : List RPremise) (cur : RPremise) (R : List RPremise) (ids : IdHelper), ids.stack ≠ [] →
      (∀ p ∈ cur :: R, p.WF ∧ Derived E el given p.node) → SetRun (· ∈ cur.clause) R T → CleanRun R → cuts.Pairwise (· < ·) →
      (∀ c ∈ cuts, L.length + 2 ≤ c ∧ c ≤ L.length + 1 + R.length) →
      (cuts.getLast? = some (L.length + 1 + R.length) ∨ (cuts = [] ∧ R = [] ∧ GoodStep E el given target depth cur.node)) →
      (∀ pre p post a b, R = pre ++ p :: post → p.pair = some (a, b) → 2 ≤ cur.clause.count a + totalAdded a pre →
        ∃ c ∈ cuts, c ≤ L.length + 1 + pre.length ∧ ∀ j q, c ≤ L.length + 1 + j → R[j]? = some q → a ∉ q.clause) →
      ∃ r ids', cutLoop depth target cuts L.length (L ++ cur :: R) ids = .ok (r, ids') ∧ ids'.stack ≠ [] ∧
        GoodStep E el given target depth r.node ∧ ∀ t, t ∈ r.node.clause ↔ t ∈ target
  | [], L, cur, R, ids, hids, hw, hrun, _, _, _, hlast, _ => by
    rcases hlast with h | ⟨-, rfl, hg⟩
    · simp at h
    refine ⟨cur, ids, ?_, hids, hg, fun t => ?_⟩
    · simp [cutLoop, orPanic, bind, Except.bind]
    · cases hrun with
      | done h =>
        have := h t.removeAllNegations
        simp only [(hw cur (by simp)).1.clause, mem_map_remove, hT] at this
        exact this
  | c :: cuts, L, cur, R, ids, hids, hw, hrun, hclean, hpw, hb, hlast, hD => by
    obtain ⟨hb1, hb2⟩ := hb c (by simp)
    rw [List.pairwise_cons] at hpw
    obtain ⟨k, rfl⟩ : ∃ k, c = L.length + 1 + (k + 1) := ⟨c - L.length - 2, by omega⟩
    have hsplit : R = R.take (k + 1) ++ R.drop (k + 1) := (List.take_append_drop _ _).symm
    have hlen : (R.take (k + 1)).length = k + 1 := by rw [List.length_take]; omega
    have hx : R.take (k + 1) ≠ [] := fun h => by rw [h] at hlen; simp at hlen
    obtain ⟨out, h1, h2, h3⟩ := segment_total (xs := R.take (k + 1)) (ys := R.drop (k + 1)) (cur := cur.clause) (T := T)
      (by rw [← hsplit]; exact hrun) (fun pre p post a b he hp => by
        by_contra h
        obtain ⟨c', hc', hle, -⟩ := hD pre p (post ++ R.drop (k + 1)) a b (by
          conv_lhs => rw [hsplit, he]
          simp) hp (by omega)
        have hpl : pre.length < k + 1 := by
          have := congrArg List.length he
          rw [hlen] at this
          simp at this
          omega
        rcases List.mem_cons.1 hc' with rfl | hc'
        · omega
        · have := hpw.1 c' hc'
          omega)
    have hw1 : ∀ p ∈ cur :: R.take (k + 1), p.WF ∧ Derived E el given p.node := fun p hp => by
      rcases List.mem_cons.1 hp with rfl | hp
      · exact hw p (by simp)
      · exact hw p (List.mem_cons_of_mem _ (List.mem_of_mem_take hp))
    obtain ⟨n, cl, ids', h4, h5, h6, h7, h8, h9⟩ := partialStep_total (depth := depth) (target := target) hids hx hw1 h3 h1
    have hseg : ((L ++ cur :: R).take (L.length + 1 + (k + 1))).drop L.length = cur :: R.take (k + 1) := by
      rw [List.take_append, List.take_of_length_le (by omega), List.drop_left]
      rw [show L.length + 1 + (k + 1) - L.length = (k + 1) + 1 by omega, List.take_succ_cons]
    have hset : (L ++ cur :: R).set (L.length + 1 + (k + 1) - 1) ⟨n, cl, none⟩ =
        (L ++ cur :: R).take (L.length + 1 + k) ++ ⟨n, cl, none⟩ :: R.drop (k + 1) := by
      rw [List.set_eq_take_append_cons_drop, if_pos (by simp; omega)]
      congr 2
      rw [show L.length + 1 + (k + 1) - 1 + 1 = L.length + (k + 1 + 1) by omega, List.drop_append]
      simp
    have hL : ((L ++ cur :: R).take (L.length + 1 + k)).length = L.length + 1 + k := by
      rw [List.length_take]; simp; omega
    have hwR : ∀ p ∈ (⟨n, cl, none⟩ : RPremise) :: R.drop (k + 1), p.WF ∧ Derived E el given p.node := fun p hp => by
      rcases List.mem_cons.1 hp with rfl | hp
      · exact ⟨⟨h7, by simp⟩, h6.derived⟩
      · exact hw p (List.mem_cons_of_mem _ (List.mem_of_mem_drop hp))
    have hdl : (R.drop (k + 1)).length = R.length - (k + 1) := List.length_drop
    obtain ⟨r, ids'', h10, h11⟩ := cutLoop_total hT cuts ((L ++ cur :: R).take (L.length + 1 + k)) ⟨n, cl, none⟩ (R.drop (k + 1)) ids' h5 hwR
      (by
        have : (fun l => l ∈ cl) = fun l => l ∈ out := funext fun l => propext (h8 l)
        simp only [this]
        exact h2)
      (by rw [hsplit] at hclean; exact hclean.append_right) hpw.2
      (fun c' hc' => by
        have := hpw.1 c' hc'
        have := hb c' (by simp [hc'])
        omega)
      (by
        rw [hL, hdl]
        by_cases hc : cuts = []
        · subst hc
          rcases hlast with hlast | ⟨h, -⟩
          · simp at hlast
            exact .inr ⟨rfl, List.drop_eq_nil_of_le (by omega), h6⟩
          · cases h
        · rcases hlast with hlast | ⟨h, -⟩
          · rw [List.getLast?_cons_of_ne_nil hc] at hlast
            exact .inl (hlast.trans (by congr 1; omega))
          · cases h)
      (fun pre p post a b he hp h2' => by
        have hR : R = (R.take (k + 1) ++ pre) ++ p :: post := by
          conv_lhs => rw [hsplit, he]
          simp
        have hle1 : cl.count a ≤ 1 := by
          obtain ⟨d, qs, hd, -, -, -, h | h⟩ := h6
          · have : a ∉ cl := fun hm => by
              rw [h7, h] at hm
              have hTa := (hT a).2 hm
              have h1' := hrun.elims_le hclean a
              refine h1'.2 ?_ hTa
              have : elims a R ≠ 0 := by
                rw [hR, elims_append, elims, hp, Option.map_some, if_pos rfl]
                omega
              omega
            rw [List.count_eq_zero.2 this]
            omega
          · have : cl.Nodup := by rw [h7]; exact List.Nodup.map (fun _ _ h => removeAll_injective h) h
            exact List.nodup_iff_count_le_one.1 this a
        simp only at h2'
        have hcnt := naiveLits_count (l := a) h1
        have hca := h9 a
        obtain ⟨c', hc', hle, hno⟩ := hD (R.take (k + 1) ++ pre) p post a b hR hp (by rw [totalAdded_append]; omega)
        rw [List.length_append, hlen] at hle
        rcases List.mem_cons.1 hc' with rfl | hc'
        · exfalso
          obtain ⟨q, hq, hl⟩ := totalAdded_pos (l := a) (ps := pre) (by omega)
          obtain ⟨j, hj, rfl⟩ := List.mem_iff_getElem.1 hq
          refine hno (k + 1 + j) pre[j] (by omega) ?_ (mem_of_added hl)
          rw [hR, List.append_assoc, List.getElem?_append_right (by omega), hlen, Nat.add_sub_cancel_left,
            List.getElem?_append_left hj, List.getElem?_eq_getElem hj]
        · refine ⟨c', hc', by rw [hL]; omega, fun j q hj hq => hno (k + 1 + j) q (by rw [hL] at hj; omega) ?_⟩
          rw [List.getElem?_drop] at hq
          exact hq)
    refine ⟨r, ids'', ?_, h11⟩
    rw [cutLoop, if_neg (by simp; omega), hseg, h4]
    simp only [bind, Except.bind]
    rw [hset]
    rw [hL] at h10
    exact h10

theorem missingFrom_total : ∀ {ts : List Term} {m : MultiSet Term}, m.WF → (∀ t, ts.count t ≤ m.get t) →
    ∃ m', missingFrom ts m = .ok m'
  | [], m, _, _ => ⟨m, rfl⟩
  | t :: ts, m, hm, h => by
    have h0 := h t
    rw [List.count_cons_self] at h0
    rw [missingFrom, if_neg (by omega)]
    refine missingFrom_total (hm.removeN t 1) fun u => ?_
    rw [show m.remove t = m.removeN t 1 from rfl, MultiSet.get_removeN hm]
    have := h u
    rw [List.count_cons] at this
    by_cases e : t = u
    · subst e; simp at this ⊢; omega
    · simp [e] at this ⊢; omega

theorem weakeningClause_total {c t : List Term} (hc : c.Nodup) (h : ∀ x ∈ c, x ∈ t) : ∃ w, weakeningClause c t = .ok w := by
  obtain ⟨m, hm⟩ := missingFrom_total (ts := c) (m := MultiSet.ofList t) (.ofList t) (fun x => by
    rw [MultiSet.get_ofList]
    have := List.nodup_iff_count_le_one.1 hc x
    by_cases h0 : c.count x = 0
    · omega
    · have := List.count_pos_iff.2 (h x (List.count_pos_iff.1 (by omega)))
      omega)
  exact ⟨_, by rw [weakeningClause, hm]; rfl⟩

/-- Uncrowding without rotation succeeds on a chain in which no literal returns. -/
theorem uncrowd_total {E : TableEnv} {el : Bool} {O : HashOrder} {d : NodeData} {n0 : Node} {ns : List Node} {ps : List RPremise}
    (hns : ns ≠ []) (hnd : n0.clause.Nodup) (hps : premisesFrom ns d.args = .ok ps) (hlen : ps.length = ns.length)
    (hrun : SetRun (· ∈ n0.clause.map Term.removeAllNegations) ps (· ∈ d.clause.map Term.removeAllNegations)) (hclean : CleanRun ps) :
    ∃ n, uncrowd O d (n0 :: ns) false = .ok n ∧ n.clause = d.clause ∧ Derived E el (n0 :: ns) n := by
  obtain ⟨naive, hnaive⟩ := naiveLits_total hrun (cur := n0.clause.map Term.removeAllNegations) (fun _ h => h)
  have hnd' : (n0.clause.map Term.removeAllNegations).Nodup := List.Nodup.map (fun _ _ h => removeAll_injective h) hnd
  obtain ⟨m, hm, hpw, hb, hD⟩ := cuts_spec (O := O) (p0 := ⟨n0, n0.clause.map Term.removeAllNegations, none⟩) (rest := ps)
    (target := d.clause.map Term.removeAllNegations) hrun hclean hnd' (fun _ => Iff.rfl) hnaive
  have hpos : 0 < ps.length := by
    rw [hlen]; exact List.length_pos_iff.2 hns
  have hfrom : fromStep (n0 :: ns) d.args = .ok (⟨n0, n0.clause.map Term.removeAllNegations, none⟩ :: ps) := by
    rw [fromStep, hps]; rfl
  have hnc : naiveConclusion (⟨n0, n0.clause.map Term.removeAllNegations, none⟩ :: ps) = .ok naive := by
    cases ps with
    | nil => simp at hpos
    | cons p ps => exact hnaive
  have hlast : (neededContractions O m).getLast? ≠ some (ps.length + 1) := by
    intro h
    have := (hb _ (List.mem_of_getLast? h)).2
    omega
  have hw := fromStep_wf hfrom
  obtain ⟨r, ids, h1, h2, ⟨rd, rqs, hr, h3, h4, h5, h6⟩, h7⟩ := cutLoop_total (E := E) (el := el) (given := n0 :: ns) (depth := d.depth) (target := d.clause)
    (T := (· ∈ d.clause.map Term.removeAllNegations)) (fun _ => Iff.rfl) (neededContractions O m ++ [ps.length + 1]) []
    ⟨n0, n0.clause.map Term.removeAllNegations, none⟩ ps (.new d.id) (by simp [IdHelper.new]) (fun p hp => ⟨(hw p hp).1, .given (hw p hp).2⟩)
    hrun hclean (List.pairwise_append.2 ⟨hpw, by simp, fun c hc x hx => by
      rw [List.mem_singleton] at hx
      have := hb c hc
      omega⟩) (fun c hc => by
        rcases List.mem_append.1 hc with hc | hc
        · have := hb c hc; simp; omega
        · simp at hc; subst hc; simp; omega) (.inl (by simp; omega)) (fun pre p post a b he hp hge => by
        obtain ⟨c, hc, h, h'⟩ := hD pre p post a b he hp hge
        exact ⟨c, by simp [hc], by simp; omega, fun j q hj => h' j q (by simp at hj; omega)⟩)
  have hcut : cutLoop d.depth d.clause (neededContractions O m ++ [ps.length + 1]) 0
      (⟨n0, n0.clause.map Term.removeAllNegations, none⟩ :: ps) (.new d.id) = .ok (r, ids) := h1
  obtain ⟨id1, ids1, hid1, hs1⟩ := IdHelper.nextId_total h2
  obtain ⟨id2, ids2, hid2, hs2⟩ := IdHelper.nextId_total hs1
  rw [hr] at h6 h7
  change ∀ t, t ∈ rd.clause ↔ t ∈ d.clause at h7
  change rd.clause = d.clause ∨ rd.clause.Nodup at h6
  have hder : Derived E el (n0 :: ns) (.mk rd rqs) := .step h3 h4
  have hst : ∀ {nd : NodeData} {qs : List Node} {i : String}, StepOK E el nd qs → StepOK E el { nd with id := i } qs := fun h => h
  simp only [uncrowd, hfrom, hnc, hm, bind, Except.bind, Bool.false_eq_true, if_false, List.length_cons, if_pos hlast, hcut, hr, Node.mk]
  by_cases hl : rd.clause.length = d.clause.length
  · rw [if_neg (not_not.2 hl)]
    simp only
    by_cases he : rd.clause = d.clause
    · rw [if_neg (not_not.2 he)]
      exact ⟨_, rfl, he, .step h3 (hst h4)⟩
    · rw [if_pos he, if_pos ⟨fun t ht => (h7 t).1 ht, fun t ht => (h7 t).2 ht⟩, hid1]
      refine ⟨_, rfl, rfl, .step (fun q hq => ?_) (hst (stepOK_reordering rfl ?_))⟩
      · rw [List.mem_singleton] at hq
        subst hq
        exact hder
      · have hn := h6.resolve_left he
        exact ((hn.subperm fun t ht => (h7 t).1 ht).perm_of_length_le (by omega)).symm
  · have hne : rd.clause ≠ d.clause := fun h => hl (by rw [h])
    have hn := h6.resolve_left hne
    obtain ⟨w, hwk⟩ := weakeningClause_total hn (fun t ht => (h7 t).1 ht)
    obtain ⟨hpre, hperm⟩ := weakeningClause_ok hwk
    rw [if_pos hl, hwk]
    simp only [hid1]
    have hderw : Derived E el (n0 :: ns) (.mk ⟨id1, d.depth, w, "weakening", []⟩ [.mk rd rqs]) :=
      .step (fun q hq => by rw [List.mem_singleton] at hq; subst hq; exact hder) (stepOK_weakening rfl hpre)
    by_cases he : w = d.clause
    · rw [if_neg (not_not.2 he)]
      exact ⟨_, rfl, he, .step (fun q hq => by rw [List.mem_singleton] at hq; subst hq; exact hder) (hst (stepOK_weakening rfl hpre))⟩
    · rw [if_pos he, if_pos ⟨fun t ht => hperm.mem_iff.1 ht, fun t ht => hperm.mem_iff.2 ht⟩, hid2]
      exact ⟨_, rfl, rfl, .step (fun q hq => by rw [List.mem_singleton] at hq; subst hq; exact hderw)
        (hst (stepOK_reordering rfl hperm.symm))⟩

end Carcara
