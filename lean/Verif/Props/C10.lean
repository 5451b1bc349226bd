import Verif.Lemmas.Drup
import Verif.Spec.Witness

/-!
# C10, C43, C44: the rules `drup` and `drat`

`hash` is the hash function of terms (SipHash of the address of the interned term), `order i db` the order in
which the hash map `db` is traversed when argument `i` is checked.
-/

namespace Carcara

open Spec

variable {hash : Term → Nat} {order : Nat → List (Nat × List PLit) → List (Nat × List PLit)}

/-- No term of the proof step collides with its conclusion. -/
def NoCollision (hash : Term → Nat) (conclusion : List Term) (premises : List (List Term)) (args : List Term) : Prop :=
  ∀ t ∈ premises.map (.op .cl) ++ args, hashTerm hash t = hashTerm hash (.op .cl conclusion) → t = .op .cl conclusion

/-- **C10.** `drup` is sound. -/
theorem c10_drup {conclusion : List Term} {premises : List (List Term)} {args : List Term}
    (hord : ∀ i db, (order i db).Perm db) (hcol : NoCollision hash conclusion premises args)
    (h : drupRule hash order false conclusion premises args = .ok ()) : Entails premises conclusion := by
  intro M hM
  simp only [drupRule, checkDrup, bind_ok, require_ok] at h
  obtain ⟨db, h1, h2⟩ := h
  set ts := premises.map (.op .cl) ++ args with hts
  have hpre : DbOK hash ts (premiseDb hash (premises.map (.op .cl))) := by
    intro x hx
    obtain ⟨t, ht, rfl⟩ := premiseDb_ok hash _ x hx
    exact ⟨t, by simp only [hts, List.mem_append]; exact Or.inl ht, rfl⟩
  obtain ⟨hd, hP⟩ := drupLoop_inv (hash := hash) (order := order) (rat := false) (ts := ts)
    (fun db => ∀ x ∈ db, SatV M.Holds x.2)
    (fun db k hdb x hx => hdb x (mem_mapRemove hx))
    (by
      intro i db terms hdb _ hs hr x hx
      simp only [Bool.false_eq_true, false_and, or_false] at hr
      rcases mem_mapInsert hx with hx | rfl
      · exact hs x hx
      · have := rup_sound (v := M.Holds) (db := (order i db).map (·.2))
          (by
            intro c hc
            obtain ⟨y, hy, rfl⟩ := List.mem_map.1 hc
            exact hdb.nodup y ((hord i db).mem_iff.1 hy)) hr
          (by
            intro c hc
            obtain ⟨y, hy, rfl⟩ := List.mem_map.1 hc
            exact hs y ((hord i db).mem_iff.1 hy))
        obtain ⟨l, hl, hl'⟩ := this
        exact ⟨l, by simpa [drupClause] using hl, hl'⟩)
    args 0 _ db (fun a ha => by simp [hts, ha]) hpre
    (by
      intro x hx
      obtain ⟨t, ht, rfl⟩ := premiseDb_ok hash _ x hx
      obtain ⟨p, hp, rfl⟩ := List.mem_map.1 ht
      obtain ⟨u, hu, huM⟩ := hM p hp
      exact ⟨u.removeAllNegationsPol, by simp only [drupClause, mem_setOf]; exact List.mem_map_of_mem hu,
        (M.holdsP_iff u).2 huM⟩) h1
  obtain ⟨c, hc⟩ := mem_of_mapGet_isSome h2
  obtain ⟨t, ht, he⟩ := hd _ hc
  have htc := hcol t ht (by simp at he; exact he.1.symm)
  subst htc
  obtain ⟨l, hl, hl'⟩ := hP _ hc
  have hcl : c = drupClause (.op .cl conclusion) := by simp at he; exact he
  rw [hcl] at hl
  simp only [drupClause, mem_setOf, List.mem_map] at hl
  obtain ⟨u, hu, rfl⟩ := hl
  exact ⟨u, hu, (M.holdsP_iff u).1 hl'⟩

/-- **C44.** The refutations accepted by `drat` are sound: if the empty clause is concluded, no valuation of the
atoms (in particular no model) satisfies all premises. -/
theorem c44_drat_refutation {premises : List (List Term)} {args : List Term}
    (hord : ∀ i db, (order i db).Perm db) (hcol : NoCollision hash [] premises args)
    (h : drupRule hash order true [] premises args = .ok ()) (v : Term → Prop) :
    ¬ ∀ p ∈ premises, SatV v (p.map Term.removeAllNegationsPol) := by
  intro hv
  simp only [drupRule, checkDrup, bind_ok, require_ok] at h
  obtain ⟨db, h1, h2⟩ := h
  set ts := premises.map (.op .cl) ++ args with hts
  have hpre : DbOK hash ts (premiseDb hash (premises.map (.op .cl))) := by
    intro x hx
    obtain ⟨t, ht, rfl⟩ := premiseDb_ok hash _ x hx
    exact ⟨t, by simp only [hts, List.mem_append]; exact Or.inl ht, rfl⟩
  obtain ⟨hd, w, hP⟩ := drupLoop_inv (hash := hash) (order := order) (rat := true) (ts := ts)
    (fun db => ∃ w : Term → Prop, ∀ x ∈ db, SatV w x.2)
    (fun db k ⟨w, hdb⟩ => ⟨w, fun x hx => hdb x (mem_mapRemove hx)⟩)
    (by
      rintro i db terms hdb - ⟨w, hs⟩ hr
      have hnd : ∀ c ∈ (order i db).map (·.2), c.Nodup := by
        intro c hc
        obtain ⟨y, hy, rfl⟩ := List.mem_map.1 hc
        exact hdb.nodup y ((hord i db).mem_iff.1 hy)
      have hat : ∀ c ∈ (order i db).map (·.2), AtomsOK c := by
        intro c hc
        obtain ⟨y, hy, rfl⟩ := List.mem_map.1 hc
        exact hdb.atoms y ((hord i db).mem_iff.1 hy)
      have hsat : ∀ c ∈ (order i db).map (·.2), SatV w c := by
        intro c hc
        obtain ⟨y, hy, rfl⟩ := List.mem_map.1 hc
        exact hs y ((hord i db).mem_iff.1 hy)
      have key : ∃ w', (∀ c ∈ (order i db).map (·.2), SatV w' c) ∧
          SatV w' (terms.map Term.removeAllNegationsPol) := by
        rcases hr with hr | ⟨-, hr⟩
        · exact ⟨w, hsat, rup_sound hnd hr hsat⟩
        · exact checkDrat_sat hnd hat hr hsat
      obtain ⟨w', k1, l, hl, hl'⟩ := key
      refine ⟨w', fun x hx => ?_⟩
      rcases mem_mapInsert hx with hx | rfl
      · exact k1 _ (List.mem_map_of_mem ((hord i db).mem_iff.2 hx))
      · exact ⟨l, by simpa [drupClause] using hl, hl'⟩)
    args 0 _ db (fun a ha => by simp [hts, ha]) hpre
    ⟨v, by
      intro x hx
      obtain ⟨t, ht, rfl⟩ := premiseDb_ok hash _ x hx
      obtain ⟨p, hp, rfl⟩ := List.mem_map.1 ht
      obtain ⟨u, hu, huM⟩ := hv p hp
      exact ⟨u, by simpa [drupClause] using hu, huM⟩⟩ h1
  obtain ⟨c, hc⟩ := mem_of_mapGet_isSome h2
  obtain ⟨t, ht, he⟩ := hd _ hc
  have htc := hcol t ht (by simp at he; exact he.1.symm)
  subst htc
  obtain ⟨l, hl, -⟩ := hP _ hc
  have hcl : c = drupClause (.op .cl []) := by simp at he; exact he
  rw [hcl] at hl
  simp [drupClause] at hl

/-- **C44.** `drat` is sound when it concludes the empty clause. -/
theorem c44_drat_partial {premises : List (List Term)} {args : List Term}
    (hord : ∀ i db, (order i db).Perm db) (hcol : NoCollision hash [] premises args)
    (h : drupRule hash order true [] premises args = .ok ()) : Entails premises [] := by
  intro M hM
  exfalso
  refine c44_drat_refutation hord hcol h M.Holds fun p hp => ?_
  obtain ⟨u, hu, huM⟩ := hM p hp
  exact ⟨u.removeAllNegationsPol, List.mem_map_of_mem hu, (M.holdsP_iff u).2 huM⟩

/-- **C10.** The engine of both rules decides unit propagation: it accepts exactly if unit propagation from the
stored clauses and the negated goal reaches a conflict. It never panics. -/
theorem c10_rup_complete {db : List (List PLit)} (hdb : ∀ c ∈ db, c.Nodup) (goal : List Term) :
    ∃ b, rup db goal = .ok b ∧
      (b = true ↔ Conflict (goal.map (fun t => [PLit.neg t.removeAllNegationsPol]) ++ db)) :=
  rup_spec hdb goal

section
private abbrev p : Term := .var "p" .bool
private abbrev q : Term := .var "q" .bool
private abbrev r : Term := .var "r" .bool
private abbrev cl (ts : List Term) : Term := .op .cl ts

/-- An injective stand-in for the hash function on the terms of the examples. -/
private def h0 (t : Term) : Nat :=
  if t = cl [p, q] then 1 else if t = cl [.neg p, q] then 2 else if t = cl [p, .neg q] then 3
  else if t = cl [.neg p, .neg q] then 4 else if t = cl [q] then 5 else if t = cl [] then 6 else 7

/-- A deletion after the last use, with a reversed traversal. -/
example : drupRule h0 (fun _ db => db.reverse) false []
    [[p, q], [.neg p, q], [p, .neg q], [.neg p, .neg q]]
    [cl [q], .op .delete [cl [p, q]], cl []] = .ok () := by decide
example : NoCollision h0 [] [[p, q], [.neg p, q], [p, .neg q], [.neg p, .neg q]]
    [cl [q], .op .delete [cl [p, q]], cl []] := by unfold NoCollision; decide
/-- Deleting a clause that is still needed makes the check fail. -/
example : drupRule h0 (fun _ db => db) false []
    [[p, q], [.neg p, q], [p, .neg q], [.neg p, .neg q]]
    [cl [q], .op .delete [cl [p, .neg q]], cl []] = err := by decide

/-- **C44 fails.** A clause that is not entailed is accepted. -/
theorem c44_drat_fails :
    ∃ conclusion premises args, NoCollision h0 conclusion premises args ∧
      drupRule h0 (fun _ db => db) true conclusion premises args = .ok () ∧ ¬ Entails premises conclusion := by
  refine ⟨[q], [[p, q]], [cl [q]], by unfold NoCollision; decide, by decide, fun h => ?_⟩
  obtain ⟨t, ht, hh⟩ := h (Witness.model (fun x _ => .bool (x = "p"))) (by
    intro c hc
    simp only [List.mem_singleton] at hc
    subst hc
    refine ⟨p, by simp, ?_⟩
    simp only [Model.Holds, Witness.val_var, Witness.coerce, Witness.valSort, if_true]
    trivial)
  simp only [List.mem_singleton] at ht
  subst ht
  simp only [Model.Holds, Witness.val_var, Witness.coerce, Witness.valSort, if_true] at hh
  simp [Val.T] at hh

/-- `drat` accepts a proper RAT addition within a refutation. -/
example : drupRule h0 (fun _ db => db) true [] [[p, q], [.neg p, q], [p, .neg q], [.neg p, .neg q]]
    [cl [q], cl []] = .ok () := by decide

/-- **C10.** The hypothesis on collisions is needed: the conclusion is only looked up by its hash. -/
theorem c10_collision_fails :
    drupRule (fun _ => 0) (fun _ db => db) false [q] [[p]] [] = .ok () ∧ ¬ Entails [[p]] [q] := by
  refine ⟨by decide, fun h => ?_⟩
  obtain ⟨t, ht, hh⟩ := h (Witness.model (fun x _ => .bool (x = "p"))) (by
    intro c hc
    simp only [List.mem_singleton] at hc
    subst hc
    refine ⟨p, by simp, ?_⟩
    simp only [Model.Holds, Witness.val_var, Witness.coerce, Witness.valSort, if_true]
    trivial)
  simp only [List.mem_singleton] at ht
  subst ht
  simp only [Model.Holds, Witness.val_var, Witness.coerce, Witness.valSort, if_true] at hh
  simp [Val.T] at hh

/-- **C40.** `drup` panics on arguments that the parser accepts. -/
theorem c40_drup_panics :
    drupRule h0 (fun _ db => db) false [] [] [.op .delete [cl []]] = panic ∧
    drupRule h0 (fun _ db => db) false [] [] [p] = panic := by decide
end

/-! ## C43: the traversal order does not matter -/

theorem rupSet_conflict_congr {db db' : List (List PLit)} (h : ∀ c, c ∈ db ↔ c ∈ db') (goal : List Term) :
    Conflict (rupSet db goal) ↔ Conflict (rupSet db' goal) := by
  constructor <;> refine Conflict.mono fun c hc => ?_ <;> simp only [rupSet, List.mem_append] at hc ⊢ <;>
    rcases hc with hc | hc
  · exact Or.inl hc
  · exact Or.inr ((h c).1 hc)
  · exact Or.inl hc
  · exact Or.inr ((h c).2 hc)

theorem rup_congr {db db' : List (List PLit)} (hdb : ∀ c ∈ db, c.Nodup) (h : ∀ c, c ∈ db ↔ c ∈ db')
    (goal : List Term) : rup db goal = rup db' goal := by
  obtain ⟨b, h1, h2⟩ := rup_spec hdb goal
  obtain ⟨b', h1', h2'⟩ := rup_spec (db := db') (fun c hc => hdb c ((h c).2 hc)) goal
  rw [rupSet_conflict_congr h, ← h2'] at h2
  rw [h1, h1']
  cases b <;> cases b' <;> simp_all

theorem checkDrat_congr {db db' : List (List PLit)} (hdb : ∀ c ∈ db, c.Nodup) (h : ∀ c, c ∈ db ↔ c ∈ db')
    (goal : List Term) : checkDrat db goal = checkDrat db' goal := by
  cases goal with
  | nil => rfl
  | cons t rest =>
    simp only [checkDrat]
    obtain ⟨b, h1, h2⟩ := checkDrat_go_spec hdb rest (PLit.neg t.removeAllNegationsPol) db
    obtain ⟨b', h1', h2'⟩ := checkDrat_go_spec (db := db') (fun c hc => hdb c ((h c).2 hc)) rest
      (PLit.neg t.removeAllNegationsPol) db'
    simp only [rupSet_conflict_congr h, h] at h2
    rw [← h2'] at h2
    rw [h1, h1']
    cases b <;> cases b' <;> simp_all

theorem drupLoop_congr {order' : Nat → List (Nat × List PLit) → List (Nat × List PLit)} {rat : Bool}
    (hord : ∀ i db, (order i db).Perm db) (hord' : ∀ i db, (order' i db).Perm db) {ts : List Term} :
    ∀ (args : List Term) (i : Nat) (db : List (Nat × List PLit)), (∀ a ∈ args, a ∈ ts) → DbOK hash ts db →
      drupLoop hash order rat i db args = drupLoop hash order' rat i db args := by
  intro args
  induction args with
  | nil => intro i db _ _; rfl
  | cons t args ih =>
    intro i db ha hd
    have ha' : ∀ a ∈ args, a ∈ ts := fun a h => ha a (by simp [h])
    simp only [drupLoop]
    split
    · split
      · rfl
      · exact ih _ _ ha' (hd.remove _)
    · next terms =>
      have hnd : ∀ c ∈ (order i db).map (·.2), c.Nodup := by
        intro c hc
        obtain ⟨y, hy, rfl⟩ := List.mem_map.1 hc
        exact hd.nodup y ((hord i db).mem_iff.1 hy)
      have hp : ∀ c, c ∈ (order i db).map (·.2) ↔ c ∈ (order' i db).map (·.2) :=
        fun c => (((hord i db).trans (hord' i db).symm).map _).mem_iff
      have key := ih (i + 1) _ ha' (hd.insert (ha (.op .cl terms) (by simp)))
      simp only [drupClause] at key
      rw [rup_congr hnd hp, checkDrat_congr hnd hp, key]
    · rfl

/-- **C43.** The verdict of `drup` and `drat` does not depend on the order in which the hash maps are traversed. -/
theorem c43_order_independent {order' : Nat → List (Nat × List PLit) → List (Nat × List PLit)} (rat : Bool)
    (hord : ∀ i db, (order i db).Perm db) (hord' : ∀ i db, (order' i db).Perm db)
    (conclusion : List Term) (premises : List (List Term)) (args : List Term) :
    drupRule hash order rat conclusion premises args = drupRule hash order' rat conclusion premises args := by
  simp only [drupRule, checkDrup]
  rw [drupLoop_congr (ts := premises.map (.op .cl) ++ args) hord hord' args 0 _ (fun a ha => by simp [ha])]
  intro x hx
  obtain ⟨t, ht, rfl⟩ := premiseDb_ok hash _ x hx
  exact ⟨t, by simp only [List.mem_append]; exact Or.inl ht, rfl⟩

/-- **C40.** `drup` and `drat` do not panic if every argument is `(cl …)` or deletes a non-empty clause. -/
theorem c40_drup_no_panic (rat : Bool) (hord : ∀ i db, (order i db).Perm db)
    (conclusion : List Term) (premises : List (List Term)) (args : List Term)
    (hargs : ∀ a ∈ args, (∃ terms, a = .op .cl terms) ∨ ∃ t terms, a = .op .delete [.op .cl (t :: terms)]) :
    drupRule hash order rat conclusion premises args ≠ panic := by
  have loop : ∀ (as : List Term) (i : Nat) (db : List (Nat × List PLit)), (∀ a ∈ as, a ∈ args) →
      DbOK hash (premises.map (.op .cl) ++ args) db → drupLoop hash order rat i db as ≠ panic := by
    intro as
    induction as with
    | nil => intro i db _ _; simp [drupLoop, panic]
    | cons t as ih =>
      intro i db ha hd
      have ha' : ∀ a ∈ as, a ∈ args := fun a h => ha a (by simp [h])
      rcases hargs t (ha t (by simp)) with ⟨terms, rfl⟩ | ⟨t, terms, rfl⟩
      · simp only [drupLoop]
        have hnd : ∀ c ∈ (order i db).map (·.2), c.Nodup := by
          intro c hc
          obtain ⟨y, hy, rfl⟩ := List.mem_map.1 hc
          exact hd.nodup y ((hord i db).mem_iff.1 hy)
        have key := ih (i + 1) _ ha' (hd.insert (t := .op .cl terms) (by simp [ha (.op .cl terms) (by simp)]))
        simp only [drupClause] at key
        obtain ⟨b, h1, -⟩ := rup_spec hnd terms
        simp only [ne_eq, bind_panic, require_panic, false_or, not_or, not_exists, not_and]
        refine ⟨by rw [h1]; exact ok_panic.1, fun r _ => ⟨?_, fun _ _ _ _ => key⟩⟩
        split
        · next hc =>
          cases terms with
          | nil => simp at hc
          | cons t rest =>
            obtain ⟨b', h1', -⟩ := checkDrat_go_spec hnd rest (PLit.neg t.removeAllNegationsPol)
              ((order i db).map (·.2))
            simp only [checkDrat, h1']
            exact ok_panic.1
        · exact ok_panic.1
      · simp only [drupLoop]
        exact ih _ _ ha' (hd.remove _)
  simp only [drupRule, checkDrup]
  intro h
  have hl := loop args 0 (premiseDb hash (premises.map (.op .cl))) (fun _ h => h) (by
    intro x hx
    obtain ⟨t, ht, rfl⟩ := premiseDb_ok hash _ x hx
    exact ⟨t, by simp only [List.mem_append]; exact Or.inl ht, rfl⟩)
  unfold premiseDb at hl
  simp only [bind_panic, require_panic, and_false, exists_false, or_false] at h
  exact hl h

/-- The arguments of the first example satisfy the hypothesis, so the hypothesis is not vacuous. -/
example : ∀ a ∈ [Term.op .cl [.var "q" .bool], .op .delete [.op .cl [.var "p" .bool, .var "q" .bool]], .op .cl []],
    (∃ terms, a = .op .cl terms) ∨ ∃ t terms, a = .op .delete [.op .cl (t :: terms)] := by simp

end Carcara
