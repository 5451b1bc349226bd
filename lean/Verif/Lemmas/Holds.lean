import Verif.Lemmas.Sorts

/-!
# Truth of compound formulas
-/

namespace Carcara

open Classical

namespace Model
variable (M : Model)

theorem val_op (o : Op) (ts : List Term) : M.val (.op o ts) = evalOp M.I o (ts.map M.val) := by
  simp only [val, eval, evalL_eq_map]; rfl

@[simp] theorem val_tru : M.val .tru = .bool true := by simp [Term.tru, val_op, evalOp, stdOp]
@[simp] theorem val_fls : M.val .fls = .bool false := by simp [Term.fls, val_op, evalOp, stdOp]

@[simp] theorem holds_tru : M.Holds (.op .tru []) := by
  simp [Holds, val_op, evalOp, stdOp]
@[simp] theorem holds_fls : ¬ M.Holds (.op .fls []) := by
  simp [Holds, val_op, evalOp, stdOp]

theorem val_not (t : Term) : M.val (.op .not [t]) = .prop (¬ M.Holds t) := by
  simp [val_op, evalOp, stdOp, Holds]
@[simp] theorem holds_not (t : Term) : M.Holds (.op .not [t]) ↔ ¬ M.Holds t := by
  rw [Holds, val_not, Val.T_prop]

theorem val_and (ts : List Term) : M.val (.op .and ts) = .prop (∀ t ∈ ts, M.Holds t) := by
  simp [val_op, evalOp, stdOp, Holds]
@[simp] theorem holds_and (ts : List Term) : M.Holds (.op .and ts) ↔ ∀ t ∈ ts, M.Holds t := by
  rw [Holds, val_and, Val.T_prop]

theorem val_or (ts : List Term) : M.val (.op .or ts) = .prop (∃ t ∈ ts, M.Holds t) := by
  simp [val_op, evalOp, stdOp, Holds]
@[simp] theorem holds_or (ts : List Term) : M.Holds (.op .or ts) ↔ ∃ t ∈ ts, M.Holds t := by
  rw [Holds, val_or, Val.T_prop]

theorem val_cl (ts : List Term) : M.val (.op .cl ts) = .prop (∃ t ∈ ts, M.Holds t) := by
  simp [val_op, evalOp, stdOp, Holds]
@[simp] theorem holds_cl (ts : List Term) : M.Holds (.op .cl ts) ↔ ∃ t ∈ ts, M.Holds t := by
  rw [Holds, val_cl, Val.T_prop]

theorem val_xor (a b : Term) : M.val (.op .xor [a, b]) = .prop (¬ (M.Holds a ↔ M.Holds b)) := by
  simp [val_op, evalOp, stdOp, Holds, Sem.xorL]
@[simp] theorem holds_xor (a b : Term) : M.Holds (.op .xor [a, b]) ↔ ¬ (M.Holds a ↔ M.Holds b) := by
  rw [Holds, val_xor, Val.T_prop]

theorem val_implies (a b : Term) : M.val (.op .implies [a, b]) = .prop (M.Holds a → M.Holds b) := by
  simp [val_op, evalOp, stdOp, Holds, Sem.impl]
@[simp] theorem holds_implies (a b : Term) : M.Holds (.op .implies [a, b]) ↔ (M.Holds a → M.Holds b) := by
  rw [Holds, val_implies, Val.T_prop]

theorem val_eq (a b : Term) : M.val (.op .equals [a, b]) = .prop (M.val a = M.val b) := by
  simp [val_op, evalOp, stdOp, Sem.chain]
theorem holds_eq (a b : Term) : M.Holds (.op .equals [a, b]) ↔ M.val a = M.val b := by
  rw [Holds, val_eq, Val.T_prop]

theorem val_ite (c a b : Term) : M.val (.op .ite [c, a, b]) = if M.Holds c then M.val a else M.val b := by
  simp only [val_op, evalOp, stdOp, List.map, Option.getD_some]
  by_cases h : M.Holds c
  · rw [if_pos h]; exact if_pos h
  · rw [if_neg h]; exact if_neg h
@[simp] theorem holds_ite (c a b : Term) :
    M.Holds (.op .ite [c, a, b]) ↔ if M.Holds c then M.Holds a else M.Holds b := by
  rw [Holds, val_ite]; split <;> simp [Holds]

/-- Boolean values are determined by truth. -/
theorem IsBool.val_eq {M : Model} {a b : Term} (ha : M.IsBool a) (hb : M.IsBool b) :
    M.val a = M.val b ↔ (M.Holds a ↔ M.Holds b) := by
  obtain ⟨x, hx⟩ := ha
  obtain ⟨y, hy⟩ := hb
  simp only [Holds, hx, hy, Val.T_bool, Val.bool.injEq]
  cases x <;> cases y <;> simp

theorem IsBool.val_prop {M : Model} {a : Term} (ha : M.IsBool a) : M.val a = .prop (M.Holds a) := by
  obtain ⟨x, hx⟩ := ha
  simp only [Holds, hx, Val.T_bool, Val.prop]
  cases x <;> simp

theorem isBool_iff {M : Model} {a : Term} : M.IsBool a ↔ M.val a = .prop (M.Holds a) :=
  ⟨fun h => h.val_prop, fun h => ⟨_, h⟩⟩

theorem prop_inj {U : Type} {p q : Prop} : (Val.prop p : Val U) = .prop q ↔ (p ↔ q) := by
  simp [Val.prop]

theorem sat_cons {M : Model} {l : Term} {c : List Term} : M.Sat (l :: c) ↔ M.Holds l ∨ M.Sat c := by
  simp [Sat]
@[simp] theorem sat_nil {M : Model} : ¬ M.Sat [] := by simp [Sat]
theorem sat_singleton {M : Model} {l : Term} : M.Sat [l] ↔ M.Holds l := by
  simp [Sat]
theorem sat_append {M : Model} {c d : List Term} : M.Sat (c ++ d) ↔ M.Sat c ∨ M.Sat d := by
  simp [Sat, or_and_right, exists_or]
theorem sat_mono {M : Model} {c d : List Term} (h : M.Sat c) (hs : ∀ l ∈ c, l ∈ d) : M.Sat d := by
  obtain ⟨l, hl, ht⟩ := h; exact ⟨l, hs l hl, ht⟩

end Model

/-! ## Sorts of subterms of well-sorted formulas -/

theorem sortOf_op {o : Op} {ts : List Term} {s : Srt} (ho : o ≠ .bvConst) (h : sortOf (.op o ts) = some s) :
    ∃ ss, sortOfL ts = some ss ∧ opSort o ss = some s := by
  have e : sortOf (.op o ts) = match sortOfL ts with
    | some ss => opSort o ss
    | none => none := by
    rw [sortOf]
    · rfl
    · exact ho
  rw [e] at h
  cases h' : sortOfL ts with
  | none => simp [h'] at h
  | some ss => exact ⟨ss, rfl, by simpa [h'] using h⟩

theorem sortOfL_cons {t : Term} {ts : List Term} {ss : List Srt} :
    sortOfL (t :: ts) = some ss ↔ ∃ s ss', ss = s :: ss' ∧ sortOf t = some s ∧ sortOfL ts = some ss' := by
  rw [sortOfL]
  split
  · next s ss' h1 h2 => 
    simp only [Option.some.injEq, h1, h2]
    constructor
    · rintro rfl; exact ⟨_, _, rfl, rfl, rfl⟩
    · rintro ⟨_, _, rfl, rfl, rfl⟩; rfl
  · next h =>
    simp only [reduceCtorEq, false_iff]
    rintro ⟨s, ss', rfl, h1, h2⟩
    exact h _ _ h1 h2

theorem sortOfL_nil {ss : List Srt} : sortOfL [] = some ss ↔ ss = [] := by
  simp [sortOfL, eq_comm]

/-- Children of a Boolean connective are Boolean. -/
theorem bool_children {o : Op} {ts : List Term} {s : Srt}
    (ho : o = .not ∨ o = .and ∨ o = .or ∨ o = .xor ∨ o = .implies)
    (h : sortOf (.op o ts) = some s) : ∀ t ∈ ts, sortOf t = some .bool := by
  obtain ⟨ss, h1, h2⟩ := sortOf_op (by rcases ho with rfl | rfl | rfl | rfl | rfl <;> decide) h
  have hall : ∀ x ∈ ss, x = .bool := by
    rcases ho with rfl | rfl | rfl | rfl | rfl <;> simp only [opSort] at h2 <;> split at h2 <;>
      first
      | (next h3 => subst h3; simp; done)
      | (next h3 => exact allSort_iff.1 h3.2)
      | simp at h2
  have hf := sortOfL_some h1
  clear h1 h2 h
  induction hf with
  | nil => simp
  | @cons s' t ss ts hts _ ih =>
    intro t ht
    rcases List.mem_cons.1 ht with rfl | ht
    · rw [hts, hall s' (by simp)]
    · exact ih (fun x hx => hall x (by simp [hx])) t ht

/-- The two sides of an equality have the same sort. -/
theorem eq_children {a b : Term} {s : Srt} (h : sortOf (.op .equals [a, b]) = some s) :
    ∃ r, sortOf a = some r ∧ sortOf b = some r := by
  obtain ⟨ss, h1, h2⟩ := sortOf_op (by decide) h
  obtain ⟨s1, ss', rfl, ha, h1⟩ := sortOfL_cons.1 h1
  obtain ⟨s2, ss', rfl, hb, h1⟩ := sortOfL_cons.1 h1
  obtain rfl := sortOfL_nil.1 h1
  simp only [opSort] at h2
  split at h2
  · next h => simp [allSort] at h; exact ⟨s1, ha, by rw [hb, h]⟩
  · simp at h2

theorem ite_children {c a b : Term} {s : Srt} (h : sortOf (.op .ite [c, a, b]) = some s) :
    sortOf c = some .bool ∧ sortOf a = some s ∧ sortOf b = some s := by
  obtain ⟨ss, h1, h2⟩ := sortOf_op (by decide) h
  obtain ⟨s1, ss', rfl, ha, h1⟩ := sortOfL_cons.1 h1
  obtain ⟨s2, ss', rfl, hb, h1⟩ := sortOfL_cons.1 h1
  obtain ⟨s3, ss', rfl, hc, h1⟩ := sortOfL_cons.1 h1
  obtain rfl := sortOfL_nil.1 h1
  simp only [opSort] at h2
  split at h2
  · next h => obtain ⟨rfl, rfl⟩ := h; simp_all
  · simp at h2

end Carcara
