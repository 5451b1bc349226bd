import Verif.Model.Sorts

/-!
# Results, assertions and term matching

Model of `checker/rules/mod.rs` (assertion helpers) and of the `match_term!` macro (`ast/macros.rs`).
-/

namespace Carcara

/-- How a computation can fail: an error value, or a Rust panic. -/
inductive Fault where
  | err | panic
deriving DecidableEq, Repr

/-- Result of a fallible computation (`Result<_, CheckerError>` plus panics). Error payloads are dropped. -/
abbrev Res := Except Fault

instance {α : Type} [DecidableEq α] : DecidableEq (Res α) := fun a b =>
  match a, b with
  | .ok x, .ok y => if h : x = y then .isTrue (by rw [h]) else .isFalse (by simpa using h)
  | .error x, .error y => if h : x = y then .isTrue (by rw [h]) else .isFalse (by simpa using h)
  | .ok _, .error _ => .isFalse (by simp)
  | .error _, .ok _ => .isFalse (by simp)

/-- An ordinary error. -/
def err {α : Type} : Res α := .error .err
/-- A panic (failed `assert!`, `unwrap`, index, …). -/
def panic {α : Type} : Res α := .error .panic

/-- `rassert!` (`rules/mod.rs:66-73`) and all `assert_*` helpers (`75-163`): an error unless `p`. -/
def require (p : Prop) [Decidable p] : Res Unit := if p then .ok () else err

/-- `unwrap`-style access. -/
def orPanic {α : Type} : Option α → Res α
  | some a => .ok a
  | none => panic

/-- `ok_or`-style access. -/
def orErr {α : Type} : Option α → Res α
  | some a => .ok a
  | none => err

@[simp] theorem bind_ok {α β : Type} {x : Res α} {f : α → Res β} {b : β} :
    (x >>= f) = .ok b ↔ ∃ a, x = .ok a ∧ f a = .ok b := by
  cases x with
  | ok a =>
    simp only [bind, Except.bind, Except.ok.injEq]
    exact ⟨fun h => ⟨a, rfl, h⟩, fun ⟨a', e, h⟩ => e ▸ h⟩
  | error e => simp [bind, Except.bind]

@[simp] theorem pure_ok {α : Type} {a b : α} : (pure a : Res α) = .ok b ↔ a = b := by
  simp [pure, Except.pure]

@[simp] theorem err_ok {α : Type} {b : α} : ((err : Res α) = .ok b) ↔ False := by simp [err]
@[simp] theorem panic_ok {α : Type} {b : α} : ((panic : Res α) = .ok b) ↔ False := by simp [panic]

@[simp] theorem require_ok {p : Prop} [Decidable p] {u : Unit} : require p = .ok u ↔ p := by
  unfold require; split <;> simp_all

@[simp] theorem orPanic_ok {α : Type} {o : Option α} {a : α} : orPanic o = .ok a ↔ o = some a := by
  cases o <;> simp [orPanic]

@[simp] theorem orErr_ok {α : Type} {o : Option α} {a : α} : orErr o = .ok a ↔ o = some a := by
  cases o <;> simp [orErr]

@[simp] theorem ok_inj {α : Type} {a b : α} : ((Except.ok a : Res α) = .ok b) ↔ a = b := by simp

@[simp] theorem map_ok {α β : Type} {x : Res α} {f : α → β} {b : β} :
    (f <$> x) = .ok b ↔ ∃ a, x = .ok a ∧ f a = b := by
  cases x <;> simp [Functor.map, Except.map]

theorem bind_panic {α β : Type} {x : Res α} {f : α → Res β} :
    (x >>= f) = panic ↔ x = panic ∨ ∃ a, x = .ok a ∧ f a = panic := by
  cases x <;> simp [bind, Except.bind, panic]

theorem require_panic {p : Prop} [Decidable p] : require p = panic ↔ False := by
  unfold require; split <;> simp [err, panic]

theorem ok_panic {α : Type} {a : α} : (Except.ok a : Res α) = panic ↔ False := by simp [panic]

theorem pure_panic {α : Type} {a : α} : (pure a : Res α) = panic ↔ False := by simp [panic, pure, Except.pure]

theorem err_panic {α : Type} : (err : Res α) = panic ↔ False := by simp [err, panic]

theorem orErr_panic {α : Type} {o : Option α} : orErr o = panic ↔ False := by
  cases o <;> simp [orErr, err, panic]

theorem orPanic_panic {α : Type} {o : Option α} : orPanic o = panic ↔ o = none := by
  cases o <;> simp [orPanic, panic]

/-! ## Matching (the `match_term!` patterns) -/

/-- `match_term!((op ...) = t)`: the arguments of an application of `o`. -/
def matchOp (o : Op) : Term → Res (List Term)
  | .op o' as => if o' = o then .ok as else err
  | _ => err

/-- `match_term!((op a) = t)`. -/
def match1 (o : Op) : Term → Res Term
  | .op o' [a] => if o' = o then .ok a else err
  | _ => err

/-- `match_term!((op a b) = t)`. -/
def match2 (o : Op) : Term → Res (Term × Term)
  | .op o' [a, b] => if o' = o then .ok (a, b) else err
  | _ => err

/-- `match_term!((op a b c) = t)`. -/
def match3 (o : Op) : Term → Res (Term × Term × Term)
  | .op o' [a, b, c] => if o' = o then .ok (a, b, c) else err
  | _ => err

/-- `match_term!((forall/exists/choice ... body) = t)`. -/
def matchBinder (b : Binder) : Term → Res (List (String × Srt) × Term)
  | .binder b' bs t => if b' = b then .ok (bs, t) else err
  | _ => err

theorem matchOp_ok {o : Op} {t : Term} {as : List Term} : matchOp o t = .ok as ↔ t = .op o as := by
  cases t <;> simp only [matchOp, err_ok, reduceCtorEq, Term.op.injEq]
  split <;> simp_all

theorem match1_ok {o : Op} {t a : Term} : match1 o t = .ok a ↔ t = .op o [a] := by
  unfold match1
  split
  · split <;> simp_all
  · next h => simp only [err_ok, false_iff]; exact h o a

theorem match2_ok {o : Op} {t : Term} {p : Term × Term} : match2 o t = .ok p ↔ t = .op o [p.1, p.2] := by
  obtain ⟨a, b⟩ := p
  unfold match2
  split
  · split <;> simp_all
  · next h => simp only [err_ok, false_iff]; exact h o a b

theorem match3_ok {o : Op} {t : Term} {p : Term × Term × Term} :
    match3 o t = .ok p ↔ t = .op o [p.1, p.2.1, p.2.2] := by
  obtain ⟨a, b, c⟩ := p
  unfold match3
  split
  · split <;> simp_all
  · next h => simp only [err_ok, false_iff]; exact h o a b c

theorem matchBinder_ok {b : Binder} {t : Term} {p : List (String × Srt) × Term} :
    matchBinder b t = .ok p ↔ t = .binder b p.1 p.2 := by
  obtain ⟨bs, u⟩ := p
  cases t <;> simp only [matchBinder, err_ok, reduceCtorEq, Term.binder.injEq]
  split <;> simp_all

/-- `assert_clause_len(c, 1)` followed by `c[0]`. -/
def get1 {α : Type} : List α → Res α
  | [a] => .ok a
  | _ => err
/-- `assert_clause_len(c, 2)` followed by `c[0]`, `c[1]`. -/
def get2 {α : Type} : List α → Res (α × α)
  | [a, b] => .ok (a, b)
  | _ => err
/-- `assert_clause_len(c, 3)` followed by `c[0]`, `c[1]`, `c[2]`. -/
def get3 {α : Type} : List α → Res (α × α × α)
  | [a, b, c] => .ok (a, b, c)
  | _ => err

theorem get1_ok {α : Type} {l : List α} {a : α} : get1 l = .ok a ↔ l = [a] := by
  unfold get1; split
  · simp
  · next h => simp only [err_ok, false_iff]; exact h a
theorem get2_ok {α : Type} {l : List α} {p : α × α} : get2 l = .ok p ↔ l = [p.1, p.2] := by
  obtain ⟨a, b⟩ := p
  unfold get2; split
  · simp
  · next h => simp only [err_ok, false_iff]; exact h a b
theorem get3_ok {α : Type} {l : List α} {p : α × α × α} : get3 l = .ok p ↔ l = [p.1, p.2.1, p.2.2] := by
  obtain ⟨a, b, c⟩ := p
  unfold get3; split
  · simp
  · next h => simp only [err_ok, false_iff]; exact h a b c

/-- `assert_num_premises(premises, 1)` and `get_premise_term(&premises[0])` (`rules/mod.rs:51-60`). -/
def premiseTerm (ps : List (List Term)) : Res Term := do
  let p ← get1 ps
  get1 p

theorem premiseTerm_ok {ps : List (List Term)} {t : Term} : premiseTerm ps = .ok t ↔ ps = [[t]] := by
  simp only [premiseTerm, bind_ok, get1_ok]
  constructor
  · rintro ⟨a, rfl, rfl⟩; rfl
  · rintro rfl; exact ⟨_, rfl, rfl⟩

/-- Model of `ast/term.rs:851-856 as_integer`. -/
def Term.asInteger : Term → Option Int
  | .const (.int z) => some z
  | _ => none

/-- Model of `ast/term.rs:1054-1061 as_usize_err`. The code panics when the integer does not fit `usize`
(`to_usize().unwrap()`). -/
def Term.asUsizeErr (t : Term) : Res Nat :=
  match t.asInteger with
  | some i => if 0 ≤ i then (if i < 2 ^ 64 then .ok i.toNat else panic) else err
  | none => err

/-- `as_usize_err` succeeds on the constants in the range of `usize` and gives their value. -/
theorem Term.asUsizeErr_ok {t : Term} {n : Nat} :
    t.asUsizeErr = .ok n ↔ t = .const (.int n) ∧ n < 2 ^ 64 := by
  unfold Term.asUsizeErr
  cases h : t.asInteger with
  | none =>
    refine ⟨fun e => (by cases e), ?_⟩
    rintro ⟨rfl, -⟩
    simp [asInteger] at h
  | some i =>
    have ht : t = .const (.int i) := by
      unfold asInteger at h
      split at h
      · cases h; rfl
      · cases h
    subst ht
    simp only [Term.const.injEq, Const.int.injEq]
    split
    · next h0 =>
      split
      · simp only [Except.ok.injEq]; omega
      · exact ⟨fun e => (by cases e), fun e => (by omega)⟩
    · exact ⟨fun e => (by cases e), fun e => (by omega)⟩

/-- Apply a fallible function to all elements, left to right. -/
def mapRes {α β : Type} (f : α → Res β) : List α → Res (List β)
  | [] => .ok []
  | a :: as => do
    let b ← f a
    let bs ← mapRes f as
    .ok (b :: bs)

end Carcara
