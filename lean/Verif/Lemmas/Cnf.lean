import Verif.Lemmas.Arith
import Verif.Spec.Rule
import Mathlib.Tactic.Tauto
import Mathlib.Tactic.CasesM
import Mathlib.Tactic.Ring

/-! # Facts used in the proofs about the CNF rules -/

namespace Carcara
open Classical Val Sem

theorem assertEq_ok {a b : Term} {u : Unit} : assertEq a b = .ok u ↔ a = b := require_ok

theorem assertEqs_ok : ∀ {ts us : List Term}, ts.length = us.length →
    assertEqs ts us = .ok () → ts = us
  | [], [], _, _ => rfl
  | t :: ts, u :: us, hl, h => by
    simp only [assertEqs, bind_ok, assertEq_ok] at h
    obtain ⟨-, rfl, h⟩ := h
    rw [assertEqs_ok (by simpa using hl) h]

theorem assertNegs_ok : ∀ {ts us : List Term}, ts.length = us.length →
    assertNegs ts us = .ok () → us = ts.map (fun t => .op .not [t])
  | [], [], _, _ => rfl
  | t :: ts, u :: us, hl, h => by
    simp only [assertNegs, bind_ok, assertEq_ok, Term.removeNegErr_ok] at h
    obtain ⟨a, rfl, -, rfl, h⟩ := h
    rw [assertNegs_ok (by simpa using hl) h]; rfl

/-- A Boolean term. -/
theorem Model.isBool_sort (M : Model) {t : Term} (h : sortOf t = some .bool) : M.IsBool t :=
  M.isBool_of_sort h

theorem Model.holds_eq_bool (M : Model) {a b : Term} (h : sortOf (.op .equals [a, b]) = some .bool)
    (ha : sortOf a = some .bool ∨ sortOf b = some .bool) :
    M.Holds (.op .equals [a, b]) ↔ (M.Holds a ↔ M.Holds b) := by
  obtain ⟨r, h1, h2⟩ := eq_children h
  have : r = .bool := by rcases ha with h | h <;> simp_all
  subst this
  rw [M.holds_eq, (M.isBool_of_sort h1).val_eq (M.isBool_of_sort h2)]

theorem not_child {t : Term} (h : sortOf (.op .not [t]) = some .bool) : sortOf t = some .bool :=
  bool_children (Or.inl rfl) h t (by simp)

theorem holds_eq_imp {M : Model} {a b : Term} (h : M.Holds (.op .equals [a, b])) : M.Holds a ↔ M.Holds b := by
  rw [M.holds_eq] at h
  simp [Model.Holds, h]


/-! ## Binders -/

theorem eval_not (I : Interp) (t : Term) (ρ : Env I.U) : (eval I (.op .not [t]) ρ).T ↔ ¬ (eval I t ρ).T := by
  simp [eval, evalOp, stdOp]

namespace Model
variable (M : Model)

theorem val_all (bs : List (String × Srt)) (t : Term) : M.val (.binder .all bs t) =
    .prop (∀ vs, M.I.Tuple bs vs → (eval M.I t (M.env.setMany bs vs)).T) := by
  simp [val, eval, evalBinder]
theorem holds_all (bs : List (String × Srt)) (t : Term) : M.Holds (.binder .all bs t) ↔
    ∀ vs, M.I.Tuple bs vs → (eval M.I t (M.env.setMany bs vs)).T := by
  rw [Holds, val_all, Val.T_prop]
theorem val_ex (bs : List (String × Srt)) (t : Term) : M.val (.binder .ex bs t) =
    .prop (∃ vs, M.I.Tuple bs vs ∧ (eval M.I t (M.env.setMany bs vs)).T) := by
  simp [val, eval, evalBinder]
theorem holds_ex (bs : List (String × Srt)) (t : Term) : M.Holds (.binder .ex bs t) ↔
    ∃ vs, M.I.Tuple bs vs ∧ (eval M.I t (M.env.setMany bs vs)).T := by
  rw [Holds, val_ex, Val.T_prop]

theorem val_distinct (ts : List Term) : M.val (.op .distinct ts) = .prop ((ts.map M.val).Pairwise (· ≠ ·)) := by
  simp [val_op, evalOp, stdOp]
theorem val_equals (ts : List Term) : M.val (.op .equals ts) = .prop (chain (· = ·) (ts.map M.val)) := by
  simp [val_op, evalOp, stdOp]

end Model

theorem Val.prop_false {U : Type} : (Val.prop False : Val U) = .bool false := by simp [Val.prop]
theorem Val.prop_true {U : Type} : (Val.prop True : Val U) = .bool true := by simp [Val.prop]

/-! ## `distinct_elim` -/

theorem distinctPair_val {M : Model} {a b t : Term} (h : distinctPair a b t = .ok ()) :
    M.val t = .prop (M.val a ≠ M.val b) := by
  simp only [distinctPair, bind_ok, match1_ok, match2_ok, require_ok, Prod.exists] at h
  obtain ⟨_, rfl, x, y, rfl, h⟩ := h
  rw [M.val_not, M.holds_eq]
  rcases h with ⟨rfl, rfl⟩ | ⟨rfl, rfl⟩
  · rfl
  · simp only [ne_eq, eq_comm]

theorem pairs_length (as : List Term) : (pairs as).length = as.length * (as.length - 1) / 2 := by
  induction as with
  | nil => rfl
  | cons a as ih =>
    simp only [pairs, List.length_append, List.length_map, ih, List.length_cons, Nat.add_sub_cancel]
    cases h : as.length with
    | zero => rfl
    | succ n =>
      simp only [Nat.add_sub_cancel]
      have : (n + 1 + 1) * (n + 1) = (n + 1) * n + (n + 1) * 2 := by ring
      rw [this, Nat.add_mul_div_right _ _ (by decide)]
      omega

theorem pairs_pairwise {β : Type} (f : Term → β) (as : List Term) :
    (as.map f).Pairwise (· ≠ ·) ↔ ∀ p ∈ pairs as, f p.1 ≠ f p.2 := by
  induction as with
  | nil => simp [pairs]
  | cons a as ih =>
    simp only [List.map_cons, List.pairwise_cons, ih, pairs, List.mem_append, List.mem_map]
    constructor
    · rintro ⟨h1, h2⟩ p (⟨b, hb, rfl⟩ | hp)
      · exact h1 _ ⟨b, hb, rfl⟩
      · exact h2 p hp
    · intro h
      refine ⟨?_, fun p hp => h p (Or.inr hp)⟩
      rintro _ ⟨b, hb, rfl⟩
      exact h (a, b) (Or.inl ⟨b, hb, rfl⟩)

theorem distinctLoop_val (M : Model) : ∀ {ps : List (Term × Term)} {ts : List Term}, ps.length = ts.length →
    distinctLoop ps ts = .ok () → ((∀ p ∈ ps, M.val p.1 ≠ M.val p.2) ↔ ∀ t ∈ ts, M.Holds t)
  | [], [], _, _ => by simp
  | (a, b) :: ps, t :: ts, hl, h => by
    simp only [distinctLoop, bind_ok] at h
    obtain ⟨_, h1, h2⟩ := h
    have ih := distinctLoop_val M (by simpa using hl) h2
    have : M.Holds t ↔ M.val a ≠ M.val b := by rw [Model.Holds, distinctPair_val h1, Val.T_prop]
    simp only [List.mem_cons, forall_eq_or_imp, ih, this]

/-! ## `nary_elim` -/

theorem windows_val (M : Model) : ∀ (ts : List Term),
    chain (· = ·) (ts.map M.val) ↔ ∀ t ∈ windows .equals ts, M.Holds t
  | [] => by simp [chain, windows]
  | [a] => by simp [chain, windows]
  | a :: b :: ts => by
    have ih := windows_val M (b :: ts)
    simp only [List.map_cons] at ih
    simp [chain, windows, ih, M.holds_eq]

/-- The value of a list of terms of sort `s`. -/
theorem vals_dom (M : Model) {ts : List Term} {ss : List Srt} (h : sortOfL ts = some ss) :
    List.Forall₂ M.I.dom ss (ts.map M.val) := by
  have hf := sortOfL_some h
  clear h
  induction hf with
  | nil => exact .nil
  | cons h _ ih => exact .cons (eval_dom _ h M.env_dom) ih

/-- The value of a left-nested application of a binary operation. -/
theorem foldl_val {α : Type} (M : Model) (o : Op) (emb : α → Val M.I.U) (f : α → α → α)
    (h2 : ∀ a b, evalOp M.I o [emb a, emb b] = emb (f a b)) :
    ∀ (ts : List Term) (as : List α) (t : Term) (a : α), ts.map M.val = as.map emb → M.val t = emb a →
      M.val (ts.foldl (fun acc u => .op o [acc, u]) t) = emb (as.foldl f a)
  | [], [], t, a, _, h => by simpa using h
  | [], _ :: _, t, a, h, _ => by simp at h
  | _ :: _, [], t, a, h, _ => by simp at h
  | u :: ts, b :: as, t, a, h, hb => by
    simp only [List.map_cons, List.cons.injEq] at h
    simp only [List.foldl_cons]
    refine foldl_val M o emb f h2 ts as _ _ h.2 ?_
    rw [M.val_op]
    simp [hb, h.1, h2]

theorem foldl_add_sum {α : Type} [AddCommMonoid α] (a : α) (as : List α) : as.foldl (· + ·) a = (a :: as).sum := by
  induction as generalizing a with
  | nil => simp
  | cons b as ih => simp [ih, add_assoc]

theorem foldl_mul_prod {α : Type} [CommMonoid α] (a : α) (as : List α) : as.foldl (· * ·) a = (a :: as).prod := by
  induction as generalizing a with
  | nil => simp
  | cons b as ih => simp [ih, mul_assoc]

theorem expandLeft_add (M : Model) {args : List Term} {s : Srt} {e : Term} (hs : sortOf (.op .add args) = some s)
    (he : expandLeft .add args = .ok e) : M.val (.op .add args) = M.val e := by
  obtain ⟨hne, hs⟩ := arith_children (by simp) hs
  rw [M.val_op]
  match args, he with
  | t :: ts, he =>
    simp only [expandLeft, ok_inj] at he
    subst he
    rcases hs with ⟨-, hs⟩ | ⟨-, hs⟩
    · obtain ⟨zs, hz⟩ := M.vals_int hs
      match zs, hz with
      | z :: zs, hz =>
        have hz' := hz
        simp only [List.map_cons, List.cons.injEq] at hz'
        rw [hz, evalOp_add_int, foldl_val M .add .int (· + ·) (fun a b => by simpa using evalOp_add_int M.I [a, b])
          ts zs t z hz'.2 hz'.1, foldl_add_sum]
    · obtain ⟨zs, hz⟩ := M.vals_real hs
      match zs, hz with
      | z :: zs, hz =>
        have hz' := hz
        simp only [List.map_cons, List.cons.injEq] at hz'
        rw [hz, evalOp_add_real _ _ (by simp), foldl_val M .add .real (· + ·)
          (fun a b => by simpa using evalOp_add_real M.I [a, b]) ts zs t z hz'.2 hz'.1, foldl_add_sum]

theorem expandLeft_mult (M : Model) {args : List Term} {s : Srt} {e : Term} (hs : sortOf (.op .mult args) = some s)
    (he : expandLeft .mult args = .ok e) : M.val (.op .mult args) = M.val e := by
  obtain ⟨hne, hs⟩ := arith_children (by simp) hs
  rw [M.val_op]
  match args, he with
  | t :: ts, he =>
    simp only [expandLeft, ok_inj] at he
    subst he
    rcases hs with ⟨-, hs⟩ | ⟨-, hs⟩
    · obtain ⟨zs, hz⟩ := M.vals_int hs
      match zs, hz with
      | z :: zs, hz =>
        have hz' := hz
        simp only [List.map_cons, List.cons.injEq] at hz'
        rw [hz, evalOp_mult_int, foldl_val M .mult .int (· * ·) (fun a b => by simpa using evalOp_mult_int M.I [a, b])
          ts zs t z hz'.2 hz'.1, foldl_mul_prod]
    · obtain ⟨zs, hz⟩ := M.vals_real hs
      match zs, hz with
      | z :: zs, hz =>
        have hz' := hz
        simp only [List.map_cons, List.cons.injEq] at hz'
        rw [hz, evalOp_mult_real _ _ (by simp), foldl_val M .mult .real (· * ·)
          (fun a b => by simpa using evalOp_mult_real M.I [a, b]) ts zs t z hz'.2 hz'.1, foldl_mul_prod]

theorem expandLeft_sub (M : Model) {args : List Term} {s : Srt} {e : Term} (hs : sortOf (.op .sub args) = some s)
    (he : expandLeft .sub args = .ok e) (hl : 2 ≤ args.length) : M.val (.op .sub args) = M.val e := by
  obtain ⟨hne, hs⟩ := arith_children (by simp) hs
  rw [M.val_op]
  match args, he, hl with
  | t :: u :: ts, he, _ =>
    simp only [expandLeft, ok_inj] at he
    subst he
    rcases hs with ⟨-, hs⟩ | ⟨-, hs⟩
    · obtain ⟨zs, hz⟩ := M.vals_int hs
      match zs, hz with
      | [_], hz => simp at hz
      | z :: y :: zs, hz =>
        have hz' := hz
        simp only [List.map_cons, List.cons.injEq] at hz'
        rw [hz, evalOp_sub_int _ _ (by simp), foldl_val M .sub .int (· - ·)
          (fun a b => by simpa [subL] using evalOp_sub_int M.I [a, b]) (u :: ts) (y :: zs) t z
          (by simpa using hz'.2) hz'.1]
        rfl
    · obtain ⟨zs, hz⟩ := M.vals_real hs
      match zs, hz with
      | [_], hz => simp at hz
      | z :: y :: zs, hz =>
        have hz' := hz
        simp only [List.map_cons, List.cons.injEq] at hz'
        rw [hz, evalOp_sub_real _ _ (by simp), foldl_val M .sub .real (· - ·)
          (fun a b => by simpa [subL] using evalOp_sub_real M.I [a, b]) (u :: ts) (y :: zs) t z
          (by simpa using hz'.2) hz'.1]
        rfl

theorem expandRight_val (M : Model) : ∀ {args : List Term} {s : Srt} {e : Term}, 2 ≤ args.length →
    sortOf (.op .implies args) = some s → expandRight .implies args = .ok e →
    M.val e = M.val (.op .implies args) := by
  have key : ∀ {args : List Term} {e : Term}, args ≠ [] → (∀ t ∈ args, sortOf t = some .bool) →
      expandRight .implies args = .ok e → M.val e = .prop (impl (args.map M.val)) := by
    intro args
    induction args with
    | nil => intro e h; exact absurd rfl h
    | cons t args ih =>
      intro e _ hs h
      match args, h with
      | [], h =>
        simp only [expandRight, ok_inj] at h
        subst h
        exact (M.isBool_of_sort (hs t (by simp))).val_prop
      | u :: args, h =>
        simp only [expandRight, bind_ok, pure_ok] at h
        obtain ⟨n, hn, rfl⟩ := h
        have := ih (by simp) (fun t ht => hs t (by simp [ht])) hn
        rw [M.val_implies, Model.Holds, Model.Holds, this, Val.T_prop]
        rfl
  intro args s e hl hs h
  rw [key (by rintro rfl; simp at hl) (bool_children (by simp) hs) h, M.val_op]
  rfl

/-- Inverts the checks of a rule. -/
macro "invert " h:ident : tactic => `(tactic| (
  simp only [bind_ok, pure_ok, require_ok, get1_ok, get2_ok, get3_ok, match1_ok, match2_ok, match3_ok, matchOp_ok,
    matchBinder_ok, assertEq_ok, Term.removeNegErr_ok, Prod.exists, orErr_ok, exists_and_left, exists_eq_left,
    exists_eq_left', exists_eq_right, exists_const, exists_and_right, exists_eq, true_and, and_true,
    Term.isBoolTrue, Term.isBoolFalse, decide_eq_true_eq] at $h:ident
  try casesm* _ ∧ _, ∃ _, _
  subst_vars))

/-- Finishes a propositional goal about the truth of the literals. -/
macro "prop " hM:ident : tactic => `(tactic| (
  simp only [List.mem_cons, List.not_mem_nil, or_false, forall_eq, Model.Sat, exists_eq_or_imp, exists_eq_left,
    Model.holds_not, Model.holds_xor, Model.holds_implies, Model.holds_ite, Model.holds_tru, Model.holds_fls] at $hM:ident ⊢
  try split at $hM:ident
  all_goals (try split)
  all_goals tauto))

end Carcara
