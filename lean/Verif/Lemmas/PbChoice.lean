import Verif.Lemmas.PbBlast
import Verif.Lemmas.FreeVarsModel

/-!
# Lemmas about the choice terms of pseudo-Boolean blasting
-/

namespace Carcara
open Classical Val Sem Spec

/-- The model with another value for the variable `z`. -/
noncomputable def Model.setZ (M : Model) (c : ℤ) : Model where
  I := M.I
  env := M.env.set "z" .int (.int c)
  env_dom x s := by
    unfold Env.set
    split
    · next h => rw [h.2]; exact (M.I.dom_int _).2 ⟨c, rfl⟩
    · exact M.env_dom x s

namespace Model
variable {M : Model}

theorem val_setZ {t : Term} {s : Srt} (hs : sortOf t = some s) (hz : NoZ t) (c : ℤ) : (M.setZ c).val t = M.val t := by
  symm
  refine eval_congr_fv t (t.choiceOK_of_sort (by rw [hs]; rfl)) (.inr M.env_dom) fun v hv => ?_
  have : ¬ (v.1 = "z" ∧ v.2 = .int) := by
    rintro ⟨h1, h2⟩
    refine hz ?_
    rwa [show (("z", Srt.int) : String × Srt) = v from Prod.ext h1.symm h2.symm]
  simp only [setZ, Env.set]
  rw [if_neg this]

theorem val_pbZ (c : ℤ) : (M.setZ c).val pbZ = .int c := by
  simp [val, pbZ, eval, setZ, Env.set]

/-- A choice term with a witness has a value for which its body holds. -/
theorem val_choiceZ {bs : List (String × Srt)} {body : Term} (hs : ∃ z, (M.setZ z).Holds body) :
    ∃ c, M.val (.binder .choice (("z", .int) :: bs) body) = .int c ∧ (M.setZ c).Holds body := by
  obtain ⟨z, hz⟩ := hs
  have e : M.val (.binder .choice (("z", .int) :: bs) body) =
      M.I.eps .int (fun v => M.I.dom .int v ∧ (eval M.I body (M.env.set "z" .int v)).T) := by
    simp [val, eval, evalBinder]
  obtain ⟨c, hc⟩ := (M.I.dom_int _).1 (M.I.eps_dom .int (fun v => M.I.dom .int v ∧ (eval M.I body (M.env.set "z" .int v)).T))
  refine ⟨c, e.trans hc, ?_⟩
  have := M.I.eps_spec .int (fun v => M.I.dom .int v ∧ (eval M.I body (M.env.set "z" .int v)).T) (.int z)
    ((M.I.dom_int _).2 ⟨z, rfl⟩) ⟨(M.I.dom_int _).2 ⟨z, rfl⟩, hz⟩
  rw [hc] at this
  exact this.2

theorem holds_ge_nums {a b : Term} {r s : ℝ} (ha : (M.val a).num = some r) (hb : (M.val b).num = some s) :
    M.Holds (.op .ge [a, b]) ↔ r ≥ s := by
  simp [Model.Holds, M.val_op, evalOp, stdOp, stdCmp, asNums, ha, hb, chain]

theorem num_of_int {a : Term} {z : ℤ} (h : M.val a = .int z) : (M.val a).num = some (z : ℝ) := by rw [h]; rfl

theorem holds_ge_ints {a b : Term} {y z : ℤ} (ha : M.val a = .int y) (hb : M.val b = .int z) :
    M.Holds (.op .ge [a, b]) ↔ y ≥ z := by
  rw [M.holds_ge_nums (num_of_int ha) (num_of_int hb)]
  exact_mod_cast Iff.rfl

theorem num_add_number {a n : Term} {z : ℤ} {q : ℚ} (ha : M.val a = .int z) (hn : n.asNumber = some q) :
    (M.val (.op .add [a, n])).num = some ((z : ℝ) + (q : ℝ)) := by
  unfold Term.asNumber at hn
  split at hn
  case h_2 k =>
    simp only [Option.some.injEq] at hn
    subst hn
    have : M.val (.const (.int k)) = .int k := by simp [val, eval, evalConst]
    simp [M.val_op, evalOp, stdOp, stdAdd, asInts, ha, this, Val.num]
  case h_1 k =>
    simp only [Option.some.injEq] at hn
    subst hn
    have : M.val (.const (.real k)) = .real (k : ℝ) := by simp [val, eval, evalConst]
    simp [M.val_op, evalOp, stdOp, stdAdd, asInts, asNums, ha, this, Val.num]
  · simp at hn

theorem val_add_ints {a b c : Term} {x y z : ℤ} (ha : M.val a = .int x) (hb : M.val b = .int y) (hc : M.val c = .int z) :
    M.val (.op .add [a, b, c]) = .int (x + (y + z)) := by
  simp [M.val_op, evalOp, stdOp, stdAdd, asInts, ha, hb, hc]

end Model

/-- What the four constraints mean for integers. -/
def XorSpec (x y z : ℤ) : Prop := z ≤ x + y ∧ y ≤ z + x ∧ x ≤ z + y ∧ z + x + y ≤ 2

/-- What the three constraints mean for integers. -/
def AndSpec (x y z : ℤ) : Prop := z ≤ x ∧ z ≤ y ∧ x + y ≤ z + 1

theorem checkXorConstraints_ok {x y z c1 c2 c3 c4 : Term} (h : checkXorConstraints x y z c1 c2 c3 c4 = .ok ()) {M : Model} {a b c : ℤ}
    (hx : M.val x = .int a) (hy : M.val y = .int b) (hz : M.val z = .int c) :
    M.Holds (.op .and [c1, c2, c3, c4]) ↔ XorSpec a b c := by
  simp only [checkXorConstraints, bind_ok, Prod.exists, match2_ok, assertEq_ok, matchNum, require_ok, match3_ok] at h
  obtain ⟨_, _, rfl, _, _, rfl, _, rfl, _, rfl, _, rfl, _, _, rfl, _, _, rfl, _, rfl, _, rfl, _, rfl, _, _, rfl, _, _, rfl, _, rfl, _, rfl, _, rfl,
    n, _, rfl, _, hn, _, _, _, rfl, _, rfl, _, rfl, rfl⟩ := h
  have e1 := M.holds_ge_ints (M.val_add_int hx hy) hz
  have e2 := M.holds_ge_ints (M.val_add_int hz hx) hy
  have e3 := M.holds_ge_ints (M.val_add_int hz hy) hx
  have h4 := M.val_add_ints hz hx hy
  have e4 := M.holds_ge_nums (n.asNumber_val hn M) (M.num_of_int h4)
  have e5 : (((2 : ℚ) : ℝ) ≥ ((c + (a + b) : ℤ) : ℝ)) ↔ c + (a + b) ≤ 2 := by
    rw [ge_iff_le]; exact_mod_cast Iff.rfl
  rw [e5] at e4
  simp only [M.holds_and, List.mem_cons, List.not_mem_nil, or_false, forall_eq_or_imp, forall_eq, e1, e2, e3, e4, XorSpec]
  omega

theorem checkAndConstraints_ok {x y z c1 c2 c3 : Term} (h : checkAndConstraints x y z c1 c2 c3 = .ok ()) {M : Model} {a b c : ℤ}
    (hx : M.val x = .int a) (hy : M.val y = .int b) (hz : M.val z = .int c) :
    M.Holds (.op .and [c1, c2, c3]) ↔ AndSpec a b c := by
  simp only [checkAndConstraints, bind_ok, Prod.exists, match2_ok, assertEq_ok, matchNum, require_ok] at h
  obtain ⟨_, _, rfl, _, rfl, _, rfl, _, _, rfl, _, rfl, _, rfl, _, _, rfl, _, n, rfl, _, hn, _, _, rfl, _, rfl, _, rfl, rfl⟩ := h
  have e1 := M.holds_ge_ints hx hz
  have e2 := M.holds_ge_ints hy hz
  have e3 := M.holds_ge_nums (M.num_add_number hz hn) (M.num_of_int (M.val_add_int hx hy))
  have e5 : ((c : ℝ) + ((1 : ℚ) : ℝ) ≥ ((a + b : ℤ) : ℝ)) ↔ a + b ≤ c + 1 := by
    rw [ge_iff_le]; exact_mod_cast Iff.rfl
  rw [e5] at e3
  simp only [M.holds_and, List.mem_cons, List.not_mem_nil, or_false, forall_eq_or_imp, forall_eq, e1, e2, e3, AndSpec]

/-- Bits of which the exclusive or exists, and is unique. -/
theorem XorSpec.unique {a b c : ℤ} (ha : a = 0 ∨ a = 1) (hb : b = 0 ∨ b = 1) (h : XorSpec a b c) : c = if a = b then 0 else 1 := by
  obtain ⟨h1, h2, h3, h4⟩ := h
  rcases ha with rfl | rfl <;> rcases hb with rfl | rfl <;> simp <;> omega

theorem XorSpec.exists {a b : ℤ} (ha : a = 0 ∨ a = 1) (hb : b = 0 ∨ b = 1) : ∃ c, XorSpec a b c :=
  ⟨if a = b then 0 else 1, by rcases ha with rfl | rfl <;> rcases hb with rfl | rfl <;> simp [XorSpec]⟩

theorem AndSpec.one {a b c : ℤ} (ha : a = 0 ∨ a = 1) (hb : b = 0 ∨ b = 1) (h : AndSpec a b c) : c = 1 ↔ a = 1 ∧ b = 1 := by
  obtain ⟨h1, h2, h3⟩ := h
  omega

theorem AndSpec.exists {a b : ℤ} (ha : a = 0 ∨ a = 1) (hb : b = 0 ∨ b = 1) : ∃ c, AndSpec a b c :=
  ⟨a * b, by rcases ha with rfl | rfl <;> rcases hb with rfl | rfl <;> simp [AndSpec]⟩

theorem checkPbBinding_ok {bs : List (String × Srt)} (h : checkPbBinding bs = .ok ()) : ∃ t, bs = ("z", .int) :: t := by
  simp only [checkPbBinding, bind_ok, orPanic_ok, require_ok] at h
  obtain ⟨b, hb, _, h1, h2⟩ := h
  cases bs with
  | nil => simp at hb
  | cons a t =>
    simp only [List.head?_cons, Option.some.injEq] at hb
    subst hb
    exact ⟨t, by rw [← h1, ← h2]⟩

theorem match4_ok {o : Op} {t a b c d : Term} : match4 o t = .ok (a, b, c, d) ↔ t = .op o [a, b, c, d] := by
  unfold match4
  split
  · split
    · next h => subst h; simp [eq_comm]
    · next h => simp only [err_ok, false_iff, Term.op.injEq]; exact fun h' => h h'.1
  · next h => simp only [err_ok, false_iff]; rintro rfl; exact h _ _ _ _ _ rfl

/-- A bit of the exclusive or: the choice term, given terms for the bits of the arguments. -/
theorem checkXorBit_ok {bc x y : Term} (h : checkXorBit bc x y = .ok ()) {M : Model} {a b : ℤ} (sx : sortOf x = some .int)
    (sy : sortOf y = some .int) (zx : NoZ x) (zy : NoZ y) (hx : M.val x = .int a) (hy : M.val y = .int b) (ha : a = 0 ∨ a = 1)
    (hb : b = 0 ∨ b = 1) : M.val bc = .int (if a = b then 0 else 1) := by
  simp only [checkXorBit, bind_ok, Prod.exists, matchBinder_ok, match4_ok] at h
  obtain ⟨bs, body, rfl, c1, c2, c3, c4, rfl, _, h1, h2⟩ := h
  obtain ⟨t, rfl⟩ := checkPbBinding_ok h1
  have key : ∀ c, (M.setZ c).Holds (.op .and [c1, c2, c3, c4]) ↔ XorSpec a b c := fun c =>
    checkXorConstraints_ok h2 ((M.val_setZ sx zx c).trans hx) ((M.val_setZ sy zy c).trans hy) (M.val_pbZ c)
  obtain ⟨c, e, hc⟩ := M.val_choiceZ (bs := t) (body := .op .and [c1, c2, c3, c4])
    ((XorSpec.exists ha hb).imp fun c hc => (key c).2 hc)
  rw [e, ((key c).1 hc).unique ha hb]

theorem checkAndBit_ok {bc x y : Term} (h : checkAndBit bc x y = .ok ()) {M : Model} {a b : ℤ} (sx : sortOf x = some .int)
    (sy : sortOf y = some .int) (zx : NoZ x) (zy : NoZ y) (hx : M.val x = .int a) (hy : M.val y = .int b) (ha : a = 0 ∨ a = 1)
    (hb : b = 0 ∨ b = 1) : ∃ c, M.val bc = .int c ∧ (c = 1 ↔ a = 1 ∧ b = 1) := by
  simp only [checkAndBit, bind_ok, Prod.exists, matchBinder_ok, match3_ok] at h
  obtain ⟨bs, body, rfl, c1, c2, c3, rfl, _, h1, h2⟩ := h
  obtain ⟨t, rfl⟩ := checkPbBinding_ok h1
  have key : ∀ c, (M.setZ c).Holds (.op .and [c1, c2, c3]) ↔ AndSpec a b c := fun c =>
    checkAndConstraints_ok h2 ((M.val_setZ sx zx c).trans hx) ((M.val_setZ sy zy c).trans hy) (M.val_pbZ c)
  obtain ⟨c, e, hc⟩ := M.val_choiceZ (bs := t) (body := .op .and [c1, c2, c3])
    ((AndSpec.exists ha hb).imp fun c hc => (key c).2 hc)
  exact ⟨c, e, ((key c).1 hc).one ha hb⟩

theorem checkPbBits_ok {f : Term → Term → Term → Res Unit} : ∀ {bcs xs ys : List Term}, checkPbBits f bcs xs ys = .ok () →
    ∀ i (h1 : i < bcs.length) (h2 : i < xs.length) (h3 : i < ys.length), f bcs[i] xs[i] ys[i] = .ok ()
  | bc :: bcs, x :: xs, y :: ys, h, i, h1, h2, h3 => by
    simp only [checkPbBits, bind_ok] at h
    obtain ⟨_, h, h'⟩ := h
    cases i with
    | zero => exact h
    | succ i => exact checkPbBits_ok h' i (by simpa using h1) (by simpa using h2) (by simpa using h3)
  | [], _, _, _, i, h1, _, _ => absurd h1 (by simp)
  | _ :: _, [], _, _, i, _, h2, _ => absurd h2 (by simp)
  | _ :: _, _ :: _, [], _, i, _, _, h3 => absurd h3 (by simp)

/-- The bit terms are integers without `z` if the vector has none. -/
theorem getBitvectorTerms_sort {t : Term} {w : ℕ} {ts : List Term} (hs : sortOf t = some (.bv w)) (hz : NoZ t)
    (h : getBitvectorTerms t = .ok ts) : ∀ u ∈ ts, sortOf u = some .int ∧ NoZ u := by
  unfold getBitvectorTerms at h
  split at h
  · next xs e =>
    rw [matchPbb_some] at e
    rw [ok_inj] at h
    subst h e
    intro u hu
    exact ⟨(sort_pbb hs).2.2 u hu, fun hm => hz (by simp only [Term.fv, Term.mem_fvL]; exact ⟨u, hu, hm⟩)⟩
  · rw [hs] at h
    simp only [ok_inj] at h
    subst h
    intro u hu
    obtain ⟨i, -, rfl⟩ := List.mem_map.1 hu
    exact ⟨by simp [intOf, sortOf, sortOfL, hs, popSort], by simpa [NoZ, intOf, Term.fv, Term.fvL] using hz⟩

end Carcara
