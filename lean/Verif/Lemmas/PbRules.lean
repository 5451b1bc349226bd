import Verif.Lemmas.PbChoice

/-!
# Lemmas about the rules of pseudo-Boolean blasting
-/

namespace Carcara
open Classical Val Sem Spec

theorem ratCast_ge_one (z : ℤ) : (1 : Rat) ≤ (z : ℚ) ↔ 1 ≤ z := by exact_mod_cast Iff.rfl
theorem ratCast_ge_zero (z : ℤ) : (0 : Rat) ≤ (z : ℚ) ↔ 0 ≤ z := by exact_mod_cast Iff.rfl
theorem ratCast_eq_zero (z : ℤ) : (z : ℚ) = (0 : Rat) ↔ z = 0 := by exact_mod_cast Iff.rfl

/-- What an accepted step of an unsigned rule looks like and what its sums are. -/
structure UnsignedFacts (p q : Op) (k : Rat) (x y a b n : Term) (w : ℕ) (u v : Term) : Prop where
  number : n.asNumber = some k
  sortX : sortOf x = some (.bv w)
  sortY : sortOf y = some (.bv w)
  sortL : sortOf (.op p [x, y]) = some .bool
  sortR : sortOf (.op q [.op .sub [a, b], n]) = some .bool
  vals : ∀ M : Model, ZeroOneBits M x → ZeroOneBits M y →
    M.val a = .int (((M.bits w u).toNat % 2 ^ addends a : ℕ) : ℤ) ∧ M.val b = .int (((M.bits w v).toNat % 2 ^ addends b : ℕ) : ℤ)

theorem sort_step_sides {l r : Term} (h : sortOf (.op .equals [l, r]) = some .bool) (hl : sortOf l = some .bool) :
    sortOf r = some .bool := by
  obtain ⟨-, s, h1, h2⟩ := sort_equals.1 h
  rw [hl] at h1
  rw [h2, ← h1]

theorem sort_pbPair {p : Op} (hp : p = .equals ∨ p.IsBvCmp) {l r x y : Term} (hl : l = .op p [x, y])
    (hs : sortOf (.op .equals [l, r]) = some .bool) : sortOf l = some .bool ∧ (p = .equals → ∃ s, sortOf x = some s ∧ sortOf y = some s) := by
  subst hl
  obtain ⟨-, s, h1, -⟩ := sort_equals.1 hs
  rcases hp with rfl | hp
  · obtain ⟨rfl, r, h2, h3⟩ := sort_equals.1 h1
    exact ⟨h1, fun _ => ⟨r, h2, h3⟩⟩
  · obtain ⟨w, hx, hy⟩ := sort_bvCmp hp h1
    refine ⟨sort_bvCmp_bool hp hx hy, ?_⟩
    rintro rfl
    simp [Op.IsBvCmp] at hp

theorem pbUnsigned_facts {p q : Op} {k : Rat} (hp : p = .equals ∨ p.IsBvCmp) {c : Term} {rest : List Term} {ps : List (List Term)}
    {as : List Term} (h : pbUnsigned p q k (c :: rest) ps as = .ok ()) (hc : sortOf c = some .bool) :
    ∃ x y a b n w, c = unsignedStep p q x y a b n ∧ UnsignedFacts p q k x y a b n w x y := by
  simp only [pbUnsigned, bind_ok, Prod.exists, matchPbUnsigned_ok] at h
  obtain ⟨x, y, a, b, ⟨n, hn, rfl⟩, h⟩ := h
  obtain ⟨hl, he⟩ := sort_pbPair hp rfl hc
  have hr := sort_step_sides hc hl
  have : ∃ w, sortOf x = some (.bv w) ∧ sortOf y = some (.bv w) := by
    rcases hp with rfl | hp
    · obtain ⟨s, h1, h2⟩ := he rfl
      obtain ⟨w, rfl⟩ := checkPbConstraint_width h h1
      exact ⟨w, h1, h2⟩
    · exact sort_bvCmp hp hl
  obtain ⟨w, hx, hy⟩ := this
  exact ⟨x, y, a, b, n, w, rfl, hn, hx, hy, hl, hr, fun M zx zy => checkPbConstraint_ok h hx hy zx zy⟩

theorem pbUnsignedRev_facts {p q : Op} {k : Rat} (hp : p.IsBvCmp) {c : Term} {rest : List Term} {ps : List (List Term)}
    {as : List Term} (h : pbUnsignedRev p q k (c :: rest) ps as = .ok ()) (hc : sortOf c = some .bool) :
    ∃ x y a b n w, c = unsignedStep p q x y a b n ∧ UnsignedFacts p q k x y a b n w y x := by
  simp only [pbUnsignedRev, bind_ok, Prod.exists, matchPbUnsigned_ok] at h
  obtain ⟨x, y, a, b, ⟨n, hn, rfl⟩, h⟩ := h
  obtain ⟨hl, -⟩ := sort_pbPair (.inr hp) rfl hc
  have hr := sort_step_sides hc hl
  obtain ⟨w, hx, hy⟩ := sort_bvCmp hp hl
  exact ⟨x, y, a, b, n, w, rfl, hn, hx, hy, hl, hr, fun M zx zy => checkPbConstraint_ok h hy hx zy zx⟩

/-- The right-hand side of an accepted comparison. -/
theorem UnsignedFacts.ge {p : Op} {k : Rat} {x y a b n : Term} {w : ℕ} {u v : Term} (h : UnsignedFacts p .ge k x y a b n w u v) {M : Model}
    (zx : ZeroOneBits M x) (zy : ZeroOneBits M y) : M.Holds (.op .ge [.op .sub [a, b], n]) ↔
      k ≤ (((((M.bits w u).toNat % 2 ^ addends a : ℕ) : ℤ) - (((M.bits w v).toNat % 2 ^ addends b : ℕ) : ℤ) : ℤ) : ℚ) := by
  obtain ⟨ha, hb⟩ := h.vals M zx zy
  exact M.holds_ge_num (M.val_sub_int ha hb) h.number

/-- The right-hand side of an accepted equality. -/
theorem UnsignedFacts.eq {p : Op} {k : Rat} {x y a b n : Term} {w : ℕ} {u v : Term} (h : UnsignedFacts p .equals k x y a b n w u v) {M : Model}
    (zx : ZeroOneBits M x) (zy : ZeroOneBits M y) : M.Holds (.op .equals [.op .sub [a, b], n]) ↔
      (((((M.bits w u).toNat % 2 ^ addends a : ℕ) : ℤ) - (((M.bits w v).toNat % 2 ^ addends b : ℕ) : ℤ) : ℤ) : ℚ) = k := by
  obtain ⟨ha, hb⟩ := h.vals M zx zy
  exact M.holds_eq_num h.sortR (M.val_sub_int ha hb) h.number

/-- What an accepted step of a signed rule looks like and what its terms are. -/
structure SignedFacts (p : Op) (k : Rat) (x y a b c d n : Term) (m : ℕ) (u v : Term) : Prop where
  number : n.asNumber = some k
  sortX : sortOf x = some (.bv (m + 1))
  sortY : sortOf y = some (.bv (m + 1))
  sortL : sortOf (.op p [x, y]) = some .bool
  vals : ∀ M : Model, ZeroOneBits M x → ZeroOneBits M y →
    M.val a = .int (((M.bits (m + 1) u).toNat % 2 ^ addends a : ℕ) : ℤ) ∧ M.val b = .int (2 ^ m * bitVal (M.bits (m + 1) u) m) ∧
    M.val c = .int (2 ^ m * bitVal (M.bits (m + 1) v) m) ∧ M.val d = .int (((M.bits (m + 1) v).toNat % 2 ^ addends d : ℕ) : ℤ)

theorem checkPbSign_pos {n : ℕ} {sign x : Term} (h : checkPbSign n sign x = .ok ()) : ∃ m, n = m + 1 := by
  unfold checkPbSign at h
  split at h
  · simp only [bind_ok, Prod.exists, predPanic_ok] at h
    obtain ⟨_, _, _, _, _, _, _, m, rfl, -⟩ := h
    exact ⟨m, rfl⟩
  · simp only [bind_ok, Prod.exists, predPanic_ok] at h
    obtain ⟨_, _, _, _, _, _, _, _, _, _, m, rfl, -⟩ := h
    exact ⟨m, rfl⟩

theorem pbSigned_facts {p : Op} {k : Rat} (hp : p.IsBvCmp) {t : Term} {rest : List Term} {ps : List (List Term)}
    {as : List Term} (h : pbSigned p k (t :: rest) ps as = .ok ()) (hc : sortOf t = some .bool) :
    ∃ x y a b c d n m, t = signedStep p x y a b c d n ∧ SignedFacts p k x y a b c d n m x y := by
  simp only [pbSigned, bind_ok, Prod.exists, matchPbSigned_ok, getBitWidth_ok] at h
  obtain ⟨x, y, a, b, c, d, ⟨n, hn, rfl⟩, w, hw, _, h1, _, h2, h3⟩ := h
  obtain ⟨hl, -⟩ := sort_pbPair (.inr hp) rfl hc
  obtain ⟨w', hx, hy⟩ := sort_bvCmp hp hl
  rw [hw] at hx
  cases hx
  obtain ⟨m, rfl⟩ := checkPbSign_pos h1
  refine ⟨x, y, a, b, c, d, n, m, rfl, hn, hw, hy, hl, fun M zx zy => ?_⟩
  obtain ⟨e1, e2⟩ := checkPbConstraint_ok h3 hw hy zx zy
  obtain ⟨m1, e, e3⟩ := checkPbSign_ok h1 hw zx
  cases e
  obtain ⟨m2, e, e4⟩ := checkPbSign_ok h2 hy zy
  cases e
  exact ⟨e1, e3, e4, e2⟩

theorem pbSignedRev_facts {p : Op} {k : Rat} (hp : p.IsBvCmp) {t : Term} {rest : List Term} {ps : List (List Term)}
    {as : List Term} (h : pbSignedRev p k (t :: rest) ps as = .ok ()) (hc : sortOf t = some .bool) :
    ∃ x y a b c d n m, t = signedStep p x y a b c d n ∧ SignedFacts p k x y a b c d n m y x := by
  simp only [pbSignedRev, bind_ok, Prod.exists, matchPbSigned_ok, getBitWidth_ok] at h
  obtain ⟨x, y, a, b, c, d, ⟨n, hn, rfl⟩, w, hw, _, h1, _, h2, h3⟩ := h
  obtain ⟨hl, -⟩ := sort_pbPair (.inr hp) rfl hc
  obtain ⟨w', hx, hy⟩ := sort_bvCmp hp hl
  rw [hw] at hx
  cases hx
  obtain ⟨m, rfl⟩ := checkPbSign_pos h1
  refine ⟨x, y, a, b, c, d, n, m, rfl, hn, hw, hy, hl, fun M zx zy => ?_⟩
  obtain ⟨e1, e2⟩ := checkPbConstraint_ok h3 hy hw zy zx
  obtain ⟨m1, e, e3⟩ := checkPbSign_ok h1 hy zy
  cases e
  obtain ⟨m2, e, e4⟩ := checkPbSign_ok h2 hw zx
  cases e
  exact ⟨e1, e3, e4, e2⟩

/-- The right-hand side of an accepted signed comparison with sums of full length. -/
theorem SignedFacts.ge {p : Op} {k : Rat} {x y a b c d n : Term} {m : ℕ} {u v : Term} (h : SignedFacts p k x y a b c d n m u v) {M : Model}
    (zx : ZeroOneBits M x) (zy : ZeroOneBits M y) (ha : addends a = m) (hd : addends d = m) :
    M.Holds (.op .ge [.op .add [.op .sub [a, b], .op .sub [c, d]], n]) ↔
      k ≤ (((M.bits (m + 1) u).toInt - (M.bits (m + 1) v).toInt : ℤ) : ℚ) := by
  obtain ⟨e1, e2, e3, e4⟩ := h.vals M zx zy
  rw [M.holds_ge_num (M.val_add_int (M.val_sub_int e1 e2) (M.val_sub_int e3 e4)) h.number]
  rw [toInt_bitSum, toInt_bitSum, bitSum_zero, bitSum_zero, ha, hd]
  have : ∀ p q r s : ℤ, p - q + (r - s) = p - q - (s - r) := by intros; ring
  rw [this]

theorem pbVarLoop_ok {M : Model} {x : Term} {w : ℕ} (hx : sortOf x = some (.bv w)) : ∀ {pbs : List Term} {i : ℕ},
    pbVarLoop x i pbs = .ok () → ∀ k (h : k < pbs.length), M.val pbs[k] = .int (bitVal (M.bits w x) (i + k))
  | [], _, _, k, hk => absurd hk (by simp)
  | pb :: pbs, i, h, k, hk => by
    simp only [pbVarLoop, bind_ok, orErr_ok, Prod.exists, matchIntOf_some, pbAsIntegerErr_ok, require_ok] at h
    obtain ⟨_, _, rfl, _, rfl, _, rfl, _, rfl, h⟩ := h
    cases k with
    | zero => exact M.val_intOf hx i
    | succ k =>
      simp only [List.getElem_cons_succ]
      rw [pbVarLoop_ok hx h k (by simpa using hk), show i + 1 + k = i + (k + 1) by omega]

theorem toI32Wrapping_small {z : ℤ} (h : -2 ^ 31 ≤ z ∧ z < 2 ^ 31) : toI32Wrapping z = z := by
  unfold toI32Wrapping
  rw [Int.emod_eq_of_lt] <;> omega

/-- The value of the entries of an accepted `pbbterm` of constants. -/
theorem pbConstLoop_ok {ts : List Term} (hs : ∀ z : ℤ, .const (.int z) ∈ ts → -2 ^ 31 ≤ z ∧ z < 2 ^ 31) : ∀ {i : ℕ} {acc v : ℤ},
    pbConstLoop acc i ts = .ok v → ∃ n : ℕ, n < 2 ^ ts.length ∧ v = acc + 2 ^ i * n ∧
      ∀ k (h : k < ts.length), ts[k] = .const (.int (if n.testBit k then 1 else 0)) := by
  induction ts with
  | nil =>
    intro i acc v h
    simp only [pbConstLoop, ok_inj] at h
    exact ⟨0, by simp, by simp [h], fun k hk => absurd hk (by simp)⟩
  | cons t ts ih =>
    intro i acc v h
    simp only [pbConstLoop, bind_ok, orErr_ok, pbAsInteger_some] at h
    obtain ⟨z, rfl, h⟩ := h
    rw [toI32Wrapping_small (hs z (by simp))] at h
    have ih := @ih (fun z hz => hs z (by simp [hz])) (i + 1)
    split at h
    · next e =>
      subst e
      obtain ⟨n, h1, rfl, h2⟩ := ih h
      refine ⟨2 * n, by rw [List.length_cons, pow_succ]; omega, by rw [pow_succ]; push_cast; ring, fun k hk => ?_⟩
      cases k with
      | zero => simp
      | succ k => simp only [List.getElem_cons_succ, h2 k (by simpa using hk), Nat.testBit_succ]; simp
    · split at h
      · next e =>
        subst e
        obtain ⟨n, h1, rfl, h2⟩ := ih h
        refine ⟨2 * n + 1, by rw [List.length_cons, pow_succ]; omega, by rw [pow_succ]; push_cast; ring, fun k hk => ?_⟩
        cases k with
        | zero => simp
        | succ k =>
          simp only [List.getElem_cons_succ, h2 k (by simpa using hk), Nat.testBit_succ]
          rw [show (2 * n + 1) / 2 = n by omega]
      · simp at h

/-! ## The conditions -/

theorem zeroOneBits_var {M : Model} {x : String} {s : Srt} : ZeroOneBits M (.var x s) := fun _ h => by simp at h

theorem zeroOneBits_const {M : Model} {c : Const} : ZeroOneBits M (.const c) := fun _ h => by simp at h

theorem FullSums.intro {M : Model} {p q : Op} {x y a b n : Term} {w : ℕ} (zx : ZeroOneBits M x) (zy : ZeroOneBits M y)
    (hx : sortOf x = some (.bv w)) (ha : addends a = w) (hb : addends b = w) : FullSums M (unsignedStep p q x y a b n) := by
  intro p' q' x' y' a' b' n' e
  simp only [unsignedStep, Term.op.injEq, List.cons.injEq, true_and, and_true] at e
  obtain ⟨⟨rfl, rfl, rfl⟩, rfl, ⟨rfl, rfl⟩, rfl⟩ := e
  refine ⟨zx, zy, fun w' h => ?_⟩
  rw [hx] at h
  cases h
  exact ⟨ha, hb⟩

theorem FullSigned.intro {M : Model} {p : Op} {x y a b c d n : Term} {w : ℕ} (zx : ZeroOneBits M x) (zy : ZeroOneBits M y)
    (hx : sortOf x = some (.bv w)) (ha : addends a + 1 = w) (hb : addends d + 1 = w) : FullSigned M (signedStep p x y a b c d n) := by
  intro p' x' y' a' b' c' d' n' e
  simp only [signedStep, Term.op.injEq, List.cons.injEq, true_and, and_true] at e
  obtain ⟨⟨rfl, rfl, rfl⟩, ⟨⟨rfl, rfl⟩, rfl, rfl⟩, rfl⟩ := e
  refine ⟨zx, zy, fun w' h => ?_⟩
  rw [hx] at h
  cases h
  exact ⟨ha, hb⟩

theorem GoodOperands.intro {M : Model} {o : Op} {x y r : Term} (zx : ZeroOneBits M x) (zy : ZeroOneBits M y) (nx : NoZ x) (ny : NoZ y) :
    GoodOperands M (.op .equals [.op o [x, y], r]) := by
  intro o' x' y' r' e
  simp only [Term.op.injEq, List.cons.injEq, true_and, and_true] at e
  obtain ⟨⟨rfl, rfl, rfl⟩, rfl⟩ := e
  exact ⟨zx, zy, nx, ny⟩

/-! ## Terms of the examples -/

namespace PbEx

def num (z : ℤ) : Term := .const (.int z)
def x : Term := .var "x" (.bv 2)
def y : Term := .var "y" (.bv 2)
def bit (t : Term) (i : ℤ) : Term := .paramOp .bvIntOf [num i] [t]
/-- The sum of both bits. -/
def full (t : Term) : Term := .op .add [.op .mult [num 1, bit t 0], .op .mult [num 2, bit t 1]]
/-- The lower bit. -/
def low (t : Term) : Term := .op .mult [num 1, bit t 0]
/-- The sign bit. -/
def sign (t : Term) : Term := .op .mult [num 2, bit t 1]
/-- The choice terms. -/
def xorBit (a b : Term) : Term := xorChoice a b
def andBit (a b : Term) : Term := andChoice a b
def pbb (ts : List Term) : Term := .op .bvPBbTerm ts

end PbEx

end Carcara
