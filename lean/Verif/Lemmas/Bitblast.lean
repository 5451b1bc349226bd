import Verif.Model.Bitvectors
import Verif.Lemmas.Bv
import Verif.Lemmas.Simplify
import Verif.Lemmas.Cnf

/-! # The bits computed by the bit-blasting rules -/

namespace Carcara
open Classical Val Sem

/-- The terms `x 0, …, x (w - 1)` denote the bits of `b`. -/
def Model.BitsAre (M : Model) {w : ℕ} (x : ℕ → Term) (b : BitVec w) : Prop :=
  ∀ i < w, (M.Holds (x i) ↔ b.getLsbD i = true)

/-- The terms `x 0, …, x (w - 1)` are Boolean. -/
def BitsSorted (w : ℕ) (x : ℕ → Term) : Prop := ∀ i < w, sortOf (x i) = some .bool

theorem bitAt_tabulate {w i : ℕ} {f : ℕ → Term} (h : i < w) : bitAt (tabulate w f) i = f i := by
  simp [bitAt, tabulate, h]

theorem length_tabulate {w : ℕ} {f : ℕ → Term} : (tabulate w f).length = w := by simp [tabulate]

theorem bitAt_eq {x : List Term} {i : ℕ} (h : i < x.length) : bitAt x i = x[i] := by simp [bitAt, h]

theorem bitAt_mem {x : List Term} {i : ℕ} (h : i < x.length) : bitAt x i ∈ x := by
  rw [bitAt_eq h]; exact List.getElem_mem h

theorem sort_bb {xs : List Term} {s : Srt} (h : sortOf (.op .bvBbTerm xs) = some s) :
    s = .bv xs.length ∧ 1 ≤ xs.length ∧ ∀ x ∈ xs, sortOf x = some .bool := by
  obtain ⟨ss, h1, h2⟩ := sortOf_op (by decide) h
  simp only [opSort, Option.ite_none_right_eq_some, Option.some.injEq, allSort_iff] at h2
  obtain ⟨hl, hts⟩ := sortOfL_all h1
  obtain ⟨⟨h3, h4⟩, rfl⟩ := h2
  exact ⟨by rw [hl], by omega, fun t ht => by
    obtain ⟨s, hs, e⟩ := hts t ht
    rw [e, h4 s hs]⟩

theorem sort_bitOf {t : Term} {w i : ℕ} (h : sortOf t = some (.bv w)) : sortOf (bitOf t i) = some .bool := by
  simp [bitOf, sortOf, sortOfL, h, popSort]

theorem holds_mkEq {M : Model} {a b : Term} (ha : sortOf a = some .bool) (hb : sortOf b = some .bool) :
    M.Holds (mkEq a b) ↔ (M.Holds a ↔ M.Holds b) :=
  M.holds_eq_bool (sort_equals.2 ⟨rfl, _, ha, hb⟩) (Or.inl ha)

namespace Model
variable {M : Model}

theorem holds_bitOf {t : Term} {w : ℕ} (h : sortOf t = some (.bv w)) (i : ℕ) :
    M.Holds (bitOf t i) ↔ (M.bits w t).getLsbD i = true := by
  have hv := M.val_bits h
  have e : M.val (bitOf t i) = evalPop M.I .bvBitOf [.int i] [M.val t] := by
    simp [val, bitOf, eval, evalL, evalConst]
  rw [Holds, e, hv]
  simp [evalPop, stdPop]

theorem val_bb {w : ℕ} {xs : List Term} {b : BitVec w} (hl : xs.length = w) (h : M.BitsAre (bitAt xs) b) :
    M.val (mkBb xs) = .bv w b := by
  subst hl
  have key : ∀ i, (BitVec.ofBoolListLE (xs.map fun v => decide (M.Holds v))).getLsbD i = b.getLsbD i := by
    intro i
    rw [BitVec.getLsbD_ofBoolListLE]
    by_cases hi : i < xs.length
    · have := h i hi
      rw [bitAt_eq hi] at this
      rw [Bool.eq_iff_iff, ← this]
      simp [List.getD, hi]
    · rw [BitVec.getLsbD_of_ge _ _ (by omega)]
      simp [List.getD, List.getElem?_eq_none (by simpa using hi : xs.length ≤ i)]
  have hval : M.val (mkBb xs) = .bv (xs.map M.val).length
      ((BitVec.ofBoolListLE ((xs.map M.val).map fun v => decide v.T)).cast (by simp)) := by
    simp [mkBb, val_op, evalOp, stdOp]
  rw [hval]
  have hw : (xs.map M.val).length = xs.length := by simp
  have : ∀ (n m : ℕ) (e : n = m) (p : BitVec n) (q : BitVec m), (∀ i, p.getLsbD i = q.getLsbD i) →
      (Val.bv n p : Val M.I.U) = .bv m q := by
    rintro n m rfl p q hpq
    rw [BitVec.eq_of_getLsbD_eq fun i _ => hpq i]
  refine this _ _ hw _ _ fun i => ?_
  rw [BitVec.getLsbD_cast, ← key i, BitVec.getLsbD_ofBoolListLE, BitVec.getLsbD_ofBoolListLE, List.map_map]
  rfl

theorem val_bb_tabulate {w : ℕ} {f : ℕ → Term} {b : BitVec w} (h : M.BitsAre f b) :
    M.val (mkBb (tabulate w f)) = .bv w b :=
  val_bb length_tabulate fun i hi => by rw [bitAt_tabulate hi]; exact h i hi

/-- The bits of a well-sorted `bbterm`. -/
theorem bits_bb {xs : List Term} : M.BitsAre (bitAt xs) (M.bits xs.length (mkBb xs)) := by
  let b : BitVec xs.length :=
    (BitVec.ofBoolListLE (xs.map fun v => decide (M.Holds v))).cast (by simp)
  have hb : M.BitsAre (bitAt xs) b := by
    intro i hi
    simp only [b, BitVec.getLsbD_cast, BitVec.getLsbD_ofBoolListLE]
    rw [bitAt_eq hi]
    simp [List.getD, hi]
  rw [M.bits_of_val (val_bb rfl hb)]
  exact hb

end Model

theorem bitsOf_ok {t : Term} {w : ℕ} {x : ℕ → Term} (h : bitsOf t w = .ok x) :
    x = bitAt (buildTermVec t w) ∧ w ≤ (buildTermVec t w).length := by
  simp only [bitsOf, bind_ok, readable, ok_inj] at h
  obtain ⟨_, h1, rfl⟩ := h
  split at h1
  · exact ⟨rfl, ‹_›⟩
  · simp at h1

theorem buildTermVec_ok {t : Term} {w : ℕ} (h : sortOf t = some (.bv w)) :
    (buildTermVec t w).length = w ∧ BitsSorted w (bitAt (buildTermVec t w)) ∧
    ∀ M : Model, M.BitsAre (bitAt (buildTermVec t w)) (M.bits w t) := by
  unfold buildTermVec
  split
  · next xs =>
    obtain ⟨e, -, hs⟩ := sort_bb h
    cases e
    exact ⟨rfl, fun i hi => hs _ (bitAt_mem hi), fun M => Model.bits_bb⟩
  · have e : (List.range w).map (bitOf t) = tabulate w (bitOf t) := rfl
    rw [e]
    refine ⟨length_tabulate, fun i hi => ?_, fun M i hi => ?_⟩
    · rw [bitAt_tabulate hi]; exact sort_bitOf h
    · rw [bitAt_tabulate hi]; exact Model.holds_bitOf h i

theorem bitsOf_sound {t : Term} {w : ℕ} {x : ℕ → Term} (h : bitsOf t w = .ok x) (hs : sortOf t = some (.bv w)) :
    BitsSorted w x ∧ ∀ M : Model, M.BitsAre x (M.bits w t) := by
  obtain ⟨rfl, -⟩ := bitsOf_ok h
  exact (buildTermVec_ok hs).2

theorem bvSizeOf_ok {t : Term} {w : ℕ} : bvSizeOf t = .ok w ↔ sortOf t = some (.bv w) := by
  unfold bvSizeOf
  split
  · next w' e => simp [e]
  · next h => simp only [panic_ok, false_iff]; exact h w

/-! ## Adders -/

section adder
variable {M : Model} {w : ℕ} {x y : ℕ → Term} {a b : BitVec w}

theorem carryAt_sound (hx : M.BitsAre x a) (hy : M.BitsAre y b) {c : Term} {k : Bool} (hc : M.Holds c ↔ k = true) :
    ∀ i ≤ w, (M.Holds (carryAt x y c i) ↔ BitVec.carry i a b k = true)
  | 0, _ => by simpa [carryAt] using hc
  | i + 1, h => by
    have ih := carryAt_sound hx hy hc i (by omega)
    have h1 := hx i (by omega)
    have h2 := hy i (by omega)
    rw [BitVec.carry_succ]
    simp only [carryAt, mkOr, mkAnd, mkXor, Model.holds_or, Model.holds_and, Model.holds_xor, List.mem_cons,
      List.not_mem_nil, or_false, exists_eq_or_imp, exists_eq_left, forall_eq_or_imp, forall_eq, ih, h1, h2]
    cases a.getLsbD i <;> cases b.getLsbD i <;> cases BitVec.carry i a b k <;> simp [Bool.atLeastTwo]

theorem sumAt_sound (hx : M.BitsAre x a) (hy : M.BitsAre y b) {c : Term} {k : Bool} (hc : M.Holds c ↔ k = true) :
    M.BitsAre (sumAt x y c) (a + b + (BitVec.ofBool k).setWidth w) := by
  intro i hi
  rw [BitVec.getLsbD_add_add_bool hi]
  simp only [sumAt, mkXor, Model.holds_xor, carryAt_sound hx hy hc i (by omega), hx i hi, hy i hi]
  cases a.getLsbD i <;> cases b.getLsbD i <;> cases BitVec.carry i a b k <;> simp

theorem add_sound (hx : M.BitsAre x a) (hy : M.BitsAre y b) : M.BitsAre (sumAt x y .fls) (a + b) := by
  have := sumAt_sound hx hy (c := .fls) (k := false) (by simp [Term.fls])
  simpa using this

theorem neg_sound (hx : M.BitsAre x a) :
    M.BitsAre (sumAt (fun i => mkNot (x i)) (fun _ => .fls) .tru) (-a) := by
  have hn : M.BitsAre (fun i => mkNot (x i)) (~~~a) := by
    intro i hi
    simp [mkNot, hx i hi, hi]
  have h0 : M.BitsAre (fun _ => Term.fls) (0#w) := by
    intro i hi
    simp [Term.fls]
  have := sumAt_sound hn h0 (c := .tru) (k := true) (by simp [Term.tru])
  rw [BitVec.neg_eq_not_add]
  intro i hi
  rw [this i hi]
  have e : (BitVec.ofBool true).setWidth w = 1#w := by
    apply BitVec.eq_of_toNat_eq
    simp
  rw [e, BitVec.add_zero]

/-! ## Multiplier -/

/-- The summand with index `j`. -/
def mulSummand (a b : BitVec w) (j : ℕ) : BitVec w := if b.getLsbD j then a <<< j else 0

theorem mulSummand_bit (a b : BitVec w) (j i : ℕ) (hi : i < w) :
    (mulSummand a b j).getLsbD i = (b.getLsbD j && (decide (j ≤ i) && a.getLsbD (i - j))) := by
  unfold mulSummand
  split
  · next h => rw [BitVec.getLsbD_shiftLeft]; simp only [hi, h]; by_cases hj : i < j <;> simp [hj] <;> omega
  · next h => simp [h]

theorem shiftAt_sound (hx : M.BitsAre x a) (hy : M.BitsAre y b) (j : ℕ) :
    M.BitsAre (shiftAt x y j) (mulSummand a b j) := by
  intro i hi
  rw [mulSummand_bit a b j i hi]
  unfold shiftAt
  split
  · next h => simp [mkAnd, hx (i - j) (by omega), hy j (by omega), h]
  · next h => simp [Term.fls, h]

/-- No carry reaches position `j` when a summand without bits below `j` is added. -/
theorem carry_low (r s : BitVec w) {j : ℕ} (h : ∀ i < j, s.getLsbD i = false) :
    ∀ i ≤ j, BitVec.carry i r s false = false
  | 0, _ => by simp
  | i + 1, hi => by
    rw [BitVec.carry_succ, carry_low r s h i (by omega), h i (by omega)]
    simp [Bool.atLeastTwo]

theorem mulSummand_low (a b : BitVec w) {j i : ℕ} (h : i < j) : (mulSummand a b j).getLsbD i = false := by
  by_cases hi : i < w
  · rw [mulSummand_bit a b j i hi]; simp [Nat.not_le.2 h]
  · exact BitVec.getLsbD_of_ge _ _ (by omega)

theorem mulCarryAt_sound {r s : ℕ → Term} {p q : BitVec w} (hr : M.BitsAre r p) (hs : M.BitsAre s q) {j : ℕ}
    (hq : ∀ i < j, q.getLsbD i = false) :
    ∀ i ≤ w, (M.Holds (mulCarryAt r s j i) ↔ BitVec.carry i p q false = true)
  | 0, _ => by simp [mulCarryAt, Term.fls]
  | i + 1, h => by
    have ih := mulCarryAt_sound hr hs hq i (by omega)
    unfold mulCarryAt
    split
    · have h1 := hr i (by omega)
      have h2 := hs i (by omega)
      rw [BitVec.carry_succ]
      simp only [mkOr, mkAnd, mkXor, Model.holds_or, Model.holds_and, Model.holds_xor, List.mem_cons,
        List.not_mem_nil, or_false, exists_eq_or_imp, exists_eq_left, forall_eq_or_imp, forall_eq, ih, h1, h2]
      cases p.getLsbD i <;> cases q.getLsbD i <;> cases BitVec.carry i p q false <;> simp [Bool.atLeastTwo]
    · rw [carry_low p q hq (i + 1) (by omega)]; simp [Term.fls]

/-- Later summands do not change the bit `i`. -/
theorem mulRec_stable (a b : BitVec w) {i : ℕ} (hi : i < w) (j : ℕ) :
    (BitVec.mulRec a b (i + j)).getLsbD i = (BitVec.mulRec a b i).getLsbD i := by
  induction j with
  | zero => rfl
  | succ j ih =>
    rw [← Nat.add_assoc, BitVec.mulRec_succ_eq, BitVec.getLsbD_add hi, ih]
    change (_ ^^ ((mulSummand a b (i + j + 1)).getLsbD i ^^ BitVec.carry i _ (mulSummand a b (i + j + 1)) false)) = _
    rw [mulSummand_low a b (by omega), carry_low _ _ (fun k hk => mulSummand_low a b hk) i (by omega : i ≤ i + j + 1)]
    simp

theorem length_mulRows (size : ℕ) (x y : ℕ → Term) (j : ℕ) : (mulRows size x y j).length = j + 1 := by
  induction j with
  | zero => rfl
  | succ j ih => simp [mulRows, ih]

theorem cell_mulRows_last (size : ℕ) (x y : ℕ → Term) (j i : ℕ) :
    cell (mulRows size x y (j + 1)) (j + 1) i = bitAt (mulRow size x y (mulRows size x y j) (j + 1)) i := by
  simp [cell, mulRows, List.getElem?_append_right, length_mulRows]

theorem cell_mulRows_old (size : ℕ) (x y : ℕ → Term) {j k i : ℕ} (h : k ≤ j) :
    cell (mulRows size x y (j + 1)) k i = cell (mulRows size x y j) k i := by
  simp [cell, mulRows, List.getElem?_append_left, length_mulRows, Nat.lt_succ_of_le h]

theorem mulRows_sound (hx : M.BitsAre x a) (hy : M.BitsAre y b) :
    ∀ j, ∀ k ≤ j, M.BitsAre (cell (mulRows w x y j) k) (BitVec.mulRec a b k)
  | 0, k, hk => by
    obtain rfl : k = 0 := by omega
    intro i hi
    have : cell (mulRows w x y 0) 0 i = shiftAt x y 0 i := by simp [cell, mulRows, bitAt_tabulate hi]
    rw [this, shiftAt_sound hx hy 0 i hi, BitVec.mulRec_zero_eq]
    simp [mulSummand]
  | j + 1, k, hk => by
    have ih := mulRows_sound hx hy j
    by_cases hkj : k ≤ j
    · intro i hi
      rw [cell_mulRows_old _ _ _ hkj]
      exact ih k hkj i hi
    · obtain rfl : k = j + 1 := by omega
      intro i hi
      rw [cell_mulRows_last, mulRow, bitAt_tabulate hi]
      split
      · next h0 =>
        subst h0
        rw [shiftAt_sound hx hy 0 0 hi]
        have := mulRec_stable a b hi (j + 1)
        rw [Nat.zero_add] at this
        rw [this, BitVec.mulRec_zero_eq]
        simp [mulSummand]
      · split
        · next hgt =>
          rw [ih i (by omega) i hi]
          have := mulRec_stable a b hi (j + 1 - i)
          rw [Nat.add_sub_cancel' (by omega)] at this
          rw [this]
        · have hr := ih j (by omega)
          have hs := shiftAt_sound hx hy (j + 1)
          rw [BitVec.mulRec_succ_eq, BitVec.getLsbD_add hi]
          change _ ↔ (_ ^^ ((mulSummand a b (j + 1)).getLsbD i ^^
            BitVec.carry i _ (mulSummand a b (j + 1)) false)) = true
          have hc := mulCarryAt_sound hr hs (fun k hk => mulSummand_low a b hk) i (by omega)
          simp only [mkXor, Model.holds_xor, Nat.add_sub_cancel, hc, hr i hi, hs i hi]
          generalize (BitVec.mulRec a b j).getLsbD i = p
          generalize (mulSummand a b (j + 1)).getLsbD i = q
          generalize BitVec.carry i _ _ _ = c
          cases p <;> cases q <;> cases c <;> simp

theorem mul_sound (hx : M.BitsAre x a) (hy : M.BitsAre y b) (hw : w ≠ 0) :
    M.BitsAre (cell (mulRows w x y (w - 1)) (w - 1)) (a * b) := by
  intro i hi
  rw [mulRows_sound hx hy (w - 1) (w - 1) le_rfl i hi, BitVec.getLsbD_mul]
  obtain ⟨n, rfl⟩ := Nat.exists_eq_succ_of_ne_zero hw
  have e : BitVec.mulRec a b (n + 1) = BitVec.mulRec a b n := by
    rw [BitVec.mulRec_succ_eq, BitVec.getLsbD_of_ge b (n + 1) (by omega)]
    simp
  exact (congrArg (fun v : BitVec (n + 1) => v.getLsbD i = true) e).symm.to_iff

/-! ## Comparisons -/

theorem ultAt_sound (hx : M.BitsAre x a) (hy : M.BitsAre y b) (sx : BitsSorted w x) (sy : BitsSorted w y) :
    ∀ i < w, (M.Holds (ultAt x y i) ↔ BitVec.carry (i + 1) a (~~~b) true = false)
  | 0, h => by
    rw [BitVec.carry_succ]
    simp only [ultAt, mkAnd, mkNot, Model.holds_and, Model.holds_not, List.mem_cons, List.not_mem_nil, or_false,
      forall_eq_or_imp, forall_eq, hx 0 h, hy 0 h, BitVec.getLsbD_not, h]
    cases a.getLsbD 0 <;> cases b.getLsbD 0 <;> simp [Bool.atLeastTwo]
  | i + 1, h => by
    have ih := ultAt_sound hx hy sx sy i (by omega)
    rw [BitVec.carry_succ]
    have he : M.Holds (mkEq (x (i + 1)) (y (i + 1))) ↔ (M.Holds (x (i + 1)) ↔ M.Holds (y (i + 1))) :=
      holds_mkEq (sx _ h) (sy _ h)
    simp only [ultAt, mkAnd, mkNot, mkOr, Model.holds_or, Model.holds_and, Model.holds_not, List.mem_cons,
      List.not_mem_nil, or_false, exists_eq_or_imp, exists_eq_left, forall_eq_or_imp, forall_eq, he, ih,
      hx _ h, hy _ h, BitVec.getLsbD_not, h]
    cases a.getLsbD (i + 1) <;> cases b.getLsbD (i + 1) <;> cases BitVec.carry (i + 1) a (~~~b) true <;>
      simp [Bool.atLeastTwo]

end adder

/-! ## Rules with any number of arguments -/

/-- The term has the value `b` and its vector the bits of `b`. -/
def Model.Rep (M : Model) {w : ℕ} (t : Term) (b : BitVec w) : Prop :=
  M.val t = .bv w b ∧ ∀ x, bitsOf t w = .ok x → M.BitsAre x b

theorem rep_of_sort {M : Model} {w : ℕ} {t : Term} (h : sortOf t = some (.bv w)) : M.Rep t (M.bits w t) :=
  ⟨M.val_bits h, fun _ hx => (bitsOf_sound hx h).2 M⟩

theorem rep_bb {M : Model} {w : ℕ} {f : ℕ → Term} {b : BitVec w} (h : M.BitsAre f b) :
    M.Rep (mkBb (tabulate w f)) b := by
  refine ⟨Model.val_bb_tabulate h, fun x hx => ?_⟩
  obtain ⟨rfl, -⟩ := bitsOf_ok hx
  intro i hi
  change M.Holds (bitAt (tabulate w f) i) ↔ _
  rw [bitAt_tabulate hi]
  exact h i hi

/-- A function combining two vectors computes `g`. -/
def Computes (f : ℕ → Term → Term → Res Term) (g : (w : ℕ) → BitVec w → BitVec w → BitVec w) : Prop :=
  ∀ (M : Model) (w : ℕ) (s t r : Term) (a b : BitVec w), M.Rep s a → M.Rep t b → f w s t = .ok r → M.Rep r (g w a b)

theorem combine_sound {f : ℕ → Term → Term → Res Term} {g : (w : ℕ) → BitVec w → BitVec w → BitVec w}
    (hf : Computes f g) {M : Model} {w : ℕ} :
    ∀ {ts : List Term} {t r : Term} {a : BitVec w}, M.Rep t a → (∀ u ∈ ts, sortOf u = some (.bv w)) →
      combine (f w) t ts = .ok r → M.Rep r ((ts.map (M.bits w)).foldl (g w) a)
  | [], t, r, a, ht, _, h => by
    simp only [combine, ok_inj] at h
    exact h ▸ ht
  | u :: ts, t, r, a, ht, hu, h => by
    simp only [combine, bind_ok] at h
    obtain ⟨t', h1, h2⟩ := h
    exact combine_sound hf (ts := ts) (hf M w t u t' a _ ht (rep_of_sort (hu u (by simp))) h1) (fun v hv => hu v (by simp [hv])) h2

theorem bbNary_sound {o : Op} {f : ℕ → Term → Term → Res Term} {g : (w : ℕ) → BitVec w → BitVec w → BitVec w}
    (hf : Computes f g) (ho : o = .bvAdd ∨ o = .bvMul ∨ o = .bvAnd ∨ o = .bvOr ∨ o = .bvXor)
    (hg : ∀ (I : Interp) vs, stdOp I o vs = bvNary g vs) : SoundRule (bbNary o f) := by
  intro c ps as h hc _ M _
  simp only [bbNary, bind_ok, get1_ok, match2_ok, matchOp_ok, Prod.exists] at h
  obtain ⟨_, rfl, l, res, rfl, args, rfl, h⟩ := h
  obtain ⟨-, s, hl, -⟩ := sort_equals.1 (hc _ (List.mem_singleton_self _))
  obtain ⟨w, rfl, -, hs⟩ := sort_bvNary ho hl
  rw [Model.sat_singleton, M.holds_eq]
  match args with
  | [] => simp at h
  | t :: ts =>
    simp only [bind_ok, bvSizeOf_ok, assertEq_ok] at h
    obtain ⟨w', hw, _, -, r, h1, rfl⟩ := h
    rw [hs t (by simp)] at hw
    cases hw
    rw [M.bits_nary g (hg M.I) hs]
    exact (combine_sound hf (rep_of_sort (hs t (by simp))) (fun u hu => hs u (by simp [hu])) h1).1.symm

theorem bitwise_computes {k : Term → Term → Term} {g : (w : ℕ) → BitVec w → BitVec w → BitVec w}
    (h : ∀ (M : Model) (w i : ℕ) (s t : Term) (a b : BitVec w), i < w → (M.Holds s ↔ a.getLsbD i = true) →
      (M.Holds t ↔ b.getLsbD i = true) → (M.Holds (k s t) ↔ (g w a b).getLsbD i = true)) :
    Computes (bitwise k) g := by
  intro M w s t r a b hs ht hr
  simp only [bitwise, bind_ok, ok_inj] at hr
  obtain ⟨x, hx, y, hy, rfl⟩ := hr
  exact rep_bb fun i hi => h M w i _ _ a b hi (hs.2 x hx i hi) (ht.2 y hy i hi)

theorem adder_computes : Computes rippleCarryAdder fun _ a b => a + b := by
  intro M w s t r a b hs ht hr
  simp only [rippleCarryAdder, bind_ok, ok_inj] at hr
  obtain ⟨x, hx, y, hy, rfl⟩ := hr
  exact rep_bb (add_sound (hs.2 x hx) (ht.2 y hy))

theorem multiplier_computes : Computes shiftAddMultiplier fun _ a b => a * b := by
  intro M w s t r a b hs ht hr
  simp only [shiftAddMultiplier, bind_ok] at hr
  obtain ⟨x, hx, y, hy, hr⟩ := hr
  split at hr
  · simp at hr
  · next hw =>
    simp only [ok_inj] at hr
    subst hr
    exact rep_bb (mul_sound (hs.2 x hx) (ht.2 y hy) hw)

/-! ## Unary and binary rules -/

theorem sort_bvBin' {o : Op} (ho : o = .bvXNor ∨ o = .bvComp ∨ o = .bvULt ∨ o = .bvSLt ∨ o = .equals) {a b : Term}
    {s : Srt} (h : sortOf (.op o [a, b]) = some s) {w : ℕ} (ha : sortOf a = some (.bv w)) :
    sortOf b = some (.bv w) := by
  rcases ho with rfl | ho
  · obtain ⟨w', a', b', -, e, h1, h2⟩ := sort_bvBin (by simp) h
    cases e
    rw [ha] at h1
    cases h1
    exact h2
  · obtain ⟨ss, h1, h2⟩ := sortOf_op (by rcases ho with rfl | rfl | rfl | rfl <;> decide) h
    rw [sortOfL_cons] at h1
    obtain ⟨s1, ss1, rfl, h1, h3⟩ := h1
    rw [sortOfL_cons] at h3
    obtain ⟨s2, ss2, rfl, h3, h4⟩ := h3
    rw [ha] at h1
    cases h1
    rw [h3]
    rcases ho with rfl | rfl | rfl | rfl <;> simp [opSort, sameBv, allSort] at h2 <;> simp [h2]

theorem bbBinary_sound {o : Op} (ho : o = .bvXNor ∨ o = .bvComp ∨ o = .bvULt ∨ o = .bvSLt ∨ o = .equals)
    {c : List Term} {w : ℕ} {x y : ℕ → Term} {res : Term} (h : bbBinary o c = .ok (w, x, y, res)) (hc : ClauseOK c) :
    ∃ a b, c = [.op .equals [.op o [a, b], res]] ∧ sortOf a = some (.bv w) ∧ sortOf b = some (.bv w) ∧
      BitsSorted w x ∧ BitsSorted w y ∧ ∀ M : Model, M.BitsAre x (M.bits w a) ∧ M.BitsAre y (M.bits w b) := by
  simp only [bbBinary, bind_ok, get1_ok, match2_ok, bvSizeOf_ok, Prod.exists, ok_inj, Prod.mk.injEq] at h
  obtain ⟨_, rfl, _, _, rfl, a, b, rfl, _, ha, _, hx, _, hy, rfl, rfl, rfl, rfl⟩ := h
  obtain ⟨-, s, hl, -⟩ := sort_equals.1 (hc _ (List.mem_singleton_self _))
  have hb := sort_bvBin' ho hl ha
  obtain ⟨sx, bx⟩ := bitsOf_sound hx ha
  obtain ⟨sy, bys⟩ := bitsOf_sound hy hb
  exact ⟨a, b, rfl, ha, hb, sx, sy, fun M => ⟨bx M, bys M⟩⟩

theorem bbUnary_sound {o : Op} {c : List Term} {w : ℕ} {x : ℕ → Term} {res : Term}
    (h : bbUnary o c = .ok (w, x, res)) :
    ∃ a, c = [.op .equals [.op o [a], res]] ∧ sortOf a = some (.bv w) ∧ ∀ M : Model, M.BitsAre x (M.bits w a) := by
  simp only [bbUnary, bind_ok, get1_ok, match2_ok, match1_ok, bvSizeOf_ok, Prod.exists, ok_inj, Prod.mk.injEq] at h
  obtain ⟨_, rfl, _, _, rfl, a, rfl, _, ha, _, hx, rfl, rfl, rfl⟩ := h
  exact ⟨a, rfl, ha, (bitsOf_sound hx ha).2⟩

theorem bbEqTerm_sound {w : ℕ} {x y : ℕ → Term} {t : Term} (h : bbEqTerm w x y = .ok t) (sx : BitsSorted w x)
    (sy : BitsSorted w y) : ∀ {M : Model} {a b : BitVec w}, M.BitsAre x a → M.BitsAre y b → (M.Holds t ↔ a = b) := by
  intro M a b hx hy
  have hb : a = b ↔ ∀ i < w, M.Holds (mkEq (x i) (y i)) := by
    constructor
    · rintro rfl i hi
      rw [holds_mkEq (sx i hi) (sy i hi), hx i hi, hy i hi]
    · intro h
      refine BitVec.eq_of_getLsbD_eq fun i hi => ?_
      have := h i hi
      rw [holds_mkEq (sx i hi) (sy i hi), hx i hi, hy i hi] at this
      exact Bool.eq_iff_iff.2 this
  have hm : (∀ i < w, M.Holds (mkEq (x i) (y i))) ↔ ∀ u ∈ tabulate w fun i => mkEq (x i) (y i), M.Holds u := by
    simp [tabulate]
  rw [hb, hm]
  unfold bbEqTerm at h
  split at h
  · simp at h
  · next e => cases h; rw [e]; simp
  · next => cases h; rw [M.holds_and]

theorem bbEqTerm_sort {w : ℕ} {x y : ℕ → Term} {t : Term} (h : bbEqTerm w x y = .ok t) : 0 < w := by
  rcases Nat.eq_zero_or_pos w with rfl | h'
  · simp [bbEqTerm, tabulate] at h
  · exact h'

/-! ## Extraction and concatenation -/

theorem extractArgs_ok {args : List Term} : ∀ {rs : List Term} {j : ℕ}, extractArgs args j rs = .ok () →
    ∀ i (h : i < rs.length), args[j + i]? = some rs[i]
  | [], _, _, i, h => by simp at h
  | r :: rs, j, h, i, hi => by
    simp only [extractArgs, bind_ok, orPanic_ok, assertEq_ok] at h
    obtain ⟨_, h1, _, rfl, h2⟩ := h
    cases i with
    | zero => simpa using h1
    | succ i => simpa [Nat.add_assoc, Nat.add_comm 1] using extractArgs_ok h2 i (by simpa using hi)

theorem extractBits_ok {x : Term} : ∀ {rs : List Term} {j : ℕ}, extractBits x j rs = .ok () →
    ∀ i (h : i < rs.length), rs[i] = bitOf x (j + i)
  | [], _, _, i, h => by simp at h
  | r :: rs, j, h, i, hi => by
    simp only [extractBits, bind_ok, assertEq_ok] at h
    obtain ⟨_, rfl, h2⟩ := h
    cases i with
    | zero => simp
    | succ i => simpa [Nat.add_assoc, Nat.add_comm 1] using extractBits_ok h2 i (by simpa using hi)

/-- The vector denotes the bits of `b`, in order. -/
def Model.VecIs (M : Model) {w : ℕ} (xs : List Term) (b : BitVec w) : Prop := xs.length = w ∧ M.BitsAre (bitAt xs) b

theorem vecIs_append {M : Model} {w v : ℕ} {xs ys : List Term} {a : BitVec w} {b : BitVec v} (hx : M.VecIs xs a)
    (hy : M.VecIs ys b) : M.VecIs (ys ++ xs) (a ++ b) := by
  refine ⟨by simp [hx.1, hy.1, Nat.add_comm], fun i hi => ?_⟩
  rw [BitVec.getLsbD_append]
  have e : bitAt (ys ++ xs) i = if i < v then bitAt ys i else bitAt xs (i - v) := by
    unfold bitAt
    rw [List.getElem?_append, hy.1]
    split <;> rfl
  rw [e]
  split
  · exact hy.2 i ‹_›
  · exact hx.2 _ (by omega)

/-- The vector of a term with a bit-vector sort. -/
def vecOf (t : Term) : List Term :=
  match sortOf t with
  | some (.bv w) => buildTermVec t w
  | _ => []

theorem vecOf_eq {t : Term} {w : ℕ} (h : sortOf t = some (.bv w)) : vecOf t = buildTermVec t w := by simp [vecOf, h]

theorem vecIs_vecOf {M : Model} {t : Term} {w : ℕ} (h : sortOf t = some (.bv w)) : M.VecIs (vecOf t) (M.bits w t) := by
  rw [vecOf_eq h]
  exact ⟨(buildTermVec_ok h).1, (buildTermVec_ok h).2.2 M⟩

theorem concatVec_ok : ∀ {ts bits : List Term} {n : ℕ} {r : List Term × ℕ}, concatVec ts bits n = .ok r →
    r.1 = bits ++ (ts.map vecOf).flatten ∧ ∀ t ∈ ts, ∃ w, sortOf t = some (.bv w)
  | [], bits, n, r, h => by
    simp only [concatVec, ok_inj] at h
    subst h
    simp
  | t :: ts, bits, n, r, h => by
    simp only [concatVec, bind_ok, bvSizeOf_ok] at h
    obtain ⟨w, hw, h⟩ := h
    obtain ⟨h1, h2⟩ := concatVec_ok (ts := ts) h
    refine ⟨by simp [h1, vecOf_eq hw], fun u hu => ?_⟩
    rcases List.mem_cons.1 hu with rfl | hu
    · exact ⟨w, hw⟩
    · exact h2 u hu

theorem concat_fold {M : Model} : ∀ {ts : List Term}, (∀ t ∈ ts, ∃ w, sortOf t = some (.bv w)) →
    ∀ {w : ℕ} {xs : List Term} {b : BitVec w}, M.VecIs xs b → ∃ (v : ℕ) (b' : BitVec v),
      (ts.map M.val).foldl concatStep (some (.bv w b)) = some (.bv v b') ∧
      M.VecIs ((ts.reverse.map vecOf).flatten ++ xs) b'
  | [], _, w, xs, b, hx => ⟨w, b, rfl, by simpa using hx⟩
  | t :: ts, h, w, xs, b, hx => by
    obtain ⟨wt, ht⟩ := h t (by simp)
    obtain ⟨v, b', e, hv⟩ := concat_fold (ts := ts) (fun u hu => h u (by simp [hu]))
      (vecIs_append hx (vecIs_vecOf (M := M) ht))
    refine ⟨v, b', ?_, by simpa using hv⟩
    rw [List.map_cons, List.foldl_cons, M.val_bits ht]
    exact e

theorem val_concat {M : Model} {ts : List Term} (hne : ts ≠ []) (h : ∀ t ∈ ts, ∃ w, sortOf t = some (.bv w)) :
    M.val (.op .bvConcat ts) = M.val (mkBb (ts.reverse.map vecOf).flatten) := by
  match ts, hne with
  | t :: ts, _ =>
    obtain ⟨w, ht⟩ := h t (by simp)
    obtain ⟨v, b, e, hv⟩ := concat_fold (M := M) (ts := ts) (fun u hu => h u (by simp [hu])) (vecIs_vecOf ht)
    have e2 : ((t :: ts).reverse.map vecOf).flatten = (ts.reverse.map vecOf).flatten ++ vecOf t := by simp
    rw [e2, Model.val_bb hv.1 hv.2, M.val_op, evalOp]
    simp only [stdOp, List.map_cons, bvConcat]
    rw [M.val_bits ht, e]
    rfl

end Carcara
