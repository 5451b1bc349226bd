import Verif.Model.Evaluate
import Verif.Lemmas.Bv

/-! # Integers and bit-vectors, for the evaluation of terms -/

namespace Carcara
open Value

theorem pow_cast (w : ℕ) : (((2 ^ w : ℕ) : ℤ)) = 2 ^ w := by push_cast; rfl

theorem keepBits_nonneg (v : ℤ) (w : ℕ) : 0 ≤ keepBits v w := Int.emod_nonneg _ (by positivity)
theorem keepBits_lt (v : ℤ) (w : ℕ) : keepBits v w < 2 ^ w := Int.emod_lt_of_pos _ (by positivity)

theorem ofInt_eq_iff {w : ℕ} {x y : ℤ} : BitVec.ofInt w x = BitVec.ofInt w y ↔ x % 2 ^ w = y % 2 ^ w := by
  have hx := Int.emod_nonneg x (b := 2 ^ w) (by positivity)
  have hy := Int.emod_nonneg y (b := 2 ^ w) (by positivity)
  rw [← BitVec.toNat_inj, BitVec.toNat_ofInt, BitVec.toNat_ofInt]
  push_cast
  omega

theorem ofInt_keepBits (w : ℕ) (z : ℤ) : BitVec.ofInt w (keepBits z w) = BitVec.ofInt w z := by
  rw [ofInt_eq_iff, keepBits, Int.emod_emod_of_dvd _ (dvd_refl _)]

theorem ofInt_toNat {w : ℕ} (a : BitVec w) : BitVec.ofInt w a.toNat = a := by
  rw [BitVec.ofInt_natCast, BitVec.ofNat_toNat, BitVec.setWidth_eq]

theorem toNat_emod {w : ℕ} (a : BitVec w) : (a.toNat : ℤ) % 2 ^ w = a.toNat :=
  Int.emod_eq_of_lt (by positivity) (by rw [← pow_cast]; exact_mod_cast a.isLt)

theorem emod_eq_toNat (z : ℤ) (w : ℕ) : z % 2 ^ w = ((BitVec.ofInt w z).toNat : ℤ) := by
  have := Int.emod_nonneg z (b := 2 ^ w) (by positivity)
  rw [BitVec.toNat_ofInt]; push_cast; omega

theorem ofInt_sub (w : ℕ) (x y : ℤ) : BitVec.ofInt w (x - y) = BitVec.ofInt w x - BitVec.ofInt w y := by
  rw [Int.sub_eq_add_neg, BitVec.ofInt_add, BitVec.ofInt_neg, BitVec.sub_eq_add_neg]

theorem ofInt_not {w : ℕ} (z : ℤ) : BitVec.ofInt w (-z - 1) = ~~~BitVec.ofInt w z := by
  rw [ofInt_sub, BitVec.ofInt_neg, BitVec.not_eq_neg_add]
  simp

theorem ofInt_bitAnd {w : ℕ} (a b : ℤ) : BitVec.ofInt w (bitAnd a b w) = BitVec.ofInt w a &&& BitVec.ofInt w b := by
  apply BitVec.eq_of_toNat_eq
  rw [bitAnd, emod_eq_toNat, emod_eq_toNat, Int.toNat_natCast, Int.toNat_natCast, ← BitVec.toNat_and, ofInt_toNat]

theorem ofInt_bitOr {w : ℕ} (a b : ℤ) : BitVec.ofInt w (bitOr a b w) = BitVec.ofInt w a ||| BitVec.ofInt w b := by
  apply BitVec.eq_of_toNat_eq
  rw [bitOr, emod_eq_toNat, emod_eq_toNat, Int.toNat_natCast, Int.toNat_natCast, ← BitVec.toNat_or, ofInt_toNat]

theorem ofInt_bitXor {w : ℕ} (a b : ℤ) : BitVec.ofInt w (bitXor a b w) = BitVec.ofInt w a ^^^ BitVec.ofInt w b := by
  apply BitVec.eq_of_toNat_eq
  rw [bitXor, emod_eq_toNat, emod_eq_toNat, Int.toNat_natCast, Int.toNat_natCast, ← BitVec.toNat_xor, ofInt_toNat]

/-- A number given by a natural number below `2 ^ w`. -/
theorem ofInt_of_toNat {w : ℕ} {a : BitVec w} {n : ℕ} (h : a.toNat = n) : BitVec.ofInt w n = a := by
  rw [← h, ofInt_toNat]

theorem ofInt_udiv {w : ℕ} (a b : BitVec w) :
    BitVec.ofInt w (if (b.toNat : ℤ) = 0 then 2 ^ w - 1 else (a.toNat : ℤ).tdiv b.toNat) = a.smtUDiv b := by
  rw [BitVec.smtUDiv_eq]
  by_cases h : b = 0#w
  · subst h
    rw [if_pos (by simp), if_pos rfl]
    apply BitVec.eq_of_toNat_eq
    have : (2 : ℤ) ^ w - 1 = ((2 ^ w - 1 : ℕ) : ℤ) := by
      rw [Nat.cast_sub Nat.one_le_two_pow]; push_cast; rfl
    rw [this, BitVec.ofInt_natCast, BitVec.toNat_ofNat, BitVec.toNat_allOnes]
    exact Nat.mod_eq_of_lt (by have := Nat.two_pow_pos w; omega)
  · have h0 : b.toNat ≠ 0 := fun e => h (BitVec.eq_of_toNat_eq (by simpa using e))
    rw [if_neg (by exact_mod_cast h0), if_neg h, Int.tdiv_eq_ediv_of_nonneg (by positivity), ← Int.natCast_ediv]
    exact ofInt_of_toNat BitVec.toNat_udiv

theorem ofInt_urem {w : ℕ} (a b : BitVec w) :
    BitVec.ofInt w (if (b.toNat : ℤ) = 0 then (a.toNat : ℤ) else (a.toNat : ℤ).tmod b.toNat) = a.umod b := by
  by_cases h : b.toNat = 0
  · rw [if_pos (by exact_mod_cast h), ofInt_toNat]
    apply BitVec.eq_of_toNat_eq
    show _ = (a % b).toNat
    rw [BitVec.toNat_umod, h, Nat.mod_zero]
  · rw [if_neg (by exact_mod_cast h), Int.tmod_eq_emod_of_nonneg (by positivity), ← Int.natCast_emod]
    exact ofInt_of_toNat BitVec.toNat_umod

theorem ofInt_shl {w : ℕ} (a b : BitVec w) : BitVec.ofInt w ((a.toNat : ℤ) * 2 ^ b.toNat) = a <<< b := by
  rw [← pow_cast, ← Nat.cast_mul, BitVec.ofInt_natCast]
  apply BitVec.eq_of_toNat_eq
  rw [BitVec.toNat_ofNat, BitVec.shiftLeft_eq', BitVec.toNat_shiftLeft, Nat.shiftLeft_eq]

theorem ofInt_lshr {w : ℕ} (a : BitVec w) (n : ℕ) : BitVec.ofInt w ((a.toNat : ℤ) / 2 ^ n) = a >>> n := by
  rw [← pow_cast, ← Int.natCast_ediv]
  exact ofInt_of_toNat (by rw [BitVec.toNat_ushiftRight, Nat.shiftRight_eq_div_pow])

theorem getBit_toNat {w : ℕ} (a : BitVec w) (i : ℕ) : getBit a.toNat i = a.getLsbD i := by
  rw [getBit, ← pow_cast, ← Int.natCast_ediv, BitVec.getLsbD, Nat.testBit, Nat.shiftRight_eq_div_pow]
  have : ((a.toNat / 2 ^ i : ℕ) : ℤ) % 2 = ((a.toNat / 2 ^ i % 2 : ℕ) : ℤ) := by push_cast; rfl
  rw [this, Nat.and_comm, Nat.and_one_is_mod]
  rcases Nat.mod_two_eq_zero_or_one (a.toNat / 2 ^ i) with h | h <;> rw [h] <;> rfl

theorem getBit_msb {w : ℕ} (a : BitVec w) (h : w ≠ 0) : getBit a.toNat (w - 1) = a.msb := by
  rw [getBit_toNat, BitVec.msb_eq_getLsbD_last]

theorem ofInt_ashr {w : ℕ} (a : BitVec w) (n : ℕ) (hn : n ≤ w) (hm : a.msb = true) :
    BitVec.ofInt w (bitOr ((a.toNat : ℤ) / 2 ^ n) ((2 ^ n - 1) * 2 ^ (w - n)) w) = a.sshiftRight n := by
  rw [ofInt_bitOr, ofInt_lshr]
  have h1 : ((2 : ℤ) ^ n - 1) * 2 ^ (w - n) = (((2 ^ n - 1) * 2 ^ (w - n) : ℕ) : ℤ) := by
    rw [Nat.cast_mul, Nat.cast_sub Nat.one_le_two_pow]; push_cast; rfl
  rw [h1, BitVec.ofInt_natCast]
  apply BitVec.eq_of_getLsbD_eq
  intro i hi
  rw [BitVec.getLsbD_or, BitVec.getLsbD_ofNat, BitVec.getLsbD_sshiftRight, BitVec.getLsbD_ushiftRight,
    Nat.testBit_mul_two_pow, Nat.testBit_two_pow_sub_one, hm]
  by_cases hin : n + i < w
  · simp only [hin, hi, if_true]
    have : ¬ w - n ≤ i := by omega
    simp only [this, decide_false, Bool.false_and, Bool.and_false, Bool.or_false]
    simp [hi]
  · simp only [hin, hi, if_false]
    have h2 : w - n ≤ i := by omega
    have h3 : i - (w - n) < n := by omega
    rw [BitVec.getLsbD_of_ge _ _ (by omega)]
    have h4 : ¬ w ≤ i := by omega
    simp [h2, h3, h4]

/-- What `asSignedBv` computes. -/
def magnitude {w : ℕ} (a : BitVec w) : ℤ := if a.msb then 2 ^ w - a.toNat else a.toNat

theorem magnitude_of_false {w : ℕ} {a : BitVec w} (h : a.msb = false) : magnitude a = a.toNat := by simp [magnitude, h]

theorem magnitude_of_true {w : ℕ} {a : BitVec w} (h : a.msb = true) : magnitude a = (-a).toNat := by
  have h0 : a.toNat ≠ 0 := fun e => by
    rw [show a = 0#w from BitVec.eq_of_toNat_eq (by simpa using e)] at h
    simp at h
  have := a.isLt
  rw [magnitude, if_pos h, BitVec.toNat_neg, Nat.mod_eq_of_lt (by omega), Nat.cast_sub (by omega)]
  push_cast
  rfl

theorem magnitude_nonneg {w : ℕ} (a : BitVec w) : 0 ≤ magnitude a := by
  cases h : a.msb
  · rw [magnitude_of_false h]; positivity
  · rw [magnitude_of_true h]; positivity

theorem ofInt_udiv_pos {w : ℕ} {a b : BitVec w} (h : (b.toNat : ℤ) ≠ 0) :
    BitVec.ofInt w ((a.toNat : ℤ).tdiv b.toNat) = a.smtUDiv b := by
  rw [← ofInt_udiv, if_neg h]

theorem ofInt_umod_pos {w : ℕ} {a b : BitVec w} : BitVec.ofInt w ((a.toNat : ℤ).tmod b.toNat) = a % b := by
  rw [Int.tmod_eq_emod_of_nonneg (by positivity), ← Int.natCast_emod]
  exact ofInt_of_toNat BitVec.toNat_umod

theorem ofInt_sdiv {w : ℕ} {a b : BitVec w} (h : a.msb = b.msb) (hb : magnitude b ≠ 0) :
    BitVec.ofInt w ((magnitude a).tdiv (magnitude b)) = a.smtSDiv b := by
  rw [BitVec.smtSDiv_eq]
  cases ha : a.msb <;> rw [ha] at h <;> rw [← h]
  · rw [magnitude_of_false ha, magnitude_of_false h.symm] at *
    exact ofInt_udiv_pos hb
  · rw [magnitude_of_true ha, magnitude_of_true h.symm] at *
    exact ofInt_udiv_pos hb

theorem ofInt_srem {w : ℕ} {a b : BitVec w} (h : a.msb = false) :
    BitVec.ofInt w (((magnitude a).natAbs : ℤ).tmod (magnitude b).natAbs * (magnitude a).sign) = a.srem b := by
  have key : ∀ (n : ℕ), ((a.toNat : ℤ).natAbs : ℤ).tmod (n : ℤ).natAbs * (a.toNat : ℤ).sign = (a.toNat : ℤ).tmod n := by
    intro n
    rcases Nat.eq_zero_or_pos a.toNat with e | e
    · simp [e]
    · rw [Int.sign_eq_one_of_pos (by exact_mod_cast e), mul_one, Int.natAbs_natCast, Int.natAbs_natCast]
  rw [BitVec.srem_eq, h, magnitude_of_false h]
  cases hb : b.msb
  · rw [magnitude_of_false hb, key]; exact ofInt_umod_pos
  · rw [magnitude_of_true hb, key]; exact ofInt_umod_pos

theorem ofInt_smod {w : ℕ} {a b : BitVec w} (h : a.msb = false) (hb : b.msb = false) (h0 : magnitude b ≠ 0) :
    BitVec.ofInt w (((magnitude a).natAbs : ℤ).tmod (magnitude b).natAbs * (magnitude b).sign) = a.smod b := by
  rw [magnitude_of_false h, magnitude_of_false hb] at *
  rw [BitVec.smod_eq, h, hb, Int.sign_eq_one_of_pos (by omega), mul_one, Int.natAbs_natCast, Int.natAbs_natCast]
  exact ofInt_umod_pos

theorem toNat_append_eq {m n : ℕ} (a : BitVec m) (b : BitVec n) : (a ++ b).toNat = a.toNat * 2 ^ n + b.toNat := by
  rw [BitVec.toNat_append, ← Nat.shiftLeft_add_eq_or_of_lt b.isLt, Nat.shiftLeft_eq]

theorem ofInt_extract {w : ℕ} (a : BitVec w) {i j : ℕ} (hj : j ≤ i) (h : a.getLsbD i = false) :
    BitVec.ofInt (i - j + 1) (keepBits a.toNat i / 2 ^ j) = a.extractLsb' j (i - j + 1) := by
  have e : keepBits a.toNat i / 2 ^ j = ((a.toNat % 2 ^ i / 2 ^ j : ℕ) : ℤ) := by
    rw [keepBits]; push_cast; rfl
  rw [e, BitVec.ofInt_natCast]
  apply BitVec.eq_of_getLsbD_eq
  intro k hk
  rw [BitVec.getLsbD_ofNat, BitVec.getLsbD_extractLsb', Nat.testBit_div_two_pow, Nat.testBit_mod_two_pow]
  by_cases hki : k + j = i
  · have : j + k = i := by omega
    rw [this, h]
    simp [hki]
  · have h1 : k + j < i := by omega
    rw [Nat.add_comm j k]
    simp [h1, BitVec.getLsbD]

theorem rotate_disjoint {w : ℕ} (a : BitVec w) {r : ℕ} (h : r ≤ w) :
    a.toNat % 2 ^ r * 2 ^ (w - r) + a.toNat / 2 ^ r = a.toNat >>> r ||| a.toNat <<< (w - r) % 2 ^ w := by
  have h1 : a.toNat / 2 ^ r < 2 ^ (w - r) := by
    rw [Nat.div_lt_iff_lt_mul (Nat.two_pow_pos r), ← pow_add, show w - r + r = w by omega]
    exact a.isLt
  have h2 : 2 ^ w = 2 ^ r * 2 ^ (w - r) := by rw [← pow_add, show r + (w - r) = w by omega]
  rw [Nat.shiftLeft_eq, Nat.shiftRight_eq_div_pow, h2, Nat.mul_mod_mul_right, Nat.or_comm, ← Nat.shiftLeft_eq,
    Nat.shiftLeft_add_eq_or_of_lt h1]

theorem ofInt_rotateRight {w : ℕ} (a : BitVec w) (r : ℕ) (hw : w ≠ 0) :
    BitVec.ofInt w (keepBits a.toNat (r % w) * 2 ^ (w - r % w) + (a.toNat : ℤ) / 2 ^ (r % w)) = a.rotateRight r := by
  have e : keepBits a.toNat (r % w) * 2 ^ (w - r % w) + (a.toNat : ℤ) / 2 ^ (r % w) =
      ((a.toNat % 2 ^ (r % w) * 2 ^ (w - r % w) + a.toNat / 2 ^ (r % w) : ℕ) : ℤ) := by
    rw [keepBits]; push_cast; rfl
  rw [e]
  refine ofInt_of_toNat ?_
  rw [BitVec.toNat_rotateRight, rotate_disjoint a (Nat.mod_lt _ (by omega)).le]

theorem rotateLeft_eq {w : ℕ} (a : BitVec w) {i : ℕ} (h : i ≤ w) : a.rotateRight (w - i) = a.rotateLeft i := by
  apply BitVec.eq_of_toNat_eq
  rw [BitVec.toNat_rotateRight, BitVec.toNat_rotateLeft, Nat.or_comm]
  have ha := a.isLt
  have h0 : a.toNat >>> w = 0 := by rw [Nat.shiftRight_eq_div_pow]; exact Nat.div_eq_of_lt ha
  have h1 : a.toNat <<< w % 2 ^ w = 0 := by rw [Nat.shiftLeft_eq, Nat.mul_mod_left]
  have h2 : a.toNat <<< 0 % 2 ^ w = a.toNat := by rw [Nat.shiftLeft_zero, Nat.mod_eq_of_lt ha]
  by_cases hi : i = w
  · subst hi
    simp only [Nat.sub_self, Nat.zero_mod, Nat.mod_self, Nat.sub_zero, h0, h1, h2, Nat.shiftRight_zero, Nat.zero_or,
      Nat.or_zero]
  · by_cases hz : i = 0
    · subst hz
      simp only [Nat.sub_zero, Nat.mod_self, Nat.zero_mod, h0, h1, h2, Nat.shiftRight_zero, Nat.zero_or, Nat.or_zero]
    · rw [Nat.mod_eq_of_lt (show w - i < w by omega), Nat.mod_eq_of_lt (show i < w by omega),
        show w - (w - i) = i by omega]

theorem repeatBits_eq {w : ℕ} (a : BitVec w) : ∀ (n : ℕ) (acc : ℕ),
    repeatBits a.toNat w n acc = ((acc * 2 ^ (w * n) + (a.replicate n).toNat : ℕ) : ℤ)
  | 0, acc => by simp [repeatBits]
  | n + 1, acc => by
    have := repeatBits_eq a n (acc * 2 ^ w + a.toNat)
    rw [repeatBits]
    have e : (acc : ℤ) * 2 ^ w + a.toNat = ((acc * 2 ^ w + a.toNat : ℕ) : ℤ) := by push_cast; rfl
    rw [e, this, BitVec.replicate_succ, BitVec.toNat_cast, toNat_append_eq]
    congr 1
    rw [Nat.mul_succ, pow_add]
    ring

theorem ofInt_setWidth {w n : ℕ} (a : BitVec w) : BitVec.ofInt n a.toNat = a.setWidth n := by
  rw [BitVec.ofInt_natCast]
  exact BitVec.eq_of_toNat_eq (by simp)

theorem bits_lt (bs : List Bool) : (BitVec.ofBoolListLE bs).toNat < 2 ^ bs.length := BitVec.isLt _

theorem toNat_ofBoolListLE_cons (b : Bool) (bs : List Bool) :
    (BitVec.ofBoolListLE (b :: bs)).toNat = b.toNat + 2 * (BitVec.ofBoolListLE bs).toNat := by
  rw [BitVec.ofBoolListLE, BitVec.toNat_concat]
  omega

end Carcara
