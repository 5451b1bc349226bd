import Verif.Lemmas.Num
import Verif.Lemmas.Assoc
import Verif.Lemmas.Subterms
import Mathlib.Data.BitVec

/-! # Bit-vector values of terms -/

namespace Carcara
open Classical Val Sem

namespace Model
variable (M : Model)

/-- The bits of a term of width `w`; zero if the term is no bit-vector of this width. -/
noncomputable def bits (w : ℕ) (t : Term) : BitVec w :=
  match M.val t with
  | .bv w' b => b.setWidth w
  | _ => 0

theorem bits_of_val {w : ℕ} {t : Term} {b : BitVec w} (h : M.val t = .bv w b) : M.bits w t = b := by
  simp [bits, h]

theorem val_bits {w : ℕ} {t : Term} (h : sortOf t = some (.bv w)) : M.val t = .bv w (M.bits w t) := by
  obtain ⟨b, e⟩ := (M.I.dom_bv w _).1 (eval_dom t h M.env_dom)
  have e' : M.val t = .bv w b := e
  rw [M.bits_of_val e', e']

theorem map_val_bits {w : ℕ} {ts : List Term} (h : ∀ t ∈ ts, sortOf t = some (.bv w)) :
    ts.map M.val = (ts.map (M.bits w)).map (.bv w) := by
  rw [List.map_map]
  exact List.map_congr_left fun t ht => M.val_bits (h t ht)

end Model

theorem sortOfL_all {ts : List Term} {ss : List Srt} (h : sortOfL ts = some ss) :
    ts.length = ss.length ∧ ∀ t ∈ ts, ∃ s ∈ ss, sortOf t = some s :=
  ⟨(sortOfL_some h).length_eq.symm, fun _ => sortOfL_mem h⟩

theorem sort_bvNary {o : Op} (ho : o = .bvAdd ∨ o = .bvMul ∨ o = .bvAnd ∨ o = .bvOr ∨ o = .bvXor) {ts : List Term}
    {s : Srt} (h : sortOf (.op o ts) = some s) :
    ∃ w, s = .bv w ∧ 2 ≤ ts.length ∧ ∀ t ∈ ts, sortOf t = some (.bv w) := by
  obtain ⟨ss, h1, h2⟩ := sortOf_op (by rcases ho with rfl | rfl | rfl | rfl | rfl <;> decide) h
  have h3 : 2 ≤ ss.length ∧ (sameBv ss).map .bv = some s := by
    rcases ho with rfl | rfl | rfl | rfl | rfl <;>
      simpa only [opSort, Option.ite_none_right_eq_some] using h2
  obtain ⟨hl, h3⟩ := h3
  rw [Option.map_eq_some_iff] at h3
  obtain ⟨w, hw, rfl⟩ := h3
  obtain ⟨rest, rfl, hr⟩ := sameBv_some hw
  have hall : ∀ s ∈ Srt.bv w :: rest, s = .bv w := by simpa using hr
  obtain ⟨hlen, hts⟩ := sortOfL_all h1
  exact ⟨w, rfl, by omega, fun t ht => by
    obtain ⟨s, hs, e⟩ := hts t ht
    rw [e, hall s hs]⟩

theorem sort_bvBin {o : Op} (ho : o = .bvNAnd ∨ o = .bvNOr ∨ o = .bvXNor ∨ o = .bvSub) {ts : List Term}
    {s : Srt} (h : sortOf (.op o ts) = some s) :
    ∃ w a b, s = .bv w ∧ ts = [a, b] ∧ sortOf a = some (.bv w) ∧ sortOf b = some (.bv w) := by
  obtain ⟨ss, h1, h2⟩ := sortOf_op (by rcases ho with rfl | rfl | rfl | rfl <;> decide) h
  have h3 : ss.length = 2 ∧ (sameBv ss).map .bv = some s := by
    rcases ho with rfl | rfl | rfl | rfl <;>
      simpa only [opSort, Option.ite_none_right_eq_some] using h2
  obtain ⟨hl, h3⟩ := h3
  rw [Option.map_eq_some_iff] at h3
  obtain ⟨w, hw, rfl⟩ := h3
  obtain ⟨rest, rfl, hr⟩ := sameBv_some hw
  have hall : ∀ s ∈ Srt.bv w :: rest, s = .bv w := by simpa using hr
  obtain ⟨hlen, hts⟩ := sortOfL_all h1
  match ts, (by omega : ts.length = 2) with
  | [a, b], _ =>
    refine ⟨w, a, b, rfl, rfl, ?_, ?_⟩
    · obtain ⟨s, hs, e⟩ := hts a (by simp); rw [e, hall s hs]
    · obtain ⟨s, hs, e⟩ := hts b (by simp); rw [e, hall s hs]

theorem sort_bvUn {o : Op} (ho : o = .bvNeg ∨ o = .bvNot) {ts : List Term}
    {s : Srt} (h : sortOf (.op o ts) = some s) :
    ∃ w a, s = .bv w ∧ ts = [a] ∧ sortOf a = some (.bv w) := by
  obtain ⟨ss, h1, h2⟩ := sortOf_op (by rcases ho with rfl | rfl <;> decide) h
  obtain ⟨hlen, hts⟩ := sortOfL_all h1
  have : ∃ w, ss = [.bv w] ∧ s = .bv w := by
    rcases ho with rfl | rfl <;> simp only [opSort] at h2 <;> split at h2 <;> simp at h2 <;> exact ⟨_, rfl, h2.symm⟩
  obtain ⟨w, rfl, rfl⟩ := this
  match ts, hlen with
  | [a], _ =>
    obtain ⟨s, hs, e⟩ := hts a (by simp)
    exact ⟨w, a, rfl, rfl, by rw [e, List.mem_singleton.1 hs]⟩

namespace Model
variable (M : Model)

theorem foldl_add_eq {A : Type} [AddCommMonoid A] (zs : List A) (z : A) : zs.foldl (· + ·) z = z + zs.sum := by
  induction zs generalizing z with
  | nil => simp
  | cons y zs ih => simp [ih, add_assoc]

theorem foldl_mul_eq {A : Type} [CommMonoid A] (zs : List A) (z : A) : zs.foldl (· * ·) z = z * zs.prod := by
  induction zs generalizing z with
  | nil => simp
  | cons y zs ih => simp [ih, mul_assoc]

theorem bits_nary {w : ℕ} {ts : List Term} (f : (w : ℕ) → BitVec w → BitVec w → BitVec w) {o : Op}
    (hf : ∀ vs, stdOp M.I o vs = bvNary f vs) {t : Term} (h : ∀ u ∈ t :: ts, sortOf u = some (.bv w)) :
    M.val (.op o (t :: ts)) = .bv w ((ts.map (M.bits w)).foldl (f w) (M.bits w t)) := by
  rw [M.val_op, evalOp, hf, M.map_val_bits h, List.map_cons, List.map_cons, bvNary, asBvs_map]
  rfl

theorem bits_add {w : ℕ} {ts : List Term} (h : sortOf (.op .bvAdd ts) = some (.bv w)) :
    M.bits w (.op .bvAdd ts) = (ts.map (M.bits w)).sum := by
  obtain ⟨w', e, hl, ht⟩ := sort_bvNary (by simp) h
  cases e
  match ts, hl with
  | t :: ts, _ =>
    rw [M.bits_of_val (M.bits_nary (fun _ a b => a + b) (fun _ => rfl) ht), foldl_add_eq, List.map_cons, List.sum_cons]

theorem bits_mul {w : ℕ} {ts : List Term} (h : sortOf (.op .bvMul ts) = some (.bv w)) :
    M.bits w (.op .bvMul ts) = (ts.map (M.bits w)).prod := by
  obtain ⟨w', e, hl, ht⟩ := sort_bvNary (by simp) h
  cases e
  match ts, hl with
  | t :: ts, _ =>
    rw [M.bits_of_val (M.bits_nary (fun _ a b => a * b) (fun _ => rfl) ht), foldl_mul_eq, List.map_cons, List.prod_cons]

theorem bits_sub {w : ℕ} {a b : Term} (ha : sortOf a = some (.bv w)) (hb : sortOf b = some (.bv w)) :
    M.bits w (.op .bvSub [a, b]) = M.bits w a - M.bits w b := by
  apply M.bits_of_val
  simp [M.val_op, M.val_bits ha, M.val_bits hb, evalOp, stdOp, bvBin]

theorem bits_neg {w : ℕ} {a : Term} (ha : sortOf a = some (.bv w)) :
    M.bits w (.op .bvNeg [a]) = - M.bits w a := by
  apply M.bits_of_val
  simp [M.val_op, M.val_bits ha, evalOp, stdOp, bvUn]

end Model
end Carcara
