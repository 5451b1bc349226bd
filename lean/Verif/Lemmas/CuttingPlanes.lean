import Verif.Spec.PseudoBoolean
import Verif.Model.CuttingPlanes
import Verif.Lemmas.Num
import Mathlib.Algebra.BigOperators.Group.Finset.Basic
import Mathlib.Algebra.Order.BigOperators.Group.Finset
import Mathlib.Algebra.BigOperators.Ring.Finset
import Mathlib.Tactic.Linarith
import Mathlib.Tactic.Ring

/-! # Cutting planes: lemmas -/

namespace Carcara

open Spec Classical

/-! ## Hash maps -/

def pbEval (ν : String → ℤ) (hm : PbHash) : ℤ := (hm.map fun e => e.2 * ν e.1).sum

def pbCoeff (hm : PbHash) (k : String) : ℤ := (mapGet hm k).getD 0

theorem pbGet_of_mem {hm : PbHash} (hn : (hm.map (·.1)).Nodup) {e : String × ℤ} (he : e ∈ hm) : mapGet hm e.1 = some e.2 := by
  induction hm with
  | nil => simp at he
  | cons a hm ih =>
    obtain ⟨k, v⟩ := a
    rw [List.map_cons, List.nodup_cons] at hn
    rcases List.mem_cons.1 he with rfl | he
    · simp [mapGet]
    · have : k ≠ e.1 := fun h => hn.1 (List.mem_map.2 ⟨e, he, h.symm⟩)
      simp [mapGet, this, ih hn.2 he]

theorem pbMem_of_get {hm : PbHash} {k : String} {v : ℤ} (h : mapGet hm k = some v) : (k, v) ∈ hm := by
  induction hm with
  | nil => simp [mapGet] at h
  | cons a hm ih =>
    obtain ⟨k', v'⟩ := a
    rw [mapGet] at h
    split at h
    · cases h; subst_vars; exact List.mem_cons_self
    · exact List.mem_cons_of_mem _ (ih h)

theorem pbGet_none {hm : PbHash} {k : String} (h : k ∉ hm.map (·.1)) : mapGet hm k = none := by
  cases hg : mapGet hm k with
  | none => rfl
  | some v => exact absurd (List.mem_map_of_mem (f := (·.1)) (pbMem_of_get hg)) h

theorem pbGet_insert (hm : PbHash) (k k' : String) (v : ℤ) : mapGet (mapInsert hm k v) k' = if k = k' then some v else mapGet hm k' := by
  induction hm with
  | nil => simp [mapInsert, mapGet]
  | cons a hm ih =>
    obtain ⟨k0, v0⟩ := a
    rw [mapInsert]
    split
    · subst_vars
      simp only [mapGet]
      split <;> simp_all
    · simp only [mapGet, ih]
      split <;> split <;> simp_all

theorem pbInsert_keys (hm : PbHash) (k : String) (v : ℤ) (hn : (hm.map (·.1)).Nodup) : ((mapInsert hm k v).map (·.1)).Nodup ∧
    ∀ x, x ∈ (mapInsert hm k v).map (·.1) ↔ x ∈ hm.map (·.1) ∨ x = k := by
  induction hm with
  | nil => simp [mapInsert]
  | cons a hm ih =>
    obtain ⟨k0, v0⟩ := a
    rw [List.map_cons, List.nodup_cons] at hn
    rw [mapInsert]
    split
    · subst_vars
      refine ⟨by simpa using hn, fun x => ?_⟩
      simp only [List.map_cons, List.mem_cons]
      tauto
    · rename_i hne
      obtain ⟨h1, h2⟩ := ih hn.2
      refine ⟨?_, fun x => ?_⟩
      · rw [List.map_cons, List.nodup_cons]
        refine ⟨fun h => ?_, h1⟩
        rcases (h2 _).1 h with h | h
        · exact hn.1 h
        · exact hne h
      · simp only [List.map_cons, List.mem_cons, h2]
        tauto

theorem pbInsert_new {hm : PbHash} {k : String} {v : ℤ} (h : k ∉ hm.map (·.1)) : mapInsert hm k v = hm ++ [(k, v)] := by
  induction hm with
  | nil => rfl
  | cons a hm ih =>
    obtain ⟨k0, v0⟩ := a
    simp only [List.map_cons, List.mem_cons, not_or] at h
    rw [mapInsert, if_neg (Ne.symm h.1), ih h.2]
    rfl

theorem pbEval_insert (ν : String → ℤ) (hm : PbHash) (k : String) (v : ℤ) :
    pbEval ν (mapInsert hm k v) = pbEval ν hm + (v - pbCoeff hm k) * ν k := by
  induction hm with
  | nil => simp [mapInsert, pbEval, pbCoeff, mapGet]
  | cons a hm ih =>
    obtain ⟨k0, v0⟩ := a
    rw [mapInsert]
    split
    · subst_vars
      simp [pbEval, pbCoeff, mapGet]
      ring
    · rename_i hne
      simp only [pbEval, pbCoeff, mapGet, if_neg hne, List.map_cons, List.sum_cons] at ih ⊢
      rw [ih]
      ring

theorem pbEval_eq_sum (ν : String → ℤ) {hm : PbHash} (hn : (hm.map (·.1)).Nodup) (K : Finset String) (hK : ∀ x ∈ hm.map (·.1), x ∈ K) :
    pbEval ν hm = ∑ k ∈ K, pbCoeff hm k * ν k := by
  induction hm with
  | nil => simp [pbEval, pbCoeff, mapGet]
  | cons a hm ih =>
    obtain ⟨k0, v0⟩ := a
    rw [List.map_cons, List.nodup_cons] at hn
    have ih := ih hn.2 (fun x hx => hK x (List.mem_cons_of_mem _ hx))
    have hk0 : k0 ∈ K := hK k0 List.mem_cons_self
    have h0 : pbCoeff hm k0 = 0 := by rw [pbCoeff, pbGet_none hn.1]; rfl
    have e1 : pbEval ν ((k0, v0) :: hm) = v0 * ν k0 + pbEval ν hm := by simp [pbEval]
    rw [e1, ih, ← Finset.add_sum_erase K _ hk0, ← Finset.add_sum_erase K (fun k => pbCoeff ((k0, v0) :: hm) k * ν k) hk0, h0]
    have e2 : pbCoeff ((k0, v0) :: hm) k0 = v0 := by simp [pbCoeff, mapGet]
    have e3 : ∑ k ∈ K.erase k0, pbCoeff ((k0, v0) :: hm) k * ν k = ∑ k ∈ K.erase k0, pbCoeff hm k * ν k := by
      refine Finset.sum_congr rfl fun k hk => ?_
      have : k0 ≠ k := (Finset.ne_of_mem_erase hk).symm
      simp [pbCoeff, mapGet, this]
    rw [e2, e3]
    ring

theorem subsetKeys_ok {a b : PbHash} {u : Unit} (h : subsetKeys a b = .ok u) {k : String} (hk : mapGet b k = none) :
    pbCoeff a k = 0 := by
  rw [subsetKeys, require_ok] at h
  rw [pbCoeff]
  cases hg : mapGet a k with
  | none => rfl
  | some v =>
    rcases h _ (pbMem_of_get hg) with h | h
    · exact h
    · rw [hk] at h
      cases h

theorem checkCoeffs_ok {f : ℤ → ℤ} (h0 : f 0 = 0) {p c : PbHash} {u u' : Unit} (hs : sameKeys p c = .ok u) (hc : checkCoeffs f p c = .ok u')
    (k : String) : pbCoeff c k = f (pbCoeff p k) := by
  rw [sameKeys, bind_ok] at hs
  obtain ⟨_, h1, h2⟩ := hs
  rw [checkCoeffs, require_ok] at hc
  cases hpk : mapGet p k with
  | none =>
    rw [subsetKeys_ok h2 hpk, pbCoeff, hpk]
    exact h0.symm
  | some v =>
    cases hck : mapGet c k with
    | none => rw [subsetKeys_ok h1 hck, pbCoeff, hck, h0]; rfl
    | some w =>
      have := hc _ (pbMem_of_get hpk)
      rw [hck] at this
      rcases this with h | h
      · cases h
      · rw [pbCoeff, pbCoeff, hck, hpk]
        exact Option.some.inj h

/-! ## Addition and reduction -/

theorem addPbsums_keys : ∀ {b a : PbHash}, (a.map (·.1)).Nodup → ((addPbsums a b).map (·.1)).Nodup
  | [], _, h => h
  | (_, _) :: _, _, h => by rw [addPbsums]; exact addPbsums_keys (pbInsert_keys _ _ _ h).1

theorem addPbsums_eval (ν : String → ℤ) : ∀ {b a : PbHash}, pbEval ν (addPbsums a b) = pbEval ν a + pbEval ν b
  | [], _ => by simp [addPbsums, pbEval]
  | (k, cb) :: b, a => by
    rw [addPbsums, addPbsums_eval ν, pbEval_insert]
    have e : pbEval ν ((k, cb) :: b) = cb * ν k + pbEval ν b := by simp [pbEval]
    rw [e, pbCoeff]
    cases mapGet a k <;> simp <;> ring

theorem tilde_ne (lit : String) : "~" ++ lit ≠ lit := by
  intro h
  have := congrArg String.length h
  simp at this

theorem tilde_negated (lit : String) : isNegatedLiteral ("~" ++ lit) = true := by
  simp [isNegatedLiteral]

theorem applyChanges_keys : ∀ {cs hm : PbHash}, (hm.map (·.1)).Nodup → ((applyChanges hm cs).map (·.1)).Nodup
  | [], _, h => h
  | (_, _) :: _, _, h => by rw [applyChanges]; exact applyChanges_keys (pbInsert_keys _ _ _ h).1

theorem tilde_inj {a b : String} (h : "~" ++ a = "~" ++ b) : a = b := by
  have := congrArg String.toList h
  simp only [String.toList_append, List.append_cancel_left_eq] at this
  exact String.toList_injective this

theorem reduce_eval {ν : String → ℤ} (hν : ∀ lit, isNegatedLiteral lit = false → ν ("~" ++ lit) = 1 - ν lit) {hm : PbHash} :
    ∀ {es m : PbHash}, (es.map (·.1)).Nodup → (∀ e ∈ es, mapGet hm e.1 = some e.2) →
    (∀ e ∈ es, isNegatedLiteral e.1 = false → pbCoeff m e.1 = pbCoeff hm e.1 ∧ pbCoeff m ("~" ++ e.1) = pbCoeff hm ("~" ++ e.1)) →
    pbEval ν (applyChanges m (reduceLoop hm es).1) + (reduceLoop hm es).2 = pbEval ν m
  | [], m, _, _, _ => by simp [reduceLoop, applyChanges]
  | (lit, pos) :: es, m, hn, hg, hm' => by
    rw [List.map_cons, List.nodup_cons] at hn
    have hg' : ∀ e ∈ es, mapGet hm e.1 = some e.2 := fun e he => hg e (List.mem_cons_of_mem _ he)
    have hm'' : ∀ e ∈ es, isNegatedLiteral e.1 = false → pbCoeff m e.1 = pbCoeff hm e.1 ∧ pbCoeff m ("~" ++ e.1) = pbCoeff hm ("~" ++ e.1) :=
      fun e he => hm' e (List.mem_cons_of_mem _ he)
    rw [reduceLoop]
    simp only
    split
    · exact reduce_eval hν hn.2 hg' hm''
    · rename_i hneg
      have hneg : isNegatedLiteral lit = false := by simpa using hneg
      split
      · exact reduce_eval hν hn.2 hg' hm''
      · rename_i neg hopp
        obtain ⟨h1, h2⟩ := hm' _ List.mem_cons_self hneg
        have hp := hg _ List.mem_cons_self
        simp only at h1 h2 hp
        rw [pbCoeff, pbCoeff, hp] at h1
        rw [pbCoeff, pbCoeff, hopp] at h2
        simp only [Option.getD_some] at h1 h2
        have key : ∀ v w : ℤ, pbEval ν (applyChanges (mapInsert (mapInsert m lit v) ("~" ++ lit) w) (reduceLoop hm es).1) + (reduceLoop hm es).2 =
            pbEval ν m + (v - pos) * ν lit + (w - neg) * (1 - ν lit) := by
          intro v w
          rw [reduce_eval hν hn.2 hg' ?_]
          · rw [pbEval_insert, pbEval_insert, hν lit hneg]
            have e1 : pbCoeff m lit = pos := h1
            have e2 : pbCoeff (mapInsert m lit v) ("~" ++ lit) = neg := by
              rw [pbCoeff, pbGet_insert, if_neg (Ne.symm (tilde_ne lit))]
              exact h2
            rw [e1, e2]
          · intro e he hen
            have a1 : lit ≠ e.1 := fun h => hn.1 (List.mem_map.2 ⟨e, he, h.symm⟩)
            have a2 : "~" ++ lit ≠ e.1 := by
              intro h
              rw [← h, tilde_negated] at hen
              cases hen
            have a3 : lit ≠ "~" ++ e.1 := by
              intro h
              rw [h, tilde_negated] at hneg
              cases hneg
            have a4 : "~" ++ lit ≠ "~" ++ e.1 := fun h => a1 (tilde_inj h)
            obtain ⟨b1, b2⟩ := hm'' e he hen
            refine ⟨?_, ?_⟩
            · rw [pbCoeff, pbGet_insert, if_neg a2, pbGet_insert, if_neg a1]
              exact b1
            · rw [pbCoeff, pbGet_insert, if_neg a4, pbGet_insert, if_neg a3]
              exact b2
        split
        · rename_i hlt
          simp only [applyChanges]
          have := key (pos - neg) 0
          rw [min_eq_right (le_of_lt hlt)]
          linarith
        · rename_i hlt
          simp only [applyChanges]
          have := key 0 (neg - pos)
          rw [min_eq_left (by omega)]
          linarith

/-! ## Rounding -/

theorem ceilDiv_zero {d : ℤ} (hd : 0 < d) : ceilDiv d 0 = 0 := by
  rw [ceilDiv, Int.tdiv_eq_ediv_of_nonneg (by omega)]
  exact Int.ediv_eq_zero_of_lt (by omega) (by omega)

theorem ceilDiv_mono {d x y : ℤ} (hd : 0 < d) (h : x ≤ y) : ceilDiv d x ≤ ceilDiv d y :=
  Int.tdiv_le_tdiv hd (by omega)

theorem ceilDiv_cases {d x : ℤ} (hd : 0 < d) :
    (0 ≤ x + d - 1 ∧ 0 ≤ ceilDiv d x ∧ ceilDiv d x * d ≤ x + d - 1 ∧ x ≤ ceilDiv d x * d) ∨
    (x + d - 1 < 0 ∧ ceilDiv d x ≤ 0 ∧ x + d - 1 ≤ ceilDiv d x * d ∧ (ceilDiv d x - 1) * d < x + d - 1) := by
  rcases Int.le_total 0 (x + d - 1) with h | h
  · left
    have e : ceilDiv d x = (x + d - 1) / d := Int.tdiv_eq_ediv_of_nonneg h
    have h1 := Int.ediv_mul_le (x + d - 1) (Int.ne_of_gt hd)
    have h2 := Int.lt_ediv_add_one_mul_self (x + d - 1) hd
    rw [e]
    refine ⟨h, Int.ediv_nonneg h (Int.le_of_lt hd), h1, ?_⟩
    rw [Int.add_mul, Int.one_mul] at h2
    omega
  · rcases Int.lt_or_eq_of_le h with h | h
    · right
      have e : ceilDiv d x = -((-(x + d - 1)) / d) := by
        rw [← Int.tdiv_eq_ediv_of_nonneg (by omega), Int.neg_tdiv, Int.neg_neg]
        rfl
      have h1 := Int.ediv_mul_le (-(x + d - 1)) (Int.ne_of_gt hd)
      have h2 := Int.lt_ediv_add_one_mul_self (-(x + d - 1)) hd
      have h3 := Int.ediv_nonneg (show 0 ≤ -(x + d - 1) by omega) (Int.le_of_lt hd)
      rw [e]
      generalize -(x + d - 1) / d = q at *
      refine ⟨h, by omega, ?_, ?_⟩
      · rw [Int.neg_mul]; omega
      · rw [Int.add_mul, Int.one_mul] at h2
        rw [Int.sub_mul, Int.neg_mul, Int.one_mul]
        omega
    · left
      have e : ceilDiv d x = 0 := by rw [ceilDiv, h]; simp
      rw [e]
      omega

theorem ceilDiv_add {d a b : ℤ} (hd : 0 < d) : ceilDiv d (a + b) ≤ ceilDiv d a + ceilDiv d b := by
  have key : ∀ {x y : ℤ}, x * d < (y + 1) * d → x ≤ y := fun h => by
    have := lt_of_mul_lt_mul_right h (le_of_lt hd)
    omega
  rcases ceilDiv_cases (x := a) hd with ⟨a1, a2, a3, a4⟩ | ⟨a1, a2, a3, a4⟩ <;>
  rcases ceilDiv_cases (x := b) hd with ⟨b1, b2, b3, b4⟩ | ⟨b1, b2, b3, b4⟩ <;>
  rcases ceilDiv_cases (x := a + b) hd with ⟨c1, c2, c3, c4⟩ | ⟨c1, c2, c3, c4⟩ <;>
  generalize ceilDiv d a = qa at * <;> generalize ceilDiv d b = qb at * <;> generalize ceilDiv d (a + b) = q at *
  all_goals (apply key; nlinarith)

/-! ## Constraints and their hash maps -/

def litKey (pr : Term → String) (b : Bool) (l : Term) : String := if b then "~" ++ pr l else pr l

noncomputable def litVal (M : Model) (b : Bool) (l : Term) : ℝ := if b then 1 - M.numv l else M.numv l

theorem isOne_iff {t : Term} : t.asNumber = some 1 ↔ isOne t = true := by
  cases t with
  | const c => cases c <;> simp [Term.asNumber, isOne]
  | _ => simp [Term.asNumber, isOne]

theorem numv_one {M : Model} {t : Term} (h : isOne t = true) : M.numv t = 1 := by
  cases t with
  | const c => cases c <;> simp_all [isOne, Model.numv, Model.val, eval, Val.num, evalConst]
  | _ => simp [isOne] at h

theorem matchProd_some {t a b : Term} (h : matchProd t = some (a, b)) : t = .op .mult [a, b] := by
  unfold matchProd at h
  split at h
  · cases h; rfl
  · cases h

theorem matchOneMinus_some {t l : Term} (h : matchOneMinus t = some l) : ∃ a, isOne a = true ∧ t = .op .sub [a, l] := by
  unfold matchOneMinus at h
  split at h
  · rename_i a l'
    split at h
    · rename_i h1
      cases h
      exact ⟨a, isOne_iff.1 h1, rfl⟩
    · cases h
  · cases h

theorem asIntegerErr_ok {t : Term} {z : ℤ} : t.asIntegerErr = .ok z ↔ t = .const (.int z) := by
  rw [Term.asIntegerErr, orErr_ok]
  cases t with
  | const c => cases c <;> simp [Term.asInteger]
  | _ => simp [Term.asInteger]

theorem numv_intConst (M : Model) (z : ℤ) : M.numv (.const (.int z)) = z := by
  simp [Model.numv, Model.val, eval, Val.num, evalConst]

theorem numv_oneMinus {M : Model} {a l : Term} {s : Srt} (ha : isOne a = true) (hs : sortOf (.op .sub [a, l]) = some s) :
    M.numv (.op .sub [a, l]) = 1 - M.numv l := by
  rw [M.numv_sub hs, numv_one ha]
  simp

theorem arith_child {o : Op} {ts : List Term} {s : Srt} (ho : o = .add ∨ o = .sub ∨ o = .mult) (h : sortOf (.op o ts) = some s)
    {t : Term} (ht : t ∈ ts) : sortOf t = some s := by
  obtain ⟨-, ⟨rfl, hi⟩ | ⟨rfl, hr⟩⟩ := arith_children ho h
  · exact hi t ht
  · exact hr t ht

theorem pbEntry_spec {pr : Term → String} {t : Term} {key : String} {c : ℤ} (h : pbEntry pr t = .ok (key, c)) :
    ∃ b l, pbAddend t = some (c, b, l) ∧ key = litKey pr b l ∧
      ∀ (M : Model) (s : Srt), sortOf t = some s → M.numv t = c * litVal M b l := by
  rw [pbEntry, bind_ok] at h
  obtain ⟨⟨c', key'⟩, h1, h⟩ := h
  rw [bind_ok] at h
  obtain ⟨z, hz, h⟩ := h
  simp only [asIntegerErr_ok] at hz
  have := ok_inj.1 h
  simp only [Prod.mk.injEq] at this
  obtain ⟨rfl, rfl⟩ := this
  have hprod : ∀ {u : Term} (M : Model) (s : Srt), sortOf (.op .mult [.const (.int z), u]) = some s →
      M.numv (.op .mult [.const (.int z), u]) = z * M.numv u := by
    intro u M s hs
    rw [M.numv_mult hs]
    simp [numv_intConst]
  unfold pbKey at h1
  split at h1
  · rename_i c l hm
    have := ok_inj.1 h1
    simp only [Prod.mk.injEq] at this
    obtain ⟨rfl, rfl⟩ := this
    unfold matchNegProd at hm
    split at hm
    · rename_i c0 u hu
      rw [Option.map_eq_some_iff] at hm
      obtain ⟨l0, hl, hm⟩ := hm
      simp only [Prod.mk.injEq] at hm
      obtain ⟨rfl, rfl⟩ := hm
      have ht := matchProd_some hu
      obtain ⟨a, ha, rfl⟩ := matchOneMinus_some hl
      subst ht hz
      refine ⟨true, l0, ?_, rfl, fun M s hs => ?_⟩
      · simp [pbAddend, ha]
      · rw [hprod M s hs, numv_oneMinus ha (arith_child (by simp) hs (by simp))]
        rfl
    · cases hm
  · rename_i hm
    split at h1
    · rename_i c l hp
      have := ok_inj.1 h1
      simp only [Prod.mk.injEq] at this
      obtain ⟨rfl, rfl⟩ := this
      have ht := matchProd_some hp
      subst ht hz
      refine ⟨false, l, ?_, rfl, fun M s hs => ?_⟩
      · rw [matchNegProd, hp] at hm
        simp only [Option.map_eq_none_iff] at hm
        unfold pbAddend
        split
        · rename_i heq
          simp only [Term.op.injEq, List.cons.injEq, and_true, true_and, Term.const.injEq, Const.int.injEq] at heq
          obtain ⟨rfl, rfl⟩ := heq
          rename_i a l'
          have : isOne a = false := by
            cases hi : isOne a with
            | false => rfl
            | true => rw [matchOneMinus, if_pos (isOne_iff.2 hi)] at hm; cases hm
          simp [this]
        · rename_i heq
          simp only [Term.op.injEq, List.cons.injEq, and_true, true_and, Term.const.injEq, Const.int.injEq] at heq
          obtain ⟨rfl, rfl⟩ := heq
          rfl
        · rename_i h2
          exact absurd rfl (h2 _ _)
      · rw [hprod M s hs]
        rfl
    · cases h1

def pbKeyed (pr : Term → String) (a : ℤ × Bool × Term) : String × ℤ := (litKey pr a.2.1 a.2.2, a.1)

theorem pbLoop_spec {pr : Term → String} : ∀ {ts : List Term} {hm hm' : PbHash}, pbLoop pr hm ts = .ok hm' →
    ∃ as, ts.filterMap pbAddend = as ∧
      ((hm.map (·.1) ++ as.map (fun a => (pbKeyed pr a).1)).Nodup → hm' = hm ++ as.map (pbKeyed pr)) ∧
      ∀ (M : Model) (s : Srt), (∀ t ∈ ts, sortOf t = some s) → (ts.map M.numv).sum = (as.map fun a => (a.1 : ℝ) * litVal M a.2.1 a.2.2).sum
  | [], hm, hm', h => by
    rw [pbLoop] at h
    cases ok_inj.1 h
    exact ⟨[], rfl, by simp, by simp⟩
  | t :: ts, hm, hm', h => by
    rw [pbLoop, bind_ok] at h
    obtain ⟨⟨key, c⟩, h1, h⟩ := h
    obtain ⟨b, l, ha, hk, hv⟩ := pbEntry_spec h1
    obtain ⟨as, has, h2, h3⟩ := pbLoop_spec h
    refine ⟨(c, b, l) :: as, by simp [ha, has], fun hn => ?_, fun M s hs => ?_⟩
    · have hkey : (pbKeyed pr (c, b, l)).1 = key := hk.symm
      rw [List.map_cons, hkey] at hn
      have hnew : key ∉ hm.map (·.1) := by
        intro hmem
        exact (List.nodup_append.1 hn).2.2 _ hmem key List.mem_cons_self rfl
      rw [pbInsert_new hnew] at h2
      rw [h2 (by simpa using hn)]
      simp [pbKeyed, hk]
    · rw [List.map_cons, List.sum_cons, List.map_cons, List.sum_cons, hv M s (hs t List.mem_cons_self),
        h3 M s (fun t ht => hs t (List.mem_cons_of_mem _ ht))]

theorem splitSummation_spec {t : Term} {s : Srt} (hs : sortOf t = some s) :
    (∀ u ∈ splitSummation t, sortOf u = some s) ∧ ∀ M : Model, M.numv t = ((splitSummation t).map M.numv).sum := by
  unfold splitSummation
  split
  · exact ⟨fun u hu => arith_child (by simp) hs hu, fun M => M.numv_add hs⟩
  · exact ⟨by simpa using hs, by simp⟩

theorem pbAddends_eq (t k : Term) : pbAddends (.op .ge [t, k]) = (splitSummation t).filterMap pbAddend := by
  unfold splitSummation
  split
  · rfl
  · rename_i h
    rw [pbAddends]
    · cases ha : pbAddend t <;> simp [ha]
    · exact h

theorem getPbHashmap_spec {pr : Term → String} {t k : Term} {hm : PbHash} (h : getPbHashmap pr t = .ok hm)
    (hn : ((pbAddends (.op .ge [t, k])).map (fun a => (pbKeyed pr a).1)).Nodup) :
    hm = (pbAddends (.op .ge [t, k])).map (pbKeyed pr) ∧
    ∀ (M : Model) (s : Srt), sortOf t = some s →
      M.numv t = ((pbAddends (.op .ge [t, k])).map fun a => (a.1 : ℝ) * litVal M a.2.1 a.2.2).sum := by
  rw [pbAddends_eq] at hn ⊢
  have key : ∀ {hm}, pbLoop pr [] (splitSummation t) = .ok hm → hm = ((splitSummation t).filterMap pbAddend).map (pbKeyed pr) ∧
    ∀ (M : Model) (s : Srt), sortOf t = some s →
      M.numv t = (((splitSummation t).filterMap pbAddend).map fun a => (a.1 : ℝ) * litVal M a.2.1 a.2.2).sum := by
    intro hm h
    obtain ⟨as, rfl, h1, h2⟩ := pbLoop_spec h
    refine ⟨by simpa using h1 (by simpa using hn), fun M s hs => ?_⟩
    obtain ⟨a1, a2⟩ := splitSummation_spec hs
    rw [a2 M, h2 M s a1]
  unfold getPbHashmap at h
  split at h
  · rename_i u hu
    split at h
    · rename_i z hz
      split at h
      · rename_i h0
        have hu0 : u = .const (.int 0) := by
          rw [← asIntegerErr_ok, Term.asIntegerErr, orErr_ok, hz, h0]
        cases ok_inj.1 h
        have : (splitSummation t).filterMap pbAddend = [] := by rw [hu, hu0]; rfl
        rw [this]
        refine ⟨rfl, fun M s hs => ?_⟩
        rw [(splitSummation_spec hs).2 M, hu, hu0]
        simp [numv_intConst]
      · cases h
    · rw [← hu] at h
      exact key h
  · exact key h

theorem unwrapPb_spec {pr : Term → String} {t : Term} {hm : PbHash} {k : ℤ} (h : unwrapPb pr t = .ok (hm, k))
    (hn : ((pbAddends t).map (fun a => (pbKeyed pr a).1)).Nodup) {M : Model} {ν : String → ℤ}
    (hν : ∀ a ∈ pbAddends t, (ν (pbKeyed pr a).1 : ℝ) = litVal M a.2.1 a.2.2) {s : Srt} (hs : sortOf t = some s) :
    hm = (pbAddends t).map (pbKeyed pr) ∧ (hm.map (·.1)).Nodup ∧ (M.Holds t ↔ k ≤ pbEval ν hm) := by
  rw [unwrapPb, bind_ok] at h
  obtain ⟨⟨u, v⟩, h1, h⟩ := h
  rw [match2_ok] at h1
  subst h1
  rw [bind_ok] at h
  obtain ⟨z, hz, h⟩ := h
  rw [bind_ok] at h
  obtain ⟨hm', h2, h⟩ := h
  have := ok_inj.1 h
  simp only [Prod.mk.injEq] at this
  obtain ⟨rfl, rfl⟩ := this
  have hz := asIntegerErr_ok.1 hz
  subst hz
  obtain ⟨h3, h4⟩ := getPbHashmap_spec (k := .const (.int z)) h2 hn
  obtain ⟨-, sa, sb, ha, hb, na, nb⟩ := (sort_cmp (by simp [Op.IsCmp])).1 hs
  refine ⟨h3, by rw [h3, List.map_map]; exact hn, ?_⟩
  rw [(M.holds_cmp ha hb na nb).2.2.2, h4 M sa ha, numv_intConst]
  have e : ((pbEval ν hm' : ℤ) : ℝ) = ((pbAddends (.op .ge [u, .const (.int z)])).map fun a => (a.1 : ℝ) * litVal M a.2.1 a.2.2).sum := by
    rw [h3, pbEval, List.map_map, cast_sum, List.map_map]
    refine congrArg List.sum (List.map_congr_left fun a ha => ?_)
    simp only [Function.comp, Int.cast_mul]
    rw [hν a ha]
    rfl
  rw [ge_iff_le, ← e, Int.cast_le]

/-! ## Values of keys -/

noncomputable def keyBase (pr : Term → String) (M : Model) (ls : List Term) (s : List Char) : ℤ :=
  if ∃ l ∈ ls, (pr l).toList = s ∧ M.numv l = 1 then 1 else 0

noncomputable def keyVal (pr : Term → String) (M : Model) (ls : List Term) (s : String) : ℤ :=
  match s.toList with
  | '~' :: cs => 1 - keyBase pr M ls cs
  | cs => keyBase pr M ls cs

theorem keyBase_01 (pr : Term → String) (M : Model) (ls : List Term) (s : List Char) :
    keyBase pr M ls s = 0 ∨ keyBase pr M ls s = 1 := by
  rw [keyBase]; split <;> simp

theorem keyVal_01 (pr : Term → String) (M : Model) (ls : List Term) (s : String) : keyVal pr M ls s = 0 ∨ keyVal pr M ls s = 1 := by
  unfold keyVal
  split
  · rename_i cs _
    rcases keyBase_01 pr M ls cs with h | h <;> simp [h]
  · exact keyBase_01 _ _ _ _

theorem keyVal_plain {pr : Term → String} {M : Model} {ls : List Term} {s : String} (h : isNegatedLiteral s = false) :
    keyVal pr M ls s = keyBase pr M ls s.toList := by
  unfold keyVal
  split
  · rename_i cs hcs
    simp [isNegatedLiteral, hcs] at h
  · rfl

theorem keyVal_neg (pr : Term → String) (M : Model) (ls : List Term) {s : String} (h : isNegatedLiteral s = false) :
    keyVal pr M ls ("~" ++ s) = 1 - keyVal pr M ls s := by
  rw [keyVal_plain h]
  have : ("~" ++ s).toList = '~' :: s.toList := by simp
  rw [keyVal, this]
  rfl

theorem keyVal_key {pr : Term → String} {M : Model} {ts : List Term} (hn : NamesApart pr ts) (hz : ∀ t ∈ ts, ZeroOne M t)
    {t : Term} (ht : t ∈ ts) {a : ℤ × Bool × Term} (ha : a ∈ pbAddends t) :
    (keyVal pr M (ts.flatMap pbLiterals) (pbKeyed pr a).1 : ℝ) = litVal M a.2.1 a.2.2 := by
  obtain ⟨c, b, l⟩ := a
  have hl : l ∈ pbLiterals t := List.mem_map.2 ⟨_, ha, rfl⟩
  have hplain : isNegatedLiteral (pr l) = false := by
    have := hn.plain t ht l hl
    simpa [isNegatedLiteral] using this
  have base : (keyBase pr M (ts.flatMap pbLiterals) (pr l).toList : ℝ) = M.numv l := by
    rw [keyBase]
    split
    · rename_i h
      obtain ⟨l', hl', he, h1⟩ := h
      obtain ⟨t', ht', hl'⟩ := List.mem_flatMap.1 hl'
      rw [← hn.inj t' ht' t ht l' hl' l hl (String.toList_injective he), h1]
      simp
    · rename_i h
      rcases hz t ht l hl with h0 | h1
      · rw [h0]; simp
      · exact absurd ⟨l, List.mem_flatMap.2 ⟨t, ht, hl⟩, rfl, h1⟩ h
  cases b with
  | false =>
    show (keyVal pr M _ (pr l) : ℝ) = M.numv l
    rw [keyVal_plain hplain, base]
  | true =>
    show (keyVal pr M _ ("~" ++ pr l) : ℝ) = 1 - M.numv l
    rw [keyVal_neg _ _ _ hplain, keyVal_plain hplain, Int.cast_sub, base]
    simp

theorem pbKeys_nodup {pr : Term → String} {ts : List Term} (hn : NamesApart pr ts) {t : Term} (ht : t ∈ ts) (hd : DistinctLiterals t) :
    ((pbAddends t).map (fun a => (pbKeyed pr a).1)).Nodup := by
  have : (pbAddends t).map (fun a => (pbKeyed pr a).1) = ((pbAddends t).map (·.2)).map (fun x => litKey pr x.1 x.2) := by
    rw [List.map_map]; rfl
  rw [this]
  refine List.Nodup.map_on ?_ hd
  rintro ⟨b, l⟩ hx ⟨b', l'⟩ hy h
  obtain ⟨⟨c, b0, l0⟩, hx, hx'⟩ := List.mem_map.1 hx
  obtain ⟨⟨c', b0', l0'⟩, hy, hy'⟩ := List.mem_map.1 hy
  cases hx'
  cases hy'
  have hl : l ∈ pbLiterals t := List.mem_map.2 ⟨_, hx, rfl⟩
  have hl' : l' ∈ pbLiterals t := List.mem_map.2 ⟨_, hy, rfl⟩
  have plain : ∀ l ∈ pbLiterals t, isNegatedLiteral (pr l) = false := fun l hl => by
    simpa [isNegatedLiteral] using hn.plain t ht l hl
  have inj := hn.inj t ht t ht l hl l' hl'
  cases b <;> cases b' <;> simp only [litKey, if_true, Bool.false_eq_true, if_false] at h
  · rw [inj h]
  · have := plain l hl
    rw [h, tilde_negated] at this
    cases this
  · have := plain l' hl'
    rw [← h, tilde_negated] at this
    cases this
  · rw [inj (tilde_inj h)]

/-- What the theorems use of the constraints. -/
theorem unwrap_constraint {pr : Term → String} {ts : List Term} (hn : NamesApart pr ts) (hd : ∀ t ∈ ts, DistinctLiterals t) {M : Model}
    (hz : ∀ t ∈ ts, ZeroOne M t) {t : Term} (ht : t ∈ ts) {hm : PbHash} {k : ℤ} (h : unwrapPb pr t = .ok (hm, k)) {s : Srt}
    (hs : sortOf t = some s) :
    hm = (pbAddends t).map (pbKeyed pr) ∧ (hm.map (·.1)).Nodup ∧
      (M.Holds t ↔ k ≤ pbEval (keyVal pr M (ts.flatMap pbLiterals)) hm) :=
  unwrapPb_spec h (pbKeys_nodup hn ht (hd t ht)) (fun _ ha => keyVal_key hn hz ht ha) hs

theorem eval_le_of_coeff {ν : String → ℤ} {p c : PbHash} (hp : (p.map (·.1)).Nodup) (hc : (c.map (·.1)).Nodup) :
    ∃ K : Finset String, pbEval ν p = ∑ k ∈ K, pbCoeff p k * ν k ∧ pbEval ν c = ∑ k ∈ K, pbCoeff c k * ν k :=
  ⟨(p.map (·.1)).toFinset ∪ (c.map (·.1)).toFinset,
    pbEval_eq_sum ν hp _ fun _ hx => Finset.mem_union_left _ (List.mem_toFinset.2 hx),
    pbEval_eq_sum ν hc _ fun _ hx => Finset.mem_union_right _ (List.mem_toFinset.2 hx)⟩

end Carcara
