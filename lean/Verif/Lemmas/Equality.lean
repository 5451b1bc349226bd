import Verif.Model.Equality
import Verif.Lemmas.Cnf
import Verif.Lemmas.Utils
import Mathlib.Algebra.BigOperators.Group.List.Basic

/-! # Facts used in the proofs about the equality rules -/

namespace Carcara
open Classical Val Sem

theorem collectRes_ok {α β : Type} {f : α → Res β} {l : List α} {bs : List β} :
    collectRes f l = .ok bs ↔ List.Forall₂ (fun a b => f a = .ok b) l bs := by
  induction l generalizing bs with
  | nil => cases bs <;> simp [collectRes]
  | cons a l ih =>
    simp only [collectRes, bind_ok, pure_ok, List.forall₂_cons_left_iff]
    constructor
    · rintro ⟨b, hb, bs', hbs, rfl⟩; exact ⟨b, bs', hb, ih.1 hbs, rfl⟩
    · rintro ⟨b, bs', hb, hbs, rfl⟩; exact ⟨b, hb, bs', ih.2 hbs, rfl⟩

theorem premiseEq_ok {c : List Term} {p : Term × Term} : premiseEq c = .ok p ↔ c = [.op .equals [p.1, p.2]] := by
  simp only [premiseEq, bind_ok, get1_ok, match2_ok]
  constructor
  · rintro ⟨a, rfl, rfl⟩; rfl
  · rintro rfl; exact ⟨_, rfl, rfl⟩

theorem matchNeq_ok {t : Term} {p : Term × Term} : matchNeq t = .ok p ↔ t = .op .not [.op .equals [p.1, p.2]] := by
  simp only [matchNeq, bind_ok, match1_ok, match2_ok]
  constructor
  · rintro ⟨a, rfl, rfl⟩; rfl
  · rintro rfl; exact ⟨_, rfl, rfl⟩

theorem forall2_mem_left {α β : Type} {R : α → β → Prop} {as : List α} {bs : List β} (h : List.Forall₂ R as bs) :
    ∀ b ∈ bs, ∃ a ∈ as, R a b := by
  induction h with
  | nil => simp
  | cons h _ ih =>
    intro b hb
    rcases List.mem_cons.1 hb with rfl | hb
    · exact ⟨_, by simp, h⟩
    · obtain ⟨a, ha, hr⟩ := ih b hb; exact ⟨a, by simp [ha], hr⟩

theorem findEq_some {a : Term} {ps : List (Term × Term)} {i j : Nat} {c : Term} (h : findEq a i ps = some (j, c)) :
    (a, c) ∈ ps ∨ (c, a) ∈ ps := by
  induction ps generalizing i with
  | nil => simp [findEq] at h
  | cons p ps ih =>
    obtain ⟨t, u⟩ := p
    simp only [findEq] at h
    split at h
    · next e => simp only [Option.some.injEq, Prod.mk.injEq] at h; simp [e, h.2]
    · split at h
      · next e => simp only [Option.some.injEq, Prod.mk.injEq] at h; simp [e, h.2]
      · rcases ih h with h | h <;> simp [h]

theorem mem_swapTail {α : Type} {l : List α} {i : Nat} {x : α} (h : x ∈ swapTail l i) : x ∈ l := by
  unfold swapTail at h
  split at h
  · exact h
  · next a l =>
    have := List.mem_of_mem_tail h
    rcases List.mem_or_eq_of_mem_set this with h | rfl
    · exact h
    · simp

/-- A chain of equalities that hold makes the two ends equal. -/
theorem findChain_sound {β : Type} (f : Term → β) : ∀ {n : Nat} {a b : Term} {ps : List (Term × Term)},
    findChain n a b ps = .ok () → (∀ p ∈ ps, f p.1 = f p.2) → f a = f b
  | n, a, b, ps, h, hp => by
    rw [findChain.eq_def] at h
    simp only at h
    split at h
    · next e => rw [e]
    · split at h
      · next i c n hf =>
        have h1 : f a = f c := by
          rcases findEq_some hf with h | h
          · exact hp _ h
          · exact (hp _ h).symm
        exact h1.trans (findChain_sound f h (fun p hp' => hp p (mem_swapTail hp')))
      · simp at h

theorem sameHead_ok {p q : Term} {as bs : List Term} (h : sameHead p q = .ok (as, bs)) :
    (∃ f, p = .app f as ∧ q = .app f bs) ∨ ∃ o, p = .op o as ∧ q = .op o bs := by
  unfold sameHead at h
  split at h
  · split at h <;> simp at h
    next e => obtain ⟨rfl, rfl⟩ := h; subst e; exact Or.inl ⟨_, rfl, rfl⟩
  · split at h <;> simp at h
    next e => obtain ⟨rfl, rfl⟩ := h; subst e; exact Or.inr ⟨_, rfl, rfl⟩
  · simp at h

theorem congArgs_ok {p q : Term} {as bs : List Term} (h : congArgs p q = .ok (as, bs)) :
    (∃ f, p = .app f as ∧ q = .app f bs) ∨ (∃ o, p = .op o as ∧ q = .op o bs) ∨
    ∃ o ps, p = .paramOp o ps as ∧ q = .paramOp o ps bs := by
  unfold congArgs at h
  split at h
  · split at h <;> simp at h
    next e =>
      obtain ⟨rfl, rfl⟩ := h
      simp only [ne_eq, not_or, not_not] at e
      obtain ⟨rfl, rfl⟩ := e
      exact Or.inr (Or.inr ⟨_, _, rfl, rfl⟩)
  · rcases sameHead_ok h with h | h
    · exact Or.inl h
    · exact Or.inr (Or.inl h)

theorem Model.val_app (M : Model) (f : Term) (as : List Term) :
    M.val (.app f as) = M.I.app (M.val f) (as.map M.val) := by
  simp only [val, eval, evalL_eq_map]; rfl

theorem Model.val_paramOp (M : Model) (o : ParamOp) (ps as : List Term) :
    M.val (.paramOp o ps as) = evalPop M.I o (ps.map M.val) (as.map M.val) := by
  simp only [val, eval, evalL_eq_map]; rfl

theorem cong_val (M : Model) {p q : Term} {as bs : List Term} (h : congArgs p q = .ok (as, bs))
    (he : as.map M.val = bs.map M.val) : M.val p = M.val q := by
  rcases congArgs_ok h with ⟨f, rfl, rfl⟩ | ⟨o, rfl, rfl⟩ | ⟨o, ps, rfl, rfl⟩
  · rw [M.val_app, M.val_app, he]
  · rw [M.val_op, M.val_op, he]
  · rw [M.val_paramOp, M.val_paramOp, he]

theorem sameHead_congArgs {p q : Term} {as bs : List Term} (h : sameHead p q = .ok (as, bs)) :
    congArgs p q = .ok (as, bs) := by
  unfold congArgs
  split
  · simp [sameHead] at h
  · exact h

theorem justify_sound {β : Type} (f : Term → β) : ∀ {ps : List (Term × Term)} {as bs : List Term},
    justify ps as bs = .ok () → ps.length = as.length → as.length = bs.length →
    (∀ p ∈ ps, f p.1 = f p.2) → as.map f = bs.map f
  | [], [], [], _, _, _, _ => rfl
  | (t, u) :: ps, a :: as, b :: bs, h, h1, h2, hp => by
    simp only [justify, bind_ok, require_ok] at h
    obtain ⟨_, hj, h⟩ := h
    have ih := justify_sound f h (by simpa using h1) (by simpa using h2) (fun p hp' => hp p (by simp [hp']))
    have := hp (t, u) (by simp)
    rcases hj with ⟨rfl, rfl⟩ | ⟨rfl, rfl⟩
    · simp_all
    · simp_all

theorem checkCong_sound {β : Type} (f : Term → β) : ∀ {as bs : List Term} {ps : List (Term × Term)},
    checkCong ps as bs = .ok () → as.length = bs.length → (∀ p ∈ ps, f p.1 = f p.2) → as.map f = bs.map f
  | [], [], _, _, _, _ => rfl
  | a :: as, b :: bs, ps, h, hl, hp => by
    rw [checkCong.eq_def] at h
    simp only at h
    have hl' : as.length = bs.length := by simpa using hl
    split at h
    · next t u rest =>
      have h0 := hp (t, u) (by simp)
      split at h
      · next e =>
        have ih := checkCong_sound f h hl' (fun p hp' => hp p (by simp [hp']))
        rcases e with ⟨rfl, rfl⟩ | ⟨rfl, rfl⟩ <;> simp_all
      · split at h
        · next e => rw [List.map_cons, List.map_cons, checkCong_sound f h hl' hp, e]
        · simp at h
    · split at h
      · next e => rw [List.map_cons, List.map_cons, checkCong_sound f h hl' hp, e]
      · simp at h

theorem Res.isOk_iff {x : Res Unit} : x.isOk = true ↔ x = .ok () := by
  cases x <;> simp [Res.isOk]

theorem Model.val_eq_symm (M : Model) (a b : Term) : M.val (.op .equals [a, b]) = M.val (.op .equals [b, a]) := by
  rw [M.val_eq, M.val_eq]; simp only [eq_comm]

/-- Equality of a clause split off its last literal. -/
theorem dropLast_concat_getLast? {α : Type} {l : List α} {a : α} (h : l.getLast? = some a) :
    l = l.dropLast ++ [a] := by
  rcases List.eq_nil_or_concat l with rfl | ⟨t, z, rfl⟩
  · simp at h
  · simp at h; simp [h]

theorem perm_val (M : Model) {o : Op} (ho : o = .add ∨ o = .mult ∨ o = .and ∨ o = .or) {as bs : List Term}
    (hp : as.Perm bs) {s : Srt} (hs : sortOf (.op o as) = some s) : M.val (.op o as) = M.val (.op o bs) := by
  rcases ho with rfl | rfl | rfl | rfl
  · obtain ⟨hne, h⟩ := arith_children (by simp) hs
    rcases h with ⟨-, h⟩ | ⟨-, h⟩
    · obtain ⟨zs, hz⟩ := M.vals_int h
      obtain ⟨ys, hy⟩ := M.vals_int (fun t ht => h t (hp.mem_iff.2 ht))
      have : (zs.map (Val.int (U := M.I.U))).Perm (ys.map .int) := by rw [← hz, ← hy]; exact hp.map _
      have : zs.Perm ys := (List.map_perm_map_iff (fun a b h => by simpa using h)).1 this
      rw [M.val_op, M.val_op, hz, hy, evalOp_add_int, evalOp_add_int, this.sum_eq]
    · obtain ⟨zs, hz⟩ := M.vals_real h
      obtain ⟨ys, hy⟩ := M.vals_real (fun t ht => h t (hp.mem_iff.2 ht))
      have : (zs.map (Val.real (U := M.I.U))).Perm (ys.map .real) := by rw [← hz, ← hy]; exact hp.map _
      have : zs.Perm ys := (List.map_perm_map_iff (fun a b h => by simpa using h)).1 this
      have h1 : zs ≠ [] := by rintro rfl; simp at hz; exact hne hz
      have h2 : ys ≠ [] := by rintro rfl; simp at this; exact h1 this
      rw [M.val_op, M.val_op, hz, hy, evalOp_add_real _ _ h1, evalOp_add_real _ _ h2, this.sum_eq]
  · obtain ⟨hne, h⟩ := arith_children (by simp) hs
    rcases h with ⟨-, h⟩ | ⟨-, h⟩
    · obtain ⟨zs, hz⟩ := M.vals_int h
      obtain ⟨ys, hy⟩ := M.vals_int (fun t ht => h t (hp.mem_iff.2 ht))
      have : (zs.map (Val.int (U := M.I.U))).Perm (ys.map .int) := by rw [← hz, ← hy]; exact hp.map _
      have : zs.Perm ys := (List.map_perm_map_iff (fun a b h => by simpa using h)).1 this
      rw [M.val_op, M.val_op, hz, hy, evalOp_mult_int, evalOp_mult_int, this.prod_eq]
    · obtain ⟨zs, hz⟩ := M.vals_real h
      obtain ⟨ys, hy⟩ := M.vals_real (fun t ht => h t (hp.mem_iff.2 ht))
      have : (zs.map (Val.real (U := M.I.U))).Perm (ys.map .real) := by rw [← hz, ← hy]; exact hp.map _
      have : zs.Perm ys := (List.map_perm_map_iff (fun a b h => by simpa using h)).1 this
      have h1 : zs ≠ [] := by rintro rfl; simp at hz; exact hne hz
      have h2 : ys ≠ [] := by rintro rfl; simp at this; exact h1 this
      rw [M.val_op, M.val_op, hz, hy, evalOp_mult_real _ _ h1, evalOp_mult_real _ _ h2, this.prod_eq]
  · rw [M.val_and, M.val_and]; simp only [hp.mem_iff]
  · rw [M.val_or, M.val_or]; simp only [hp.mem_iff]

end Carcara
