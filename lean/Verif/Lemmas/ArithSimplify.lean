import Verif.Lemmas.Num
import Mathlib.Tactic.LinearCombination

/-! # Facts used in the proofs about the arithmetic simplification rules -/

namespace Carcara
open Classical Val Sem

/-! ## Rewriting under a condition -/

/-- Like `RewriteOK`, for terms that satisfy a condition which the rewrite keeps. -/
def RewriteOKOn (P : Term → Prop) (f : Term → Res (Option Term)) : Prop :=
  ∀ t u s, f t = .ok (some u) → P t → sortOf t = some s → P u ∧ sortOf u = some s ∧ ∀ M : Model, M.val u = M.val t

theorem simplifyFix_ok_on {P : Term → Prop} {f : Term → Res (Option Term)} (hf : RewriteOKOn P f) {goal : Term} :
    ∀ {n : Nat} {seen : List Term} {t u : Term} {s : Srt}, simplifyFix f goal n seen t = .ok u → P t →
    sortOf t = some s → ∀ M : Model, M.val u = M.val t := by
  intro n
  induction n with
  | zero => intro seen t u s h; simp [simplifyFix] at h
  | succ n ih =>
    intro seen t u s h hp hs M
    simp only [simplifyFix] at h
    split at h
    · simp at h
    · simp only [bind_ok] at h
      obtain ⟨r, hr, h⟩ := h
      cases r with
      | none => simp only [ok_inj] at h; rw [h]
      | some v =>
        obtain ⟨hpv, hv, e⟩ := hf t v s hr hp hs
        simp only at h
        split at h
        · simp only [ok_inj] at h; subst h; exact e M
        · rw [ih h hpv hv M, e M]

theorem genericSimplify_sound_on {P : Term → Prop} {f : Term → Res (Option Term)} (hf : RewriteOKOn P f)
    {l r : Term} {ps : List (List Term)} {as : List Term} (h : genericSimplify f [.op .equals [l, r]] ps as = .ok ())
    {s : Srt} (hl : sortOf l = some s) (hr : sortOf r = some s) (pl : P l) (pr : P r) (M : Model) :
    M.val l = M.val r := by
  simp only [genericSimplify, bind_ok, get1_ok, match2_ok, Prod.exists] at h
  obtain ⟨_, e, l', r', rfl, u, hu, h⟩ := h
  simp only [List.cons.injEq, Term.op.injEq, true_and, and_true] at e
  obtain ⟨rfl, rfl⟩ := e
  split at h
  · next e => subst e; exact (simplifyFix_ok_on hf hu pl hl M).symm
  · simp only [bind_ok, require_ok] at h
    obtain ⟨v, hv, rfl⟩ := h
    exact simplifyFix_ok_on hf hv pr hr M

/-! ## Sums and products -/

theorem exact_args {o : Op} {as : List Term} (h : (Term.op o as).exactDivs = true) : ∀ a ∈ as, a.exactDivs = true := by
  simp only [Term.exactDivs, Bool.and_eq_true, Term.exactDivsL_iff] at h
  exact h.2

/-- The operation on real numbers. -/
noncomputable def foldReal (k : Op) (l : List ℝ) : ℝ := if k = .add then l.sum else l.prod

/-- The operation on two real numbers. -/
noncomputable def foldReal2 (k : Op) (a b : ℝ) : ℝ := if k = .add then a + b else a * b

theorem foldReal_cons (k : Op) (a : ℝ) (l : List ℝ) : foldReal k (a :: l) = foldReal2 k a (foldReal k l) := by
  unfold foldReal foldReal2; split <;> simp

theorem foldReal_append (k : Op) (l l' : List ℝ) :
    foldReal k (l ++ l') = foldReal2 k (foldReal k l) (foldReal k l') := by
  unfold foldReal foldReal2; split <;> simp

theorem foldReal2_assoc (k : Op) (a b c : ℝ) :
    foldReal2 k (foldReal2 k a b) c = foldReal2 k a (foldReal2 k b c) := by
  unfold foldReal2; split <;> ring

theorem foldReal2_comm (k : Op) (a b : ℝ) : foldReal2 k a b = foldReal2 k b a := by
  unfold foldReal2; split <;> ring

theorem foldReal_nil (k : Op) : foldReal k [] = (foldIdentity k : Rat) := by
  unfold foldReal foldIdentity; split <;> simp

theorem foldReal2_identity (k : Op) (a : ℝ) : foldReal2 k ((foldIdentity k : Rat) : ℝ) a = a := by
  unfold foldReal2 foldIdentity; split <;> simp

theorem foldConst_cast (k : Op) (p q : Rat) : ((foldConst k p q : Rat) : ℝ) = foldReal2 k p q := by
  unfold foldConst foldReal2; split <;> simp

/-- The numeric value of a sum or product. -/
theorem Model.numv_fold (M : Model) {k : Op} (hk : k = .add ∨ k = .mult) {ts : List Term} {s : Srt}
    (h : sortOf (.op k ts) = some s) : M.numv (.op k ts) = foldReal k (ts.map M.numv) := by
  rcases hk with rfl | rfl
  · simpa [foldReal] using M.numv_add h
  · simpa [foldReal] using M.numv_mult h

theorem fold_children {k : Op} (hk : k = .add ∨ k = .mult) {ts : List Term} {s : Srt}
    (h : sortOf (.op k ts) = some s) : s.IsNum ∧ ∀ t ∈ ts, sortOf t = some s := by
  obtain ⟨-, ⟨rfl, hi⟩ | ⟨rfl, hr⟩⟩ := arith_children (by tauto) h
  · exact ⟨Or.inl rfl, hi⟩
  · exact ⟨Or.inr rfl, hr⟩

theorem collectConsts_ok {k : Op} (hk : k = .add ∨ k = .mult) {s : Srt} (M : Model) :
    ∀ {ts : List Term} {total : Rat} {res : List Term} {total' : Rat} {res' : List Term},
    collectConsts k ts total res = .ok (total', res') → (∀ t ∈ ts, sortOf t = some s ∧ t.exactDivs = true) →
    foldReal2 k total' (foldReal k (res'.map M.numv)) =
      foldReal2 k (foldReal2 k total (foldReal k (res.map M.numv))) (foldReal k (ts.map M.numv)) := by
  intro ts
  induction ts with
  | nil =>
    intro total res total' res' h _
    simp only [collectConsts, ok_inj, Prod.mk.injEq] at h
    obtain ⟨rfl, rfl⟩ := h
    rw [List.map_nil (f := M.numv), foldReal_nil, foldReal2_comm k _ ((foldIdentity k : Rat) : ℝ), foldReal2_identity]
  | cons t ts ih =>
    intro total res total' res' h hts
    have ht := hts t (by simp)
    simp only [collectConsts, bind_ok] at h
    obtain ⟨f, hf, h⟩ := h
    rw [List.map_cons, foldReal_cons]
    cases f with
    | none =>
      simp only at h
      rw [ih h fun u hu => hts u (by simp [hu])]
      simp only [List.map_append, List.map_cons, List.map_nil, foldReal_append, foldReal_cons, foldReal_nil]
      rw [foldReal2_comm k (M.numv t) (_ : ℝ), foldReal2_identity, foldReal2_assoc, foldReal2_assoc, foldReal2_assoc]
    | some r =>
      obtain ⟨-, -, hv⟩ := asFraction_spec hf ht.1 ht.2
      simp only at h
      split at h
      · next hz =>
        obtain ⟨rfl, hz⟩ := hz
        simp only [ok_inj, Prod.mk.injEq] at h
        obtain ⟨rfl, rfl⟩ := h
        have hz' : ((total * r : Rat) : ℝ) = 0 := by
          have : total * r = 0 := by simpa [foldConst] using hz
          rw [this]; simp
        push_cast at hz'
        rw [hv M]
        simp only [foldReal2, foldConst, reduceCtorEq, if_false]
        push_cast
        linear_combination (foldReal .mult (List.map M.numv []) -
          foldReal .mult (List.map M.numv res) * foldReal .mult (List.map M.numv ts)) * hz'
      · rw [ih h fun u hu => hts u (by simp [hu]), foldConst_cast, hv M]
        simp only [foldReal2]
        split <;> ring

theorem leadingAtom_ok {k : Op} {u : Term} {s : Srt} (M : Model) {c : Rat} {as : List Term}
    (h : leadingAtom k u = .ok (c, as)) (hs : sortOf u = some s) (hx : u.exactDivs = true) :
    M.numv u = foldReal2 k c (foldReal k (as.map M.numv)) := by
  simp only [leadingAtom, bind_ok] at h
  obtain ⟨f, hf, h⟩ := h
  cases f with
  | none =>
    simp only [ok_inj, Prod.mk.injEq] at h
    obtain ⟨rfl, rfl⟩ := h
    rw [foldReal2_identity, List.map_cons, foldReal_cons, List.map_nil, foldReal_nil, foldReal2_comm, foldReal2_identity]
  | some r =>
    simp only [ok_inj, Prod.mk.injEq] at h
    obtain ⟨rfl, rfl⟩ := h
    rw [List.map_nil, foldReal_nil, foldReal2_comm, foldReal2_identity, (asFraction_spec hf hs hx).2.2 M]

theorem leadingConst_ok {k : Op} (hk : k = .add ∨ k = .mult) {u : Term} {s : Srt} (M : Model) {c : Rat}
    {as : List Term} (h : leadingConst k u = .ok (c, as)) (hs : sortOf u = some s) (hx : u.exactDivs = true) :
    M.numv u = foldReal2 k c (foldReal k (as.map M.numv)) := by
  unfold leadingConst at h
  split at h
  · next o args =>
    split at h
    · next e =>
      subst e
      split at h
      · simp at h
      · next a rest =>
        simp only [bind_ok] at h
        obtain ⟨b, -, h⟩ := h
        split at h
        · simp at h
        · simp only [bind_ok] at h
          obtain ⟨f, hf, h⟩ := h
          rw [M.numv_fold hk hs, List.map_cons]
          cases f with
          | none =>
            simp only [ok_inj, Prod.mk.injEq] at h
            obtain ⟨rfl, rfl⟩ := h
            rw [foldReal2_identity, List.map_cons]
          | some r =>
            simp only at h
            split at h
            · simp at h
            · simp only [ok_inj, Prod.mk.injEq] at h
              obtain ⟨rfl, rfl⟩ := h
              rw [foldReal_cons, (asFraction_spec hf ((fold_children hk hs).2 a (by simp))
                (exact_args hx a (by simp))).2.2 M]
    · exact leadingAtom_ok M h hs hx
  · exact leadingAtom_ok M h hs hx

theorem sumProdCheck_ok {k : Op} (hk : k = .add ∨ k = .mult) {ts u : Term} {s : Srt}
    (h : sumProdCheck k ts u = .ok ()) (hts : sortOf ts = some s) (hu : sortOf u = some s)
    (xts : ts.exactDivs = true) (xu : u.exactDivs = true) (M : Model) : M.val ts = M.val u := by
  simp only [sumProdCheck, bind_ok, matchOp_ok, Prod.exists] at h
  obtain ⟨uc, uargs, h1, args, rfl, total, res, h2, h⟩ := h
  obtain ⟨hn, hc⟩ := fold_children hk hts
  have e := collectConsts_ok hk (s := s) M h2 fun t ht => ⟨hc t ht, exact_args xts t ht⟩
  rw [List.map_nil, foldReal_nil, foldReal2_identity, foldReal2_identity] at e
  rw [M.val_eq_iff hts hu hn, M.numv_fold hk hts, ← e]
  split at h
  · next hh =>
    obtain ⟨rfl, rfl⟩ := hh
    rw [foldReal2_identity, List.map_cons, foldReal_cons, List.map_nil, foldReal_nil, foldReal2_comm, foldReal2_identity]
  · rw [require_ok] at h
    obtain ⟨rfl, rfl⟩ := h
    exact (leadingConst_ok hk M h1 hu xu).symm

/-! ## Subtraction -/

theorem tryUnaryMinus_ok {t u : Term} {s : Srt} (h : tryUnaryMinus t u = true) (ht : sortOf t = some s)
    (hu : sortOf u = some s) (M : Model) : M.val t = M.val u := by
  simp only [tryUnaryMinus, Bool.or_eq_true] at h
  rcases h with h | h
  · split at h
    · next v =>
      simp only [decide_eq_true_eq] at h
      subst h
      obtain ⟨h1, hn⟩ := sort_neg ht
      rw [M.val_eq_iff ht hu hn, M.numv_neg ht, M.numv_neg h1, neg_neg]
    · cases h
  · split at h
    · next p q hp hq =>
      simp only [decide_eq_true_eq] at h
      subst h
      rw [M.val_eq_iff ht hu (asSignedNumber_num hp ht), M.numv_of_num (Term.asSignedNumber_val hp M),
        M.numv_of_num (Term.asSignedNumber_val hq M)]
    · cases h

theorem sort_minus {a b : Term} {s : Srt} (h : sortOf (.op .sub [a, b]) = some s) :
    s.IsNum ∧ sortOf a = some s ∧ sortOf b = some s := by
  obtain ⟨hne, ⟨rfl, hi⟩ | ⟨rfl, hr⟩⟩ := arith_children (Or.inr (Or.inl rfl)) h
  · exact ⟨Or.inl rfl, hi _ (by simp), hi _ (by simp)⟩
  · exact ⟨Or.inr rfl, hr _ (by simp), hr _ (by simp)⟩

theorem Model.numv_minus (M : Model) {a b : Term} {s : Srt} (h : sortOf (.op .sub [a, b]) = some s) :
    M.numv (.op .sub [a, b]) = M.numv a - M.numv b := by simp [M.numv_sub h]

theorem minusCheck_ok {a b u : Term} {s : Srt} (h : minusCheck a b u = .ok ()) (ht : sortOf (.op .sub [a, b]) = some s)
    (hu : sortOf u = some s) (M : Model) : M.val (.op .sub [a, b]) = M.val u := by
  obtain ⟨hn, ha, hb⟩ := sort_minus ht
  rw [M.val_eq_iff ht hu hn, M.numv_minus ht]
  unfold minusCheck at h
  split at h
  · next e =>
    subst e
    simp only [bind_ok, orErr_ok, require_ok] at h
    obtain ⟨q, hq, rfl⟩ := h
    rw [M.numv_of_num (Term.asNumber_val hq M)]; simp
  · split at h
    · next e =>
      rw [assertEq_ok] at h
      subst h
      rw [M.numv_of_num (Term.asSignedNumber_val e M)]; simp
    · split at h
      · next e =>
        simp only [bind_ok, match1_ok, assertEq_ok] at h
        obtain ⟨v, rfl, rfl⟩ := h
        rw [M.numv_of_num (Term.asSignedNumber_val e M), M.numv_neg hu]; simp
      · split at h
        · next p q hp hq =>
          simp only [bind_ok, orErr_ok, require_ok] at h
          obtain ⟨r, hr, rfl⟩ := h
          rw [M.numv_of_num (Term.asSignedNumber_val hp M), M.numv_of_num (Term.asSignedNumber_val hq M),
            M.numv_of_num (Term.asSignedNumber_val hr M)]
          push_cast; rfl
        · simp at h

/-! ## Comparisons -/

theorem sortOf_ofBool (b : Bool) : sortOf (Term.ofBool b) = some .bool := by cases b <;> rfl

theorem Model.holds_ofBool (M : Model) (b : Bool) : M.Holds (Term.ofBool b) ↔ b = true := by
  cases b <;> simp [Term.ofBool, Model.Holds, Model.val_tru, Model.val_fls]

theorem compRewrite_ok : RewriteOKOn (fun t => t.exactDivs = true) compRewrite := by
  intro t u s h hx hs
  unfold compRewrite at h
  split at h
  · next a b =>
    obtain ⟨rfl, sa, sb, ha, hb, na, nb⟩ := (sort_cmp (Or.inl rfl)).1 hs
    have xa := exact_args hx a (by simp)
    have xb := exact_args hx b (by simp)
    simp only [bind_ok] at h
    obtain ⟨p, hp, q, hq, h⟩ := h
    have hc := fun M : Model => (M.holds_cmp ha hb na nb).1
    split at h
    · next p q =>
      simp only [ok_inj, Option.some.injEq] at h
      subst h
      refine ⟨by cases decide (p < q) <;> rfl, sortOf_ofBool _, fun M => ?_⟩
      refine Model.val_eq_of_holds (sortOf_ofBool _) hs ?_
      rw [hc, M.holds_ofBool, (asFraction_spec hp ha xa).2.2, (asFraction_spec hq hb xb).2.2]
      simp
    · split at h
      · next e =>
        subst e
        simp only [ok_inj, Option.some.injEq] at h
        subst h
        refine ⟨rfl, rfl, fun M => Model.val_eq_of_holds rfl hs ?_⟩
        rw [hc]; simp [Model.Holds, Model.val_fls]
      · simp only [ok_inj, Option.some.injEq] at h
        subst h
        have hle : sortOf (.op .le [b, a]) = some .bool :=
          (sort_cmp (by simp [Op.IsCmp])).2 ⟨rfl, sb, sa, hb, ha, nb, na⟩
        have hnot : sortOf (.op .not [.op .le [b, a]]) = some .bool := sort_not.2 ⟨rfl, hle⟩
        refine ⟨by simp [Term.exactDivs, Term.exactDivsL, xa, xb], hnot, fun M => Model.val_eq_of_holds hnot hs ?_⟩
        rw [hc, M.holds_not, (M.holds_cmp hb ha nb na).2.2.1, not_le]
  · next a b =>
    obtain ⟨rfl, sa, sb, ha, hb, na, nb⟩ := (sort_cmp (by simp [Op.IsCmp])).1 hs
    have xa := exact_args hx a (by simp)
    have xb := exact_args hx b (by simp)
    simp only [bind_ok] at h
    obtain ⟨p, hp, q, hq, h⟩ := h
    have hc := fun M : Model => (M.holds_cmp ha hb na nb).2.2.1
    split at h
    · next p q =>
      simp only [ok_inj, Option.some.injEq] at h
      subst h
      refine ⟨by cases decide (p ≤ q) <;> rfl, sortOf_ofBool _, fun M => ?_⟩
      refine Model.val_eq_of_holds (sortOf_ofBool _) hs ?_
      rw [hc, M.holds_ofBool, (asFraction_spec hp ha xa).2.2, (asFraction_spec hq hb xb).2.2]
      simp
    · split at h
      · next e =>
        subst e
        simp only [ok_inj, Option.some.injEq] at h
        subst h
        refine ⟨rfl, rfl, fun M => Model.val_eq_of_holds rfl hs ?_⟩
        rw [hc]; simp [Model.Holds, Model.val_tru]
      · simp at h
  · next a b =>
    simp only [ok_inj, Option.some.injEq] at h
    subst h
    obtain ⟨rfl, sa, sb, ha, hb, na, nb⟩ := (sort_cmp (by simp [Op.IsCmp])).1 hs
    have xa := exact_args hx a (by simp)
    have xb := exact_args hx b (by simp)
    have hle : sortOf (.op .le [b, a]) = some .bool :=
      (sort_cmp (by simp [Op.IsCmp])).2 ⟨rfl, sb, sa, hb, ha, nb, na⟩
    refine ⟨by simp [Term.exactDivs, Term.exactDivsL, xa, xb], hle, fun M => Model.val_eq_of_holds hle hs ?_⟩
    rw [(M.holds_cmp hb ha nb na).2.2.1, (M.holds_cmp ha hb na nb).2.2.2]
  · next a b =>
    simp only [ok_inj, Option.some.injEq] at h
    subst h
    obtain ⟨rfl, sa, sb, ha, hb, na, nb⟩ := (sort_cmp (by simp [Op.IsCmp])).1 hs
    have xa := exact_args hx a (by simp)
    have xb := exact_args hx b (by simp)
    have hle : sortOf (.op .le [a, b]) = some .bool :=
      (sort_cmp (by simp [Op.IsCmp])).2 ⟨rfl, sa, sb, ha, hb, na, nb⟩
    have hnot : sortOf (.op .not [.op .le [a, b]]) = some .bool := sort_not.2 ⟨rfl, hle⟩
    refine ⟨by simp [Term.exactDivs, Term.exactDivsL, xa, xb], hnot, fun M => Model.val_eq_of_holds hnot hs ?_⟩
    rw [M.holds_not, (M.holds_cmp ha hb na nb).2.2.1, (M.holds_cmp ha hb na nb).2.1, not_le]
  · simp at h

end Carcara
