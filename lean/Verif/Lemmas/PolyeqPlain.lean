import Verif.Lemmas.ElabPolyeqReord
import Verif.Lemmas.PlainSubst

/-!
# Terms without binders: comparison modulo renaming is comparison without renaming
-/

namespace Carcara

/-- Two comparisons agree as long as no variable is bound, and bind none. -/
def Poly.Agree (p q : Poly) : Prop := ∀ s, s.db = {} → p s = q s ∧ ∀ r, p s = .ok r → r.2.db = {}

namespace Poly.Agree

theorem refl {p : Poly} (h : ∀ s r, p s = .ok r → r.2 = s) : p.Agree p := fun s hs => ⟨rfl, fun r hr => by rw [h s r hr, hs]⟩

theorem pure (b : Bool) : (Poly.pure b).Agree (Poly.pure b) := refl fun s r h => by cases h; rfl

theorem panics : Poly.panics.Agree Poly.panics := refl fun s r h => by cases h

theorem stuck : Poly.stuck.Agree Poly.stuck := refl fun s r h => by cases h

theorem and {p p' q q' : Poly} (hp : p.Agree p') (hq : q.Agree q') : (p.and q).Agree (p'.and q') := fun s hs => by
  obtain ⟨e, h⟩ := hp s hs
  simp only [Poly.and, bind, Except.bind, ← e]
  cases hr : p s with
  | error f => exact ⟨rfl, fun _ h => by cases h⟩
  | ok r =>
    obtain ⟨e2, h2⟩ := hq r.2 (h r hr)
    dsimp only
    split
    · exact ⟨e2, h2⟩
    · exact ⟨rfl, fun _ h' => by cases h'; exact h r hr⟩

theorem or {p p' q q' : Poly} (hp : p.Agree p') (hq : q.Agree q') : (p.or q).Agree (p'.or q') := fun s hs => by
  obtain ⟨e, h⟩ := hp s hs
  simp only [Poly.or, bind, Except.bind, ← e]
  cases hr : p s with
  | error f => exact ⟨rfl, fun _ h => by cases h⟩
  | ok r =>
    obtain ⟨e2, h2⟩ := hq r.2 (h r hr)
    dsimp only
    split
    · exact ⟨rfl, fun _ h' => by cases h'; exact h r hr⟩
    · exact ⟨e2, h2⟩

theorem zip {f g : Term → Term → Poly} : ∀ {as bs : List Term}, (∀ a ∈ as, ∀ b ∈ bs, (f a b).Agree (g a b)) → (polyZip f as bs).Agree (polyZip g as bs)
  | [], _, _ => by simp only [polyZip]; exact pure true
  | _ :: _, [], _ => by simp only [polyZip]; exact pure true
  | a :: as, b :: bs, h => by
    simp only [polyZip]
    exact (h a (by simp) b (by simp)).and (zip fun x hx y hy => h x (by simp [hx]) y (by simp [hy]))

theorem list {f g : Term → Term → Poly} {as bs : List Term} (h : ∀ a ∈ as, ∀ b ∈ bs, (f a b).Agree (g a b)) :
    (polyList f as bs).Agree (polyList g as bs) := by
  unfold polyList
  split
  · exact zip h
  · exact pure false

theorem rc {cfg cfg' : PolyConfig} (h' : cfg'.alpha = false) {f g : Term → Term → Poly} {a b : Term} (h : a ≠ b → (f a b).Agree (g a b)) :
    (polyRc cfg f a b).Agree (polyRc cfg' g a b) := fun s hs => by
  have he : s.db.isEmpty = true := by rw [hs]; decide
  simp only [polyRc, h', he, Bool.not_true, Bool.and_false, true_and]
  by_cases hab : a = b
  · rw [if_pos hab, if_pos hab]
    exact ⟨rfl, fun _ h => by cases h; exact hs⟩
  rw [if_neg hab, if_neg hab]
  split
  · exact ⟨rfl, fun _ h => by cases h; exact hs⟩
  · obtain ⟨e, h⟩ := h hab s hs
    simp only [bind, Except.bind, ← e]
    cases hr : f a b s with
    | error f => exact ⟨trivial, fun _ h => by cases h⟩
    | ok r =>
      refine ⟨trivial, fun q hq => ?_⟩
      dsimp only at hq
      split at hq
      · split at hq
        · cases hq
        · cases hq
          exact h r hr
      · cases hq
        exact h r hr

end Poly.Agree

theorem ratioEq_agree (n d : Int) (q : Rat) : (ratioEq n d q).Agree (ratioEq n d q) := by
  unfold ratioEq; split <;> first | exact .pure _ | exact .panics

theorem quotientEq_agree (as : List Term) (q : Rat) : (quotientEq as q).Agree (quotientEq as q) := by
  unfold quotientEq divArgs
  split
  · dsimp only
    repeat' split
    all_goals first | exact .pure _ | exact ratioEq_agree _ _ _
  · exact .panics

theorem divLiteralEq_agree (as : List Term) (q : Rat) : (divLiteralEq as q).Agree (divLiteralEq as q) := by
  unfold divLiteralEq divArgs
  split
  · dsimp only
    repeat' split
    all_goals first | exact .pure _ | exact ratioEq_agree _ _ _
  · exact .panics

theorem negIntEq_agree (as : List Term) (i : Int) : (negIntEq as i).Agree (negIntEq as i) := by
  unfold negIntEq
  repeat' split
  all_goals exact .pure _

theorem negRealEq_agree (as : List Term) (q : Rat) : (negRealEq as q).Agree (negRealEq as q) := by
  unfold negRealEq
  repeat' split
  all_goals first | exact .pure _ | exact quotientEq_agree _ _

theorem compareOp_agree {cfg cfg' : PolyConfig} (h1 : cfg.nary = false) (h2 : cfg'.nary = false) (h3 : cfg.reorder = cfg'.reorder)
    {f g : Term → Term → Poly} {n : Nat} {o o' : Op} {as bs : List Term} (h : ∀ a ∈ as, ∀ b ∈ bs, (f a b).Agree (g a b)) :
    (compareOp cfg f n o as o' bs).Agree (compareOp cfg' g n o as o' bs) := by
  unfold compareOp
  have general : Poly.Agree (if o = o' then polyList f as bs else .pure false) (if o = o' then polyList g as bs else .pure false) := by
    split
    · exact .list h
    · exact .pure _
  simp only [h1, h2, h3, Bool.false_eq_true, if_false]
  split
  · split
    · next a a' b b' =>
      exact ((h a (by simp) b (by simp)).and (h a' (by simp) b' (by simp))).or ((h a (by simp) b' (by simp)).and (h a' (by simp) b (by simp)))
    · exact general
  · exact general

theorem go_agree {cfg cfg' : PolyConfig} (h0 : cfg'.alpha = false) (h1 : cfg.nary = false) (h2 : cfg'.nary = false) (h3 : cfg.reorder = cfg'.reorder) :
    ∀ (n : Nat) {a b : Term}, a.plain = true → b.plain = true → a ≠ b → (polyGo cfg n a b).Agree (polyGo cfg' n a b)
  | 0, _, _, _, _, _ => .stuck
  | n + 1, a, b, ha, hb, hne => by
    have rc : ∀ {x y : Term}, x.plain = true → y.plain = true → (polyRc cfg (polyGo cfg n) x y).Agree (polyRc cfg' (polyGo cfg' n) x y) := fun hx hy =>
      .rc h0 fun hne => go_agree h0 h1 h2 h3 n hx hy hne
    rw [polyGo, polyGo]
    unfold polyTerm
    split
    · exact .pure _
    · next x s y t =>
      simp only [h0, Bool.false_eq_true, if_false]
      split
      · intro st hst
        have : (st.db.compare x y && decide (s = t)) = false := by
          rw [hst]
          have e : DeBruijn.compare {} x y = decide (x = y) := rfl
          rw [e, Bool.and_eq_false_iff, decide_eq_false_iff_not, decide_eq_false_iff_not]
          by_cases hxy : x = y
          · exact .inr fun hst => hne (by rw [hxy, hst])
          · exact .inl hxy
        dsimp only
        rw [this]
        exact ⟨rfl, fun _ h => by cases h; exact hst⟩
      · exact .pure _
    · simp only [Term.plain, Bool.and_eq_true, Term.plainL_iff] at ha hb
      exact (rc ha.1 hb.1).and (.list fun x hx y hy => rc (ha.2 x hx) (hb.2 y hy))
    · simp only [Term.plain, Term.plainL_iff] at ha hb
      split
      · exact .list fun x hx y hy => rc (ha x hx) (hb y hy)
      · exact .pure _
    · rw [singletonEq_plain h1, singletonEq_plain h1, singletonEq_plain h2, singletonEq_plain h2]
      refine (Poly.Agree.pure _).or ((Poly.Agree.pure _).or ?_)
      unfold polyTail
      split
      · simp only [Term.plain, Term.plainL_iff] at ha hb
        exact compareOp_agree h1 h2 h3 fun x hx y hy => rc (ha x hx) (hb y hy)
      · simp [Term.plain] at ha
      · simp [Term.plain] at ha
      all_goals first | exact .pure _ | exact quotientEq_agree _ _ | exact divLiteralEq_agree _ _ | exact negIntEq_agree _ _ | exact negRealEq_agree _ _

/-- On terms without binders, comparison modulo renaming of bound variables is comparison without renaming. -/
theorem alphaEquiv_plain {a b : Term} (ha : a.plain = true) (hb : b.plain = true) : alphaEquiv a b = polyeq a b := by
  have := (Poly.Agree.rc (cfg := { reorder := true, alpha := true }) (cfg' := { reorder := true }) rfl fun hne =>
    go_agree (cfg := { reorder := true, alpha := true }) (cfg' := { reorder := true }) rfl rfl rfl rfl (a.size + b.size) ha hb hne) {} rfl
  simp only [alphaEquiv, polyeq, polyeqWith, bind, Except.bind, this.1]

theorem Term.put_plain {f : String × Srt → Term} (hf : ∀ v, (f v).plain = true) : ∀ (t : Term), t.plain = true → (t.put f).plain = true
  | .const _, _ => rfl
  | .var _ _, _ => hf _
  | .app g as, h => by
    simp only [Term.plain, Bool.and_eq_true] at h
    simp only [Term.put, Term.plain, Bool.and_eq_true]
    exact ⟨Term.put_plain hf g h.1, list as h.2⟩
  | .op _ as, h => list as h
  | .binder _ _ _, h => h
  | .let_ _ _, h => h
  | .paramOp _ _ as, h => list as h
where list : ∀ as : List Term, Term.plainL as = true → Term.plainL (Term.putL f as) = true
  | [], _ => rfl
  | t :: ts, h => by
    simp only [Term.plainL, Bool.and_eq_true] at h
    simp only [Term.putL, Term.plainL, Bool.and_eq_true]
    exact ⟨Term.put_plain hf t h.1, list ts h.2⟩

theorem anchorValue_plain : ∀ {as A : List AnchorArg} {f : String × Srt → Term}, plainArgs A as = true → (∀ v, (f v).plain = true) →
    ∀ v, (anchorValue f as v).plain = true
  | [], _, _, _, hf, v => hf v
  | .var x s :: as, A, f, h, hf, v => by
    simp only [plainArgs, Bool.and_eq_true] at h
    refine anchorValue_plain h.2 (fun v => ?_) v
    split
    · rfl
    · exact hf v
  | .assign x s t :: as, A, f, h, hf, v => by
    simp only [plainArgs, AnchorArg.plainAfter, Bool.and_eq_true] at h
    refine anchorValue_plain h.2 (fun v => ?_) v
    split
    · exact Term.put_plain hf t h.1.2
    · exact hf v

theorem anchorsValue_plain {Γ : List (List AnchorArg)} (h : PlainAnchors Γ) (v : String × Srt) : (anchorsValue Γ v).plain = true :=
  anchorValue_plain h (fun _ => rfl) v

end Carcara
