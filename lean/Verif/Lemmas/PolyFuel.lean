import Verif.Model.Polyeq
import Verif.Lemmas.Utils

/-! # The step counter of the comparison of terms is large enough -/

namespace Carcara

theorem Term.size_pos (t : Term) : 0 < t.size := by cases t <;> simp [Term.size]

theorem size_le_sizeL {a : Term} : ∀ {as : List Term}, a ∈ as → a.size ≤ Term.sizeL as
  | b :: as, h => by
    simp only [Term.sizeL]
    rcases List.mem_cons.1 h with rfl | h
    · omega
    · have := size_le_sizeL h; omega

theorem size_le_sizeB {p : String × Term} : ∀ {bs : List (String × Term)}, p ∈ bs → p.2.size ≤ Term.sizeB bs
  | (x, t) :: bs, h => by
    simp only [Term.sizeB]
    rcases List.mem_cons.1 h with rfl | h
    · simp
    · have := size_le_sizeB h; omega

theorem sizeL_append (as bs : List Term) : Term.sizeL (as ++ bs) = Term.sizeL as + Term.sizeL bs := by
  induction as with
  | nil => simp [Term.sizeL]
  | cons a as ih => simp only [List.cons_append, Term.sizeL, ih]; omega

/-- A comparison that does not end in an ordinary error (it may panic). -/
def Poly.NoErr (p : Poly) : Prop := ∀ s, p s ≠ err

namespace Poly.NoErr
variable {p q : Poly}

theorem pure {b : Bool} : (Poly.pure b).NoErr := by intro s; simp [Poly.pure, err]
theorem panics : Poly.panics.NoErr := by intro s; simp [Poly.panics, err, panic]

theorem and (hp : p.NoErr) (hq : q.NoErr) : (p.and q).NoErr := by
  intro s
  have := hp s
  simp only [Poly.and]
  cases h : p s with
  | error f => rw [h] at this; cases f <;> simp_all [err, bind, Except.bind]
  | ok r =>
    simp only [bind, Except.bind]
    split
    · exact hq _
    · simp [err]

theorem or (hp : p.NoErr) (hq : q.NoErr) : (p.or q).NoErr := by
  intro s
  have := hp s
  simp only [Poly.or]
  cases h : p s with
  | error f => rw [h] at this; cases f <;> simp_all [err, bind, Except.bind]
  | ok r =>
    simp only [bind, Except.bind]
    split
    · simp [err]
    · exact hq _

theorem zip {α : Type} {f : α → α → Poly} : ∀ {as bs : List α}, (∀ a ∈ as, ∀ b ∈ bs, (f a b).NoErr) →
    (polyZip f as bs).NoErr
  | [], [], _ => pure
  | [], _ :: _, _ => pure
  | _ :: _, [], _ => pure
  | a :: as, b :: bs, h =>
    (h a (by simp) b (by simp)).and (zip fun a ha b hb => h a (by simp [ha]) b (by simp [hb]))

theorem list {α : Type} {f : α → α → Poly} {as bs : List α} (h : ∀ a ∈ as, ∀ b ∈ bs, (f a b).NoErr) :
    (polyList f as bs).NoErr := by
  unfold polyList
  split
  · exact zip h
  · exact pure

end Poly.NoErr

/-- A result that is not an ordinary error. -/
def Res.NoErr {α : Type} (r : Res α) : Prop := r ≠ err

theorem Res.NoErr.bind {α β : Type} {r : Res α} {f : α → Res β} (h : Res.NoErr r) (hf : ∀ a, Res.NoErr (f a)) :
    Res.NoErr (r >>= f) := by
  cases r with
  | error e => cases e <;> simp_all [Res.NoErr, err, Bind.bind, Except.bind]
  | ok a => exact hf a

theorem Res.NoErr.ok {α : Type} {a : α} : Res.NoErr (.ok a) := by simp [Res.NoErr, err]
theorem Res.NoErr.pan {α : Type} : Res.NoErr (panic : Res α) := by simp [Res.NoErr, err, panic]

theorem HashMapStack.insert_noErr {κ ν : Type} [DecidableEq κ] (m : HashMapStack κ ν) (k : κ) (v : ν) :
    Res.NoErr (m.insert k v) := by
  unfold HashMapStack.insert
  split
  · exact .ok
  · exact .pan

theorem HashMapStack.popScope_noErr {κ ν : Type} (m : HashMapStack κ ν) : Res.NoErr m.popScope := by
  unfold HashMapStack.popScope
  split
  · exact .pan
  · exact .ok

theorem DeBruijn.insert_noErr (d : DeBruijn) (a b : String) : Res.NoErr (d.insert a b) := by
  unfold DeBruijn.insert
  split
  · exact .pan
  · exact (HashMapStack.insert_noErr _ _ _).bind fun _ => (HashMapStack.insert_noErr _ _ _).bind fun _ => .ok

theorem DeBruijn.push_noErr (d : DeBruijn) : Res.NoErr d.push := by
  unfold DeBruijn.push orPanic
  refine Res.NoErr.bind ?_ fun _ => .ok
  split
  · exact .ok
  · exact .pan

theorem DeBruijn.pop_noErr (d : DeBruijn) : Res.NoErr d.pop :=
  (HashMapStack.popScope_noErr _).bind fun _ => (HashMapStack.popScope_noErr _).bind fun _ => .ok

namespace Poly.NoErr

theorem rc {cfg : PolyConfig} {tm : Term → Term → Poly} {a b : Term} (h : (tm a b).NoErr) :
    (polyRc cfg tm a b).NoErr := by
  intro s
  unfold polyRc
  split
  · exact Res.NoErr.ok
  · split
    · exact Res.NoErr.ok
    · refine Res.NoErr.bind (h s) fun r => ?_
      split
      · exact (HashMapStack.insert_noErr _ _ _).bind fun _ => .ok
      · exact .ok

theorem bindings {β : Type} {eq : β → β → Poly} : ∀ {as bs : List (String × β)},
    (∀ a ∈ as, ∀ b ∈ bs, (eq a.2 b.2).NoErr) → (polyBindings eq as bs).NoErr
  | [], [], _ => pure
  | [], _ :: _, _ => pure
  | _ :: _, [], _ => pure
  | (x, u) :: as, (y, v) :: bs, h => by
    refine (h (x, u) (by simp) (y, v) (by simp)).and fun s => ?_
    exact (DeBruijn.insert_noErr _ _ _).bind fun db =>
      bindings (fun a ha b hb => h a (by simp [ha]) b (by simp [hb])) _

theorem binder {β : Type} {cfg : PolyConfig} {rc : Term → Term → Poly} {eq : β → β → Poly}
    {as bs : List (String × β)} {a b : Term} (h : ∀ a ∈ as, ∀ b ∈ bs, (eq a.2 b.2).NoErr) (hb : (rc a b).NoErr) :
    (compareBinder cfg rc eq as bs a b).NoErr := by
  unfold compareBinder
  split
  · intro s
    refine Res.NoErr.bind (DeBruijn.push_noErr _) fun db => ?_
    refine Res.NoErr.bind ((bindings h).and hb _) fun r => ?_
    exact (DeBruijn.pop_noErr _).bind fun _ => (HashMapStack.popScope_noErr _).bind fun _ => .ok
  · refine (list fun p hp q hq => ?_).and hb
    split
    · exact h p hp q hq
    · exact pure

theorem chainGo {rc : Term → Term → Poly} {o : Op} : ∀ {as bs : List Term},
    (∀ a ∈ as, ∀ b, (∃ c ∈ bs, b.size ≤ c.size) → (rc a b).NoErr) → (chainGo rc o as bs).NoErr
  | [], _, _ => by unfold Carcara.chainGo; exact pure
  | [_], _, _ => by unfold Carcara.chainGo; exact pure
  | _ :: _ :: _, [], _ => by unfold Carcara.chainGo; exact pure
  | a :: b :: l, c :: cs, h => by
    unfold Carcara.chainGo
    refine and ?_ (chainGo fun a ha b hb => h a (List.mem_cons_of_mem _ ha) b ?_)
    · split
      · next o' x y =>
        split
        · refine (h a (by simp) x ⟨_, .head _, ?_⟩).and (h b (by simp) y ⟨_, .head _, ?_⟩) <;>
            simp [Term.size, Term.sizeL] <;> omega
        · exact pure
      · exact pure
    · obtain ⟨c', hc, hl⟩ := hb
      exact ⟨c', by simp [hc], hl⟩

theorem chainable {rc : Term → Term → Poly} {n : Nat} (hrc : ∀ a b, a.size + b.size ≤ n → (rc a b).NoErr)
    {o : Op} {as bs : List Term} (h : Term.sizeL as + Term.sizeL bs ≤ n) : (compareChainable rc o as bs).NoErr := by
  unfold compareChainable
  split
  · refine chainGo fun a ha b hb => hrc a b ?_
    obtain ⟨c, hc, hl⟩ := hb
    have := size_le_sizeL ha
    have := size_le_sizeL hc
    omega
  · exact pure

end Poly.NoErr

theorem sizeL_flatten (o : Op) (l : List Term) : Term.sizeL (assocFlatten o l) ≤ Term.sizeL l := by
  unfold assocFlatten
  split
  · split
    · simp [Term.sizeL, Term.size]
    · exact Nat.le_refl _
  · exact Nat.le_refl _

theorem sizeL_split {r : Bool} {l t : List Term} {h : Term} (e : assocSplit r l = some (h, t)) :
    h.size + Term.sizeL t = Term.sizeL l := by
  unfold assocSplit at e
  split at e
  · cases e
  · split at e
    · split at e
      · cases e; simp [Term.sizeL]
      · cases e
    · split at e
      · next x hx =>
        cases e
        have : l = l.dropLast ++ [h] := by
          rw [List.dropLast_append_getLast? _ hx]
        conv => rhs; rw [this]
        simp only [sizeL_append, Term.sizeL]
        omega
      · cases e

namespace Poly.NoErr

theorem assoc {rc : Term → Term → Poly} {n : Nat} (hrc : ∀ a b, a.size + b.size ≤ n → (rc a b).NoErr) {o : Op} :
    ∀ (k : Nat) {l r : List Term}, Term.sizeL l + Term.sizeL r + 1 ≤ k → k ≤ n → (compareAssoc rc o k l r).NoErr
  | 0, l, r, h, _ => by omega
  | k + 1, l, r, h, hk => by
    unfold compareAssoc
    split
    · refine hrc _ _ ?_
      simp only [Term.sizeL] at h
      omega
    · exact pure
    · exact pure
    · split
      · next lh lt rh rt e1 e2 =>
        have h1 := sizeL_split e1
        have h2 := sizeL_split e2
        have f1 := sizeL_flatten o lt
        have f2 := sizeL_flatten o rt
        have p1 := lh.size_pos
        exact (hrc _ _ (by omega)).and (assoc hrc k (by omega) (by omega))
      · exact panics

theorem ofArgs {rc : Term → Term → Poly} {n : Nat} (hrc : ∀ a b, a.size + b.size ≤ n → (rc a b).NoErr)
    {as bs : List Term} (h : Term.sizeL as + Term.sizeL bs ≤ n) : (polyList rc as bs).NoErr := by
  refine list fun a ha b hb => hrc a b ?_
  have := size_le_sizeL ha
  have := size_le_sizeL hb
  omega

theorem op {cfg : PolyConfig} {rc : Term → Term → Poly} {n : Nat}
    (hrc : ∀ a b, a.size + b.size ≤ n → (rc a b).NoErr) {o o' : Op} {as bs : List Term}
    (h : Term.sizeL as + Term.sizeL bs + 1 ≤ n) : (compareOp cfg rc n o as o' bs).NoErr := by
  have general : (if cfg.nary then compareNary rc n o as o' bs
      else if o = o' then polyList rc as bs else .pure false).NoErr := by
    split
    · unfold compareNary
      split
      · split
        · split
          · exact chainable hrc (by omega)
          · exact pure
        · split
          · split
            · exact chainable hrc (by omega)
            · exact pure
          · exact pure
      · split
        · split
          · exact assoc hrc n h (Nat.le_refl _)
          · exact pure
        · exact ofArgs hrc (by omega)
    · split
      · exact ofArgs hrc (by omega)
      · exact pure
  unfold compareOp
  simp only
  split
  · split
    · simp only [Term.sizeL] at h
      exact ((hrc _ _ (by omega)).and (hrc _ _ (by omega))).or ((hrc _ _ (by omega)).and (hrc _ _ (by omega)))
    · exact general
  · exact general

theorem ratio {a b : Int} {q : Rat} : (ratioEq a b q).NoErr := by
  unfold ratioEq
  split
  · exact panics
  · exact pure

theorem quotient {args : List Term} {q : Rat} : (quotientEq args q).NoErr := by
  unfold quotientEq divArgs
  split
  · beta_reduce
    split
    · split
      · exact ratio
      · exact pure
    · exact pure
  · exact panics

theorem divLiteral {args : List Term} {q : Rat} : (divLiteralEq args q).NoErr := by
  unfold divLiteralEq divArgs
  split
  · beta_reduce
    split
    iterate 3
      · split
        · exact ratio
        · exact pure
    · exact pure
  · exact panics

theorem negInt {args : List Term} {i : Int} : (negIntEq args i).NoErr := by
  unfold negIntEq
  split
  · split <;> exact pure
  · exact pure

theorem negReal {args : List Term} {q : Rat} : (negRealEq args q).NoErr := by
  unfold negRealEq
  split
  · split
    · exact quotient
    · exact pure
    · exact pure
  · exact pure

theorem singleton {cfg : PolyConfig} {tm : Term → Term → Poly} {t other : Term}
    (h : ∀ a, a.size < t.size → (tm a other).NoErr) : (singletonEq cfg tm t other).NoErr := by
  unfold singletonEq
  split
  · split
    · split
      · exact pure
      · exact h _ (by simp [Term.size, Term.sizeL])
    · exact pure
  · exact pure

theorem tail {cfg : PolyConfig} {rc : Term → Term → Poly} {n : Nat}
    (hrc : ∀ a b, a.size + b.size ≤ n → (rc a b).NoErr) {a b : Term} (h : a.size + b.size ≤ n + 1) :
    (polyTail cfg rc n a b).NoErr := by
  unfold polyTail
  split
  · simp only [Term.size] at h
    exact op hrc (by omega)
  · simp only [Term.size] at h
    split
    · exact binder (fun _ _ _ _ => pure) (hrc _ _ (by omega))
    · exact pure
  · simp only [Term.size] at h
    refine binder (fun a ha b hb => hrc _ _ ?_) (hrc _ _ (by omega))
    have := size_le_sizeB ha
    have := size_le_sizeB hb
    omega
  · exact quotient
  · exact divLiteral
  · exact negInt
  · exact negInt
  · exact negReal
  · exact negReal
  · exact pure

theorem go {cfg : PolyConfig} : ∀ (n : Nat) {a b : Term}, a.size + b.size ≤ n → (polyGo cfg n a b).NoErr
  | 0, a, _, h => by have := a.size_pos; omega
  | n + 1, a, b, h => by
    have ih : ∀ a b, Term.size a + Term.size b ≤ n → (polyGo cfg n a b).NoErr := fun a b h => go n h
    have hrc : ∀ a b, Term.size a + Term.size b ≤ n → (polyRc cfg (polyGo cfg n) a b).NoErr := fun a b h => rc (ih a b h)
    unfold polyGo polyTerm
    split
    · exact pure
    · split
      · intro s; exact Res.NoErr.ok
      · exact pure
    · simp only [Term.size] at h
      exact (hrc _ _ (by omega)).and (ofArgs hrc (by omega))
    · simp only [Term.size] at h
      split
      · exact ofArgs hrc (by omega)
      · exact pure
    · exact (singleton fun x hx => ih _ _ (by omega)).or ((singleton fun x hx => ih _ _ (by omega)).or (tail hrc h))

end Poly.NoErr

/-- The counter that `polyeqWith` starts with is never exhausted: the result is a Boolean or a panic. -/
theorem polyeq_not_stuck (cfg : PolyConfig) (a b : Term) : polyeqWith cfg a b ≠ err := by
  have := Poly.NoErr.rc (cfg := cfg) (Poly.NoErr.go (cfg := cfg) (a.size + b.size) (Nat.le_refl _)) {}
  exact Res.NoErr.bind this fun r => .ok

end Carcara
