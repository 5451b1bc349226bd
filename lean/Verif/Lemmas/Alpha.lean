import Verif.Spec.Alpha
import Verif.Lemmas.SubstitutionApply

/-! # Soundness of the comparison of terms modulo renaming -/

namespace Carcara
open Classical Val Sem

/-- A comparison that keeps a property of the state, and succeeds only if `Q` holds. -/
def Poly.GoodP (P : PolyState → Prop) (p : Poly) (Q : Prop) : Prop :=
  ∀ s, P s → ∀ b s', p s = .ok (b, s') → P s' ∧ (b = true → Q)

namespace Poly.GoodP
variable {P : PolyState → Prop} {p q : Poly} {Q Q' : Prop}

theorem mono (h : p.GoodP P Q) (hq : Q → Q') : p.GoodP P Q' :=
  fun s hs b s' e => ⟨(h s hs b s' e).1, fun hb => hq ((h s hs b s' e).2 hb)⟩

theorem pure {b : Bool} (h : b = true → Q) : (Poly.pure b).GoodP P Q := by
  intro s hs b' s' e
  simp only [Poly.pure, ok_inj, Prod.mk.injEq] at e
  obtain ⟨rfl, rfl⟩ := e
  exact ⟨hs, h⟩

theorem fls : (Poly.pure false).GoodP P Q := pure (by simp)

theorem stuck : Poly.stuck.GoodP P Q := by intro s _ b s' e; simp [Poly.stuck] at e

theorem and (hp : p.GoodP P Q) (hq : q.GoodP P Q') : (p.and q).GoodP P (Q ∧ Q') := by
  intro s hs b s' e
  simp only [Poly.and, bind_ok] at e
  obtain ⟨⟨b1, s1⟩, e1, e⟩ := e
  obtain ⟨h1, h1'⟩ := hp s hs _ _ e1
  split at e
  · next hb =>
    obtain ⟨h2, h2'⟩ := hq s1 h1 _ _ e
    exact ⟨h2, fun h => ⟨h1' hb, h2' h⟩⟩
  · simp only [ok_inj, Prod.mk.injEq] at e
    obtain ⟨rfl, rfl⟩ := e
    exact ⟨h1, by simp⟩

theorem or (hp : p.GoodP P Q) (hq : q.GoodP P Q) : (p.or q).GoodP P Q := by
  intro s hs b s' e
  simp only [Poly.or, bind_ok] at e
  obtain ⟨⟨b1, s1⟩, e1, e⟩ := e
  obtain ⟨h1, h1'⟩ := hp s hs _ _ e1
  split at e
  · next hb =>
    simp only [ok_inj, Prod.mk.injEq] at e
    obtain ⟨rfl, rfl⟩ := e
    exact ⟨h1, fun _ => h1' hb⟩
  · exact hq s1 h1 _ _ e

theorem zip {f : Term → Term → Poly} {S : Term → Term → Prop} : ∀ {as bs : List Term},
    (∀ p ∈ as.zip bs, (f p.1 p.2).GoodP P (S p.1 p.2)) →
    (polyZip f as bs).GoodP P (as.length = bs.length → List.Forall₂ S as bs)
  | [], [], _ => pure (fun _ _ => .nil)
  | [], _ :: _, _ => pure (fun _ h => by simp at h)
  | _ :: _, [], _ => pure (fun _ h => by simp at h)
  | a :: as, b :: bs, h => by
    rw [polyZip]
    refine ((h (a, b) (by simp)).and (zip (fun p hp => h p (by simp [hp])))).mono ?_
    rintro ⟨h1, h2⟩ hl
    exact .cons h1 (h2 (by simpa using hl))

theorem list {f : Term → Term → Poly} {S : Term → Term → Prop} {as bs : List Term}
    (h : ∀ p ∈ as.zip bs, (f p.1 p.2).GoodP P (S p.1 p.2)) : (polyList f as bs).GoodP P (List.Forall₂ S as bs) := by
  unfold polyList
  split
  · next hl => exact (zip h).mono fun h => h hl
  · exact fls

end Poly.GoodP

/-- A comparison that does not touch the state. -/
def Poly.Still (p : Poly) : Prop := ∀ s b s', p s = .ok (b, s') → s' = s

theorem Poly.Still.pure {b : Bool} : (Poly.pure b).Still := by
  intro s b' s' e
  simp only [Poly.pure, ok_inj, Prod.mk.injEq] at e
  exact e.2.symm

theorem Poly.Still.panics : Poly.panics.Still := by intro s b' s' e; simp [Poly.panics] at e

theorem Poly.Still.ratio (n d : Int) (q : Rat) : (ratioEq n d q).Still := by
  unfold ratioEq; split
  · exact .panics
  · exact .pure

theorem Poly.Still.quotient (args : List Term) (q : Rat) : (quotientEq args q).Still := by
  unfold quotientEq divArgs
  split
  · beta_reduce; split
    · split
      · exact .ratio _ _ _
      · exact .pure
    · exact .pure
  · exact .panics

theorem Poly.Still.divLiteral (args : List Term) (q : Rat) : (divLiteralEq args q).Still := by
  unfold divLiteralEq divArgs
  split
  · beta_reduce; split
    · split
      · exact .ratio _ _ _
      · exact .pure
    · split
      · exact .ratio _ _ _
      · exact .pure
    · split
      · exact .ratio _ _ _
      · exact .pure
    · exact .pure
  · exact .panics

theorem Poly.Still.negInt (args : List Term) (i : Int) : (negIntEq args i).Still := by
  unfold negIntEq
  split
  · split <;> exact .pure
  · exact .pure

theorem Poly.Still.negReal (args : List Term) (q : Rat) : (negRealEq args q).Still := by
  unfold negRealEq
  split
  · split
    · exact .quotient _ _
    · exact .pure
    · exact .pure
  · exact .pure

/-- The lemmas about literals carry over. -/
theorem Poly.Still.good {p : Poly} {P : PolyState → Prop} {Q : Prop} (h : p.Still)
    (hg : p.Good (fun _ _ => True) Q) : p.GoodP P Q := by
  intro s hs b s' e
  have := h s b s' e
  subst this
  exact ⟨hs, (hg s' (fun _ _ _ _ => trivial) b s' e).2⟩

/-! ## Contexts -/

/-- A pair of bound variables that correspond to each other. -/
structure BPair where
  x : String
  y : String
  s : Srt
  i : Nat

/-- Two assignments, one for each of the compared terms, that agree up to the correspondence. -/
def AgreeP {U : Type} (Γ : List BPair) (ρ1 ρ2 : Env U) : Prop :=
  (∀ e ∈ Γ, ρ1 e.x e.s = ρ2 e.y e.s) ∧
  ∀ z s, z ∉ Γ.map BPair.x → z ∉ Γ.map BPair.y → ρ1 z s = ρ2 z s

/-- Same value up to the correspondence of bound variables. -/
def SameUp (Γ : List BPair) (a b : Term) : Prop :=
  ∀ (I : Interp) (ρ1 ρ2 : Env I.U), I.EnvOK ρ1 → I.EnvOK ρ2 → AgreeP Γ ρ1 ρ2 → eval I a ρ1 = eval I b ρ2

/-- A term in the scope of the variables `V`, all bound names being among `A`. -/
structure InScope (A : List String) (V : List (String × Srt)) (u : Term) : Prop where
  shadow : ∃ S, (∀ v ∈ V, v.1 ∈ S) ∧ u.noShadow S = true
  bound : ∀ x ∈ u.boundNames, x ∈ A
  free : ∀ w ∈ u.fv, w.1 ∈ A → w ∈ V

/-- The two sides of a correspondence. -/
def leftVars (Γ : List BPair) : List (String × Srt) := Γ.map fun e => (e.x, e.s)
/-- The two sides of a correspondence. -/
def rightVars (Γ : List BPair) : List (String × Srt) := Γ.map fun e => (e.y, e.s)

/-- The conditions under which two subterms are compared. -/
structure AlphaCond (A B : List String) (Γ : List BPair) (a b : Term) : Prop where
  comp : Comparable false a b
  aligned : a.aligned b = true
  left : InScope A (leftVars Γ) a
  right : InScope B (rightVars Γ) b

/-- The variable map that belongs to a stack of correspondences. -/
def dbOf (F : List (List BPair)) (cs : List Nat) : DeBruijn where
  left := ⟨[] :: F.map (·.map fun e => (e.x, e.i))⟩
  right := ⟨[] :: F.map (·.map fun e => (e.y, e.i))⟩
  counter := cs

/-- The invariants of the stack. -/
structure StackOK (A B : List String) (F : List (List BPair)) (cs : List Nat) : Prop where
  nodup_x : (F.flatten.map BPair.x).Nodup
  nodup_y : (F.flatten.map BPair.y).Nodup
  nodup_i : (F.flatten.map BPair.i).Nodup
  mem : ∀ e ∈ F.flatten, e.x ∈ A ∧ e.y ∈ B
  counter : ∃ c cs', cs = c :: cs' ∧ ∀ e ∈ F.flatten, e.i < c

/-- An entry of the memo table. -/
structure EntryOK (A B : List String) (Γ : List BPair) (u v : Term) : Prop where
  same : SameUp Γ u v
  sort_u : (sortOf u).isSome = true
  sort_v : (sortOf v).isSome = true
  fv_u : ∀ w ∈ u.fv, w.1 ∈ A → w.1 ∈ Γ.map BPair.x
  fv_v : ∀ w ∈ v.fv, w.1 ∈ B → w.1 ∈ Γ.map BPair.y

/-- The state of a comparison under a stack of binders. -/
structure AlphaInv (A B : List String) (F : List (List BPair)) (cs : List Nat) (s : PolyState) : Prop where
  db : s.db = dbOf F cs
  height : s.cache.scopes.length = F.length + 1
  cache : ∀ k scope, s.cache.scopes[k]? = some scope → ∀ p ∈ scope, EntryOK A B (F.take k).flatten p.1.1 p.1.2

/-! ## The variable map -/

theorem stack_get_some {F : List (List BPair)} {f : BPair → String} {x : String} {i : Nat}
    (h : (⟨[] :: F.map (·.map fun e => (f e, e.i))⟩ : HashMapStack String Nat).get x = some i) :
    ∃ e ∈ F.flatten, f e = x ∧ e.i = i := by
  obtain ⟨scope, hs, hm⟩ := List.exists_of_findSome?_eq_some h
  rw [List.mem_reverse, List.mem_cons] at hs
  rcases hs with rfl | hs
  · cases hm
  · obtain ⟨fr, hfr, rfl⟩ := List.mem_map.1 hs
    obtain ⟨e, he, e'⟩ := List.mem_map.1 (mem_of_mapGet hm)
    cases e'
    exact ⟨e, List.mem_flatten.2 ⟨fr, hfr, he⟩, rfl, rfl⟩

theorem stack_get_none {F : List (List BPair)} {f : BPair → String} {x : String}
    (h : (⟨[] :: F.map (·.map fun e => (f e, e.i))⟩ : HashMapStack String Nat).get x = none) :
    x ∉ F.flatten.map f := by
  intro hx
  obtain ⟨e, he, rfl⟩ := List.mem_map.1 hx
  obtain ⟨fr, hfr, he⟩ := List.mem_flatten.1 he
  unfold HashMapStack.get at h
  rw [List.findSome?_eq_none_iff] at h
  have := h (fr.map fun e => (f e, e.i)) (by
    rw [List.mem_reverse]
    exact List.mem_cons_of_mem _ (List.mem_map.2 ⟨fr, hfr, rfl⟩))
  rw [mapGet_none, List.map_map] at this
  exact this (List.mem_map.2 ⟨e, he, rfl⟩)

theorem eq_of_nodup_map {α β : Type} {f : α → β} {l : List α} (h : (l.map f).Nodup) {a b : α} (ha : a ∈ l)
    (hb : b ∈ l) (e : f a = f b) : a = b := List.inj_on_of_nodup_map h ha hb e

theorem dbOf_compare {A B : List String} {F : List (List BPair)} {cs : List Nat} (hw : StackOK A B F cs)
    {x y : String} (h : (dbOf F cs).compare x y = true) :
    (x = y ∧ x ∉ F.flatten.map BPair.x ∧ x ∉ F.flatten.map BPair.y) ∨
    ∃ e ∈ F.flatten, e.x = x ∧ e.y = y := by
  unfold DeBruijn.compare dbOf at h
  simp only at h
  split at h
  · next h1 h2 =>
    simp only [decide_eq_true_eq] at h
    subst h
    exact .inl ⟨rfl, stack_get_none h1, stack_get_none h2⟩
  · next i j h1 h2 =>
    simp only [decide_eq_true_eq] at h
    subst h
    obtain ⟨e, he, h3, h4⟩ := stack_get_some h1
    obtain ⟨e', he', h5, h6⟩ := stack_get_some h2
    have := eq_of_nodup_map hw.nodup_i he he' (h4.trans h6.symm)
    subst this
    exact .inr ⟨e, he, h3, h5⟩
  · cases h

theorem dbOf_isEmpty {F : List (List BPair)} {cs : List Nat} (h : (dbOf F cs).isEmpty = true) : F.flatten = [] := by
  simp only [DeBruijn.isEmpty, dbOf, HashMapStack.isEmpty, List.all_cons, Bool.and_eq_true, List.all_map] at h
  rw [List.flatten_eq_nil_iff]
  intro fr hfr
  have := List.all_eq_true.1 h.1.2 fr hfr
  simpa using this

/-! ## The memo table -/

theorem leftVars_names (Γ : List BPair) : (leftVars Γ).map (·.1) = Γ.map BPair.x := by
  simp [leftVars, List.map_map, Function.comp_def]

theorem rightVars_names (Γ : List BPair) : (rightVars Γ).map (·.1) = Γ.map BPair.y := by
  simp [rightVars, List.map_map, Function.comp_def]

theorem AlphaCond.entry {A B : List String} {Γ : List BPair} {a b : Term} (h : AlphaCond A B Γ a b)
    (hs : SameUp Γ a b) : EntryOK A B Γ a b where
  same := hs
  sort_u := h.comp.sort_left
  sort_v := h.comp.sort_right
  fv_u := fun w hw hA => by
    rw [← leftVars_names]
    exact List.mem_map.2 ⟨w, h.left.free w hw hA, rfl⟩
  fv_v := fun w hw hA => by
    rw [← rightVars_names]
    exact List.mem_map.2 ⟨w, h.right.free w hw hA, rfl⟩

theorem Term.noLet_of_noShadow (t : Term) : ∀ {S : List String}, t.noShadow S = true → t.noLet = true := by
  induction t using Term.ind with
  | const c => intros; rfl
  | var x s => intros; rfl
  | app f as ihf ih =>
    simp only [Term.noShadow, Term.noLet, Bool.and_eq_true, Term.noShadowL_iff, Term.noLetL_iff]
    exact fun h => ⟨ihf h.1, fun a ha => ih a ha (h.2 a ha)⟩
  | op o as ih =>
    simp only [Term.noShadow, Term.noLet, Term.noShadowL_iff, Term.noLetL_iff]
    exact fun h a ha => ih a ha (h a ha)
  | binder b bs t ih =>
    simp only [Term.noShadow, Bool.and_eq_true, Term.noLet]
    exact fun h => ih h.2
  | let_ bs t _ _ => simp [Term.noShadow]
  | paramOp o ps as ihp ih =>
    simp only [Term.noShadow, Term.noLet, Bool.and_eq_true, Term.noShadowL_iff, Term.noLetL_iff]
    exact fun h => ⟨fun a ha => ihp a ha (h.1 a ha), fun a ha => ih a ha (h.2 a ha)⟩

/-- Results remembered under fewer binders stay right under more binders. -/
theorem EntryOK.lift {A B : List String} {Γ Δ : List BPair} {u v : Term} (h : EntryOK A B Γ u v)
    (hx : ((Γ ++ Δ).map BPair.x).Nodup) (hy : ((Γ ++ Δ).map BPair.y).Nodup)
    (hm : ∀ e ∈ Δ, e.x ∈ A ∧ e.y ∈ B) : SameUp (Γ ++ Δ) u v := by
  intro I ρ1 ρ2 h1 h2 ha
  rw [List.map_append, List.nodup_append] at hx hy
  let ρ1' : Env I.U := fun z s => if z ∈ Δ.map BPair.x then (if z ∈ Δ.map BPair.y then ρ1 z s else ρ2 z s) else ρ1 z s
  let ρ2' : Env I.U := fun z s => if z ∈ Δ.map BPair.y then ρ1 z s else ρ2 z s
  have hρ1 : I.EnvOK ρ1' := by
    intro z s
    simp only [ρ1']
    split
    · split
      · exact h1 z s
      · exact h2 z s
    · exact h1 z s
  have hρ2 : I.EnvOK ρ2' := by
    intro z s
    simp only [ρ2']
    split
    · exact h1 z s
    · exact h2 z s
  have e1 : eval I u ρ1' = eval I u ρ1 := by
    refine eval_congr_fv u (u.choiceOK_of_sort h.sort_u) (.inr hρ1) fun w hw => ?_
    simp only [ρ1']
    rw [if_neg]
    intro hd
    obtain ⟨e, he, hex⟩ := List.mem_map.1 hd
    exact hx.2.2 _ (h.fv_u w hw (hex ▸ (hm e he).1)) _ hd rfl
  have e2 : eval I v ρ2' = eval I v ρ2 := by
    refine eval_congr_fv v (v.choiceOK_of_sort h.sort_v) (.inr hρ2) fun w hw => ?_
    simp only [ρ2']
    rw [if_neg]
    intro hd
    obtain ⟨e, he, hex⟩ := List.mem_map.1 hd
    exact hy.2.2 _ (h.fv_v w hw (hex ▸ (hm e he).2)) _ hd rfl
  rw [← e1, ← e2]
  refine h.same I ρ1' ρ2' hρ1 hρ2 ⟨fun e he => ?_, fun z s hz hz' => ?_⟩
  · have hx' : e.x ∉ Δ.map BPair.x := fun hd => hx.2.2 _ (List.mem_map.2 ⟨e, he, rfl⟩) _ hd rfl
    have hy' : e.y ∉ Δ.map BPair.y := fun hd => hy.2.2 _ (List.mem_map.2 ⟨e, he, rfl⟩) _ hd rfl
    simp only [ρ1', ρ2', if_neg hx', if_neg hy']
    exact ha.1 e (List.mem_append_left _ he)
  · simp only [ρ1', ρ2']
    by_cases h3 : z ∈ Δ.map BPair.x
    · by_cases h4 : z ∈ Δ.map BPair.y
      · rw [if_pos h3, if_pos h4]
      · rw [if_pos h3, if_neg h4]
    · by_cases h4 : z ∈ Δ.map BPair.y
      · rw [if_neg h3, if_pos h4]
      · rw [if_neg h3, if_neg h4]
        refine ha.2 z s ?_ ?_
        · rw [List.map_append, List.mem_append, not_or]; exact ⟨hz, h3⟩
        · rw [List.map_append, List.mem_append, not_or]; exact ⟨hz', h4⟩

theorem sameUp_nil_refl (a : Term) : SameUp [] a a := by
  intro I ρ1 ρ2 _ _ h
  have : ρ1 = ρ2 := by
    funext z s
    exact h.2 z s (by simp) (by simp)
  rw [this]

theorem Poly.GoodP.rc {A B : List String} {F : List (List BPair)} {cs : List Nat} {cfg : PolyConfig}
    (hal : cfg.alpha = true) (hw : StackOK A B F cs) {tm : Term → Term → Poly} {a b : Term}
    (hc : AlphaCond A B F.flatten a b) (h : (tm a b).GoodP (AlphaInv A B F cs) (SameUp F.flatten a b)) :
    (polyRc cfg tm a b).GoodP (AlphaInv A B F cs) (SameUp F.flatten a b) := by
  intro s hs r s' e
  unfold polyRc at e
  split at e
  · next hcond =>
    simp only [ok_inj, Prod.mk.injEq] at e
    obtain ⟨rfl, rfl⟩ := e
    refine ⟨hs, fun _ => ?_⟩
    obtain ⟨h1, rfl⟩ := hcond
    simp only [hal, Bool.true_and, Bool.not_eq_false', hs.db] at h1
    rw [dbOf_isEmpty h1]
    exact sameUp_nil_refl a
  · split at e
    · next hget =>
      simp only [ok_inj, Prod.mk.injEq] at e
      obtain ⟨rfl, rfl⟩ := e
      refine ⟨hs, fun _ => ?_⟩
      obtain ⟨scope, hsc, p, hp, e⟩ := HashMapStack.get_isSome hget
      obtain ⟨k, hk⟩ := List.getElem?_of_mem hsc
      have hent := hs.cache k scope hk p hp
      rw [e] at hent
      have hfl : F.flatten = (F.take k).flatten ++ (F.drop k).flatten := by
        rw [← List.flatten_append, List.take_append_drop]
      have hnx := hw.nodup_x
      have hny := hw.nodup_y
      have hm := hw.mem
      rw [hfl] at hnx hny hm ⊢
      exact hent.lift hnx hny fun e he => hm e (List.mem_append_right _ he)
    · simp only [bind_ok] at e
      obtain ⟨⟨b1, s1⟩, e1, e⟩ := e
      obtain ⟨h1, h2⟩ := h s hs _ _ e1
      split at e
      · next hb =>
        simp only [bind_ok, ok_inj, Prod.mk.injEq] at e
        obtain ⟨c, hci, rfl, rfl⟩ := e
        refine ⟨?_, fun _ => h2 hb⟩
        unfold HashMapStack.insert at hci
        split at hci
        · next scope hl =>
          simp only [ok_inj] at hci
          subst hci
          have hne : s1.cache.scopes ≠ [] := by
            intro h0; rw [h0] at hl; cases hl
          have hlen := h1.height
          refine ⟨h1.db, ?_, ?_⟩
          · simp only [List.length_append, List.length_dropLast, List.length_singleton]
            omega
          · intro k sc hk p hp
            simp only at hk
            rw [List.getElem?_append] at hk
            split at hk
            · next hlt =>
              rw [List.getElem?_dropLast] at hk
              split at hk
              · exact h1.cache k sc hk p hp
              · cases hk
            · next hge =>
              simp only [List.length_dropLast, not_lt, hlen] at hge
              have hk0 : k - s1.cache.scopes.dropLast.length = 0 := by
                by_contra hne0
                rw [List.getElem?_eq_none (by rw [List.length_singleton]; omega)] at hk
                cases hk
              rw [hk0] at hk
              simp only [List.getElem?_cons_zero, Option.some.injEq] at hk
              subst hk
              simp only [List.length_dropLast, hlen] at hk0
              have hkF : k = F.length := by omega
              subst hkF
              rcases MultiSet.mem_mapInsert hp with hp | rfl
              · refine h1.cache F.length scope ?_ p hp
                rw [List.getLast?_eq_getElem?] at hl
                simp only [hlen, Nat.add_sub_cancel] at hl
                exact hl
              · rw [List.take_length]
                exact hc.entry (h2 hb)
        · cases hci
      · simp only [ok_inj, Prod.mk.injEq] at e
        obtain ⟨rfl, rfl⟩ := e
        exact ⟨h1, by simp⟩

/-! ## Binders -/

theorem InScope.body {A : List String} {V xs : List (String × Srt)} {q : Binder} {t : Term}
    (h : InScope A V (.binder q xs t)) : InScope A (V ++ xs) t := by
  obtain ⟨S, hS, hn⟩ := h.shadow
  simp only [Term.noShadow, Bool.and_eq_true] at hn
  refine ⟨⟨xs.map (·.1) ++ S, fun v hv => ?_, hn.2⟩, fun x hx => h.bound x ?_, fun w hw hA => ?_⟩
  · rw [List.mem_append]
    rcases List.mem_append.1 hv with hv | hv
    · exact .inr (hS v hv)
    · exact .inl (List.mem_map.2 ⟨v, hv, rfl⟩)
  · rw [Term.boundNames]; exact List.mem_append_right _ hx
  · rw [List.mem_append]
    by_cases hx : w ∈ xs
    · exact .inr hx
    · exact .inl (h.free w (Term.mem_fv_binder.2 ⟨hw, hx⟩) hA)

theorem InScope.names {A : List String} {V xs : List (String × Srt)} {q : Binder} {t : Term}
    (h : InScope A V (.binder q xs t)) :
    (xs.map (·.1)).Nodup ∧ (∀ x ∈ xs.map (·.1), x ∉ V.map (·.1)) ∧ ∀ x ∈ xs.map (·.1), x ∈ A := by
  obtain ⟨S, hS, hn⟩ := h.shadow
  simp only [Term.noShadow, Bool.and_eq_true, decide_eq_true_eq, List.all_eq_true] at hn
  refine ⟨hn.1.1, fun x hx hv => ?_, fun x hx => h.bound x ?_⟩
  · obtain ⟨b, hb, rfl⟩ := List.mem_map.1 hx
    obtain ⟨v, hv, e⟩ := List.mem_map.1 hv
    exact hn.1.2 b hb (e ▸ hS v hv)
  · rw [Term.boundNames]; exact List.mem_append_left _ hx

theorem dbOf_push {F : List (List BPair)} {c : Nat} {cs : List Nat} :
    (dbOf F (c :: cs)).push = .ok (dbOf (F ++ [[]]) (c :: c :: cs)) := by
  simp [DeBruijn.push, dbOf, HashMapStack.pushScope, orPanic]

theorem dbOf_pop {F : List (List BPair)} {fr : List BPair} {c : Nat} {cs : List Nat} {d : DeBruijn}
    (h : (dbOf (F ++ [fr]) (c :: cs)).pop = .ok d) : d = dbOf F cs := by
  simp only [DeBruijn.pop, HashMapStack.popScope, bind_ok] at h
  obtain ⟨l, hl, r, hr, h⟩ := h
  rw [if_neg (by simp [dbOf])] at hl hr
  simp only [dbOf] at hl hr h
  cases hl
  cases hr
  simp only [ok_inj] at h
  subst h
  have e : ∀ f : BPair → String × Nat, ([] :: List.map (fun l => List.map f l) (F ++ [fr])) =
      ([] :: F.map (·.map f)) ++ [fr.map f] := by intro f; simp
  rw [e, e, List.dropLast_concat, List.dropLast_concat]
  rfl

theorem mapInsert_fresh {α β : Type} [DecidableEq α] : ∀ {m : List (α × β)} {a : α} {b : β}, a ∉ m.map (·.1) →
    mapInsert m a b = m ++ [(a, b)]
  | [], _, _, _ => rfl
  | (k, v) :: m, a, b, h => by
    simp only [List.map_cons, List.mem_cons, not_or] at h
    rw [mapInsert, if_neg (fun e => h.1 e.symm), mapInsert_fresh h.2]
    rfl

theorem dbOf_insert {F : List (List BPair)} {fr : List BPair} {c : Nat} {cs : List Nat} {x y : String} {s : Srt}
    (hx : x ∉ fr.map BPair.x) (hy : y ∉ fr.map BPair.y) :
    (dbOf (F ++ [fr]) (c :: cs)).insert x y = .ok (dbOf (F ++ [fr ++ [⟨x, y, s, c⟩]]) ((c + 1) :: cs)) := by
  have hx' : x ∉ (fr.map fun e => (e.x, e.i)).map (·.1) := by
    simpa [List.map_map, Function.comp_def] using hx
  have hy' : y ∉ (fr.map fun e => (e.y, e.i)).map (·.1) := by
    simpa [List.map_map, Function.comp_def] using hy
  have e1 : ∀ f : BPair → String × Nat, ([] :: List.map (fun l => List.map f l) (F ++ [fr])) =
      ([] :: F.map (·.map f)) ++ [fr.map f] := by intro f; simp
  simp only [DeBruijn.insert, dbOf, HashMapStack.insert]
  rw [e1, e1]
  simp only [List.getLast?_concat, List.dropLast_concat, mapInsert_fresh hx', mapInsert_fresh hy']
  simp

section Binder
variable {A B : List String} {F : List (List BPair)} {cs : List Nat}

theorem StackOK.snoc {fr : List BPair} {c : Nat} (h : StackOK A B (F ++ [fr]) (c :: cs)) {x y : String} {s : Srt}
    (hx : x ∉ (F ++ [fr]).flatten.map BPair.x) (hy : y ∉ (F ++ [fr]).flatten.map BPair.y) (hA : x ∈ A) (hB : y ∈ B) :
    StackOK A B (F ++ [fr ++ [⟨x, y, s, c⟩]]) ((c + 1) :: cs) := by
  have e : (F ++ [fr ++ [(⟨x, y, s, c⟩ : BPair)]]).flatten = (F ++ [fr]).flatten ++ [(⟨x, y, s, c⟩ : BPair)] := by simp
  obtain ⟨c', cs', hc, hlt⟩ := h.counter
  cases hc
  refine ⟨?_, ?_, ?_, ?_, c + 1, cs, rfl, ?_⟩
  · rw [e, List.map_append, List.nodup_append]
    refine ⟨h.nodup_x, by simp, ?_⟩
    rintro a ha b hb rfl
    simp only [List.map_cons, List.map_nil, List.mem_singleton] at hb
    exact hx (hb ▸ ha)
  · rw [e, List.map_append, List.nodup_append]
    refine ⟨h.nodup_y, by simp, ?_⟩
    rintro a ha b hb rfl
    simp only [List.map_cons, List.map_nil, List.mem_singleton] at hb
    exact hy (hb ▸ ha)
  · rw [e, List.map_append, List.nodup_append]
    refine ⟨h.nodup_i, by simp, ?_⟩
    rintro a ha b hb rfl
    simp only [List.map_cons, List.map_nil, List.mem_singleton] at hb
    obtain ⟨e', he', hi⟩ := List.mem_map.1 ha
    have := hlt e' he'
    omega
  · intro e' he'
    rw [e, List.mem_append, List.mem_singleton] at he'
    rcases he' with he' | rfl
    · exact h.mem e' he'
    · exact ⟨hA, hB⟩
  · intro e' he'
    rw [e, List.mem_append, List.mem_singleton] at he'
    rcases he' with he' | rfl
    · have := hlt e' he'; omega
    · exact Nat.lt_succ_self _

/-- The loop over the binding lists. -/
theorem polyBindings_spec : ∀ (xs ys : List (String × Srt)) (fr : List BPair) (c : Nat) (s : PolyState) (r : Bool)
    (s' : PolyState), StackOK A B (F ++ [fr]) (c :: cs) → s.db = dbOf (F ++ [fr]) (c :: cs) →
    (xs.map (·.1)).Nodup → (∀ x ∈ xs.map (·.1), x ∉ (F ++ [fr]).flatten.map BPair.x ∧ x ∈ A) →
    (ys.map (·.1)).Nodup → (∀ y ∈ ys.map (·.1), y ∉ (F ++ [fr]).flatten.map BPair.y ∧ y ∈ B) →
    polyBindings (fun s t => Poly.pure (decide (s = t))) xs ys s = .ok (r, s') →
    ∃ fr' c', StackOK A B (F ++ [fr']) (c' :: cs) ∧ s'.db = dbOf (F ++ [fr']) (c' :: cs) ∧ s'.cache = s.cache ∧
      (r = true → xs.length = ys.length → leftVars fr' = leftVars fr ++ xs ∧ rightVars fr' = rightVars fr ++ ys)
  | [], ys, fr, c, s, r, s', hw, hdb, _, _, _, _, e => by
    simp only [polyBindings, Poly.pure, ok_inj, Prod.mk.injEq] at e
    obtain ⟨rfl, rfl⟩ := e
    refine ⟨fr, c, hw, hdb, rfl, fun _ hl => ?_⟩
    have : ys = [] := List.length_eq_zero_iff.1 hl.symm
    subst this
    simp
  | x :: xs, [], fr, c, s, r, s', hw, hdb, _, _, _, _, e => by
    simp only [polyBindings, Poly.pure, ok_inj, Prod.mk.injEq] at e
    obtain ⟨rfl, rfl⟩ := e
    exact ⟨fr, c, hw, hdb, rfl, fun _ hl => by simp at hl⟩
  | (x, u) :: xs, (y, v) :: ys, fr, c, s, r, s', hw, hdb, hx, hxn, hy, hyn, e => by
    simp only [polyBindings, Poly.and, Poly.pure, bind_ok, ok_inj] at e
    obtain ⟨_, rfl, e⟩ := e
    simp only [List.map_cons, List.nodup_cons] at hx hy
    split at e
    · next huv =>
      simp only [decide_eq_true_eq] at huv
      subst huv
      simp only [bind_ok] at e
      obtain ⟨db, hins, e⟩ := e
      have hx0 := hxn x (by simp)
      have hy0 := hyn y (by simp)
      have hfx : x ∉ fr.map BPair.x := fun h => hx0.1 (by simp at h ⊢; exact .inr h)
      have hfy : y ∉ fr.map BPair.y := fun h => hy0.1 (by simp at h ⊢; exact .inr h)
      rw [hdb, dbOf_insert (s := u) hfx hfy] at hins
      cases hins
      have hfl : (F ++ [fr ++ [(⟨x, y, u, c⟩ : BPair)]]).flatten = (F ++ [fr]).flatten ++ [(⟨x, y, u, c⟩ : BPair)] := by simp
      obtain ⟨fr', c', h1, h2, h3, h4⟩ := polyBindings_spec xs ys (fr ++ [⟨x, y, u, c⟩]) (c + 1) _ r s'
        (hw.snoc hx0.1 hy0.1 hx0.2 hy0.2) rfl hx.2 (by
          intro z hz
          have := hxn z (by rw [List.map_cons]; exact List.mem_cons_of_mem _ hz)
          refine ⟨?_, this.2⟩
          rw [hfl, List.map_append, List.mem_append, not_or]
          refine ⟨this.1, ?_⟩
          simp only [List.map_cons, List.map_nil, List.mem_singleton]
          rintro rfl
          exact hx.1 hz) hy.2 (by
          intro z hz
          have := hyn z (by rw [List.map_cons]; exact List.mem_cons_of_mem _ hz)
          refine ⟨?_, this.2⟩
          rw [hfl, List.map_append, List.mem_append, not_or]
          refine ⟨this.1, ?_⟩
          simp only [List.map_cons, List.map_nil, List.mem_singleton]
          rintro rfl
          exact hy.1 hz) e
      refine ⟨fr', c', h1, h2, h3, fun hr hl => ?_⟩
      obtain ⟨h5, h6⟩ := h4 hr (by simpa using hl)
      rw [h5, h6]
      simp [leftVars, rightVars]
    · simp only [ok_inj, Prod.mk.injEq] at e
      obtain ⟨rfl, rfl⟩ := e
      exact ⟨fr, c, hw, hdb, rfl, fun h => by cases h⟩

theorem sameUp_binder {Γ fr : List BPair} {q : Binder} {a b : Term}
    (hx : ((Γ ++ fr).map BPair.x).Nodup) (hy : ((Γ ++ fr).map BPair.y).Nodup)
    (hch : q = .choice → (leftVars fr).length = 1) (h : SameUp (Γ ++ fr) a b) :
    SameUp Γ (.binder q (leftVars fr) a) (.binder q (rightVars fr) b) := by
  intro I ρ1 ρ2 h1 h2 ha
  rw [List.map_append, List.nodup_append] at hx hy
  simp only [eval]
  symm
  have hpairs : List.Forall₂ (fun b b' : String × Srt => b'.2 = b.2) (leftVars fr) (rightVars fr) := by
    unfold leftVars rightVars
    clear hx hy hch h
    induction fr with
    | nil => exact .nil
    | cons e fr ih => exact .cons rfl ih
  refine evalBinder_rename hpairs hch fun vs hv => ?_
  symm
  refine h I _ _ (h1.setMany hv) (h2.setMany (Interp.Tuple.rename hpairs hv)) ⟨fun e he => ?_, fun z s hz hz' => ?_⟩
  · rcases List.mem_append.1 he with he | he
    · rw [Env.setMany_of_not_mem, Env.setMany_of_not_mem]
      · exact ha.1 e he
      · intro hm
        refine hy.2.2 e.y (List.mem_map.2 ⟨e, he, rfl⟩) e.y ?_ rfl
        rw [← rightVars_names]
        exact List.mem_map.2 ⟨_, hm, rfl⟩
      · intro hm
        refine hx.2.2 e.x (List.mem_map.2 ⟨e, he, rfl⟩) e.x ?_ rfl
        rw [← leftVars_names]
        exact List.mem_map.2 ⟨_, hm, rfl⟩
    · refine (Env.setMany_pair (b := (e.x, e.s)) (b' := (e.y, e.s)) hpairs ?_ ?_ (List.Forall₂.length_eq hv) ?_).symm
      · exact List.Nodup.of_map Prod.fst (by rw [leftVars_names]; exact hx.2.1)
      · exact List.Nodup.of_map Prod.fst (by rw [rightVars_names]; exact hy.2.1)
      · unfold leftVars rightVars
        rw [List.zip_map', List.mem_map]
        exact ⟨e, he, rfl⟩
  · rw [List.map_append, List.mem_append, not_or] at hz hz'
    rw [Env.setMany_of_not_mem, Env.setMany_of_not_mem]
    · exact ha.2 z s hz.1 hz'.1
    · intro hm
      exact hz'.2 (by rw [← rightVars_names]; exact List.mem_map.2 ⟨_, hm, rfl⟩)
    · intro hm
      exact hz.2 (by rw [← leftVars_names]; exact List.mem_map.2 ⟨_, hm, rfl⟩)

theorem Poly.GoodP.binder {cfg : PolyConfig} (hal : cfg.alpha = true) (hw : StackOK A B F cs)
    {rc : Term → Term → Poly} {q : Binder} {xs ys : List (String × Srt)} {a b : Term}
    (hc : AlphaCond A B F.flatten (.binder q xs a) (.binder q ys b))
    (hrc : ∀ F' cs', StackOK A B F' cs' → AlphaCond A B F'.flatten a b →
      (rc a b).GoodP (AlphaInv A B F' cs') (SameUp F'.flatten a b)) :
    (compareBinder cfg rc (fun s t => .pure (decide (s = t))) xs ys a b).GoodP (AlphaInv A B F cs)
      (SameUp F.flatten (.binder q xs a) (.binder q ys b)) := by
  intro s hs r s' e
  obtain ⟨c, cs', rfl, hlt⟩ := hw.counter
  have hlen : xs.length = ys.length := by
    have := hc.aligned
    simp only [Term.aligned, Bool.and_eq_true, decide_eq_true_eq] at this
    exact this.1
  have hal' : a.aligned b = true := by
    have := hc.aligned
    simp only [Term.aligned, Bool.and_eq_true] at this
    exact this.2
  unfold compareBinder at e
  rw [if_pos hal, hs.db] at e
  simp only [dbOf_push, bind_ok, ok_inj, exists_eq_left'] at e
  obtain ⟨⟨r1, s1⟩, e1, db, hdb, cache, hcache, e⟩ := e
  cases e
  -- what holds at the end of the inner comparison, whatever its result
  suffices key : ∃ fr c', AlphaInv A B (F ++ [fr]) (c' :: c :: cs') s1 ∧
      (r1 = true → SameUp F.flatten (.binder q xs a) (.binder q ys b)) by
    obtain ⟨fr, c', hinv, hr⟩ := key
    refine ⟨?_, hr⟩
    simp only [hinv.db] at hdb
    have := dbOf_pop hdb
    subst this
    unfold HashMapStack.popScope at hcache
    split at hcache
    · cases hcache
    · next hl =>
      simp only [ok_inj] at hcache
      subst hcache
      have hh := hinv.height
      simp only [List.length_append, List.length_singleton] at hh
      refine ⟨rfl, by simp only [List.length_dropLast]; omega, fun k sc hk p hp => ?_⟩
      simp only [List.getElem?_dropLast] at hk
      split at hk
      · next hk' =>
        have := hinv.cache k sc hk p hp
        rwa [List.take_append_of_le_length (by omega)] at this
      · cases hk
  have hflat : (F ++ [([] : List BPair)]).flatten = F.flatten := by simp
  have hw1 : StackOK A B (F ++ [[]]) (c :: c :: cs') := by
    refine ⟨?_, ?_, ?_, ?_, c, c :: cs', rfl, ?_⟩ <;> rw [hflat]
    · exact hw.nodup_x
    · exact hw.nodup_y
    · exact hw.nodup_i
    · exact hw.mem
    · exact hlt
  have hcpush : ∀ fr : List BPair, (s.cache.pushScope.scopes.length = (F ++ [fr]).length + 1) ∧
      ∀ k scope, s.cache.pushScope.scopes[k]? = some scope → ∀ p ∈ scope,
        EntryOK A B ((F ++ [fr]).take k).flatten p.1.1 p.1.2 := by
    intro fr
    have hh := hs.height
    refine ⟨by simp [HashMapStack.pushScope, hh], fun k sc hk p hp => ?_⟩
    simp only [HashMapStack.pushScope, List.getElem?_append] at hk
    split at hk
    · next hk' =>
      rw [List.take_append_of_le_length (by omega)]
      exact hs.cache k sc hk p hp
    · cases hkk : k - s.cache.scopes.length with
      | zero => rw [hkk] at hk; cases hk; cases hp
      | succ n => rw [hkk] at hk; cases hk
  simp only [Poly.and, bind_ok] at e1
  obtain ⟨⟨r0, s0⟩, e0, e1⟩ := e1
  obtain ⟨nx1, nx2, nx3⟩ := hc.left.names
  obtain ⟨ny1, ny2, ny3⟩ := hc.right.names
  rw [leftVars_names] at nx2
  rw [rightVars_names] at ny2
  obtain ⟨fr, c', h1, h2, h3, h4⟩ := polyBindings_spec xs ys [] c _ r0 s0 hw1 rfl nx1
    (fun x hx => ⟨by rw [hflat]; exact nx2 x hx, nx3 x hx⟩) ny1
    (fun y hy => ⟨by rw [hflat]; exact ny2 y hy, ny3 y hy⟩) e0
  have hinv0 : AlphaInv A B (F ++ [fr]) (c' :: c :: cs') s0 := ⟨h2, by rw [h3]; exact (hcpush fr).1, by
    rw [h3]; exact (hcpush fr).2⟩
  split at e1
  · next hr0 =>
    obtain ⟨h5, h6⟩ := h4 hr0 hlen
    simp only [leftVars, rightVars, List.map_nil, List.nil_append] at h5 h6
    change leftVars fr = xs at h5
    change rightVars fr = ys at h6
    have hfl : (F ++ [fr]).flatten = F.flatten ++ fr := by simp
    have hcond : AlphaCond A B (F ++ [fr]).flatten a b := by
      refine ⟨hc.comp.sub (sorted_binder hc.comp.sort_left) (sorted_binder hc.comp.sort_right) subterms_binder
        subterms_binder, hal', ?_, ?_⟩
      · rw [hfl, leftVars, List.map_append]
        have := hc.left.body
        rw [← h5] at this
        exact this
      · rw [hfl, rightVars, List.map_append]
        have := hc.right.body
        rw [← h6] at this
        exact this
    obtain ⟨g1, g2⟩ := hrc _ _ h1 hcond s0 hinv0 r1 s1 e1
    refine ⟨fr, c', g1, fun hr => ?_⟩
    have hxn := h1.nodup_x
    have hyn := h1.nodup_y
    have hsu := g2 hr
    rw [hfl] at hxn hyn hsu
    rw [← h5, ← h6]
    refine sameUp_binder hxn hyn (fun hq => ?_) hsu
    have hch := Term.choiceOK_of_sort _ hc.comp.sort_left
    simp only [Term.choiceOK, Bool.and_eq_true, Bool.or_eq_true, decide_eq_true_eq] at hch
    rw [h5]
    exact hch.1.resolve_left (fun h => h hq)
  · simp only [ok_inj, Prod.mk.injEq] at e1
    obtain ⟨rfl, rfl⟩ := e1
    exact ⟨fr, c', hinv0, fun h => by cases h⟩

end Binder

/-! ## Other terms -/

section Cases
variable {A B : List String} {Γ : List BPair}

theorem InScope.sub {V : List (String × Srt)} {t u : Term} (h : InScope A V t)
    (hn : ∀ S, t.noShadow S = true → u.noShadow S = true) (hb : ∀ x ∈ u.boundNames, x ∈ t.boundNames)
    (hf : ∀ w ∈ u.fv, w ∈ t.fv) : InScope A V u := by
  obtain ⟨S, hS, h1⟩ := h.shadow
  exact ⟨⟨S, hS, hn S h1⟩, fun x hx => h.bound x (hb x hx), fun w hw => h.free w (hf w hw)⟩

theorem InScope.op {V : List (String × Srt)} {o : Op} {as : List Term} (h : InScope A V (.op o as)) {a : Term}
    (ha : a ∈ as) : InScope A V a := by
  refine h.sub (fun S hS => ?_) (fun x hx => ?_) (fun w hw => ?_)
  · simp only [Term.noShadow, Term.noShadowL_iff] at hS; exact hS a ha
  · rw [Term.boundNames, Term.mem_boundNamesL]; exact ⟨a, ha, hx⟩
  · rw [Term.fv, Term.mem_fvL]; exact ⟨a, ha, hw⟩

theorem InScope.paramOp {V : List (String × Srt)} {o : ParamOp} {ps as : List Term}
    (h : InScope A V (.paramOp o ps as)) {a : Term} (ha : a ∈ as) : InScope A V a := by
  refine h.sub (fun S hS => ?_) (fun x hx => ?_) (fun w hw => ?_)
  · simp only [Term.noShadow, Bool.and_eq_true, Term.noShadowL_iff] at hS; exact hS.2 a ha
  · rw [Term.boundNames, List.mem_append, Term.mem_boundNamesL, Term.mem_boundNamesL]; exact .inr ⟨a, ha, hx⟩
  · rw [Term.fv, List.mem_append, Term.mem_fvL, Term.mem_fvL]; exact .inr ⟨a, ha, hw⟩

theorem InScope.fn {V : List (String × Srt)} {f : Term} {as : List Term} (h : InScope A V (.app f as)) :
    InScope A V f := by
  refine h.sub (fun S hS => ?_) (fun x hx => ?_) (fun w hw => ?_)
  · simp only [Term.noShadow, Bool.and_eq_true] at hS; exact hS.1
  · rw [Term.boundNames]; exact List.mem_append_left _ hx
  · rw [Term.fv]; exact List.mem_append_left _ hw

theorem InScope.arg {V : List (String × Srt)} {f : Term} {as : List Term} (h : InScope A V (.app f as)) {a : Term}
    (ha : a ∈ as) : InScope A V a := by
  refine h.sub (fun S hS => ?_) (fun x hx => ?_) (fun w hw => ?_)
  · simp only [Term.noShadow, Bool.and_eq_true, Term.noShadowL_iff] at hS; exact hS.2 a ha
  · rw [Term.boundNames, List.mem_append, Term.mem_boundNamesL]; exact .inr ⟨a, ha, hx⟩
  · rw [Term.fv, List.mem_append, Term.mem_fvL]; exact .inr ⟨a, ha, hw⟩

theorem sameUp_list {as bs : List Term} (h : List.Forall₂ (SameUp Γ) as bs) {I : Interp} {ρ1 ρ2 : Env I.U}
    (h1 : I.EnvOK ρ1) (h2 : I.EnvOK ρ2) (ha : AgreeP Γ ρ1 ρ2) :
    as.map (eval I · ρ1) = bs.map (eval I · ρ2) := by
  induction h with
  | nil => rfl
  | cons h _ ih => rw [List.map_cons, List.map_cons, h I ρ1 ρ2 h1 h2 ha, ih]

theorem sameUp_const_left {c : Const} {b : Term} (h : Same (.const c) b) : SameUp Γ (.const c) b :=
  fun I _ ρ2 _ h2 _ => h I ρ2 h2

theorem sameUp_const_right {c : Const} {a : Term} (h : Same a (.const c)) : SameUp Γ a (.const c) :=
  fun I ρ1 _ h1 _ _ => h I ρ1 h1

theorem Poly.GoodP.op {P : PolyState → Prop} {cfg : PolyConfig} (hn : cfg.nary = false) {rc : Term → Term → Poly}
    {k : Nat} {o o' : Op} {as bs : List Term} (hc : AlphaCond A B Γ (.op o as) (.op o' bs))
    (hrc : ∀ a b, AlphaCond A B Γ a b → (rc a b).GoodP P (SameUp Γ a b)) :
    (compareOp cfg rc k o as o' bs).GoodP P (SameUp Γ (.op o as) (.op o' bs)) := by
  have hcond : ∀ a ∈ as, ∀ b ∈ bs, a.aligned b = true → AlphaCond A B Γ a b := fun a ha b hb h =>
    ⟨hc.comp.op_args ha hb, h, hc.left.op ha, hc.right.op hb⟩
  have general : (if cfg.nary then compareNary rc k o as o' bs
      else if o = o' then polyList rc as bs else .pure false).GoodP P (SameUp Γ (.op o as) (.op o' bs)) := by
    rw [if_neg (by simp [hn])]
    split
    · next e =>
      subst e
      refine (list fun p hp => hrc p.1 p.2 ?_).mono fun h I ρ1 ρ2 h1 h2 ha => ?_
      · have := List.of_mem_zip (a := p.1) (b := p.2) hp
        exact hcond _ this.1 _ this.2 (Term.aligned_op hc.aligned p hp)
      · simp only [eval, evalL_eq_map, sameUp_list h h1 h2 ha]
    · exact fls
  unfold compareOp
  simp only
  split
  · split
    · next a a' b b' =>
      have hal := hc.aligned
      simp only [Term.aligned, if_true] at hal
      have hX := Term.alignedX_all hal
      have hq : ∀ u ∈ [a, a'], ∀ v ∈ [b, b'], (rc u v).GoodP P (SameUp Γ u v) := fun u hu v hv =>
        hrc u v (hcond u hu v hv (hX u hu v hv))
      refine or ?_ ?_
      · refine ((hq a (by simp) b (by simp)).and (hq a' (by simp) b' (by simp))).mono fun h I ρ1 ρ2 h1 h2 ha => ?_
        simp only [eval, evalL_eq_map, sameUp_list (.cons h.1 (.cons h.2 .nil)) h1 h2 ha]
      · refine ((hq a (by simp) b' (by simp)).and (hq a' (by simp) b (by simp))).mono fun h I ρ1 ρ2 h1 h2 ha => ?_
        have e1 := h.1 I ρ1 ρ2 h1 h2 ha
        have e2 := h.2 I ρ1 ρ2 h1 h2 ha
        simp only [eval, evalL_eq_map, List.map_cons, List.map_nil, evalOp, stdOp, Option.getD, chain, and_true, e1, e2]
        congr 1
        exact propext ⟨Eq.symm, Eq.symm⟩
    · exact general
  · exact general

theorem Poly.GoodP.var {F : List (List BPair)} {cs : List Nat} (hw : StackOK A B F cs) {x y : String} {s t : Srt}
    (hc : AlphaCond A B F.flatten (.var x s) (.var y t)) :
    Poly.GoodP (AlphaInv A B F cs) (fun st => .ok (st.db.compare x y && decide (s = t), st))
      (SameUp F.flatten (.var x s) (.var y t)) := by
  intro st hst r st' e
  simp only [ok_inj, Prod.mk.injEq] at e
  obtain ⟨rfl, rfl⟩ := e
  refine ⟨hst, fun h => ?_⟩
  simp only [Bool.and_eq_true, decide_eq_true_eq, hst.db] at h
  obtain ⟨h1, rfl⟩ := h
  intro I ρ1 ρ2 _ _ ha
  simp only [eval]
  rcases dbOf_compare hw h1 with ⟨rfl, h2, h3⟩ | ⟨e, he, rfl, rfl⟩
  · exact ha.2 x s h2 h3
  · have := hc.left.free (e.x, s) (by simp [Term.fv]) (hw.mem e he).1
    obtain ⟨e', he', e2⟩ := List.mem_map.1 this
    simp only [Prod.mk.injEq] at e2
    have := eq_of_nodup_map hw.nodup_x he' he e2.1
    subst this
    obtain ⟨_, rfl⟩ := e2
    exact ha.1 e' he

theorem Poly.GoodP.go {cfg : PolyConfig} (hal : cfg.alpha = true) (hn : cfg.nary = false) : ∀ (k : Nat)
    (F : List (List BPair)) (cs : List Nat), StackOK A B F cs → ∀ a b, AlphaCond A B F.flatten a b →
    (polyGo cfg k a b).GoodP (AlphaInv A B F cs) (SameUp F.flatten a b)
  | 0, _, _, _, _, _, _ => stuck
  | k + 1, F, cs, hw, a, b, hc => by
    have ih := Poly.GoodP.go hal hn k
    have hrc : ∀ F' cs', StackOK A B F' cs' → ∀ a b, AlphaCond A B F'.flatten a b →
        (polyRc cfg (polyGo cfg k) a b).GoodP (AlphaInv A B F' cs') (SameUp F'.flatten a b) :=
      fun F' cs' hw' a b hc' => rc hal hw' hc' (ih F' cs' hw' a b hc')
    have hsing : ∀ t u, (singletonEq cfg (polyGo cfg k) t u).GoodP (AlphaInv A B F cs) (SameUp F.flatten a b) := by
      intro t u
      unfold singletonEq
      split
      · rw [if_neg (by simp [hn])]; exact fls
      · exact fls
    have hnl : ∀ {q r}, a ≠ .let_ q r := by
      rintro q r rfl
      obtain ⟨S, _, h⟩ := hc.left.shadow
      simp [Term.noShadow] at h
    have hif : ∀ {u v : Term}, SameIf false u v → Comparable false u v → Same u v := fun h hc => h hc
    unfold polyGo polyTerm
    split
    · exact pure fun h => sameUp_const_left (hif (constEq_sound h) hc.comp)
    · rw [if_pos hal]; exact var hw hc
    · next f as g bs =>
      have hc' := hc.aligned
      rw [Term.aligned, Bool.and_eq_true] at hc'
      obtain ⟨sf, sa⟩ := sorted_app hc.comp.sort_left
      obtain ⟨sg, sb⟩ := sorted_app hc.comp.sort_right
      refine ((hrc F cs hw f g ⟨hc.comp.sub sf sg (subterms_app (Or.inl rfl)) (subterms_app (Or.inl rfl)), hc'.1,
        hc.left.fn, hc.right.fn⟩).and (list (S := SameUp F.flatten) fun p hp => ?_)).mono ?_
      · have hz := List.of_mem_zip (a := p.1) (b := p.2) hp
        exact hrc F cs hw p.1 p.2 ⟨hc.comp.sub (sa _ hz.1) (sb _ hz.2) (subterms_app (Or.inr hz.1))
          (subterms_app (Or.inr hz.2)), Term.alignedL_zip hc'.2 p hp, hc.left.arg hz.1, hc.right.arg hz.2⟩
      · rintro ⟨h1, h2⟩ I ρ1 ρ2 r1 r2 ha
        simp only [eval, evalL_eq_map, h1 I ρ1 ρ2 r1 r2 ha, sameUp_list h2 r1 r2 ha]
    · next o ps as o' ps' bs =>
      split
      · next e =>
        obtain ⟨rfl, rfl⟩ := e
        have hc' := hc.aligned
        rw [Term.aligned] at hc'
        refine (list (S := SameUp F.flatten) fun p hp => ?_).mono fun h I ρ1 ρ2 r1 r2 ha => ?_
        · have hz := List.of_mem_zip (a := p.1) (b := p.2) hp
          exact hrc F cs hw p.1 p.2 ⟨hc.comp.sub (sorted_paramOp hc.comp.sort_left _ hz.1)
            (sorted_paramOp hc.comp.sort_right _ hz.2) (subterms_paramOp hz.1) (subterms_paramOp hz.2),
            Term.alignedL_zip hc' p hp, hc.left.paramOp hz.1, hc.right.paramOp hz.2⟩
        · simp only [eval, evalL_eq_map, sameUp_list h r1 r2 ha]
          congr 1
          refine List.map_congr_left fun p hp => ?_
          obtain ⟨c, rfl⟩ := indices_const hc.comp.sort_left p hp
          rfl
      · exact fls
    · refine or (hsing _ _) (or (hsing _ _) ?_)
      unfold polyTail
      split
      · exact op hn hc (hrc F cs hw)
      · split
        · next e => subst e; exact binder hal hw hc (fun F' cs' hw' => hrc F' cs' hw' _ _)
        · exact fls
      · exact absurd rfl hnl
      · exact ((Poly.Still.quotient _ _).good (Poly.Good.quotient _ _)).mono fun h =>
          sameUp_const_left fun I ρ hρ => by rw [h _ hc.comp.clean_right I ρ]; simp [eval, evalConst]
      · exact ((Poly.Still.divLiteral _ _).good (Poly.Good.divLiteral _ _)).mono fun h =>
          sameUp_const_right fun I ρ hρ => by
            rw [h _ hc.comp.clean_left hc.comp.sort_left I ρ]; simp [eval, evalConst]
      · exact ((Poly.Still.negInt _ _).good (Poly.Good.negInt false _ _)).mono fun h =>
          sameUp_const_left (hif h hc.comp)
      · exact ((Poly.Still.negInt _ _).good (Poly.Good.negInt false _ _)).mono fun h =>
          sameUp_const_right (hif h hc.comp.symm).symm
      · exact ((Poly.Still.negReal _ _).good (Poly.Good.negReal false _ _)).mono fun h =>
          sameUp_const_right (hif h hc.comp.symm).symm
      · exact ((Poly.Still.negReal _ _).good (Poly.Good.negReal false _ _)).mono fun h =>
          sameUp_const_left (hif h hc.comp)
      · exact fls

end Cases

/-- The comparison modulo renaming relates only terms with the same meaning, under the given conditions. -/
theorem alphaWith_sound {cfg : PolyConfig} (hal : cfg.alpha = true) (hn : cfg.nary = false) {a b : Term}
    (h : polyeqWith cfg a b = .ok true) (hc : Comparable false a b) (hl : a.aligned b = true)
    (ha : a.barendregt = true) (hb : b.barendregt = true) : Same a b := by
  simp only [polyeqWith, bind_ok, ok_inj] at h
  obtain ⟨⟨r, s⟩, h1, h2⟩ := h
  simp only at h2
  subst h2
  have hw : StackOK a.boundNames b.boundNames [] [0] :=
    ⟨by simp, by simp, by simp, fun e he => by simp at he, 0, [], rfl, fun e he => by simp at he⟩
  have scope : ∀ {t : Term}, t.barendregt = true → InScope t.boundNames [] t := by
    intro t ht
    simp only [Term.barendregt, Bool.and_eq_true, List.all_eq_true, decide_eq_true_eq] at ht
    exact ⟨⟨[], fun v hv => (by cases hv), ht.1⟩, fun x hx => hx, fun w hw hA => absurd hA (ht.2 w hw)⟩
  have hcond : AlphaCond a.boundNames b.boundNames ([] : List (List BPair)).flatten a b :=
    ⟨hc, hl, scope ha, scope hb⟩
  have := Poly.GoodP.rc hal hw hcond (Poly.GoodP.go hal hn (a.size + b.size) [] [0] hw a b hcond) {} (by
    refine ⟨rfl, rfl, fun k sc hk p hp => ?_⟩
    cases k with
    | zero => cases hk; cases hp
    | succ k => cases hk) _ _ h1
  intro I ρ hρ
  exact this.2 rfl I ρ ρ hρ hρ ⟨fun e he => by simp at he, fun _ _ _ _ => rfl⟩

end Carcara
