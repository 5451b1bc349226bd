import Verif.Spec.ElabPolyeq
import Verif.Model.ElabPolyeq
import Verif.Lemmas.Polyeq
import Verif.Lemmas.PolyFuel
import Verif.Lemmas.Subterms

/-! # What the comparison modulo reordering decides -/

namespace Carcara

open Spec

/-- The comparisons of a literal with a term of another shape. -/
def litPoly (a b : Term) : Poly :=
  match a, b with
  | .const c, b => polyTail {} (fun _ _ => .stuck) 0 (.const c) b
  | a, .const c => polyTail {} (fun _ _ => .stuck) 0 a (.const c)
  | _, _ => .pure false

/-- Equality modulo reordering of equalities and notation of literals. -/
inductive Reord : Term → Term → Prop where
  | const {c d : Const} : constEq c d = true → Reord (.const c) (.const d)
  | var (x : String) (s : Srt) : Reord (.var x s) (.var x s)
  | app {f g : Term} {as bs : List Term} : Reord f g → List.Forall₂ Reord as bs → Reord (.app f as) (.app g bs)
  | op {o : Op} {as bs : List Term} : List.Forall₂ Reord as bs → Reord (.op o as) (.op o bs)
  | swap {a a' b b' : Term} : Reord a b' → Reord a' b → Reord (.op .equals [a, a']) (.op .equals [b, b'])
  | binder {q : Binder} {xs : List (String × Srt)} {a b : Term} : Reord a b → Reord (.binder q xs a) (.binder q xs b)
  | let_ {xs ys : List (String × Term)} {a b : Term} : xs.map (·.1) = ys.map (·.1) →
      List.Forall₂ Reord (xs.map (·.2)) (ys.map (·.2)) → Reord a b → Reord (.let_ xs a) (.let_ ys b)
  | paramOp {o : ParamOp} {ps as bs : List Term} : List.Forall₂ Reord as bs → Reord (.paramOp o ps as) (.paramOp o ps bs)
  | lit {a b : Term} : litPoly a b = .pure true → Reord a b

theorem constEq_self (c : Const) : constEq c c = true := by cases c <;> simp [constEq]

mutual
theorem Reord.self : ∀ t : Term, Reord t t
  | .const c => .const (constEq_self c)
  | .var x s => .var x s
  | .app f as => .app (Reord.self f) (Reord.selfL as)
  | .op _ as => .op (Reord.selfL as)
  | .binder _ _ t => .binder (Reord.self t)
  | .let_ bs t => .let_ rfl (Reord.selfB bs) (Reord.self t)
  | .paramOp _ _ as => .paramOp (Reord.selfL as)
theorem Reord.selfL : ∀ ts : List Term, List.Forall₂ Reord ts ts
  | [] => .nil
  | t :: ts => .cons (Reord.self t) (Reord.selfL ts)
theorem Reord.selfB : ∀ bs : List (String × Term), List.Forall₂ Reord (bs.map (·.2)) (bs.map (·.2))
  | [] => .nil
  | (_, t) :: bs => .cons (Reord.self t) (Reord.selfB bs)
end

/-- All cached pairs are related. -/
def PolyState.Valid (s : PolyState) : Prop :=
  s.cache.scopes ≠ [] ∧ ∀ scope ∈ s.cache.scopes, ∀ e ∈ scope, Reord e.1.1 e.1.2

/-- A comparison that does not fail and whose result does not depend on the state. -/
def Poly.Dec (p : Poly) (Q : Prop) : Prop := ∀ s, s.Valid → ∃ r s', p s = .ok (r, s') ∧ s'.Valid ∧ (r = true ↔ Q)

namespace Poly.Dec

variable {p q : Poly} {Q Q' : Prop}

theorem pure (b : Bool) : (Poly.pure b).Dec (b = true) := fun s hs => ⟨b, s, rfl, hs, Iff.rfl⟩

theorem congr (h : p.Dec Q) (e : Q ↔ Q') : p.Dec Q' := fun s hs => by
  obtain ⟨r, s', h1, h2, h3⟩ := h s hs
  exact ⟨r, s', h1, h2, h3.trans e⟩

theorem and (hp : p.Dec Q) (hq : q.Dec Q') : (p.and q).Dec (Q ∧ Q') := by
  intro s hs
  obtain ⟨r, s', h1, h2, h3⟩ := hp s hs
  unfold Poly.and
  rw [h1]
  simp only [bind, Except.bind]
  cases r with
  | true =>
    obtain ⟨r', s'', h1', h2', h3'⟩ := hq s' h2
    exact ⟨r', s'', by rw [if_pos rfl, h1'], h2', by rw [h3', ← h3]; simp⟩
  | false => exact ⟨false, s', by rw [if_neg (by simp)], h2, by rw [← h3]; simp⟩

theorem or (hp : p.Dec Q) (hq : q.Dec Q') : (p.or q).Dec (Q ∨ Q') := by
  intro s hs
  obtain ⟨r, s', h1, h2, h3⟩ := hp s hs
  unfold Poly.or
  rw [h1]
  simp only [bind, Except.bind]
  cases r with
  | false =>
    obtain ⟨r', s'', h1', h2', h3'⟩ := hq s' h2
    exact ⟨r', s'', by rw [if_neg (by simp), h1'], h2', by rw [h3', ← h3]; simp⟩
  | true => exact ⟨true, s', by rw [if_pos rfl], h2, by rw [← h3]; simp⟩

theorem zip {α : Type} {f : α → α → Poly} {S : α → α → Prop} : ∀ {as bs : List α}, as.length = bs.length →
    (∀ a ∈ as, ∀ b ∈ bs, (f a b).Dec (S a b)) → (polyZip f as bs).Dec (List.Forall₂ S as bs)
  | [], [], _, _ => (pure true).congr (by simp)
  | [], _ :: _, h, _ => by simp at h
  | _ :: _, [], h, _ => by simp at h
  | a :: as, b :: bs, hl, h => by
    rw [polyZip]
    exact ((h a (by simp) b (by simp)).and (zip (by simpa using hl) fun x hx y hy => h x (by simp [hx]) y (by simp [hy]))).congr (by simp)

theorem list {α : Type} {f : α → α → Poly} {S : α → α → Prop} {as bs : List α} (h : ∀ a ∈ as, ∀ b ∈ bs, (f a b).Dec (S a b)) :
    (polyList f as bs).Dec (List.Forall₂ S as bs) := by
  unfold polyList
  split
  · next hl => exact zip hl h
  · next hl => exact (pure false).congr ⟨by simp, fun h => (hl h.length_eq).elim⟩

theorem rc {cfg : PolyConfig} (hc : cfg.alpha = false) {tm : Term → Term → Poly} {a b : Term} (h : a ≠ b → (tm a b).Dec (Reord a b)) :
    (polyRc cfg tm a b).Dec (Reord a b) := by
  intro s hs
  unfold polyRc
  by_cases hab : a = b
  · subst hab
    exact ⟨true, s, by rw [if_pos ⟨by simp [hc], rfl⟩], hs, by simp [Reord.self]⟩
  rw [if_neg (by tauto)]
  by_cases hg : (s.cache.get (a, b)).isSome = true
  · rw [if_pos hg]
    obtain ⟨scope, h1, e, h2, h3⟩ := HashMapStack.get_isSome hg
    have := hs.2 scope h1 e h2
    rw [h3] at this
    exact ⟨true, s, rfl, hs, by simpa using this⟩
  rw [if_neg hg]
  obtain ⟨r, s', h1, h2, h3⟩ := h hab s hs
  rw [h1]
  simp only [bind, Except.bind]
  cases r with
  | false => exact ⟨false, s', by rw [if_neg (by simp)], h2, h3⟩
  | true =>
    rw [if_pos rfl]
    have hlast : ∃ l, s'.cache.scopes.getLast? = some l := by
      cases hl : s'.cache.scopes.getLast? with
      | none => exact (h2.1 (List.getLast?_eq_none_iff.1 hl)).elim
      | some l => exact ⟨l, rfl⟩
    obtain ⟨l, hl⟩ := hlast
    have hR := h3.1 rfl
    refine ⟨true, { s' with cache := ⟨s'.cache.scopes.dropLast ++ [mapInsert l (a, b) ()]⟩ }, ?_, ⟨by simp, ?_⟩, h3⟩
    · unfold HashMapStack.insert
      rw [hl]
    · intro scope hsc e he
      simp only [List.mem_append, List.mem_singleton] at hsc
      rcases hsc with hsc | rfl
      · exact h2.2 _ (List.dropLast_subset _ hsc) e he
      · have hm : e ∈ l ∨ e.1 = (a, b) := by
          clear hl hR
          induction l with
          | nil => simp [mapInsert] at he; right; rw [he]
          | cons k l ih =>
            obtain ⟨k, v⟩ := k
            simp only [mapInsert] at he
            split at he
            · next hk => rcases List.mem_cons.1 he with rfl | he
                         · exact .inr hk
                         · exact .inl (by simp [he])
            · rcases List.mem_cons.1 he with rfl | he
              · exact .inl (by simp)
              · rcases ih he with h | h
                · exact .inl (by simp [h])
                · exact .inr h
        rcases hm with hm | hm
        · exact h2.2 l (List.mem_of_getLast? hl) e hm
        · rw [hm]; exact hR

end Poly.Dec

/-! ## Literals -/

theorem ratioEq_pure {n d : Int} {q : Rat} (h : d ≠ 0) : ∃ r, ratioEq n d q = .pure r := by
  unfold ratioEq; rw [if_neg h]; exact ⟨_, rfl⟩

theorem quotientEq_pure {args : List Term} {q : Rat} (h : divSafe (.op .realDiv args) = true) : ∃ r, quotientEq args q = .pure r := by
  match args, h with
  | a :: b :: rest, h =>
    simp only [divSafe, Bool.and_eq_true, Bool.not_eq_true'] at h
    unfold quotientEq divArgs
    simp only
    split
    · next r r' =>
      split
      · next hd => exact ratioEq_pure (by have := h.2; simpa [zeroLit] using this)
      · exact ⟨_, rfl⟩
    · exact ⟨_, rfl⟩

theorem divLiteralEq_pure {args : List Term} {q : Rat} (h : divSafe (.op .realDiv args) = true) : ∃ r, divLiteralEq args q = .pure r := by
  match args, h with
  | a :: b :: rest, h =>
    simp only [divSafe, Bool.and_eq_true, Bool.not_eq_true'] at h
    unfold divLiteralEq divArgs
    simp only
    split
    · split
      · exact ratioEq_pure (by have := h.2; simpa [zeroLit] using this)
      · exact ⟨_, rfl⟩
    · split
      · exact ratioEq_pure (by have := h.2; simpa [zeroLit] using this)
      · exact ⟨_, rfl⟩
    · split
      · exact ratioEq_pure (by have := h.1; simpa [zeroLit] using this)
      · exact ⟨_, rfl⟩
    · exact ⟨_, rfl⟩

theorem negIntEq_pure {args : List Term} {i : Int} : ∃ r, negIntEq args i = .pure r := by
  unfold negIntEq
  split
  · split <;> exact ⟨_, rfl⟩
  · exact ⟨_, rfl⟩

theorem negRealEq_pure {args : List Term} {q : Rat} (h : ∀ u ∈ Term.subtermsL args, divSafe u = true) : ∃ r, negRealEq args q = .pure r := by
  unfold negRealEq
  split
  · split
    · exact quotientEq_pure (h _ (by simp [Term.subtermsL, Term.subterms]))
    · exact ⟨_, rfl⟩
    · exact ⟨_, rfl⟩
  · exact ⟨_, rfl⟩

theorem polyTail_lit {a b : Term} (ha : ∀ u ∈ a.subterms, divSafe u = true) (hb : ∀ u ∈ b.subterms, divSafe u = true) {cfg : PolyConfig}
    {rc : Term → Term → Poly} {n : Nat} (h : a.isConst = true ∨ b.isConst = true) : ∃ r, polyTail cfg rc n a b = .pure r := by
  unfold polyTail
  split
  · simp [Term.isConst] at h
  · simp [Term.isConst] at h
  · simp [Term.isConst] at h
  · exact quotientEq_pure (hb _ (Term.self_mem_subterms _))
  · exact divLiteralEq_pure (ha _ (Term.self_mem_subterms _))
  · exact negIntEq_pure
  · exact negIntEq_pure
  · exact negRealEq_pure fun u hu => ha _ (by simp [Term.subterms, hu])
  · exact negRealEq_pure fun u hu => hb _ (by simp [Term.subterms, hu])
  · exact ⟨_, rfl⟩

/-! ## The comparison -/

theorem polyTail_rc {a b : Term} {cfg : PolyConfig} {rc : Term → Term → Poly} {n : Nat} (h : a.isConst = true ∨ b.isConst = true) :
    polyTail cfg rc n a b = litPoly a b := by
  unfold litPoly
  split
  · unfold polyTail; split <;> simp_all
  · unfold polyTail; split <;> simp_all
  · next h1 h2 => cases a <;> cases b <;> simp_all [Term.isConst]

theorem poly_false_or (p : Poly) : (Poly.pure false).or p = p := by
  funext s
  simp [Poly.or, Poly.pure, bind, Except.bind]

theorem singletonEq_plain {cfg : PolyConfig} (h : cfg.nary = false) (tm : Term → Term → Poly) (a b : Term) :
    singletonEq cfg tm a b = .pure false := by
  unfold singletonEq
  split
  · rw [if_neg (by simp [h])]
  · rfl

theorem lit_off {a b : Term} (ha : ∀ u ∈ a.subterms, divSafe u = true) (hb : ∀ u ∈ b.subterms, divSafe u = true) {cfg : PolyConfig}
    (hn : cfg.nary = false) {rc tm : Term → Term → Poly} {n : Nat} (h : a.isConst = true ∨ b.isConst = true)
    (h' : ¬ (a.isConst = true ∧ b.isConst = true)) : (polyTerm cfg rc tm n a b).Dec (Reord a b) := by
  have e : polyTerm cfg rc tm n a b = litPoly a b := by
    rw [← polyTail_rc h (cfg := cfg) (rc := rc) (n := n)]
    unfold polyTerm
    split
    · simp [Term.isConst] at h'
    · simp [Term.isConst] at h
    · simp [Term.isConst] at h
    · simp [Term.isConst] at h
    · rw [singletonEq_plain hn, singletonEq_plain hn, poly_false_or, poly_false_or]
  obtain ⟨r, hr⟩ := polyTail_lit ha hb (cfg := cfg) (rc := rc) (n := n) h
  rw [polyTail_rc h] at hr
  rw [e, hr]
  refine (Poly.Dec.pure r).congr ⟨?_, ?_⟩
  · rintro rfl; exact .lit hr
  · intro hR
    cases hR <;> simp_all [Term.isConst]
    · next h2 =>
      have := congrFun hr {}
      simpa [Poly.pure] using this

/-- Pairs of terms that have nothing in common. -/
theorem dec_apart {a b : Term} {cfg : PolyConfig} (hn : cfg.nary = false) {rc tm : Term → Term → Poly} {n : Nat}
    (h : ∀ hR : Reord a b, False) (h' : polyTail cfg rc n a b = .pure false)
    (e : polyTerm cfg rc tm n a b = (singletonEq cfg tm a b).or ((singletonEq cfg tm b a).or (polyTail cfg rc n a b))) :
    (polyTerm cfg rc tm n a b).Dec (Reord a b) := by
  rw [e, singletonEq_plain hn, singletonEq_plain hn, poly_false_or, poly_false_or, h']
  exact (Poly.Dec.pure false).congr ⟨by simp, fun hR => (h hR).elim⟩

theorem litPoly_apart {a b : Term} (ha : a.isConst = false) (hb : b.isConst = false) : litPoly a b ≠ .pure true := by
  intro h
  have : litPoly a b = .pure false := by cases a <;> cases b <;> first | rfl | simp [Term.isConst] at ha hb
  rw [this] at h
  have := congrFun h {}
  simp [Poly.pure] at this

theorem go_dec {cfg : PolyConfig} (h1 : cfg.alpha = false) (h2 : cfg.nary = false) (h3 : cfg.reorder = true) : ∀ (n : Nat) {a b : Term},
    a.size + b.size ≤ n → (∀ u ∈ a.subterms, divSafe u = true) → (∀ u ∈ b.subterms, divSafe u = true) → a ≠ b →
    (polyGo cfg n a b).Dec (Reord a b)
  | 0, a, b, h, _, _, _ => by cases a <;> simp [Term.size] at h
  | n + 1, a, b, hl, ha, hb, hne => by
    have rc : ∀ {x y : Term}, x.size + y.size ≤ n → (∀ u ∈ x.subterms, u ∈ a.subterms) → (∀ u ∈ y.subterms, u ∈ b.subterms) →
        (polyRc cfg (polyGo cfg n) x y).Dec (Reord x y) := fun h hx hy =>
      Poly.Dec.rc h1 fun hne => go_dec h1 h2 h3 n h (fun u hu => ha u (hx u hu)) (fun u hu => hb u (hy u hu)) hne
    rw [polyGo]
    cases a with
    | const c => cases b with
      | const d =>
        refine (Poly.Dec.pure (constEq c d)).congr ⟨.const, ?_⟩
        intro h
        cases h with
        | const h => exact h
        | lit h =>
          have := congrFun h {}
          simp [litPoly, polyTail, Poly.pure] at this
      | _ => exact lit_off ha hb h2 (by simp [Term.isConst]) (by simp [Term.isConst])
    | var x s => cases b with
      | const d => exact lit_off ha hb h2 (by simp [Term.isConst]) (by simp [Term.isConst])
      | var y t =>
        simp only [polyTerm, h1]
        refine (Poly.Dec.pure false).congr ⟨by simp, fun h => ?_⟩
        cases h with
        | var => exact (hne rfl).elim
        | lit h => exact (litPoly_apart rfl rfl h).elim
      | _ => exact dec_apart h2 (fun h => by cases h; exact litPoly_apart rfl rfl ‹_›) rfl rfl
    | app f as => cases b with
      | const d => exact lit_off ha hb h2 (by simp [Term.isConst]) (by simp [Term.isConst])
      | app g bs =>
        simp only [Term.size] at hl
        refine ((rc (by omega) (fun u hu => by simp [Term.subterms, hu]) (fun u hu => by simp [Term.subterms, hu])).and
          (Poly.Dec.list fun x hx y hy => rc ?_ ?_ ?_)).congr ⟨fun h => .app h.1 h.2, fun h => ?_⟩
        · have := size_le_sizeL hx; have := size_le_sizeL hy; omega
        · exact fun u hu => by simp only [Term.subterms, List.mem_cons, List.mem_append, Term.mem_subtermsL]; exact .inr (.inr ⟨x, hx, hu⟩)
        · exact fun u hu => by simp only [Term.subterms, List.mem_cons, List.mem_append, Term.mem_subtermsL]; exact .inr (.inr ⟨y, hy, hu⟩)
        · cases h with
          | app h h' => exact ⟨h, h'⟩
          | lit h => exact (litPoly_apart rfl rfl h).elim
      | _ => exact dec_apart h2 (fun h => by cases h; exact litPoly_apart rfl rfl ‹_›) rfl rfl
    | op o as => cases b with
      | const d => exact lit_off ha hb h2 (by simp [Term.isConst]) (by simp [Term.isConst])
      | op o' bs =>
        have hpoly : polyTerm cfg (polyRc cfg (polyGo cfg n)) (polyGo cfg n) n (.op o as) (.op o' bs) =
            compareOp cfg (polyRc cfg (polyGo cfg n)) n o as o' bs := by
          simp only [polyTerm, singletonEq_plain h2, poly_false_or, polyTail]
        rw [hpoly]
        simp only [Term.size] at hl
        have hrc : ∀ x ∈ as, ∀ y ∈ bs, (polyRc cfg (polyGo cfg n) x y).Dec (Reord x y) := fun x hx y hy => by
          refine rc ?_ ?_ ?_
          · have := size_le_sizeL hx; have := size_le_sizeL hy; omega
          · exact fun u hu => by simp only [Term.subterms, List.mem_cons, Term.mem_subtermsL]; exact .inr ⟨x, hx, hu⟩
          · exact fun u hu => by simp only [Term.subterms, List.mem_cons, Term.mem_subtermsL]; exact .inr ⟨y, hy, hu⟩
        unfold compareOp
        simp only [h3, h2, if_true, Bool.false_eq_true, if_false]
        split
        · next a a' b b' =>
          refine (((hrc a (by simp) b (by simp)).and (hrc a' (by simp) b' (by simp))).or
            ((hrc a (by simp) b' (by simp)).and (hrc a' (by simp) b (by simp)))).congr ⟨?_, fun h => ?_⟩
          · rintro (h | h)
            · exact .op (.cons h.1 (.cons h.2 .nil))
            · exact .swap h.1 h.2
          · cases h with
            | op h =>
              cases h with
              | cons h h' => cases h' with
                | cons h' _ => exact .inl ⟨h, h'⟩
            | swap h h' => exact .inr ⟨h, h'⟩
            | lit h => exact (litPoly_apart rfl rfl h).elim
        · next hno =>
          by_cases ho : o = o'
          · subst ho
            rw [if_pos rfl]
            refine (Poly.Dec.list hrc).congr ⟨.op, fun h => ?_⟩
            cases h with
            | op h => exact h
            | swap h h' => exact (hno _ _ _ _ rfl rfl rfl rfl).elim
            | lit h => exact (litPoly_apart rfl rfl h).elim
          · rw [if_neg ho]
            refine (Poly.Dec.pure false).congr ⟨by simp, fun h => ?_⟩
            cases h with
            | op h => exact (ho rfl).elim
            | swap h h' => exact (ho rfl).elim
            | lit h => exact (litPoly_apart rfl rfl h).elim
      | _ => exact dec_apart h2 (fun h => by cases h; exact litPoly_apart rfl rfl ‹_›) rfl rfl
    | binder q xs t => cases b with
      | const d => exact lit_off ha hb h2 (by simp [Term.isConst]) (by simp [Term.isConst])
      | binder q' ys u =>
        have hpoly : polyTerm cfg (polyRc cfg (polyGo cfg n)) (polyGo cfg n) n (.binder q xs t) (.binder q' ys u) =
            if q = q' then compareBinder cfg (polyRc cfg (polyGo cfg n)) (fun s t => .pure (decide (s = t))) xs ys t u else .pure false := by
          simp only [polyTerm, singletonEq_plain h2, poly_false_or, polyTail]
        rw [hpoly]
        simp only [Term.size] at hl
        by_cases hq : q = q'
        · subst hq
          rw [if_pos rfl]
          unfold compareBinder
          simp only [h1, Bool.false_eq_true, if_false]
          refine ((Poly.Dec.list (S := fun p q => p = q) fun x _ y _ => ?_).and
            (rc (by omega) (fun u hu => by simp [Term.subterms, hu]) (fun u hu => by simp [Term.subterms, hu]))).congr ⟨?_, fun h => ?_⟩
          · split
            · next hxy => exact (Poly.Dec.pure _).congr (by simp [Prod.ext_iff, hxy])
            · next hxy => exact (Poly.Dec.pure _).congr (by simp [Prod.ext_iff, hxy])
          · rintro ⟨h, h'⟩
            rw [List.forall₂_eq_eq_eq] at h
            subst h
            exact .binder h'
          · cases h with
            | binder h => exact ⟨List.forall₂_refl _, h⟩
            | lit h => exact (litPoly_apart rfl rfl h).elim
        · rw [if_neg hq]
          refine (Poly.Dec.pure false).congr ⟨by simp, fun h => ?_⟩
          cases h with
          | binder h => exact (hq rfl).elim
          | lit h => exact (litPoly_apart rfl rfl h).elim
      | _ => exact dec_apart h2 (fun h => by cases h; exact litPoly_apart rfl rfl ‹_›) rfl rfl
    | let_ xs t => cases b with
      | const d => exact lit_off ha hb h2 (by simp [Term.isConst]) (by simp [Term.isConst])
      | let_ ys u =>
        have hpoly : polyTerm cfg (polyRc cfg (polyGo cfg n)) (polyGo cfg n) n (.let_ xs t) (.let_ ys u) =
            compareBinder cfg (polyRc cfg (polyGo cfg n)) (polyRc cfg (polyGo cfg n)) xs ys t u := by
          simp only [polyTerm, singletonEq_plain h2, poly_false_or, polyTail]
        rw [hpoly]
        simp only [Term.size] at hl
        unfold compareBinder
        simp only [h1, Bool.false_eq_true, if_false]
        refine ((Poly.Dec.list (S := fun p q => p.1 = q.1 ∧ Reord p.2 q.2) fun x hx y hy => ?_).and
          (rc (by omega) (fun u hu => by simp [Term.subterms, hu]) (fun u hu => by simp [Term.subterms, hu]))).congr ⟨?_, fun h => ?_⟩
        · split
          · next hxy =>
            refine (rc ?_ ?_ ?_).congr (by simp [hxy])
            · have := size_le_sizeB hx; have := size_le_sizeB hy; omega
            · exact fun u hu => by simp only [Term.subterms, List.mem_cons, List.mem_append, Term.mem_subtermsB]; exact .inr (.inl ⟨x, hx, hu⟩)
            · exact fun u hu => by simp only [Term.subterms, List.mem_cons, List.mem_append, Term.mem_subtermsB]; exact .inr (.inl ⟨y, hy, hu⟩)
          · next hxy => exact (Poly.Dec.pure _).congr (by simp [hxy])
        · rintro ⟨h, h'⟩
          refine .let_ ?_ ?_ h'
          · clear hl rc ha hb hne hpoly h'
            induction h with
            | nil => rfl
            | cons h _ ih => simp [h.1, ih]
          · rw [List.forall₂_map_left_iff, List.forall₂_map_right_iff]
            exact h.imp fun _ _ h => h.2
        · cases h with
          | let_ h h' h'' =>
            refine ⟨?_, h''⟩
            rw [List.forall₂_map_left_iff, List.forall₂_map_right_iff] at h'
            clear hl rc ha hb hne hpoly h''
            induction h' with
            | nil => exact .nil
            | cons h1 _ ih =>
              simp only [List.map_cons, List.cons.injEq] at h
              exact .cons ⟨h.1, h1⟩ (ih h.2)
          | lit h => exact (litPoly_apart rfl rfl h).elim
      | _ => exact dec_apart h2 (fun h => by cases h; exact litPoly_apart rfl rfl ‹_›) rfl rfl
    | paramOp o ps as => cases b with
      | const d => exact lit_off ha hb h2 (by simp [Term.isConst]) (by simp [Term.isConst])
      | paramOp o' ps' bs =>
        simp only [Term.size] at hl
        simp only [polyTerm]
        split
        · next ho =>
          obtain ⟨rfl, rfl⟩ := ho
          refine (Poly.Dec.list fun x hx y hy => rc ?_ ?_ ?_).congr ⟨.paramOp, fun h => ?_⟩
          · have := size_le_sizeL hx; have := size_le_sizeL hy; omega
          · exact fun u hu => by simp only [Term.subterms, List.mem_cons, List.mem_append, Term.mem_subtermsL]; exact .inr (.inr ⟨x, hx, hu⟩)
          · exact fun u hu => by simp only [Term.subterms, List.mem_cons, List.mem_append, Term.mem_subtermsL]; exact .inr (.inr ⟨y, hy, hu⟩)
          · cases h with
            | paramOp h => exact h
            | lit h => exact (litPoly_apart rfl rfl h).elim
        · next ho =>
          refine (Poly.Dec.pure false).congr ⟨by simp, fun h => ?_⟩
          cases h with
          | paramOp h => exact (ho ⟨rfl, rfl⟩).elim
          | lit h => exact (litPoly_apart rfl rfl h).elim
      | _ => exact dec_apart h2 (fun h => by cases h; exact litPoly_apart rfl rfl ‹_›) rfl rfl

/-- The comparison modulo reordering does not fail, and decides `Reord`. -/
theorem polyeq_dec {a b : Term} (ha : ∀ u ∈ a.subterms, divSafe u = true) (hb : ∀ u ∈ b.subterms, divSafe u = true) :
    ∃ r, polyeq a b = .ok r ∧ (r = true ↔ Reord a b) := by
  obtain ⟨r, s, e, _, h⟩ := Poly.Dec.rc (cfg := { reorder := true }) rfl (a := a) (b := b)
    (fun hne => go_dec (cfg := { reorder := true }) rfl rfl rfl (a.size + b.size) (Nat.le_refl _) ha hb hne) {} ⟨by simp [HashMapStack.new], by simp [HashMapStack.new]⟩
  refine ⟨r, ?_, h⟩
  simp only [polyeq, polyeqWith, bind, Except.bind]
  rw [e]

end Carcara
