import Verif.Lemmas.NoPanic
import Verif.Lemmas.Subterms

/-! # Panics of the comparison of terms -/

namespace Carcara

/-- An application that makes the comparison panic: an associative operator without arguments, a division of fewer
than two arguments or by a literal zero, or `(/ 0 (- i))`. -/
def Term.comparisonPanics : Term → Bool
  | .op .realDiv as => match as with
    | .const (.int i) :: .op .sub [.const (.int _)] :: _ => decide (i = 0)
    | _ :: .const (.int j) :: _ => decide (j = 0)
    | _ :: .const (.real r) :: _ => decide (r = 0)
    | _ :: _ :: _ => false
    | _ => true
  | .op o [] => decide (o.naryCase = some .rightAssoc ∨ o.naryCase = some .leftAssoc)
  | _ => false

/-- No subterm makes the comparison panic. -/
def Term.CanCompare (t : Term) : Prop := ∀ u ∈ t.subterms, u.comparisonPanics = false

instance (t : Term) : Decidable t.CanCompare := by unfold Term.CanCompare; infer_instance

theorem Term.CanCompare.op {o : Op} {as : List Term} (h : (Term.op o as).CanCompare) {a : Term} (ha : a ∈ as) :
    a.CanCompare := fun u hu => h u (subterms_op ha u hu)

/-- The heights of the stacks in the state. -/
structure PolyState.At (s : PolyState) (c d : Nat) : Prop where
  cache : s.cache.scopes.length = c + 1
  left : s.db.left.scopes.length = d + 1
  right : s.db.right.scopes.length = d + 1
  counter : s.db.counter.length = d + 1

/-- The comparison does not panic and leaves as many scopes as there were. -/
def Poly.Safe (p : Poly) : Prop := ∀ c d s, s.At c d → p s ≠ panic ∧ ∀ r, p s = .ok r → r.2.At c d

namespace Poly.Safe

theorem pure {b : Bool} : (Poly.pure b).Safe := by
  intro c d s h
  refine ⟨by simp [Poly.pure, nopanic], fun r e => ?_⟩
  simp only [Poly.pure, ok_inj] at e
  subst e; exact h

theorem stuck : Poly.stuck.Safe := by
  intro c d s h
  exact ⟨by simp [Poly.stuck, nopanic], fun r e => by simp [Poly.stuck] at e⟩

theorem and {p q : Poly} (hp : p.Safe) (hq : q.Safe) : (p.and q).Safe := by
  intro c d s h
  obtain ⟨h1, h2⟩ := hp c d s h
  constructor
  · simp only [Poly.and, ne_eq, nopanic, h1, false_or]
    rintro ⟨r, hr, ⟨-, e⟩ | ⟨-, e⟩⟩
    · exact (hq c d r.2 (h2 r hr)).1 e
    · exact e
  · intro r e
    simp only [Poly.and, bind_ok] at e
    obtain ⟨r', hr, e⟩ := e
    split at e
    · exact (hq c d r'.2 (h2 r' hr)).2 r e
    · simp only [ok_inj] at e
      subst e; exact h2 r' hr

theorem or {p q : Poly} (hp : p.Safe) (hq : q.Safe) : (p.or q).Safe := by
  intro c d s h
  obtain ⟨h1, h2⟩ := hp c d s h
  constructor
  · simp only [Poly.or, ne_eq, nopanic, h1, false_or]
    rintro ⟨r, hr, ⟨-, e⟩ | ⟨-, e⟩⟩
    · exact e
    · exact (hq c d r.2 (h2 r hr)).1 e
  · intro r e
    simp only [Poly.or, bind_ok] at e
    obtain ⟨r', hr, e⟩ := e
    split at e
    · simp only [ok_inj] at e
      subst e; exact h2 r' hr
    · exact (hq c d r'.2 (h2 r' hr)).2 r e

theorem zip {α : Type} {f : α → α → Poly} : ∀ {as bs : List α}, (∀ a ∈ as, ∀ b ∈ bs, (f a b).Safe) → (polyZip f as bs).Safe
  | [], _, _ => by simpa [polyZip] using pure
  | _ :: _, [], _ => by simpa [polyZip] using pure
  | a :: as, b :: bs, h => by
    simp only [polyZip]
    exact and (h a (by simp) b (by simp)) (zip fun x hx y hy => h x (by simp [hx]) y (by simp [hy]))

theorem list {α : Type} {f : α → α → Poly} {as bs : List α} (h : ∀ a ∈ as, ∀ b ∈ bs, (f a b).Safe) :
    (polyList f as bs).Safe := by
  unfold polyList
  split
  · exact zip h
  · exact pure

theorem rc {cfg : PolyConfig} {tm : Term → Term → Poly} {a b : Term} (h : (tm a b).Safe) : (polyRc cfg tm a b).Safe := by
  intro c d s hs
  obtain ⟨h1, h2⟩ := h c d s hs
  have hins : ∀ s' : PolyState, s'.At c d → ∃ m, s'.cache.insert (a, b) () = .ok m ∧ m.scopes.length = c + 1 := by
    intro s' hs'
    have hc := hs'.cache
    unfold HashMapStack.insert
    split
    · exact ⟨_, rfl, by simp [hc]⟩
    · next e => simp only [List.getLast?_eq_none_iff] at e; simp [e] at hc
  constructor
  · simp only [polyRc, ne_eq]
    split
    · simp [nopanic]
    · split
      · simp [nopanic]
      · simp only [nopanic, h1, false_or]
        rintro ⟨r, hr, e⟩
        obtain ⟨m, hm, -⟩ := hins r.2 (h2 r hr)
        simp [hm, nopanic] at e
  · intro r e
    simp only [polyRc] at e
    split at e
    · simp only [ok_inj] at e; subst e; exact hs
    · split at e
      · simp only [ok_inj] at e; subst e; exact hs
      · simp only [bind_ok] at e
        obtain ⟨r', hr, e⟩ := e
        have hr' := h2 r' hr
        split at e
        · obtain ⟨m, hm, hl⟩ := hins r'.2 hr'
          simp only [hm, bind_ok, ok_inj, exists_eq_left'] at e
          subst e
          exact ⟨hl, hr'.left, hr'.right, hr'.counter⟩
        · simp only [ok_inj] at e; subst e; exact hr'

theorem insertDb {s : PolyState} {c d : Nat} (h : s.At c d) (x y : String) :
    ∃ db, s.db.insert x y = .ok db ∧ ({ s with db } : PolyState).At c d := by
  have h1 := h.left
  have h2 := h.right
  have h3 := h.counter
  unfold DeBruijn.insert
  split
  · next e => simp [e] at h3
  · next n cs e =>
    have key : ∀ (m : HashMapStack String Nat) (k : String), m.scopes.length = d + 1 →
        ∃ m', m.insert k n = .ok m' ∧ m'.scopes.length = d + 1 := by
      intro m k hm
      unfold HashMapStack.insert
      split
      · exact ⟨_, rfl, by simp [hm]⟩
      · next e => simp only [List.getLast?_eq_none_iff] at e; simp [e] at hm
    obtain ⟨l, hl, hl'⟩ := key s.db.left x h1
    obtain ⟨r, hr, hr'⟩ := key s.db.right y h2
    refine ⟨{ left := l, right := r, counter := (n + 1) :: cs }, by simp [hl, hr, bind, Except.bind], h.cache, hl', hr', ?_⟩
    rw [e] at h3
    exact h3

theorem bindings {β : Type} {eq : β → β → Poly} : ∀ {as bs : List (String × β)},
    (∀ a ∈ as, ∀ b ∈ bs, (eq a.2 b.2).Safe) → (polyBindings eq as bs).Safe
  | [], _, _ => by simpa [polyBindings] using pure
  | _ :: _, [], _ => by simpa [polyBindings] using pure
  | (x, u) :: as, (y, v) :: bs, h => by
    simp only [polyBindings]
    have ih := bindings (eq := eq) (as := as) (bs := bs) fun a ha b hb => h a (by simp [ha]) b (by simp [hb])
    refine and (h (x, u) (by simp) (y, v) (by simp)) fun c d s hs => ?_
    obtain ⟨db, e, hdb⟩ := insertDb hs x y
    simpa [e, bind, Except.bind] using ih c d _ hdb

theorem binder {β : Type} {cfg : PolyConfig} {rc : Term → Term → Poly} {eq : β → β → Poly} {as bs : List (String × β)}
    {a b : Term} (he : ∀ x ∈ as, ∀ y ∈ bs, (eq x.2 y.2).Safe) (hb : (rc a b).Safe) :
    (compareBinder cfg rc eq as bs a b).Safe := by
  unfold compareBinder
  split
  · intro c d s hs
    have hpush : ∃ db, s.db.push = .ok db ∧ ({ cache := s.cache.pushScope, db } : PolyState).At (c + 1) (d + 1) := by
      have h3 := hs.counter
      cases e : s.db.counter with
      | nil => simp [e] at h3
      | cons n cs =>
        refine ⟨{ left := s.db.left.pushScope, right := s.db.right.pushScope, counter := n :: s.db.counter },
          by simp [DeBruijn.push, e, orPanic, bind, Except.bind], ?_⟩
        refine ⟨?_, ?_, ?_, ?_⟩
        · simp [HashMapStack.pushScope, hs.cache]
        · simp [HashMapStack.pushScope, hs.left]
        · simp [HashMapStack.pushScope, hs.right]
        · simp [hs.counter]
    obtain ⟨db, hdb, hat⟩ := hpush
    obtain ⟨h1, h2⟩ := and (bindings he) hb (c + 1) (d + 1) _ hat
    have hpop : ∀ s' : PolyState, s'.At (c + 1) (d + 1) → ∃ db cache, s'.db.pop = .ok db ∧ s'.cache.popScope = .ok cache ∧
        ({ cache, db } : PolyState).At c d := by
      intro s' hs'
      refine ⟨⟨⟨s'.db.left.scopes.dropLast⟩, ⟨s'.db.right.scopes.dropLast⟩, s'.db.counter.tail⟩,
        ⟨s'.cache.scopes.dropLast⟩, ?_, ?_, ?_, ?_, ?_, ?_⟩
      · simp [DeBruijn.pop, HashMapStack.popScope, hs'.left, hs'.right, bind, Except.bind]
      · simp [HashMapStack.popScope, hs'.cache]
      · simp [hs'.cache]
      · simp [hs'.left]
      · simp [hs'.right]
      · simp [hs'.counter]
    constructor
    · simp only [hdb, ne_eq, nopanic, ok_inj, exists_eq_left', h1, false_or]
      rintro ⟨r, hr, e⟩
      obtain ⟨db', cache', e1, e2, -⟩ := hpop r.2 (h2 r hr)
      simp [e1, e2, nopanic] at e
    · intro r e
      simp only [hdb, bind_ok, ok_inj, exists_eq_left'] at e
      obtain ⟨r', hr, db1, hd1, cache1, hc1, rfl⟩ := e
      obtain ⟨db', cache', e1, e2, hat'⟩ := hpop r'.2 (h2 r' hr)
      rw [e1] at hd1
      rw [e2] at hc1
      cases hd1; cases hc1
      exact hat'
  · refine and (list fun p hp q hq => ?_) hb
    split
    · exact he p hp q hq
    · exact pure

theorem chain {rc : Term → Term → Poly} {o : Op} : ∀ {as cs : List Term}, (∀ a ∈ as, ∀ c ∈ cs, ∀ o' x y, c = .op o' [x, y] →
    (rc a x).Safe ∧ (rc a y).Safe) → (chainGo rc o as cs).Safe
  | [], cs, _ => by simpa [chainGo] using pure
  | [_], cs, _ => by cases cs <;> simpa [chainGo] using pure
  | a :: b :: l, [], _ => by simpa [chainGo] using pure
  | a :: b :: l, c :: cs, h => by
    simp only [chainGo]
    refine and ?_ (chain fun x hx y hy => h x (List.mem_cons_of_mem _ hx) y (by simp [hy]))
    split
    · next o' x y =>
      split
      · exact and (h a (by simp) _ (List.mem_cons_self ..) o' x y rfl).1
          (h b (by simp) _ (List.mem_cons_self ..) o' x y rfl).2
      · exact pure
    · exact pure

theorem assoc {rc : Term → Term → Poly} {o : Op} (ho : o.naryCase = some .rightAssoc ∨ o.naryCase = some .leftAssoc)
    (hrc : ∀ a b : Term, a.CanCompare → b.CanCompare → (rc a b).Safe) : ∀ {n : Nat} {l r : List Term}, l ≠ [] → r ≠ [] →
    (∀ a ∈ l, a.CanCompare) → (∀ a ∈ r, a.CanCompare) → (compareAssoc rc o n l r).Safe := by
  have split_some : ∀ l : List Term, 2 ≤ l.length → ∃ h t, assocSplit (o.naryCase = some .rightAssoc) l = some (h, t) ∧
      h ∈ l ∧ t ≠ [] ∧ ∀ a ∈ t, a ∈ l := by
    intro l hl
    unfold assocSplit
    rw [if_neg (by omega)]
    split
    · match l, hl with
      | a :: b :: l, _ => exact ⟨a, b :: l, rfl, by simp, by simp, fun x hx => by simp at hx ⊢; tauto⟩
    · cases e : l.getLast? with
      | none => rw [List.getLast?_eq_none_iff] at e; simp [e] at hl
      | some x =>
        rw [List.getLast?_eq_some_iff] at e
        obtain ⟨m, rfl⟩ := e
        refine ⟨x, m, by simp, by simp, ?_, fun a ha => by simp [ha]⟩
        rintro rfl
        simp at hl
  have flat : ∀ t : List Term, t ≠ [] → (∀ a ∈ t, a.CanCompare) → assocFlatten o t ≠ [] ∧ ∀ a ∈ assocFlatten o t, a.CanCompare := by
    intro t ht h
    unfold assocFlatten
    split
    · next o' as =>
      split
      · next e =>
        subst e
        have h0 := h _ (List.mem_singleton.2 rfl)
        refine ⟨?_, fun a ha => h0.op ha⟩
        rintro rfl
        have := h0 _ (Term.self_mem_subterms _)
        unfold Term.comparisonPanics at this
        split at this
        · next e =>
          cases e
          simp at this
        · next e => cases e; simp at this; simp [this] at ho
        · next h2 h3 => exact h3 _ rfl
      · exact ⟨by simp, h⟩
    · exact ⟨ht, h⟩
  intro n
  induction n with
  | zero => intro l r _ _ _ _; simpa [compareAssoc] using stuck
  | succ n ih =>
    intro l r hl hr h1 h2
    unfold compareAssoc
    split
    · exact hrc _ _ (h1 _ (by simp)) (h2 _ (by simp))
    · exact pure
    · exact pure
    · next ha hb hc =>
      have hl2 : 2 ≤ l.length := by
        match l, hl with
        | [a], _ => exact (ha a rfl).elim
        | _ :: _ :: _, _ => simp
      have hr2 : 2 ≤ r.length := by
        match r, hr with
        | [a], _ => exact (hb a rfl).elim
        | _ :: _ :: _, _ => simp
      obtain ⟨lh, lt, e1, m1, n1, s1⟩ := split_some l hl2
      obtain ⟨rh, rt, e2, m2, n2, s2⟩ := split_some r hr2
      simp only [e1, e2]
      obtain ⟨f1, g1⟩ := flat lt n1 fun a ha => h1 a (s1 a ha)
      obtain ⟨f2, g2⟩ := flat rt n2 fun a ha => h2 a (s2 a ha)
      exact and (hrc _ _ (h1 _ m1) (h2 _ m2)) (ih f1 f2 g1 g2)

theorem nonempty {o : Op} (ho : o.naryCase = some .rightAssoc ∨ o.naryCase = some .leftAssoc) {as : List Term}
    (h : (Term.op o as).CanCompare) : as ≠ [] := by
  rintro rfl
  have := h _ (Term.self_mem_subterms _)
  unfold Term.comparisonPanics at this
  split at this
  · next e => cases e; simp at this
  · next e => cases e; simp at this; simp [this] at ho
  · next h2 h3 => exact h3 _ rfl

theorem nary {rc : Term → Term → Poly} {n : Nat} {o o' : Op} {as bs : List Term}
    (hrc : ∀ a b : Term, a.CanCompare → b.CanCompare → (rc a b).Safe)
    (ha : (Term.op o as).CanCompare) (hb : (Term.op o' bs).CanCompare) : (compareNary rc n o as o' bs).Safe := by
  have hch : ∀ o as o' cs, (Term.op o as).CanCompare → (Term.op o' cs).CanCompare → (compareChainable rc o as cs).Safe := by
    intro o as o' cs h1 h2
    unfold compareChainable
    split
    · refine chain fun a ha c hc o'' x y e => ?_
      subst e
      exact ⟨hrc _ _ (h1.op ha) ((h2.op hc).op (by simp)), hrc _ _ (h1.op ha) ((h2.op hc).op (by simp))⟩
    · exact pure
  unfold compareNary
  split
  · split
    · split
      · exact hch _ _ _ _ ha hb
      · exact pure
    · split
      · split
        · exact hch _ _ _ _ hb ha
        · exact pure
      · exact pure
  · next e =>
    simp only [ne_eq, not_not] at e
    subst e
    split
    · split
      · next ho => exact assoc ho hrc (nonempty ho ha) (nonempty ho hb) (fun a h => ha.op h) (fun a h => hb.op h)
      · exact pure
    · exact list fun a h1 b h2 => hrc _ _ (ha.op h1) (hb.op h2)

theorem op {cfg : PolyConfig} {rc : Term → Term → Poly} {n : Nat} {o o' : Op} {as bs : List Term}
    (hrc : ∀ a b : Term, a.CanCompare → b.CanCompare → (rc a b).Safe)
    (ha : (Term.op o as).CanCompare) (hb : (Term.op o' bs).CanCompare) : (compareOp cfg rc n o as o' bs).Safe := by
  have hgen : (if cfg.nary then compareNary rc n o as o' bs
    else if o = o' then polyList rc as bs else .pure false).Safe := by
    split
    · exact nary hrc ha hb
    · split
      · exact list fun a h1 b h2 => hrc _ _ (ha.op h1) (hb.op h2)
      · exact pure
  unfold compareOp
  simp only
  split
  · split
    · refine or (and ?_ ?_) (and ?_ ?_) <;> exact hrc _ _ (ha.op (by simp)) (hb.op (by simp))
    · exact hgen
  · exact hgen

theorem ratio {n d : Int} {q : Rat} (h : d ≠ 0) : (ratioEq n d q).Safe := by
  unfold ratioEq
  rw [if_neg h]
  exact pure

theorem num_ne {r : Rat} (h : r ≠ 0) : r.num ≠ 0 := by simpa using h

theorem quotient {args : List Term} {q : Rat} (h : (Term.op .realDiv args).CanCompare) : (quotientEq args q).Safe := by
  have h0 := h _ (Term.self_mem_subterms _)
  match args with
  | [] => simp [Term.comparisonPanics] at h0
  | [_] => simp [Term.comparisonPanics] at h0
  | a :: b :: l =>
    simp only [quotientEq, divArgs]
    split
    · next r r' =>
      simp only [Term.comparisonPanics, decide_eq_false_iff_not] at h0
      split
      · exact ratio (num_ne h0)
      · exact pure
    · exact pure

theorem divLiteral {args : List Term} {q : Rat} (h : (Term.op .realDiv args).CanCompare) : (divLiteralEq args q).Safe := by
  have h0 := h _ (Term.self_mem_subterms _)
  match args with
  | [] => simp [Term.comparisonPanics] at h0
  | [_] => simp [Term.comparisonPanics] at h0
  | a :: b :: l =>
    simp only [divLiteralEq, divArgs]
    split
    · next r r' =>
      simp only [Term.comparisonPanics, decide_eq_false_iff_not] at h0
      split
      · exact ratio (num_ne h0)
      · exact pure
    · next i j =>
      simp only [Term.comparisonPanics, decide_eq_false_iff_not] at h0
      split
      · exact ratio h0
      · exact pure
    · next j i =>
      simp only [Term.comparisonPanics, decide_eq_false_iff_not] at h0
      split
      · exact ratio h0
      · exact pure
    · exact pure

theorem negInt {args : List Term} {i : Int} : (negIntEq args i).Safe := by
  unfold negIntEq
  split
  · split <;> exact pure
  · exact pure

theorem negReal {args : List Term} {q : Rat} (h : ∀ a ∈ args, a.CanCompare) : (negRealEq args q).Safe := by
  unfold negRealEq
  split
  · split
    · exact quotient (h _ (by simp))
    · exact pure
    · exact pure
  · exact pure

theorem singleton {cfg : PolyConfig} {tm : Term → Term → Poly} {t u : Term}
    (htm : ∀ a b : Term, a.CanCompare → b.CanCompare → (tm a b).Safe) (ht : t.CanCompare) (hu : u.CanCompare) :
    (singletonEq cfg tm t u).Safe := by
  unfold singletonEq
  split
  · split
    · split
      · exact pure
      · exact htm _ _ (ht.op (by simp)) hu
    · exact pure
  · exact pure

theorem tail {cfg : PolyConfig} {rc : Term → Term → Poly} {n : Nat} {a b : Term}
    (hrc : ∀ a b : Term, a.CanCompare → b.CanCompare → (rc a b).Safe) (ha : a.CanCompare) (hb : b.CanCompare) :
    (polyTail cfg rc n a b).Safe := by
  unfold polyTail
  split
  · exact op hrc ha hb
  · split
    · exact binder (fun _ _ _ _ => pure) (hrc _ _ (fun u hu => ha u (subterms_binder u hu)) (fun u hu => hb u (subterms_binder u hu)))
    · exact pure
  · refine binder (fun x hx y hy => hrc _ _ (fun u hu => ha u (subterms_let (.inr ⟨x, hx, rfl⟩) u hu))
      (fun u hu => hb u (subterms_let (.inr ⟨y, hy, rfl⟩) u hu))) (hrc _ _ (fun u hu => ha u (subterms_let (.inl rfl) u hu))
      (fun u hu => hb u (subterms_let (.inl rfl) u hu)))
  · exact quotient hb
  · exact divLiteral ha
  · exact negInt
  · exact negInt
  · exact negReal fun _ h => ha.op h
  · exact negReal fun _ h => hb.op h
  · exact pure

theorem term {cfg : PolyConfig} {rc tm : Term → Term → Poly} {n : Nat} {a b : Term}
    (hrc : ∀ a b : Term, a.CanCompare → b.CanCompare → (rc a b).Safe)
    (htm : ∀ a b : Term, a.CanCompare → b.CanCompare → (tm a b).Safe) (ha : a.CanCompare) (hb : b.CanCompare) :
    (polyTerm cfg rc tm n a b).Safe := by
  unfold polyTerm
  split
  · exact pure
  · split
    · intro c d s hs
      refine ⟨by simp [nopanic], fun r e => ?_⟩
      simp only [ok_inj] at e
      subst e; exact hs
    · exact pure
  · exact and (hrc _ _ (fun u hu => ha u (subterms_app (.inl rfl) u hu)) (fun u hu => hb u (subterms_app (.inl rfl) u hu)))
      (list fun x hx y hy => hrc _ _ (fun u hu => ha u (subterms_app (.inr hx) u hu)) (fun u hu => hb u (subterms_app (.inr hy) u hu)))
  · split
    · exact list fun x hx y hy => hrc _ _ (fun u hu => ha u (subterms_paramOp hx u hu)) (fun u hu => hb u (subterms_paramOp hy u hu))
    · exact pure
  · exact or (singleton htm ha hb) (or (singleton htm hb ha) (tail hrc ha hb))

theorem go {cfg : PolyConfig} : ∀ {n : Nat} {a b : Term}, a.CanCompare → b.CanCompare → (polyGo cfg n a b).Safe
  | 0, _, _, _, _ => by simpa [polyGo] using stuck
  | n + 1, a, b, ha, hb => by
    simp only [polyGo]
    exact term (fun x y hx hy => rc (go hx hy)) (fun x y hx hy => go hx hy) ha hb

end Poly.Safe

theorem polyeqWith_panic {cfg : PolyConfig} {a b : Term} (ha : a.CanCompare) (hb : b.CanCompare) :
    polyeqWith cfg a b ≠ panic := by
  have := (Poly.Safe.rc (cfg := cfg) (Poly.Safe.go (cfg := cfg) (n := a.size + b.size) ha hb) 0 0 {} ⟨rfl, rfl, rfl, rfl⟩).1
  simp [polyeqWith, nopanic, this]

theorem assertPolyeq_panic {a b : Term} (ha : a.CanCompare) (hb : b.CanCompare) : assertPolyeq a b ≠ panic := by
  simp [assertPolyeq, nopanic, polyeq, polyeqWith_panic ha hb]

theorem dischargeLoop_panic : ∀ {ds : List Command} {ls : List Term}, (∀ i t, .assume i t ∈ ds → t.CanCompare) →
    (∀ l ∈ ls, l.CanCompare) → dischargeLoop ds ls ≠ panic
  | [], _, _, _ => by simp [dischargeLoop, nopanic]
  | .assume i t :: ds, [], _, _ => by simp [dischargeLoop, nopanic]
  | .step _ :: ds, [], _, _ => by simp [dischargeLoop, nopanic]
  | .subproof _ _ _ :: ds, [], _, _ => by simp [dischargeLoop, nopanic]
  | .step _ :: ds, _ :: _, _, _ => by simp [dischargeLoop, nopanic]
  | .subproof _ _ _ :: ds, _ :: _, _, _ => by simp [dischargeLoop, nopanic]
  | .assume i t :: ds, l :: ls, h1, h2 => by
    have ih := dischargeLoop_panic (ds := ds) (ls := ls) (fun i t h => h1 i t (by simp [h])) (fun l h => h2 l (by simp [h]))
    simp only [dischargeLoop, ne_eq, nopanic, false_or, ih, and_false, exists_false, or_false]
    rintro ⟨u, hu, h⟩
    refine assertPolyeq_panic (h1 i t (by simp)) ?_ h
    simp only [Term.removeNegErr, orErr_ok, Term.removeNegation] at hu
    have h0 := h2 l (by simp)
    split at hu
    · simp only [Option.some.injEq] at hu
      subst hu
      exact h0.op (by simp)
    · simp at hu

theorem subproof_panic {a : RuleArgs} (h1 : ∀ l ∈ a.conclusion, l.CanCompare)
    (h2 : ∀ i t, .assume i t ∈ a.discharge → t.CanCompare) (h3 : ∀ cl, a.previous = some cl → ∀ l ∈ cl, l.CanCompare) :
    subproof a ≠ panic := by
  have hphi : ∀ cl, subproofPhi cl ≠ panic := by
    intro cl
    unfold subproofPhi
    split <;> simp [nopanic]
  simp only [subproof, ne_eq, nopanic, false_or, orErr_ok, require_ok, dischargeLoop_panic h2 h1, hphi]
  rintro ⟨cl, hcl, -, hl, -, -, phi, hphi, h⟩
  cases e : a.conclusion.getLast? with
  | none =>
    rw [List.getLast?_eq_none_iff] at e
    simp [e] at hl
  | some l =>
    simp only [e, orPanic, ok_inj, exists_eq_left', reduceCtorEq, false_or] at h
    refine assertPolyeq_panic (h1 l (List.mem_of_getLast? e)) ?_ h
    unfold subproofPhi at hphi
    split at hphi
    · simp only [ok_inj] at hphi
      subst hphi
      decide
    · simp only [ok_inj] at hphi
      subst hphi
      exact h3 _ hcl _ (by simp)
    · simp at hphi

end Carcara
