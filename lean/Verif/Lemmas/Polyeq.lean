import Verif.Lemmas.Assoc
import Verif.Lemmas.Utils

/-! # Soundness of the comparison of terms (without renaming) -/

namespace Carcara
open Classical Val Sem

/-- Every cached pair satisfies `R`. -/
def PolyState.Inv (R : Term → Term → Prop) (s : PolyState) : Prop :=
  ∀ scope ∈ s.cache.scopes, ∀ e ∈ scope, R e.1.1 e.1.2

/-- A comparison that succeeds only if `Q` holds, and keeps the cache correct. -/
def Poly.Good (R : Term → Term → Prop) (p : Poly) (Q : Prop) : Prop :=
  ∀ s, s.Inv R → ∀ b s', p s = .ok (b, s') → s'.Inv R ∧ (b = true → Q)

namespace Poly.Good
variable {R : Term → Term → Prop} {p q : Poly} {Q Q' : Prop}

theorem mono (h : p.Good R Q) (hq : Q → Q') : p.Good R Q' :=
  fun s hs b s' e => ⟨(h s hs b s' e).1, fun hb => hq ((h s hs b s' e).2 hb)⟩

theorem pure {b : Bool} (h : b = true → Q) : (Poly.pure b).Good R Q := by
  intro s hs b' s' e
  simp only [Poly.pure, ok_inj, Prod.mk.injEq] at e
  obtain ⟨rfl, rfl⟩ := e
  exact ⟨hs, h⟩

theorem fls : (Poly.pure false).Good R Q := pure (by simp)

theorem panics : Poly.panics.Good R Q := by intro s _ b s' e; simp [Poly.panics] at e

theorem stuck : Poly.stuck.Good R Q := by intro s _ b s' e; simp [Poly.stuck] at e

theorem and (hp : p.Good R Q) (hq : q.Good R Q') : (p.and q).Good R (Q ∧ Q') := by
  intro s hs b s' e
  simp only [Poly.and, bind_ok] at e
  obtain ⟨⟨b1, s1⟩, e1, e⟩ := e
  obtain ⟨h1, h1'⟩ := hp s hs _ _ e1
  split at e
  · next hb =>
    obtain ⟨h2, h2'⟩ := hq s1 h1 _ _ e
    exact ⟨h2, fun h => ⟨h1' hb, h2' h⟩⟩
  · simp only [ok_inj, Prod.mk.injEq] at e
    obtain ⟨rfl, rfl⟩ := e
    exact ⟨h1, by simp⟩

theorem or (hp : p.Good R Q) (hq : q.Good R Q) : (p.or q).Good R Q := by
  intro s hs b s' e
  simp only [Poly.or, bind_ok] at e
  obtain ⟨⟨b1, s1⟩, e1, e⟩ := e
  obtain ⟨h1, h1'⟩ := hp s hs _ _ e1
  split at e
  · next hb =>
    simp only [ok_inj, Prod.mk.injEq] at e
    obtain ⟨rfl, rfl⟩ := e
    exact ⟨h1, fun _ => h1' hb⟩
  · exact hq s1 h1 _ _ e

theorem zip {α : Type} {f : α → α → Poly} {S : α → α → Prop} : ∀ {as bs : List α},
    (∀ a ∈ as, ∀ b ∈ bs, (f a b).Good R (S a b)) →
    (polyZip f as bs).Good R (as.length = bs.length → List.Forall₂ S as bs)
  | [], [], _ => pure (fun _ _ => .nil)
  | [], _ :: _, _ => pure (fun _ h => by simp at h)
  | _ :: _, [], _ => pure (fun _ h => by simp at h)
  | a :: as, b :: bs, h => by
    rw [polyZip]
    refine ((h a (by simp) b (by simp)).and (zip (fun a ha b hb => h a (by simp [ha]) b (by simp [hb])))).mono ?_
    rintro ⟨h1, h2⟩ hl
    exact .cons h1 (h2 (by simpa using hl))

theorem list {α : Type} {f : α → α → Poly} {S : α → α → Prop} {as bs : List α}
    (h : ∀ a ∈ as, ∀ b ∈ bs, (f a b).Good R (S a b)) : (polyList f as bs).Good R (List.Forall₂ S as bs) := by
  unfold polyList
  split
  · next hl => exact (zip h).mono fun h => h hl
  · exact fls

end Poly.Good

theorem mem_of_mapGet {α β : Type} [DecidableEq α] {m : List (α × β)} {a : α} {b : β} (h : mapGet m a = some b) :
    (a, b) ∈ m := by
  induction m with
  | nil => simp [mapGet] at h
  | cons p m ih =>
    obtain ⟨k, v⟩ := p
    simp only [mapGet] at h
    split at h
    · next e => cases h; subst e; simp
    · exact List.mem_cons_of_mem _ (ih h)

theorem HashMapStack.get_isSome {κ ν : Type} [DecidableEq κ] {m : HashMapStack κ ν} {k : κ}
    (h : (m.get k).isSome = true) : ∃ scope ∈ m.scopes, ∃ e ∈ scope, e.1 = k := by
  obtain ⟨v, hv⟩ := Option.isSome_iff_exists.1 h
  obtain ⟨scope, hs, hm⟩ := List.exists_of_findSome?_eq_some hv
  exact ⟨scope, List.mem_reverse.1 hs, (k, v), mem_of_mapGet hm, rfl⟩

theorem PolyState.Inv.insert {R : Term → Term → Prop} {s : PolyState} (hs : s.Inv R) {a b : Term} (h : R a b)
    {c : HashMapStack (Term × Term) Unit} (e : s.cache.insert (a, b) () = .ok c) :
    PolyState.Inv R { s with cache := c } := by
  unfold HashMapStack.insert at e
  split at e
  · next scope hl =>
    simp only [ok_inj] at e
    subst e
    intro sc hsc p hp
    simp only [List.mem_append, List.mem_singleton] at hsc
    rcases hsc with hsc | rfl
    · exact hs sc (List.dropLast_subset _ hsc) p hp
    · rcases MultiSet.mem_mapInsert hp with hp | rfl
      · exact hs scope (List.mem_of_mem_getLast? hl) p hp
      · exact h
  · simp at e

/-- The memo table and the identity check do not change what is established. -/
theorem Poly.Good.rc {R : Term → Term → Prop} {cfg : PolyConfig} {tm : Term → Term → Poly} {a b : Term}
    (hrefl : R a a) (h : (tm a b).Good R (R a b)) : (polyRc cfg tm a b).Good R (R a b) := by
  intro s hs r s' e
  unfold polyRc at e
  split at e
  · next hc =>
    simp only [ok_inj, Prod.mk.injEq] at e
    obtain ⟨rfl, rfl⟩ := e
    exact ⟨hs, fun _ => hc.2 ▸ hrefl⟩
  · split at e
    · next hc =>
      simp only [ok_inj, Prod.mk.injEq] at e
      obtain ⟨rfl, rfl⟩ := e
      obtain ⟨scope, hsc, p, hp, e⟩ := HashMapStack.get_isSome hc
      have := hs scope hsc p hp
      rw [e] at this
      exact ⟨hs, fun _ => this⟩
    · simp only [bind_ok] at e
      obtain ⟨⟨b1, s1⟩, e1, e⟩ := e
      obtain ⟨h1, h2⟩ := h s hs _ _ e1
      split at e
      · next hb =>
        simp only [bind_ok, ok_inj, Prod.mk.injEq] at e
        obtain ⟨c, hc, rfl, rfl⟩ := e
        exact ⟨h1.insert (h2 hb) hc, fun _ => h2 hb⟩
      · simp only [ok_inj, Prod.mk.injEq] at e
        obtain ⟨rfl, rfl⟩ := e
        exact ⟨h1, by simp⟩

/-- What the comparison establishes. -/
def SameIf (n : Bool) (a b : Term) : Prop := Comparable n a b → Same a b

theorem map_eval_eq {n : Bool} {as bs : List Term} (h : List.Forall₂ (SameIf n) as bs)
    (hc : ∀ a ∈ as, ∀ b ∈ bs, Comparable n a b) {I : Interp} {ρ : Env I.U} (hρ : I.EnvOK ρ) :
    as.map (eval I · ρ) = bs.map (eval I · ρ) := by
  induction h with
  | nil => rfl
  | cons h _ ih =>
    simp only [List.map_cons]
    rw [h (hc _ (by simp) _ (by simp)) I ρ hρ, ih (fun a ha b hb => hc a (by simp [ha]) b (by simp [hb]))]

/-! ## Chainable operators -/

/-- What the comparison with a conjunction of neighbours establishes. -/
def ChainQ (n : Bool) (o : Op) : List Term → List Term → Prop
  | a :: b :: l, c :: cs => (∃ x y, c = .op o [x, y] ∧ SameIf n a x ∧ SameIf n b y) ∧ ChainQ n o (b :: l) cs
  | _, _ => True

theorem Poly.Good.chainGo {n : Bool} {R : Term → Term → Prop} {rc : Term → Term → Poly} {o : Op}
    (hrc : ∀ a b, (rc a b).Good R (SameIf n a b)) : ∀ (as cs : List Term),
    (chainGo rc o as cs).Good R (ChainQ n o as cs)
  | [], _ => pure (fun _ => by simp [ChainQ])
  | [_], _ => pure (fun _ => by simp [ChainQ])
  | _ :: _ :: _, [] => pure (fun _ => by simp [ChainQ])
  | a :: b :: l, c :: cs => by
    rw [Carcara.chainGo.eq_def]
    simp only
    refine Poly.Good.and ?_ (Poly.Good.chainGo hrc (b :: l) cs)
    split
    · next o' x y =>
      split
      · next e => subst e; exact ((hrc a x).and (hrc b y)).mono fun h => ⟨x, y, rfl, h⟩
      · exact fls
    · exact fls

/-- Every operator treated as left-associative is interpreted, or in the list of those that are not. -/
theorem uninterpreted_of_not_folds {o : Op} (h : o.naryCase = some .leftAssoc) (hf : ¬ o.folds = true) :
    o.uninterpretedNary = true := by
  cases o <;> simp [Op.naryCase, Op.folds, Op.uninterpretedNary] at h hf ⊢


theorem chainQ_sound {n : Bool} {o : Op} (ho : o.naryCase = some .chainable) {I : Interp} {ρ : Env I.U}
    (hρ : I.EnvOK ρ) : ∀ (as cs : List Term), as.length = cs.length + 1 → ChainQ n o as cs →
    (∀ a ∈ as, ∀ c ∈ cs, Comparable n a c) →
    (chain (opRel o) (as.map (eval I · ρ)) ↔ ∀ c ∈ cs, (eval I c ρ).T)
  | [], cs, hl, _, _ => by simp at hl
  | [a], [], _, _, _ => by simp [chain]
  | [a], _ :: _, hl, _, _ => by simp at hl
  | a :: b :: l, [], hl, _, _ => by simp at hl
  | a :: b :: l, c :: cs, hl, hq, hc => by
    obtain ⟨⟨x, y, rfl, hx, hy⟩, hq⟩ := hq
    have ih := chainQ_sound ho hρ (b :: l) cs (by simpa using hl) hq
      (fun a ha c hc' => hc a (by simp [List.mem_cons.1 ha]) c (by simp [hc']))
    simp only [List.map_cons] at ih
    simp only [List.map_cons, chain, ih, List.forall_mem_cons]
    have h1 := hc a (by simp) (.op o [x, y]) (by simp)
    have h2 := hc b (by simp) (.op o [x, y]) (by simp)
    have e1 := hx (h1.sub h1.sort_left (sorted_op_mem h1.sort_right (by simp)) (fun _ h => h)
      (subterms_op (by simp))) I ρ hρ
    have e2 := hy (h2.sub h2.sort_left (sorted_op_mem h2.sort_right (by simp)) (fun _ h => h)
      (subterms_op (by simp))) I ρ hρ
    obtain ⟨s, hs⟩ := Option.isSome_iff_exists.1 h1.sort_right
    rw [chainable_val ho hs hρ, T_prop]
    simp only [List.map_cons, List.map_nil, chain, and_true, e1, e2]

theorem Poly.Good.chainable {n : Bool} {R : Term → Term → Prop} {rc : Term → Term → Poly} {o : Op}
    (ho : o.naryCase = some .chainable) (hrc : ∀ a b, (rc a b).Good R (SameIf n a b)) (as cs : List Term) :
    (compareChainable rc o as cs).Good R (SameIf n (.op o as) (.op .and cs)) := by
  unfold compareChainable
  split
  · next hl =>
    refine (Poly.Good.chainGo hrc as cs).mono fun hq hc I ρ hρ => ?_
    obtain ⟨s, hs⟩ := Option.isSome_iff_exists.1 hc.sort_left
    rw [chainable_val ho hs hρ]
    simp only [eval, evalL_eq_map, evalOp, stdOp, Option.getD]
    congr 1
    rw [chainQ_sound ho hρ as cs hl hq (fun a ha c hc' => hc.op_args ha hc')]
    simp
  · exact fls

/-! ## Associative operators -/

/-- Conditions on an argument list of the associative operator `o`. -/
structure Side (o : Op) (s : Srt) (l : List Term) : Prop where
  ne : l ≠ []
  sorts : ∀ a ∈ l, sortOf a = some s
  clean : ∀ a ∈ l, a.clean true

theorem assocSplit_some {right : Bool} {l t : List Term} {h : Term} (e : assocSplit right l = some (h, t)) :
    t ≠ [] ∧ if right then l = h :: t else l = t ++ [h] := by
  unfold assocSplit at e
  split at e
  · simp at e
  · next hl =>
    split at e
    · next hr =>
      subst hr
      split at e
      · simp only [Option.some.injEq, Prod.mk.injEq] at e
        obtain ⟨rfl, rfl⟩ := e
        refine ⟨?_, by simp⟩
        rintro rfl; simp at hl
      · simp at e
    · next hr =>
      simp only [Bool.not_eq_true] at hr
      subst hr
      split at e
      · next x hx =>
        simp only [Option.some.injEq, Prod.mk.injEq] at e
        obtain ⟨rfl, rfl⟩ := e
        have hlast : l = l.dropLast ++ [x] := (List.dropLast_append_getLast? x hx).symm
        refine ⟨?_, by simpa using hlast⟩
        intro h0
        rw [h0] at hlast
        rw [hlast] at hl
        simp at hl
      · simp at e

theorem foldV_self {o : Op} {s : Srt} (hf : o.folds = true)
    (hcase : o.naryCase = some .rightAssoc ∨ o.naryCase = some .leftAssoc) {as : List Term}
    (hs : sortOf (.op o as) = some s) (hcl : (Term.op o as).clean true) {I : Interp} {ρ : Env I.U} (hρ : I.EnvOK ρ) :
    foldV I o (as.map (eval I · ρ)) = eval I (.op o as) ρ := by
  obtain ⟨h1, h2, h3⟩ := folds_sorts hf hs
  by_cases hl : as.length = 1
  · match as, hl with
    | [a], _ =>
      have hnode := hcl _ (Term.self_mem_subterms _)
      have hsub : o ≠ .sub := by
        rintro rfl
        simp [Term.cleanNode] at hnode
      have hleft : o.naryCase = some .leftAssoc := by
        rcases hcase with hr | hl
        · exfalso
          have : o = .implies := by
            cases o <;> simp [Op.naryCase] at hr ⊢
          subst this
          rw [sortOf_op_eq (by simp)] at hs
          simp only [sortOfL, h2 a (by simp), Option.bind_some] at hs
          simp [opSort] at hs
        · exact hl
      have := folds_single hleft hf hsub hs I ρ hρ
      simp only [List.map_cons, List.map_nil, foldV]
      exact this.symm
  · rw [foldV_two (by simpa using hl)]
    simp only [eval, evalL_eq_map]

theorem Side.flatten {o : Op} {s : Srt} (hf : o.folds = true)
    (hcase : o.naryCase = some .rightAssoc ∨ o.naryCase = some .leftAssoc) {t : List Term} (h : Side o s t) :
    Side o s (assocFlatten o t) ∧ (∀ a ∈ assocFlatten o t, ∃ b ∈ t, ∀ u ∈ a.subterms, u ∈ b.subterms) ∧
    ∀ (I : Interp) (ρ : Env I.U), I.EnvOK ρ →
      foldV I o ((assocFlatten o t).map (eval I · ρ)) = foldV I o (t.map (eval I · ρ)) := by
  unfold assocFlatten
  split
  · next o' as =>
    split
    · next e =>
      subst e
      have hs := h.sorts _ (List.mem_singleton_self _)
      obtain ⟨h1, h2, h3⟩ := folds_sorts hf hs
      have hcl := h.clean _ (List.mem_singleton_self _)
      refine ⟨⟨h1, h2, fun a ha u hu => hcl u (subterms_op ha u hu)⟩,
        fun a ha => ⟨_, List.mem_singleton_self _, subterms_op ha⟩, fun I ρ hρ => ?_⟩
      simp only [List.map_cons, List.map_nil]
      exact foldV_self hf hcase hs hcl hρ
    · exact ⟨h, fun a ha => ⟨a, ha, fun _ h => h⟩, fun _ _ _ => rfl⟩
  · exact ⟨h, fun a ha => ⟨a, ha, fun _ h => h⟩, fun _ _ _ => rfl⟩

/-- Splitting off the head of an argument list. -/
theorem Side.split {o : Op} {s : Srt} (hf : o.folds = true)
    (hcase : o.naryCase = some .rightAssoc ∨ o.naryCase = some .leftAssoc) (hs : opSort o [s, s] = some s)
    {l t : List Term} {h : Term} (hl : Side o s l)
    (e : assocSplit (decide (o.naryCase = some .rightAssoc)) l = some (h, t)) :
    h ∈ l ∧ (∀ a ∈ t, a ∈ l) ∧ Side o s t ∧
    ∀ (I : Interp) (ρ : Env I.U), I.EnvOK ρ → foldV I o (l.map (eval I · ρ)) =
      if o.naryCase = some .rightAssoc then evalOp I o [eval I h ρ, foldV I o (t.map (eval I · ρ))]
      else evalOp I o [foldV I o (t.map (eval I · ρ)), eval I h ρ] := by
  obtain ⟨hne, hlt⟩ := assocSplit_some e
  rcases hcase with hr | hleft
  · simp only [hr, decide_true, if_true] at hlt ⊢
    subst hlt
    refine ⟨by simp, fun a ha => by simp [ha], ⟨hne, fun a ha => hl.sorts a (by simp [ha]),
      fun a ha => hl.clean a (by simp [ha])⟩, fun I ρ hρ => ?_⟩
    have ho : o = .implies := by cases o <;> simp [Op.naryCase] at hr ⊢
    subst ho
    rw [foldV_two (by match t, hne with | _ :: _, _ => simp)]
    rw [List.map_cons, assoc_right (by simpa using hne)]
  · have hr : o.naryCase ≠ some .rightAssoc := by rw [hleft]; simp
    simp only [hr, decide_false, Bool.false_eq_true, if_false] at hlt ⊢
    subst hlt
    refine ⟨by simp, fun a ha => by simp [ha], ⟨hne, fun a ha => hl.sorts a (by simp [ha]),
      fun a ha => hl.clean a (by simp [ha])⟩, fun I ρ hρ => ?_⟩
    rw [foldV_two (by match t, hne with | _ :: _, _ => simp)]
    rw [List.map_append, List.map_cons, List.map_nil]
    refine assoc_left hleft hf hs (by simpa using hne) ?_ (eval_dom _ (hl.sorts h (by simp)) hρ)
    intro u hu
    obtain ⟨a, ha, rfl⟩ := List.mem_map.1 hu
    exact eval_dom _ (hl.sorts a (by simp [ha])) hρ

theorem Poly.Good.assoc {R : Term → Term → Prop} {rc : Term → Term → Poly} {o : Op}
    (hcase : o.naryCase = some .rightAssoc ∨ o.naryCase = some .leftAssoc)
    (hrc : ∀ a b, (rc a b).Good R (SameIf true a b)) : ∀ (k : Nat) (l r : List Term),
    (compareAssoc rc o k l r).Good R (o.folds = true → ∀ s s', opSort o [s, s] = some s → opSort o [s', s'] = some s' →
      Side o s l → Side o s' r → (∀ a ∈ l, ∀ b ∈ r, a.separate b) →
      ∀ (I : Interp) (ρ : Env I.U), I.EnvOK ρ →
        foldV I o (l.map (eval I · ρ)) = foldV I o (r.map (eval I · ρ)))
  | 0, _, _ => stuck
  | k + 1, l, r => by
    have hcomp : ∀ {s s' l r}, Side o s l → Side o s' r → (∀ a ∈ l, ∀ b ∈ r, a.separate b) →
        ∀ a ∈ l, ∀ b ∈ r, Comparable true a b := fun hl hr hsep a ha b hb =>
      ⟨by simp [hl.sorts a ha], by simp [hr.sorts b hb], hl.clean a ha, hr.clean b hb, hsep a ha b hb⟩
    rw [compareAssoc.eq_def]
    simp only
    split
    · next a b =>
      refine (hrc a b).mono fun h _ s s' hs hs' hl hr hsep I ρ hρ => ?_
      simp only [List.map_cons, List.map_nil, foldV]
      exact h (hcomp hl hr hsep a (by simp) b (by simp)) I ρ hρ
    · exact fls
    · exact fls
    · split
      · next lh lt rh rt el er =>
        refine ((hrc lh rh).and (Poly.Good.assoc hcase hrc k _ _)).mono ?_
        rintro ⟨h1, h2⟩ hf s s' hs hs' hl hr hsep I ρ hρ
        obtain ⟨ml, ml', sl, vl⟩ := hl.split hf hcase hs el
        obtain ⟨mr, mr', sr, vr⟩ := hr.split hf hcase hs' er
        obtain ⟨fl, fl', fvl⟩ := sl.flatten hf hcase
        obtain ⟨fr, fr', fvr⟩ := sr.flatten hf hcase
        have e1 := h1 (hcomp hl hr hsep lh ml rh mr) I ρ hρ
        have e2 := h2 hf s s' hs hs' fl fr (by
          intro a ha b hb u hu v hv
          obtain ⟨a', ha', hsa⟩ := fl' a ha
          obtain ⟨b', hb', hsb⟩ := fr' b hb
          exact hsep a' (ml' _ ha') b' (mr' _ hb') u (hsa u hu) v (hsb v hv)) I ρ hρ
        rw [vl I ρ hρ, vr I ρ hρ, e1, ← fvl I ρ hρ, ← fvr I ρ hρ, e2]
      · exact panics

/-! ## Applications of operators -/

theorem same_args {n : Bool} {o : Op} {as bs : List Term} (h : List.Forall₂ (SameIf n) as bs) :
    SameIf n (.op o as) (.op o bs) := by
  intro hc I ρ hρ
  simp only [eval, evalL_eq_map]
  rw [map_eval_eq h (fun a ha b hb => hc.op_args ha hb) hρ]

theorem SameIf.symm {n : Bool} {a b : Term} (h : SameIf n a b) : SameIf n b a := fun hc => (h hc.symm).symm

theorem leftAssoc_folds {o : Op} {as bs : List Term} (h : Comparable true (.op o as) (.op o bs))
    (hl : as.length ≠ bs.length) (hcase : o.naryCase = some .rightAssoc ∨ o.naryCase = some .leftAssoc) :
    o.folds = true := by
  rcases hcase with hr | hleft
  · cases o <;> simp [Op.naryCase] at hr <;> rfl
  · have h1 := h.clean_left _ (Term.self_mem_subterms _)
    have h2 := h.clean_right _ (Term.self_mem_subterms _)
    by_contra hf
    have aux : ∀ {cs : List Term}, Term.cleanNode true (.op o cs) = true → cs.length = 2 := by
      intro cs hcs
      unfold Term.cleanNode at hcs
      split at hcs
      · simp at hcs
      · next o' cs' hne heq =>
        cases heq
        have hu : o.uninterpretedNary = true := uninterpreted_of_not_folds hleft hf
        simp [hu] at hcs
        exact hcs.2
      · next hne heq => exact absurd rfl (heq _ _)
    exact hl ((aux h1).trans (aux h2).symm)

theorem Poly.Good.nary {R : Term → Term → Prop} {rc : Term → Term → Poly}
    (hrc : ∀ a b, (rc a b).Good R (SameIf true a b)) (k : Nat) (o : Op) (as : List Term) (o' : Op) (bs : List Term) :
    (compareNary rc k o as o' bs).Good R (SameIf true (.op o as) (.op o' bs)) := by
  unfold compareNary
  split
  · split
    · next hc =>
      split
      · next e => subst e; exact Poly.Good.chainable hc hrc as bs
      · exact fls
    · split
      · next hc =>
        split
        · next e => subst e; exact (Poly.Good.chainable hc hrc bs as).mono SameIf.symm
        · exact fls
      · exact fls
  · next e =>
    simp only [ne_eq, not_not] at e
    subst e
    split
    · next hl =>
      split
      · next hcase =>
        refine (Poly.Good.assoc hcase hrc k as bs).mono fun h hc I ρ hρ => ?_
        have hf := leftAssoc_folds hc hl hcase
        obtain ⟨s, hs⟩ := Option.isSome_iff_exists.1 hc.sort_left
        obtain ⟨s', hs'⟩ := Option.isSome_iff_exists.1 hc.sort_right
        obtain ⟨h1, h2, h3⟩ := folds_sorts hf hs
        obtain ⟨h1', h2', h3'⟩ := folds_sorts hf hs'
        have e := h hf s s' h3 h3' ⟨h1, h2, fun a ha u hu => hc.clean_left u (subterms_op ha u hu)⟩
          ⟨h1', h2', fun a ha u hu => hc.clean_right u (subterms_op ha u hu)⟩
          (fun a ha b hb u hu v hv => hc.separate u (subterms_op ha u hu) v (subterms_op hb v hv)) I ρ hρ
        rwa [foldV_self hf hcase hs hc.clean_left hρ, foldV_self hf hcase hs' hc.clean_right hρ] at e
      · exact fls
    · exact (list (fun a _ b _ => hrc a b)).mono same_args

theorem Poly.Good.op {R : Term → Term → Prop} {cfg : PolyConfig} {rc : Term → Term → Poly}
    (hrc : ∀ a b, (rc a b).Good R (SameIf cfg.nary a b)) (k : Nat) (o : Op) (as : List Term) (o' : Op)
    (bs : List Term) : (compareOp cfg rc k o as o' bs).Good R (SameIf cfg.nary (.op o as) (.op o' bs)) := by
  have general : (if cfg.nary then compareNary rc k o as o' bs
      else if o = o' then polyList rc as bs else .pure false).Good R (SameIf cfg.nary (.op o as) (.op o' bs)) := by
    split
    · next hn => rw [hn] at hrc ⊢; exact Poly.Good.nary hrc k o as o' bs
    · split
      · next e => subst e; exact (list (fun a _ b _ => hrc a b)).mono same_args
      · exact fls
  unfold compareOp
  simp only
  split
  · split
    · next a a' b b' =>
      refine Poly.Good.or ?_ ?_
      · refine ((hrc a b).and (hrc a' b')).mono fun h => same_args (.cons h.1 (.cons h.2 .nil))
      · refine ((hrc a b').and (hrc a' b)).mono fun h hc I ρ hρ => ?_
        have e1 := h.1 (hc.op_args (by simp) (by simp)) I ρ hρ
        have e2 := h.2 (hc.op_args (by simp) (by simp)) I ρ hρ
        simp only [eval, evalL_eq_map, List.map_cons, List.map_nil, evalOp, stdOp, Option.getD, chain, and_true, e1, e2]
        congr 1
        exact propext ⟨Eq.symm, Eq.symm⟩
    · exact general
  · exact general

/-! ## Literals -/

theorem eval_realDiv_lits {I : Interp} {ρ : Env I.U} {r r' q : Rat} (h : r.den = 1) (h' : r'.den = 1)
    (h0 : r'.num ≠ 0) (hq : (r.num : Rat) / (r'.num : Rat) = q) :
    eval I (.op .realDiv [.const (.real r), .const (.real r')]) ρ = .real q := by
  have e1 : (r : ℝ) = ((r.num : ℚ) : ℝ) := by rw [Rat.coe_int_num_of_den_eq_one h]
  have e2 : (r' : ℝ) = ((r'.num : ℚ) : ℝ) := by rw [Rat.coe_int_num_of_den_eq_one h']
  simp only [eval, evalL_eq_map, List.map_cons, List.map_nil, evalConst, evalOp, stdOp, asNums, num, Option.getD,
    List.foldl_cons, List.foldl_nil, Interp.rdiv]
  rw [if_neg (by rw [e2]; exact_mod_cast h0), e1, e2, ← hq]
  push_cast
  rfl

theorem eval_neg_int {I : Interp} {ρ : Env I.U} {t : Term} {z : ℤ} (h : eval I t ρ = .int z) :
    eval I (.op .sub [t]) ρ = .int (-z) := by
  simp [eval, h, evalOp, stdOp, stdSub, asInts, subL]

theorem eval_neg_real {I : Interp} {ρ : Env I.U} {t : Term} {z : ℝ} (h : eval I t ρ = .real z) :
    eval I (.op .sub [t]) ρ = .real (-z) := by
  simp [eval, h, evalOp, stdOp, stdSub, asInts, asNums, num, subL]

/-- A clean quotient of literals has exactly two arguments. -/
theorem clean_div {n : Bool} {c d : Const} {rest : List Term}
    (h : (Term.op .realDiv (.const c :: .const d :: rest)).clean n) : rest = [] := by
  have := h _ (Term.self_mem_subterms _)
  cases rest with
  | nil => rfl
  | cons => simp [Term.cleanNode] at this

theorem Poly.Good.ratio {R : Term → Term → Prop} (a b : Int) (q : Rat) :
    (ratioEq a b q).Good R (b ≠ 0 ∧ (a : Rat) / (b : Rat) = q) := by
  unfold ratioEq
  split
  · exact panics
  · next h => exact pure (fun e => ⟨h, by simpa using e⟩)

theorem Poly.Good.quotient {R : Term → Term → Prop} (args : List Term) (q : Rat) :
    (quotientEq args q).Good R (∀ n, (Term.op .realDiv args).clean n →
      ∀ (I : Interp) (ρ : Env I.U), eval I (.op .realDiv args) ρ = .real q) := by
  unfold quotientEq divArgs
  split
  · next a b rest =>
    beta_reduce
    split
    · next r r' =>
      split
      · next hd =>
        refine (ratio _ _ _).mono fun h n hc I ρ => ?_
        have := clean_div hc
        subst this
        exact eval_realDiv_lits hd.1 hd.2 h.1 h.2
      · exact fls
    · exact fls
  · exact panics

theorem Poly.Good.divLiteral {R : Term → Term → Prop} (args : List Term) (q : Rat) :
    (divLiteralEq args q).Good R (∀ n, (Term.op .realDiv args).clean n → (sortOf (.op .realDiv args)).isSome = true →
      ∀ (I : Interp) (ρ : Env I.U), eval I (.op .realDiv args) ρ = .real q) := by
  have hsort : ∀ {i : Term}, (sortOf (.op .realDiv args)).isSome = true → i ∈ args → sortOf i = some .real := by
    intro i hs hi
    obtain ⟨s, hs⟩ := Option.isSome_iff_exists.1 hs
    obtain ⟨_, h2, h3⟩ := folds_sorts (by rfl) hs
    have : s = .real := by
      simp only [opSort] at h3
      split at h3
      · cases h3; rfl
      · cases h3
    rw [h2 i hi, this]
  unfold divLiteralEq divArgs
  have ill : ∀ {i : Int}, Term.const (.int i) ∈ args → (sortOf (.op .realDiv args)).isSome = true → False := by
    intro i hi hs
    have := hsort hs hi
    simp [sortOf, Const.sort] at this
  split
  · next a b rest =>
    beta_reduce
    split
    · split
      · next hd =>
        refine (ratio _ _ _).mono fun h n hc _ I ρ => ?_
        have := clean_div hc
        subst this
        exact eval_realDiv_lits hd.2.1 hd.2.2 h.1 h.2
      · exact fls
    · split
      · exact (ratio _ _ _).mono fun h n hc hs => (ill (.tail _ (.head _)) hs).elim
      · exact fls
    · split
      · exact (ratio _ _ _).mono fun h n hc hs => (ill (.head _) hs).elim
      · exact fls
    · exact fls
  · exact panics

theorem Poly.Good.negInt {R : Term → Term → Prop} (n : Bool) (args : List Term) (i : Int) :
    (negIntEq args i).Good R (SameIf n (.const (.int i)) (.op .sub args)) := by
  unfold negIntEq
  split
  · next hi =>
    split
    · next j =>
      refine pure fun h hc I ρ hρ => ?_
      rw [eval_neg_int (t := .const (.int j)) (z := j) (by simp [eval, evalConst])]
      simp only [eval, evalConst]
      congr 1
      have : -i = j := by simpa using h
      omega
    · next r =>
      refine pure fun h hc => ?_
      exfalso
      have := hc.separate _ (Term.self_mem_subterms _) _ (subterms_op (List.mem_singleton_self _) _
        (Term.self_mem_subterms _))
      have h : -i = r.num := by simpa using h
      simp only [sepNode, ← h, Int.natAbs_neg, ne_eq, not_true, decide_false] at this
      cases this
    · exact fls
  · exact fls

theorem Poly.Good.negReal {R : Term → Term → Prop} (n : Bool) (args : List Term) (q : Rat) :
    (negRealEq args q).Good R (SameIf n (.const (.real q)) (.op .sub args)) := by
  unfold negRealEq
  split
  · split
    · next args =>
      refine (quotient _ _).mono fun h hc I ρ hρ => ?_
      have := h n (fun u hu => hc.clean_right u (subterms_op (List.mem_singleton_self _) u hu)) I ρ
      rw [eval_neg_real this]
      simp [eval, evalConst]
    · next r =>
      refine pure fun h hc I ρ hρ => ?_
      rw [eval_neg_real (t := .const (.real r)) (z := (r : ℝ)) (by simp [eval, evalConst])]
      have : r = -q := by simpa using h
      subst this
      simp [eval, evalConst]
    · exact fls
  · exact fls

theorem constEq_sound {n : Bool} {c d : Const} (h : constEq c d = true) : SameIf n (.const c) (.const d) := by
  intro hc
  have hsep := hc.separate _ (Term.self_mem_subterms _) _ (Term.self_mem_subterms _)
  unfold constEq at h
  split at h
  · split at h
    · simp only [decide_eq_true_eq] at h
      subst h
      simp [sepNode] at hsep
    · simp at h
  · split at h
    · simp only [decide_eq_true_eq] at h
      subst h
      simp [sepNode] at hsep
    · simp at h
  · simp only [decide_eq_true_eq] at h
    subst h
    exact fun _ _ _ => rfl

/-! ## Binders -/

theorem evalBinder_congr {I : Interp} {b : Binder} {bs : List (String × Srt)} {f g : Env I.U → Val I.U}
    (h : ∀ ρ, I.EnvOK ρ → f ρ = g ρ) {ρ : Env I.U} (hρ : I.EnvOK ρ) : evalBinder I b bs f ρ = evalBinder I b bs g ρ := by
  cases b with
  | all =>
    simp only [evalBinder]; congr 1; apply propext
    exact forall_congr' fun vs => forall_congr' fun hv => by rw [h _ (hρ.setMany hv)]
  | ex =>
    simp only [evalBinder]; congr 1; apply propext
    exact exists_congr fun vs => and_congr_right fun hv => by rw [h _ (hρ.setMany hv)]
  | choice =>
    simp only [evalBinder]
    split
    · congr 1; funext v; apply propext
      exact and_congr_right fun hv => by rw [h _ (hρ.set hv)]
    · rfl
  | lambda =>
    simp only [evalBinder]
    congr 1; funext vs
    split
    · next hv => rw [h _ (hρ.setMany hv)]
    · rfl

theorem Poly.Good.binder {n : Bool} {R : Term → Term → Prop} {cfg : PolyConfig} {rc : Term → Term → Poly}
    (ha : cfg.alpha = false) (hrc : ∀ a b, (rc a b).Good R (SameIf n a b)) (q : Binder)
    (xs ys : List (String × Srt)) (a b : Term) :
    (compareBinder cfg rc (fun s t => .pure (decide (s = t))) xs ys a b).Good R
      (SameIf n (.binder q xs a) (.binder q ys b)) := by
  unfold compareBinder
  rw [if_neg (by simp [ha])]
  have hl : (polyList (fun (p q : String × Srt) => if p.1 = q.1 then Poly.pure (decide (p.2 = q.2)) else .pure false)
      xs ys).Good R (List.Forall₂ (· = ·) xs ys) := by
    refine list fun p _ q _ => ?_
    split
    · next e => exact pure fun h => Prod.ext e (by simpa using h)
    · exact fls
  refine (hl.and (hrc a b)).mono ?_
  rintro ⟨h1, h2⟩ hc I ρ hρ
  rw [List.forall₂_eq_eq_eq] at h1
  subst h1
  simp only [eval]
  have hs := h2 (hc.sub (sorted_binder hc.sort_left) (sorted_binder hc.sort_right) subterms_binder subterms_binder)
  exact evalBinder_congr (fun ρ hρ => hs I ρ hρ) hρ

theorem Poly.Good.let_ {n : Bool} {R : Term → Term → Prop} {cfg : PolyConfig} {rc : Term → Term → Poly}
    (ha : cfg.alpha = false) (hrc : ∀ a b, (rc a b).Good R (SameIf n a b))
    (xs ys : List (String × Term)) (a b : Term) :
    (compareBinder cfg rc rc xs ys a b).Good R (SameIf n (.let_ xs a) (.let_ ys b)) := by
  unfold compareBinder
  rw [if_neg (by simp [ha])]
  have hl : (polyList (fun (p q : String × Term) => if p.1 = q.1 then rc p.2 q.2 else .pure false)
      xs ys).Good R (List.Forall₂ (fun p q => p.1 = q.1 ∧ SameIf n p.2 q.2) xs ys) := by
    refine list fun p _ q _ => ?_
    split
    · next e => exact (hrc _ _).mono fun h => ⟨e, h⟩
    · exact fls
  refine (hl.and (hrc a b)).mono ?_
  rintro ⟨h1, h2⟩ hc I ρ hρ
  obtain ⟨sx, sa⟩ := sorted_let hc.sort_left
  obtain ⟨sy, sb⟩ := sorted_let hc.sort_right
  have e : xs.map (fun b => (b.1, eval I b.2 ρ)) = ys.map (fun b => (b.1, eval I b.2 ρ)) := by
    have hcs : ∀ x ∈ xs, ∀ y ∈ ys, Comparable n x.2 y.2 := fun x hx y hy =>
      hc.sub (sx x hx) (sy y hy) (subterms_let (Or.inr ⟨x, hx, rfl⟩)) (subterms_let (Or.inr ⟨y, hy, rfl⟩))
    clear hc sx sy hl
    induction h1 with
    | nil => rfl
    | cons h _ ih =>
      simp only [List.map_cons]
      rw [h.1, h.2 (hcs _ (by simp) _ (by simp)) I ρ hρ,
        ih (fun x hx y hy => hcs x (by simp [hx]) y (by simp [hy]))]
  simp only [eval, evalB_eq_map]
  rw [e]
  exact h2 (hc.sub sa sb (subterms_let (Or.inl rfl)) (subterms_let (Or.inl rfl))) I _ hρ.letMany

/-! ## Putting it together -/

theorem Poly.Good.tail {R : Term → Term → Prop} {cfg : PolyConfig} {rc : Term → Term → Poly}
    (ha : cfg.alpha = false) (hrc : ∀ a b, (rc a b).Good R (SameIf cfg.nary a b)) (k : Nat) (a b : Term) :
    (polyTail cfg rc k a b).Good R (SameIf cfg.nary a b) := by
  unfold polyTail
  split
  · exact op hrc k _ _ _ _
  · split
    · next e => subst e; exact binder ha hrc _ _ _ _ _
    · exact fls
  · exact let_ ha hrc _ _ _ _
  · exact (quotient _ _).mono fun h hc I ρ hρ => by rw [h _ hc.clean_right I ρ]; simp [eval, evalConst]
  · exact (divLiteral _ _).mono fun h hc I ρ hρ => by
      rw [h _ hc.clean_left hc.sort_left I ρ]; simp [eval, evalConst]
  · exact negInt _ _ _
  · exact (negInt _ _ _).mono SameIf.symm
  · exact (negReal _ _ _).mono SameIf.symm
  · exact negReal _ _ _
  · exact fls

theorem Poly.Good.singleton {R : Term → Term → Prop} {cfg : PolyConfig} {tm : Term → Term → Poly}
    (htm : ∀ a b, (tm a b).Good R (SameIf cfg.nary a b)) (t other : Term) :
    (singletonEq cfg tm t other).Good R (SameIf cfg.nary t other) := by
  unfold singletonEq
  split
  · next o a =>
    split
    · next hcond =>
      have key : SameIf cfg.nary a other → SameIf cfg.nary (.op o [a]) other := by
        intro h hc
        obtain ⟨s, hs⟩ := Option.isSome_iff_exists.1 hc.sort_left
        have hnode := hc.clean_left _ (Term.self_mem_subterms _)
        have hsub : o ≠ .sub := by
          rintro rfl
          simp [Term.cleanNode, hcond.1] at hnode
        have hf : o.folds = true := by
          by_contra hf
          unfold Term.cleanNode at hnode
          split at hnode
          · simp at hnode
          · next heq =>
            cases heq
            have hu : o.uninterpretedNary = true := uninterpreted_of_not_folds hcond.2 hf
            simp [hcond.1, hu] at hnode
          · next heq => exact absurd rfl (heq _ _)
        have h1 := folds_single hcond.2 hf hsub hs
        exact h1.trans (h (hc.sub (sorted_op_mem hc.sort_left (by simp)) hc.sort_right (subterms_op (by simp))
          (fun _ h => h)))
      split
      · next e => exact pure fun _ => key (e ▸ fun _ _ _ _ => rfl)
      · exact (htm a other).mono key
    · exact fls
  · exact fls

theorem Poly.Good.term {R : Term → Term → Prop} {cfg : PolyConfig} {rc tm : Term → Term → Poly}
    (ha : cfg.alpha = false) (hrc : ∀ a b, (rc a b).Good R (SameIf cfg.nary a b))
    (htm : ∀ a b, (tm a b).Good R (SameIf cfg.nary a b)) (k : Nat) (a b : Term) :
    (polyTerm cfg rc tm k a b).Good R (SameIf cfg.nary a b) := by
  unfold polyTerm
  split
  · exact pure constEq_sound
  · rw [if_neg (by simp [ha])]; exact fls
  · next f as g bs =>
    refine ((hrc f g).and (list (fun a _ b _ => hrc a b))).mono ?_
    rintro ⟨h1, h2⟩ hc I ρ hρ
    obtain ⟨sf, sa⟩ := sorted_app hc.sort_left
    obtain ⟨sg, sb⟩ := sorted_app hc.sort_right
    simp only [eval, evalL_eq_map]
    rw [h1 (hc.sub sf sg (subterms_app (Or.inl rfl)) (subterms_app (Or.inl rfl))) I ρ hρ,
      map_eval_eq h2 (fun a ha b hb => hc.sub (sa a ha) (sb b hb) (subterms_app (Or.inr ha))
        (subterms_app (Or.inr hb))) hρ]
  · next o ps as o' ps' bs =>
    split
    · next e =>
      obtain ⟨rfl, rfl⟩ := e
      refine (list (fun a _ b _ => hrc a b)).mono fun h hc I ρ hρ => ?_
      simp only [eval, evalL_eq_map]
      rw [map_eval_eq h (fun a ha b hb => hc.sub (sorted_paramOp hc.sort_left a ha) (sorted_paramOp hc.sort_right b hb)
        (subterms_paramOp ha) (subterms_paramOp hb)) hρ]
    · exact fls
  · exact or (singleton htm _ _) (or ((singleton htm _ _).mono SameIf.symm) (tail ha hrc k _ _))

theorem Poly.Good.go {cfg : PolyConfig} (ha : cfg.alpha = false) : ∀ (k : Nat) (a b : Term),
    (polyGo cfg k a b).Good (SameIf cfg.nary) (SameIf cfg.nary a b)
  | 0, _, _ => stuck
  | k + 1, a, b => by
    have ih := Poly.Good.go ha k
    exact term ha (fun a b => rc (fun _ _ _ _ => rfl) (ih a b)) ih k a b

/-- The comparison without renaming relates only terms with the same meaning, under `Comparable`. -/
theorem polyeqWith_sound {cfg : PolyConfig} (ha : cfg.alpha = false) {a b : Term}
    (h : polyeqWith cfg a b = .ok true) (hc : Comparable cfg.nary a b) : Same a b := by
  simp only [polyeqWith, bind_ok, ok_inj] at h
  obtain ⟨⟨r, s⟩, h1, h2⟩ := h
  have := Poly.Good.rc (fun _ _ _ _ => rfl) (Poly.Good.go ha (a.size + b.size) a b) {} (by
    intro sc hsc e he
    simp only [HashMapStack.new, List.mem_singleton] at hsc
    subst hsc; simp at he) _ _ h1
  exact this.2 h2 hc

end Carcara
