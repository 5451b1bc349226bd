import Verif.Model.AciSimp
import Verif.Lemmas.Simplify
import Verif.Lemmas.Bv

/-!
# `aci_simp` for conjunction and disjunction, of truth values and of bit-vectors

The results of `aciTerm` may contain an application of an operator to no arguments, which has no sort. The value of
such a term is given bit by bit by `Model.bitAt`, which agrees with the value of the sorted terms and which every step
of the rule preserves, whatever the contents of the cache come from.
-/

namespace Carcara
open Val

/-- For the idempotent operators: is it a conjunction? -/
def Op.idem : Op → Option Bool
  | .and | .bvAnd => some true
  | .or | .bvOr => some false
  | _ => none

/-- Bit `i` of a value; a truth value has the same bit everywhere. -/
def valBit (i : ℕ) : Val U → Prop
  | .bool b => b = true
  | .bv _ b => b.getLsbD i = true
  | _ => False

/-- Conjunction or disjunction. -/
def quant (b : Bool) (p : Term → Prop) (ts : List Term) : Prop := if b then ∀ t ∈ ts, p t else ∃ t ∈ ts, p t

theorem ofInt_allOnes (w : ℕ) : BitVec.ofInt w (2 ^ w - 1) = BitVec.allOnes w := by
  have h1 : ((2 : ℤ) ^ w - 1) = ((2 ^ w - 1 : ℕ) : ℤ) := by
    rw [Nat.cast_sub Nat.one_le_two_pow]; push_cast; rfl
  rw [h1, BitVec.ofInt_natCast]
  refine BitVec.eq_of_toNat_eq ?_
  rw [BitVec.toNat_ofNat, BitVec.toNat_allOnes, Nat.mod_eq_of_lt (by have := Nat.two_pow_pos w; omega)]

namespace Model
variable (M : Model)

mutual
/-- Bit `i` of a term, with the idempotent operators read bit by bit. -/
def bitAt (i : ℕ) : Term → Prop
  | .op o as => match o.idem with
    | some true => bitAll i as
    | some false => bitAny i as
    | none => valBit i (M.val (.op o as))
  | t => valBit i (M.val t)
/-- All bits are set. -/
def bitAll (i : ℕ) : List Term → Prop
  | [] => True
  | t :: ts => bitAt i t ∧ bitAll i ts
/-- Some bit is set. -/
def bitAny (i : ℕ) : List Term → Prop
  | [] => False
  | t :: ts => bitAt i t ∨ bitAny i ts
end

theorem bitAll_iff (i : ℕ) (ts : List Term) : M.bitAll i ts ↔ ∀ t ∈ ts, M.bitAt i t := by
  induction ts with
  | nil => simp [bitAll]
  | cons t ts ih => simp [bitAll, ih]

theorem bitAny_iff (i : ℕ) (ts : List Term) : M.bitAny i ts ↔ ∃ t ∈ ts, M.bitAt i t := by
  induction ts with
  | nil => simp [bitAny]
  | cons t ts ih => simp [bitAny, ih]

theorem bitAt_op {o : Op} {b : Bool} (h : o.idem = some b) (i : ℕ) (ts : List Term) :
    M.bitAt i (.op o ts) ↔ quant b (M.bitAt i) ts := by
  rw [bitAt]
  cases b <;> simp [h, quant, bitAll_iff, bitAny_iff]

/-- The positions that matter for a sort. -/
def inSort (s : Srt) (i : ℕ) : Prop := s = .bool ∨ ∃ w, s = .bv w ∧ i < w

theorem idem_sorts {o : Op} {b : Bool} (h : o.idem = some b) {as : List Term} {s : Srt}
    (hs : sortOf (.op o as) = some s) : as ≠ [] ∧ (∀ a ∈ as, sortOf a = some s) ∧ (s = .bool ∨ ∃ w, s = .bv w) ∧
      ((o = .and ∨ o = .or) ∧ s = .bool ∨ (o = .bvAnd ∨ o = .bvOr) ∧ ∃ w, s = .bv w) := by
  have hf : o.folds = true := by revert h; cases o <;> simp [Op.idem, Op.folds]
  obtain ⟨h1, h2, h3⟩ := folds_sorts hf hs
  have : ((o = .and ∨ o = .or) ∧ s = .bool ∨ (o = .bvAnd ∨ o = .bvOr) ∧ ∃ w, s = .bv w) := by
    revert h
    cases o <;> simp [Op.idem]
    all_goals
      first
      | (simp [opSort] at h3
         split at h3 <;> simp_all; done)
      | (simp [opSort] at h3
         simp_all; done)
      | (obtain ⟨w, e, -⟩ := sort_bvNary (by simp) hs
         simp [e])
  exact ⟨h1, h2, by rcases this with ⟨-, h⟩ | ⟨-, h⟩ <;> simp [h], this⟩

theorem getLsbD_foldl_and {w : ℕ} (bs : List (BitVec w)) (b : BitVec w) (i : ℕ) :
    (bs.foldl (· &&& ·) b).getLsbD i = true ↔ b.getLsbD i = true ∧ ∀ c ∈ bs, c.getLsbD i = true := by
  induction bs generalizing b with
  | nil => simp
  | cons c bs ih => simp [ih, and_assoc]

theorem getLsbD_foldl_or {w : ℕ} (bs : List (BitVec w)) (b : BitVec w) (i : ℕ) :
    (bs.foldl (· ||| ·) b).getLsbD i = true ↔ b.getLsbD i = true ∨ ∃ c ∈ bs, c.getLsbD i = true := by
  induction bs generalizing b with
  | nil => simp
  | cons c bs ih => simp [ih, or_assoc]

theorem valBit_op {o : Op} {b : Bool} (h : o.idem = some b) {as : List Term} {s : Srt}
    (hs : sortOf (.op o as) = some s) (i : ℕ) :
    valBit i (M.val (.op o as)) ↔ quant b (fun t => valBit i (M.val t)) as := by
  obtain ⟨h1, h2, -, h4⟩ := idem_sorts h hs
  rcases h4 with ⟨ho, rfl⟩ | ⟨ho, w, rfl⟩
  · have hb : ∀ a ∈ as, (valBit i (M.val a) ↔ M.Holds a) := by
      intro a ha
      obtain ⟨c, e⟩ := (M.I.dom_bool _).1 (eval_dom a (h2 a ha) M.env_dom)
      have e' : M.val a = .bool c := e
      cases c <;> simp [Model.Holds, e', valBit, Val.T]
    have hp : ∀ p : Prop, (valBit i (Val.prop p : Val M.I.U) ↔ p) := by intro p; simp [Val.prop, valBit]
    rcases ho with rfl | rfl
    · cases h
      rw [M.val_and, hp]
      simp only [quant, if_true]
      exact forall_congr' fun a => forall_congr' fun ha => (hb a ha).symm
    · cases h
      rw [M.val_or, hp]
      simp only [quant, Bool.false_eq_true, if_false]
      exact exists_congr fun a => and_congr_right fun ha => (hb a ha).symm
  · have hb : ∀ a ∈ as, (valBit i (M.val a) ↔ (M.bits w a).getLsbD i = true) := by
      intro a ha
      rw [M.val_bits (h2 a ha)]
      simp [valBit]
    match as, h1 with
    | a :: as, _ =>
    rcases ho with rfl | rfl
    · cases h
      rw [M.bits_nary (fun _ a b => a &&& b) (fun _ => rfl) h2]
      simp only [quant, if_true, valBit, getLsbD_foldl_and, List.forall_mem_cons, List.forall_mem_map]
      exact and_congr (hb a (by simp)).symm (forall_congr' fun t => forall_congr' fun ht => (hb t (by simp [ht])).symm)
    · cases h
      rw [M.bits_nary (fun _ a b => a ||| b) (fun _ => rfl) h2]
      simp only [quant, Bool.false_eq_true, if_false, valBit, getLsbD_foldl_or, List.mem_cons, exists_eq_or_imp,
        List.mem_map, exists_exists_and_eq_and]
      exact or_congr (hb a (by simp)).symm (exists_congr fun t => and_congr_right fun ht => (hb t (by simp [ht])).symm)

theorem quant_congr {b : Bool} {p q : Term → Prop} {ts : List Term} (h : ∀ t ∈ ts, (p t ↔ q t)) :
    quant b p ts ↔ quant b q ts := by
  cases b <;> simp only [quant, Bool.false_eq_true, if_false, if_true]
  · exact exists_congr fun t => and_congr_right fun ht => h t ht
  · exact forall_congr' fun t => forall_congr' fun ht => h t ht

mutual
/-- On sorted terms `bitAt` is the bit of the value. -/
theorem bitAt_sorted (i : ℕ) : ∀ (t : Term) {s : Srt}, sortOf t = some s → (M.bitAt i t ↔ valBit i (M.val t))
  | .op o as, s, hs => by
    cases h : o.idem with
    | none => rw [bitAt, h]
    | some b =>
      rw [M.bitAt_op h, M.valBit_op h hs]
      exact quant_congr fun t ht => bitAt_sortedL i as (fun a ha => ⟨s, (idem_sorts h hs).2.1 a ha⟩) t ht
  | .const _, _, _ | .var _ _, _, _ | .app _ _, _, _ | .paramOp _ _ _, _, _ | .binder _ _ _, _, _
  | .let_ _ _, _, _ => by rw [bitAt]; simp
theorem bitAt_sortedL (i : ℕ) : ∀ (ts : List Term), (∀ t ∈ ts, ∃ s, sortOf t = some s) →
    ∀ t ∈ ts, (M.bitAt i t ↔ valBit i (M.val t))
  | [], _, t, ht => by simp at ht
  | u :: ts, h, t, ht => by
    rcases List.mem_cons.1 ht with e | ht
    · rw [e]
      obtain ⟨s, hs⟩ := h u (by simp)
      exact bitAt_sorted i u hs
    · exact bitAt_sortedL i ts (fun a ha => h a (by simp [ha])) t ht
end

/-! ## The steps of the rule -/

/-- All entries of the cache preserve the bit. -/
def BitCache (i : ℕ) (cache : AciCache) : Prop := ∀ p ∈ cache, (M.bitAt i p.2 ↔ M.bitAt i p.1)

theorem BitCache.insert {M : Model} {i : ℕ} {cache : AciCache} (h : M.BitCache i cache) {t u : Term}
    (hu : M.bitAt i u ↔ M.bitAt i t) : M.BitCache i (mapInsert cache t u) := by
  induction cache with
  | nil => intro p hp; simp only [mapInsert, List.mem_singleton] at hp; subst hp; exact hu
  | cons q cache ih =>
    obtain ⟨k, v⟩ := q
    have hq := h (k, v) (by simp)
    have ih := ih fun p hp => h p (by simp [hp])
    intro p hp
    simp only [mapInsert] at hp
    split at hp
    · next e =>
      subst e
      rcases List.mem_cons.1 hp with rfl | hp
      · exact hu
      · exact h p (by simp [hp])
    · rcases List.mem_cons.1 hp with rfl | hp
      · exact hq
      · exact ih p hp

theorem quant_append {b : Bool} {p : Term → Prop} {ts us : List Term} :
    quant b p (ts ++ us) ↔ (if b then quant b p ts ∧ quant b p us else quant b p ts ∨ quant b p us) := by
  cases b <;> simp only [quant, Bool.false_eq_true, if_false, if_true, List.mem_append]
  · constructor
    · rintro ⟨t, h | h, ht⟩
      · exact .inl ⟨t, h, ht⟩
      · exact .inr ⟨t, h, ht⟩
    · rintro (⟨t, h, ht⟩ | ⟨t, h, ht⟩)
      · exact ⟨t, .inl h, ht⟩
      · exact ⟨t, .inr h, ht⟩
  · exact ⟨fun h => ⟨fun t ht => h t (.inl ht), fun t ht => h t (.inr ht)⟩,
      fun h t ht => ht.elim (h.1 t) (h.2 t)⟩

theorem bitAt_argsOrSelf {o : Op} {b : Bool} (h : o.idem = some b) (i : ℕ) (t : Term) :
    quant b (M.bitAt i) (argsOrSelf o t) ↔ M.bitAt i t := by
  have hone : quant b (M.bitAt i) [t] ↔ M.bitAt i t := by cases b <;> simp [quant]
  unfold argsOrSelf
  split
  · split
    · next e => subst e; exact (M.bitAt_op h i _).symm
    · exact hone
  · exact hone

theorem bitAt_aciBuild {o : Op} {b : Bool} (h : o.idem = some b) {i : ℕ} {e : Option Term}
    (he : ∀ t, e = some t → (M.bitAt i t ↔ b = true)) (as : List Term) :
    M.bitAt i (aciBuild o e as) ↔ quant b (M.bitAt i) as := by
  have key : quant b (M.bitAt i) ((dedup as).filter (fun t => some t ≠ e)) ↔ quant b (M.bitAt i) as := by
    cases b <;> simp only [quant, Bool.false_eq_true, if_false, if_true, List.mem_filter, mem_dedup, decide_eq_true_eq]
    · constructor
      · rintro ⟨t, ⟨h, -⟩, ht⟩
        exact ⟨t, h, ht⟩
      · rintro ⟨t, h, ht⟩
        refine ⟨t, ⟨h, fun c => ?_⟩, ht⟩
        simpa using (he t c.symm).1 ht
    · constructor
      · intro h t ht
        by_cases c : e = some t
        · exact (he t c).2 rfl
        · exact h t ⟨ht, fun c' => c c'.symm⟩
      · exact fun h t ht => h t ht.1
  rw [← key]
  unfold aciBuild
  split
  · next a ha => rw [ha]; cases b <;> simp [quant]
  · rw [M.bitAt_op h]

mutual
theorem aciTerm_bit {o : Op} {b : Bool} (h : o.idem = some b) {i : ℕ} {e : Option Term}
    (he : ∀ t, e = some t → (M.bitAt i t ↔ b = true)) : ∀ (t : Term) (cache : AciCache), M.BitCache i cache →
      M.BitCache i (aciTerm o e cache t).1 ∧ (M.bitAt i (aciTerm o e cache t).2 ↔ M.bitAt i t)
  | t, cache, hc => by
    unfold aciTerm
    cases hg : mapGet cache t with
    | some u => exact ⟨hc, hc (t, u) (mem_of_mapGet hg)⟩
    | none =>
      match t with
      | .op o' as =>
        by_cases ho : o' = o
        · subst ho
          obtain ⟨h1, h2⟩ := aciTermL_bit h he as cache hc
          simp only [if_true]
          have h3 : M.bitAt i (aciBuild o' e (aciTermL o' e cache as).2) ↔ M.bitAt i (.op o' as) := by
            rw [M.bitAt_aciBuild h he, h2, M.bitAt_op h]
          exact ⟨h1.insert h3, h3⟩
        · simp only [if_neg ho]
          exact ⟨hc.insert Iff.rfl, trivial⟩
      | .const _ | .var _ _ | .app _ _ | .paramOp _ _ _ | .binder _ _ _ | .let_ _ _ =>
        exact ⟨hc.insert Iff.rfl, Iff.rfl⟩
theorem aciTermL_bit {o : Op} {b : Bool} (h : o.idem = some b) {i : ℕ} {e : Option Term}
    (he : ∀ t, e = some t → (M.bitAt i t ↔ b = true)) : ∀ (ts : List Term) (cache : AciCache), M.BitCache i cache →
      M.BitCache i (aciTermL o e cache ts).1 ∧
        (quant b (M.bitAt i) (aciTermL o e cache ts).2 ↔ quant b (M.bitAt i) ts)
  | [], cache, hc => ⟨hc, Iff.rfl⟩
  | t :: ts, cache, hc => by
    obtain ⟨h1, h2⟩ := aciTerm_bit h he t cache hc
    obtain ⟨h3, h4⟩ := aciTermL_bit h he ts _ h1
    refine ⟨h3, ?_⟩
    simp only [aciTermL]
    rw [quant_append, M.bitAt_argsOrSelf h, h2, h4]
    cases b <;> simp [quant]
end

/-- The neutral element of an idempotent operator. -/
theorem aciIdentity_bit {o : Op} {b : Bool} (h : o.idem = some b) {as : List Term} {s : Srt}
    (hs : sortOf (.op o as) = some s) {e : Option Term} (he : aciIdentity o as = .ok e) {i : ℕ} (hi : inSort s i) :
    ∀ t, e = some t → (M.bitAt i t ↔ b = true) := by
  obtain ⟨h1, h2, -, h4⟩ := idem_sorts h hs
  rintro t rfl
  match as, h1 with
  | a :: as, _ =>
  have ha := h2 a (by simp)
  rcases h4 with ⟨ho, rfl⟩ | ⟨ho, w, rfl⟩
  · rcases ho with rfl | rfl <;> cases h <;> simp only [aciIdentity, pure_ok, Option.some.injEq] at he <;> subst he
    · rw [M.bitAt_sorted i _ (s := .bool) (by decide), M.val_tru]; simp [valBit]
    · rw [M.bitAt_sorted i _ (s := .bool) (by decide), M.val_fls]; simp [valBit]
  · have hw : i < w := by
      rcases hi with hi | ⟨w', e, hw⟩
      · cases hi
      · cases e; exact hw
    rcases ho with rfl | rfl <;> cases h <;>
      simp only [aciIdentity, headSort, ha, bind_ok, orPanic_ok, Option.some.injEq, exists_eq_left', pure_ok] at he <;>
      subst he
    · simp [bitAt, val, eval, evalConst, valBit, hw, ofInt_allOnes]
    · simp [bitAt, val, eval, evalConst, valBit]

/-- The term is not one that the rule rewrites, or its operator is idempotent. -/
def IdemTop : Term → Prop
  | .op o _ => aciAssoc o = true → o.idem.isSome = true
  | _ => True

theorem aciSide_bit {t : Term} {s : Srt} (hs : sortOf t = some s) (ht : IdemTop t) {i : ℕ} (hi : inSort s i)
    {cache : AciCache} (hc : M.BitCache i cache) {r : AciCache × Term} (h : aciSide cache t = .ok r) :
    M.BitCache i r.1 ∧ (M.bitAt i r.2 ↔ M.bitAt i t) := by
  match t with
  | .op o as =>
    simp only [aciSide, bind_ok, pure_ok] at h
    obtain ⟨e, he, h⟩ := h
    by_cases ha : aciAssoc o = true
    · rw [if_pos ha] at h
      subst h
      obtain ⟨b, hb⟩ := Option.isSome_iff_exists.1 (ht ha)
      exact M.aciTerm_bit hb (M.aciIdentity_bit hb hs he hi) _ _ hc
    · rw [if_neg ha] at h
      subst h
      exact ⟨hc, Iff.rfl⟩
  | .const _ | .var _ _ | .app _ _ | .paramOp _ _ _ | .binder _ _ _ | .let_ _ _ =>
    simp only [aciSide, pure_ok] at h
    subst h
    exact ⟨hc, Iff.rfl⟩

end Model

/-- What the comparison of the two results says. -/
theorem aciCompare_ok {l r : Term} (h : aciCompare l r = .ok ()) : l = r ∨
    ∃ o as bs, aciAssoc o = true ∧ o ≠ .bvConcat ∧ l = .op o as ∧ r = .op o bs ∧ as.Perm bs := by
  unfold aciCompare at h
  split at h
  · next o as o' bs =>
    split at h
    · next hc =>
      obtain ⟨h1, h2, rfl⟩ := hc
      rw [require_ok, MultiSet.eq_iff (.ofList _) (.ofList _), MultiSet.ofList_perm] at h
      exact .inr ⟨o, as, bs, h1, h2, rfl, rfl, h⟩
    · exact .inl (assertEq_ok.1 h)
  · exact .inl (assertEq_ok.1 h)

namespace Model
variable (M : Model)

theorem quant_perm {b : Bool} {p : Term → Prop} {ts us : List Term} (h : ts.Perm us) :
    quant b p ts ↔ quant b p us := by
  cases b <;> simp [quant, h.mem_iff]

/-- Two terms of a Boolean or bit-vector sort with the same bits have the same value. -/
theorem val_eq_of_bits {l r : Term} {s : Srt} (hl : sortOf l = some s) (hr : sortOf r = some s)
    (hs : s = .bool ∨ ∃ w, s = .bv w) (h : ∀ i, inSort s i → (valBit i (M.val l) ↔ valBit i (M.val r))) :
    M.val l = M.val r := by
  rcases hs with rfl | ⟨w, rfl⟩
  · obtain ⟨b, eb⟩ := (M.I.dom_bool _).1 (eval_dom l hl M.env_dom)
    obtain ⟨c, ec⟩ := (M.I.dom_bool _).1 (eval_dom r hr M.env_dom)
    have eb : M.val l = .bool b := eb
    have ec : M.val r = .bool c := ec
    have := h 0 (.inl rfl)
    rw [eb, ec] at this ⊢
    simp only [valBit] at this
    cases b <;> cases c <;> simp_all
  · rw [M.val_bits hl, M.val_bits hr] at h ⊢
    congr 1
    refine BitVec.eq_of_getLsbD_eq fun i hi => ?_
    have := h i (.inr ⟨w, rfl, hi⟩)
    simp only [valBit] at this
    exact Bool.eq_iff_iff.2 this

end Model
end Carcara
