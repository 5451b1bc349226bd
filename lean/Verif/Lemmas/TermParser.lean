import Verif.Model.TermParser
import Verif.Lemmas.SubstitutionSort

/-!
# Lemmas about building terms
-/

namespace Carcara
open PRes

theorem Op.ofName_name (o : Op) : Op.ofName o.name = some o := by cases o <;> decide +kernel

theorem ParamOp.ofName_name (o : ParamOp) : ParamOp.ofName o.name = some o := by cases o <;> decide +kernel

theorem Op.name_of_ofName {s : String} {o : Op} (h : Op.ofName s = some o) : o.name = s := by
  simpa using List.find?_some h

theorem ParamOp.name_of_ofName {s : String} {o : ParamOp} (h : ParamOp.ofName s = some o) : o.name = s := by
  simpa using List.find?_some h

namespace PRes

@[simp] theorem pbind_ok {α β : Type} {x : PRes α} {f : α → PRes β} {b : β} : (x >>= f) = .ok b ↔ ∃ a, x = .ok a ∧ f a = .ok b := by
  cases x <;> simp [bind, Except.bind]

@[simp] theorem need_ok {p : Prop} [Decidable p] {u : Unit} : need p = .ok u ↔ p := by
  unfold need; split <;> simp_all

@[simp] theorem getErr_ok {α : Type} {o : Option α} {a : α} : getErr o = .ok a ↔ o = some a := by cases o <;> simp [getErr]

@[simp] theorem getPanic_ok {α : Type} {o : Option α} {a : α} : getPanic o = .ok a ↔ o = some a := by cases o <;> simp [getPanic]

@[simp] theorem ofRes_ok {α : Type} {r : Res α} {a : α} : ofRes r = .ok a ↔ r = .ok a := by
  rcases r with (_ | _) | _ <;> simp [ofRes]

theorem all_ok {α : Type} : ∀ {xs : List (PRes α)} {as : List α}, all xs = .ok as ↔ xs = as.map .ok
  | [], as => by cases as <;> simp [all]
  | x :: xs, as => by
    cases as with
    | nil => simp [all]
    | cons a as =>
      simp only [all, pbind_ok, all_ok, List.map_cons, List.cons.injEq, Except.ok.injEq]
      constructor
      · rintro ⟨_, rfl, _, rfl, rfl, rfl⟩
        exact ⟨rfl, rfl⟩
      · rintro ⟨rfl, rfl⟩
        exact ⟨_, rfl, _, rfl, rfl, rfl⟩

end PRes

@[simp] theorem unwrapUsize_ok {z : Int} {n : Nat} : unwrapUsize z = .ok n ↔ z = n ∧ n < 2 ^ 64 := by
  unfold unwrapUsize
  split
  · simp only [Except.ok.injEq]; omega
  · simp only [reduceCtorEq, false_iff]; omega

@[simp] theorem assertSort_known {a b : Srt} {u : Unit} : assertSort (.known a) (.known b) = .ok u ↔ b = a := by
  rw [assertSort, need_ok]
  simp [eq_comm]

theorem assertSorts_known {a : Srt} {u : Unit} : ∀ {ss : List Srt}, assertSorts (.known a) (ss.map .known) = .ok u ↔ allSort a ss = true
  | [] => by simp [assertSorts, allSort]
  | s :: ss => by
    simp only [List.map_cons, assertSorts, pbind_ok, assertSort_known, assertSorts_known, allSort, List.all_cons, Bool.and_eq_true,
      decide_eq_true_eq]
    simp

theorem assertAllEq_known {u : Unit} : ∀ {s : Srt} {ss : List Srt}, assertAllEq (.known s :: ss.map .known) = .ok u ↔ allSort s ss = true
  | s, [] => by simp [assertAllEq, allSort]
  | s, s' :: ss => by
    simp only [List.map_cons, assertAllEq, pbind_ok, assertSort_known, assertAllEq_known, allSort, List.all_cons, Bool.and_eq_true,
      decide_eq_true_eq, exists_and_left, exists_const, and_congr_right_iff]
    rintro rfl
    rfl

@[simp] theorem assertNumeric_known {s : Srt} {u : Unit} : assertNumeric (.known s) = .ok u ↔ s = .int ∨ s = .real := by
  simp [assertNumeric]

theorem assertNumerics_known {u : Unit} : ∀ {ss : List Srt},
    assertNumerics (ss.map .known) = .ok u ↔ ss.all (fun s => s = .int || s = .real) = true
  | [] => by simp [assertNumerics]
  | s :: ss => by
    simp only [List.map_cons, assertNumerics, pbind_ok, assertNumeric_known, assertNumerics_known, List.all_cons, Bool.and_eq_true]
    simp

@[simp] theorem PSrt.isBv_known {s : Srt} : (PSrt.known s).isBv = true ↔ ∃ w, s = .bv w := by
  cases s <;> simp [PSrt.isBv]

theorem assertBvs_known {u : Unit} : ∀ {ss : List Srt}, assertBvs (ss.map .known) = .ok u ↔ (totalWidth ss).isSome = true
  | [] => by simp [assertBvs, totalWidth]
  | s :: ss => by
    simp only [List.map_cons, assertBvs, pbind_ok, need_ok, PSrt.isBv_known, assertBvs_known]
    cases s <;> simp [totalWidth]

theorem assertArray_known {k v : Option Srt} {s : Srt} {u : Unit} :
    assertArray (k.map .known) (v.map .known) (.known s) = .ok u ↔ ∃ i e, s = .array i e ∧ (∀ a ∈ k, a = i) ∧ ∀ a ∈ v, a = e := by
  cases s <;> simp [assertArray]
  cases k <;> cases v <;> simp

theorem exists_unit {p : Unit → Prop} : (∃ u, p u) ↔ p () := ⟨fun ⟨(), h⟩ => h, fun h => ⟨(), h⟩⟩

theorem isSome_ite {p : Prop} [Decidable p] {α : Type} {x : α} : (if p then some x else none).isSome = true ↔ p := by
  split <;> simp_all

theorem sameBv_isSome {s : Srt} {ss : List Srt} : (sameBv (s :: ss)).isSome = true ↔ (∃ w, s = .bv w) ∧ allSort s ss = true := by
  cases s <;> simp [sameBv]

theorem isSome_ite_map {p : Prop} [Decidable p] {α β : Type} {x : Option α} {f : α → β} :
    (if p then x.map f else none).isSome = true ↔ p ∧ x.isSome = true := by
  split <;> simp_all

theorem isSome_ite_ite {p q : Prop} [Decidable p] [Decidable q] {α : Type} {x y : α} :
    (if p then some x else if q then some y else none).isSome = true ↔ p ∨ q := by
  split
  · simp_all
  · split <;> simp_all

theorem allSort_cons {a s : Srt} {ss : List Srt} : allSort a (s :: ss) = true ↔ s = a ∧ allSort s ss = true := by
  simp only [allSort, List.all_cons, Bool.and_eq_true, decide_eq_true_eq]
  exact and_congr_right fun h => by rw [h]

/-- With the default configuration, the checks of `make_op` are those of `opSort`. -/
theorem checkOp_known {E : PEnv} (hs : E.strict = false) (ht : E.subtyping = false) {o : Op} (ho : o ≠ .bvConst) {ss : List Srt} :
    checkOp E o (ss.map .known) = .ok () ↔ (opSort o ss).isSome = true := by
  have assert : ∀ {k : Srt} {i : Nat}, (do assertSort (.known k) (← getPanic (ss.map PSrt.known)[i]?) : PRes Unit) = .ok () ↔ ss[i]? = some k := by
    intro k i
    simp only [pbind_ok, getPanic_ok, List.getElem?_map, Option.map_eq_some_iff]
    constructor
    · rintro ⟨_, ⟨a, h, rfl⟩, h'⟩
      rw [h, assertSort_known.1 h']
    · intro h
      exact ⟨_, ⟨k, h, rfl⟩, assertSort_known.2 rfl⟩
  cases o <;> first | exact absurd rfl ho | skip
  all_goals
    simp only [checkOp, opSort, hs, ht]
    try simp only [pbind_ok, need_ok, List.length_map, exists_unit, assert, assertSorts_known, assertNumerics_known, assertBvs_known, isSome_ite]
  all_goals try first
    | rfl
    | (simp; done)
    | (rcases ss with _ | ⟨a, _ | ⟨b, _ | ⟨c, _ | ⟨d, ss⟩⟩⟩⟩ <;> simp <;> done)
  case bvNot | bvNeg | ubvToInt | sbvToInt | bvSize =>
    rcases ss with _ | ⟨a, _ | ⟨b, ss⟩⟩
    · simp
    · cases a <;> simp [totalWidth]
    · simp
  case ite =>
    rcases ss with _ | ⟨a, _ | ⟨b, _ | ⟨c, _ | ⟨d, ss⟩⟩⟩⟩ <;> simp
    exact fun _ => eq_comm
  case select =>
    rcases ss with _ | ⟨a, _ | ⟨b, _ | ⟨c, ss⟩⟩⟩ <;> simp
    rw [show some (PSrt.known b) = (some b).map .known from rfl, show (none : Option PSrt) = (none : Option Srt).map .known from rfl,
      assertArray_known]
    cases a <;> simp
  case store =>
    rcases ss with _ | ⟨a, _ | ⟨b, _ | ⟨c, _ | ⟨d, ss⟩⟩⟩⟩ <;> simp
    rw [show some (PSrt.known b) = (some b).map .known from rfl, show some (PSrt.known c) = (some c).map .known from rfl, assertArray_known]
    cases a <;> simp
    exact and_congr eq_comm eq_comm
  all_goals
    cases ss with
    | nil => simp [assertAllEq]
    | cons s ss => _
    simp only [List.map_cons, assertAllEq_known, List.length_cons, getPanic_ok, pbind_ok, exists_unit, need_ok, List.getElem?_cons_zero,
      Option.some.injEq, exists_eq_left', PSrt.isBv_known, assertNumeric_known, isSome_ite, reduceCtorEq, if_true, if_false, isSome_ite_map,
      isSome_ite_ite, sameBv_isSome, assertSort_known, allSort_cons]
  all_goals first | (simp; done) | omega | tauto

/-! ## The pool computes the sort of a well-sorted term -/

/-- A computation of a sort that yields `s` if it yields anything. -/
def YieldsSort (x : PRes PSrt) (s : Srt) : Prop := ∀ p, x = .ok p → p = .known s

theorem yields_ok {s s' : Srt} : YieldsSort (.ok (.known s)) s' ↔ s = s' := by
  simp [YieldsSort]

theorem yields_error {s : Srt} {e : PFault} : YieldsSort (.error e) s := by
  simp [YieldsSort]

theorem anyReal_yields {s : Srt} : ∀ {xs : List (PRes PSrt)} {ss : List Srt}, List.Forall₂ YieldsSort xs ss → ss ≠ [] → allSort s ss = true →
    ∀ b, anyReal xs = .ok b → b = decide (s = .real)
  | _, _, .nil, hn, _, _, _ => absurd rfl hn
  | x :: xs, t :: ss, .cons hx hr, _, ha, b, h => by
    simp only [anyReal, pbind_ok] at h
    obtain ⟨p, hp, h⟩ := h
    cases hx p hp
    obtain ⟨rfl, ha'⟩ := allSort_cons.1 ha
    split at h
    · next e => simp_all
    · next e =>
      have e' : t ≠ .real := by simpa using e
      by_cases hs : ss = []
      · subst hs
        cases hr
        simp_all [anyReal]
      · exact anyReal_yields hr hs ha' b h

theorem concatWidth_yields : ∀ {xs : List (PRes PSrt)} {ss : List Srt} {w : Nat}, List.Forall₂ YieldsSort xs ss → totalWidth ss = some w → ∀ r,
    concatWidth xs = .ok r → r = some w
  | _, _, w, .nil, hw, r, h => by simp_all [concatWidth, totalWidth]
  | x :: xs, t :: ss, w, .cons hx hr, hw, r, h => by
    simp only [concatWidth, pbind_ok] at h
    obtain ⟨p, hp, h⟩ := h
    cases hx p hp
    cases t <;> simp only [totalWidth, reduceCtorEq, Option.map_eq_some_iff] at hw
    obtain ⟨w', hw, rfl⟩ := hw
    simp only [pbind_ok] at h
    obtain ⟨r', hr', h⟩ := h
    rw [concatWidth_yields hr hw r' hr'] at h
    simpa using h.symm

theorem argSort_yields {xs : List (PRes PSrt)} {ss : List Srt} (hx : List.Forall₂ YieldsSort xs ss) {i : Nat} {s : Srt} (h : ss[i]? = some s) :
    YieldsSort (argSort xs i) s := by
  induction hx generalizing i with
  | nil => simp at h
  | cons hx _ ih =>
    cases i with
    | zero =>
      simp only [List.getElem?_cons_zero, Option.some.injEq] at h
      subst h
      exact hx
    | succ i => exact ih h

theorem bvFirst_yields {xs : List (PRes PSrt)} {ss : List Srt} (hx : List.Forall₂ YieldsSort xs ss) {w : Nat} (h : ss[0]? = some (.bv w)) :
    YieldsSort (do
      match ← argSort xs 0 with
      | .known (.bv w) => .ok (.known (.bv w))
      | .param => .ok .param
      | _ => .error .panic) (.bv w) := by
  intro p hp
  rw [pbind_ok] at hp
  obtain ⟨q, hq, hp⟩ := hp
  cases argSort_yields hx h q hq
  simpa using hp.symm

theorem sameBv_first {ss : List Srt} {w : Nat} (h : sameBv ss = some w) : ss[0]? = some (.bv w) := by
  rcases ss with _ | ⟨s, ss⟩
  · simp [sameBv] at h
  · cases s <;> simp [sameBv] at h
    simp [h]

theorem opPoolSort_yields {o : Op} (ho : o ≠ .bvConst) {as : List Term} {xs : List (PRes PSrt)} {ss : List Srt} {s : Srt}
    (hx : List.Forall₂ YieldsSort xs ss) (hl : as.length = ss.length) (h : opSort o ss = some s) : YieldsSort (opPoolSort o as xs) s := by
  have real : ∀ k : Srt, (k = .int ∨ k = .real) → ss ≠ [] → allSort k ss = true →
      YieldsSort (do .ok (.known (if ← anyReal xs then .real else .int))) k := by
    intro k hk hn ha p hp
    rw [pbind_ok] at hp
    obtain ⟨b, hb, hp⟩ := hp
    cases anyReal_yields hx hn ha b hb
    rcases hk with rfl | rfl <;> simpa using hp.symm
  cases o <;> first | exact absurd rfl ho | skip
  all_goals
    simp only [opSort, opPoolSort] at h ⊢
  all_goals try (
    split at h
    · cases h
      simp only [yields_ok]
    · cases h)
  case equals | distinct =>
    rcases ss with _ | ⟨a, ss⟩
    · cases h
    · simp only [Option.ite_none_right_eq_some] at h
      rw [yields_ok]
      simpa using h.2
  case cl =>
    rw [yields_ok]
    simpa using h
  case ite =>
    split at h
    · split at h
      · cases h
        exact argSort_yields hx rfl
      · cases h
    · cases h
  case store =>
    split at h
    · split at h
      · cases h
        exact argSort_yields hx rfl
      · cases h
    · cases h
  case select =>
    split at h
    · split at h
      · cases h
        intro p hp
        rw [pbind_ok] at hp
        obtain ⟨q, hq, hp⟩ := hp
        cases argSort_yields hx rfl q hq
        simpa using hp.symm
      · cases h
    · cases h
  case add | mult | sub =>
    split at h
    · next hc =>
      cases h
      exact real _ (.inl rfl) (fun e => by simp [e] at hc) hc.2
    · split at h
      · next hc =>
        cases h
        exact real _ (.inr rfl) (fun e => by simp [e] at hc) hc.2
      · cases h
  case abs =>
    split at h
    · next hc =>
      cases h
      exact real _ (.inl rfl) (by simp [hc]) (by simp [hc, allSort])
    · cases h
  case bvNot | bvNeg =>
    split at h
    · cases h
      exact bvFirst_yields hx rfl
    · cases h
  case bvBbTerm | bvPBbTerm =>
    split at h
    · cases h
      rw [yields_ok, hl]
    · cases h
  case bvConcat =>
    simp only [Option.ite_none_right_eq_some, Option.map_eq_some_iff] at h
    obtain ⟨_, w, hw, rfl⟩ := h
    intro p hp
    rw [pbind_ok] at hp
    obtain ⟨r, hr, hp⟩ := hp
    cases concatWidth_yields hx hw r hr
    simpa using hp.symm
  case rareList =>
    rw [yields_ok]
    rcases ss with _ | ⟨a, ss⟩
    · simpa using h
    · simp only [Option.ite_none_right_eq_some] at h
      simpa using h.2
  case bvComp | bvULt | bvULe | bvUGt | bvUGe | bvSLt | bvSLe | bvSGt | bvSGe =>
    simp only [Option.ite_none_right_eq_some, Option.map_eq_some_iff] at h
    obtain ⟨_, w, hw, rfl⟩ := h
    exact yields_ok.2 rfl
  all_goals
    simp only [Option.ite_none_right_eq_some, Option.map_eq_some_iff] at h
    obtain ⟨_, w, hw, rfl⟩ := h
    exact bvFirst_yields hx (sameBv_first hw)

theorem indexAt_zero {z : Int} {ps : List Term} : indexAt (.const (.int z) :: ps) 0 = .ok z := rfl

theorem indexAt_one {p : Term} {z : Int} {ps : List Term} : indexAt (p :: .const (.int z) :: ps) 1 = .ok z := rfl

theorem popPoolSort_yields {o : ParamOp} {ps : List Term} {xs : List (PRes PSrt)} {ss : List Srt} {s : Srt}
    (hx : List.Forall₂ YieldsSort xs ss) (h : popSort o ps ss = some s) : YieldsSort (popPoolSort o ps xs) s := by
  unfold popSort at h
  split at h
  all_goals try cases h
  all_goals
    simp only [Option.ite_none_right_eq_some, Option.some.injEq] at h
    obtain ⟨hc, rfl⟩ := h
    intro p hp
    simp only [popPoolSort, indexAt_zero, indexAt_one, pbind_ok, Except.ok.injEq, exists_eq_left', unwrapUsize_ok] at hp
  · obtain ⟨i, ⟨rfl, _⟩, j, ⟨rfl, _⟩, hp⟩ := hp
    rw [if_pos (by omega)] at hp
    simpa using hp.symm
  · simpa using hp.symm
  · simpa using hp.symm
  · obtain ⟨i, ⟨rfl, _⟩, q, hq, hp⟩ := hp
    cases argSort_yields hx rfl q hq
    simpa using hp.symm
  · obtain ⟨i, ⟨rfl, _⟩, q, hq, hp⟩ := hp
    cases argSort_yields hx rfl q hq
    simpa using hp.symm
  · exact argSort_yields hx rfl p hp
  · exact argSort_yields hx rfl p hp
  · obtain ⟨q, hq, hp⟩ := hp
    cases argSort_yields hx rfl q hq
    simp only [pbind_ok, unwrapUsize_ok, Except.ok.injEq] at hp
    obtain ⟨n, ⟨e, _⟩, rfl⟩ := hp
    obtain ⟨i, rfl⟩ := Int.eq_ofNat_of_zero_le hc
    rw [Int.toNat_natCast, Nat.mul_comm]
    congr 2
    exact_mod_cast e.symm
  · obtain ⟨i, ⟨rfl, _⟩, hp⟩ := hp
    simpa using hp.symm
  · simpa using hp.symm
  · simpa using hp.symm

theorem poolSort_yields : ∀ t : Term, ∀ {s : Srt}, sortOf t = some s → YieldsSort (poolSort t) s := by
  have list : ∀ (as : List Term), (∀ a ∈ as, ∀ {s : Srt}, sortOf a = some s → YieldsSort (poolSort a) s) → ∀ {ss : List Srt}, sortOfL as = some ss →
      List.Forall₂ YieldsSort (poolSorts as) ss := by
    intro as
    induction as with
    | nil => intro _ ss h; cases h; exact .nil
    | cons a as ih =>
      intro ha ss h
      simp only [sortOfL] at h
      split at h
      · next h1 h2 =>
        cases h
        exact .cons (ha a (by simp) h1) (ih (fun b hb => ha b (by simp [hb])) h2)
      · cases h
  intro t
  induction t using Term.ind with
  | const c => intro s h; cases h; exact yields_ok.2 rfl
  | var x s' => intro s h; cases h; exact yields_ok.2 rfl
  | app f as hf has =>
    intro s h p hp
    simp only [sortOf] at h
    split at h
    · next ss r ss' h1 h2 =>
      simp only [Option.ite_none_right_eq_some, Option.some.injEq] at h
      simp only [poolSort, pbind_ok] at hp
      obtain ⟨q, hq, hp⟩ := hp
      cases hf h1 q hq
      rw [← h.2]
      simpa using hp.symm
    · cases h
  | op o as has =>
    intro s h
    by_cases ho : o = .bvConst
    · subst ho
      simp only [sortOf] at h
      split at h
      · next a w hl =>
        simp only [Option.ite_none_right_eq_some, Option.some.injEq] at h
        obtain ⟨hw, rfl⟩ := h
        intro p hp
        simp only [poolSort, opPoolSort, pbind_ok, getPanic_ok] at hp
        obtain ⟨_, e, hp⟩ := hp
        cases e
        simp only [pbind_ok, unwrapUsize_ok, Except.ok.injEq] at hp
        obtain ⟨n, ⟨e, _⟩, rfl⟩ := hp
        rw [e, Int.toNat_natCast]
      · cases h
    · rw [sortOf_op_eq ho, Option.bind_eq_some_iff] at h
      obtain ⟨ss, hl, h⟩ := h
      exact opPoolSort_yields ho (list as has hl) (sortOfL_some hl).length_eq.symm h
  | binder b bs t ht =>
    intro s h
    simp only [sortOf] at h
    split at h
    · cases h; exact yields_ok.2 rfl
    · cases h; exact yields_ok.2 rfl
    · cases h
      intro p hp
      simp only [poolSort, pbind_ok, getPanic_ok, List.head?_cons, Option.some.injEq, exists_eq_left', Except.ok.injEq] at hp
      exact hp.symm
    · next e =>
      cases h
      intro p hp
      simp only [poolSort, pbind_ok] at hp
      obtain ⟨q, hq, hp⟩ := hp
      cases ht e q hq
      simpa using hp.symm
    · cases h
  | let_ bs t hbs ht =>
    intro s h
    simp only [sortOf, Option.ite_none_right_eq_some] at h
    exact ht h.2
  | paramOp o ps as hps has =>
    intro s h
    simp only [sortOf] at h
    split at h
    · next hl => exact popPoolSort_yields (list as has hl) h
    · cases h

theorem poolSorts_eq (as : List Term) : poolSorts as = as.map poolSort := by
  induction as with
  | nil => rfl
  | cons a as ih => simp [poolSorts, ih]

/-- The sorts of well-sorted terms, if they are computed, are those of `sortOf`. -/
theorem all_poolSorts {as : List Term} (hs : ∀ a ∈ as, (sortOf a).isSome = true) {ps : List PSrt} (h : PRes.all (poolSorts as) = .ok ps) :
    ∃ ss, sortOfL as = some ss ∧ ps = ss.map .known := by
  induction as generalizing ps with
  | nil =>
    rw [poolSorts, PRes.all_ok] at h
    rcases ps with _ | _
    · exact ⟨[], rfl, rfl⟩
    · cases h
  | cons a as ih =>
    simp only [poolSorts, PRes.all, pbind_ok] at h
    obtain ⟨p, hp, ps', hps, h⟩ := h
    cases h
    obtain ⟨s, hs'⟩ := Option.isSome_iff_exists.1 (hs a (by simp))
    obtain ⟨ss, e, rfl⟩ := ih (fun b hb => hs b (by simp [hb])) hps
    cases poolSort_yields a hs' p hp
    exact ⟨s :: ss, by simp [sortOfL, hs', e], rfl⟩

end Carcara
