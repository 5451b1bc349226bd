import Verif.Lemmas.TermParserReader
import Verif.Lemmas.TermParserPool
import Verif.Lemmas.TermParserPrint
import Verif.Spec.TermParserCalm

/-!
# The parser of terms does not panic on calm tokens
-/

namespace Carcara
open PRes Reader

/-! ## Functions that do not read -/

/-- A result that is not a panic. -/
def NoPanic {α : Type} (x : PRes α) : Prop := x ≠ .error .panic

section
variable {α β : Type}

theorem NoPanic.ok {a : α} : NoPanic (.ok a : PRes α) := by simp [NoPanic]
theorem NoPanic.err : NoPanic (.error .err : PRes α) := by simp [NoPanic]
theorem NoPanic.fuel : NoPanic (.error .fuel : PRes α) := by simp [NoPanic]
theorem NoPanic.unmodelled : NoPanic (.error .unmodelled : PRes α) := by simp [NoPanic]

theorem NoPanic.bind {x : PRes α} {f : α → PRes β} (h : NoPanic x) (h' : ∀ a, x = .ok a → NoPanic (f a)) : NoPanic (x >>= f) := by
  cases x with
  | ok a => exact h' a rfl
  | error e => exact fun e' => h (by simpa [Bind.bind, Except.bind] using e')

theorem NoPanic.need {p : Prop} [Decidable p] : NoPanic (need p) := by
  unfold PRes.need
  split
  · exact .ok
  · exact .err

theorem NoPanic.getErr {o : Option α} : NoPanic (getErr o) := by cases o <;> simp [NoPanic, PRes.getErr]

theorem NoPanic.getPanic {as : List α} {i : Nat} (h : i < as.length) : NoPanic (getPanic as[i]?) := by
  rw [List.getElem?_eq_getElem h]
  exact .ok

theorem NoPanic.all : ∀ {xs : List (PRes α)}, (∀ x ∈ xs, NoPanic x) → NoPanic (all xs)
  | [], _ => .ok
  | x :: xs, h => .bind (h x (by simp)) fun _ _ => .bind (NoPanic.all fun y hy => h y (by simp [hy])) fun _ _ => .ok

end

theorem NoPanic.assertSorts {s : PSrt} : ∀ {ss : List PSrt}, NoPanic (assertSorts s ss)
  | [] => .ok
  | _ :: _ => .bind .need fun _ _ => NoPanic.assertSorts

theorem NoPanic.assertAllEq : ∀ {ss : List PSrt}, NoPanic (assertAllEq ss)
  | [] | [_] => .ok
  | _ :: _ :: _ => .bind .need fun _ _ => NoPanic.assertAllEq

theorem NoPanic.assertNumerics : ∀ {ss : List PSrt}, NoPanic (assertNumerics ss)
  | [] => .ok
  | _ :: _ => .bind .need fun _ _ => NoPanic.assertNumerics

theorem NoPanic.assertArray {k v : Option PSrt} {s : PSrt} : NoPanic (assertArray k v s) := by
  unfold Carcara.assertArray
  split
  · exact .need
  · exact .err

theorem NoPanic.assertBvs : ∀ {ss : List PSrt}, NoPanic (assertBvs ss)
  | [] => .ok
  | _ :: _ => .bind .need fun _ _ => NoPanic.assertBvs

theorem NoPanic.checkOp {E : PEnv} {o : Op} (ho : o ≠ .delete) {ss : List PSrt} : NoPanic (checkOp E o ss) := by
  have h1 : ∀ {s s' : PSrt}, NoPanic (Carcara.assertSort s s') := .need
  have h2 : ∀ {s}, NoPanic (Carcara.assertSorts s ss) := .assertSorts
  have h3 := NoPanic.assertAllEq (ss := ss)
  have h4 : ∀ {s : PSrt}, NoPanic (Carcara.assertNumeric s) := .need
  have h5 := NoPanic.assertNumerics (ss := ss)
  have h6 : ∀ {k v s}, NoPanic (Carcara.assertArray k v s) := .assertArray
  have h7 := NoPanic.assertBvs (ss := ss)
  unfold Carcara.checkOp
  cases o
  case delete => exact absurd rfl ho
  all_goals
    simp only
    repeat' first
      | exact .ok | exact .need | exact h1 | exact h2 | exact h3 | exact h4 | exact h5 | exact h6 | exact h7
      | exact .getPanic (by simp only [need_ok, reduceCtorEq, if_true, if_false] at *; omega)
      | (refine NoPanic.bind ?_ fun _ _ => ?_) | split

/-! ## Terms -/

theorem Calm.plain {t : Term} (h : Calm t) : t.plainWidths := h.1

theorem Calm.sorted {t : Term} (h : Calm t) : SortedIfPlain t := fun _ => by
  obtain ⟨_, s, hs, _⟩ := h
  rw [hs]
  rfl

theorem calm_const (c : Const) : Calm (.const c) := by
  refine ⟨fun u hu => ?_, c.sort, rfl, rfl⟩
  cases List.mem_singleton.1 (show u ∈ [Term.const c] from hu)
  trivial

theorem calm_var (x : String) (s : Srt) : Calm (.var x s) := by
  refine ⟨fun u hu => ?_, s, rfl, rfl⟩
  cases List.mem_singleton.1 (show u ∈ [Term.var x s] from hu)
  trivial

theorem calm_sorts : ∀ {as : List Term}, (∀ a ∈ as, Calm a) → ∃ ss, sortOfL as = some ss ∧ poolSorts as = ss.map fun s => .ok (.known s)
  | [], _ => ⟨[], rfl, rfl⟩
  | a :: as, h => by
    obtain ⟨_, s, h1, h2⟩ := h a (by simp)
    obtain ⟨ss, h3, h4⟩ := calm_sorts (as := as) fun b hb => h b (by simp [hb])
    refine ⟨s :: ss, ?_, ?_⟩
    · simp [sortOfL, h1, h3]
    · simp [poolSorts, h2, h4]

/-- A term whose sort can be computed is calm if its sort is known and its widths are plain. -/
theorem calm_of_pool {t : Term} (hs : SortedIfPlain t) (hw : t.plainWidths) (hp : ∃ p, poolSort t = .ok p) : Calm t := by
  obtain ⟨s, h⟩ := Option.isSome_iff_exists.1 (hs hw)
  obtain ⟨p, hp⟩ := hp
  refine ⟨hw, s, h, ?_⟩
  rw [hp, poolSort_yields t h p hp]

theorem NoPanic.poolSorts {as : List Term} (h : ∀ a ∈ as, Calm a) : NoPanic (PRes.all (poolSorts as)) := by
  obtain ⟨ss, _, h2⟩ := calm_sorts h
  rw [h2]
  refine .all fun x hx => ?_
  obtain ⟨s, _, rfl⟩ := List.mem_map.1 hx
  exact .ok

theorem NoPanic.poolSort {t : Term} (h : Calm t) : NoPanic (poolSort t) := by
  obtain ⟨_, s, _, h⟩ := h
  rw [h]
  exact .ok

theorem divLiteral_calm {E : PEnv} {a b t : Term} (h : E.divLiteral a b = some t) : Calm t := by
  simp only [PEnv.divLiteral, bind, Option.bind_eq_some_iff, Option.ite_none_right_eq_some, Option.some.injEq] at h
  obtain ⟨_, _, _, _, _, rfl⟩ := h
  exact calm_const _

theorem plainWidths_of_op {o : Op} (ho : o ≠ .bvConst) {as : List Term} (h : ∀ a ∈ as, a.plainWidths) : (Term.op o as).plainWidths := by
  intro u hu
  rcases List.mem_cons.1 (show u ∈ Term.op o as :: Term.subtermsL as from hu) with rfl | hu
  · cases o <;> first | exact absurd rfl ho | trivial
  · obtain ⟨a, ha, hu⟩ := Term.mem_subtermsL.1 hu
    exact h a ha u hu

theorem plainWidths_of_app {f : Term} {as : List Term} (hf : f.plainWidths) (h : ∀ a ∈ as, a.plainWidths) : (Term.app f as).plainWidths := by
  intro u hu
  rcases List.mem_cons.1 (show u ∈ Term.app f as :: (f.subterms ++ Term.subtermsL as) from hu) with rfl | hu
  · trivial
  · rcases List.mem_append.1 hu with hu | hu
    · exact hf u hu
    · obtain ⟨a, ha, hu⟩ := Term.mem_subtermsL.1 hu
      exact h a ha u hu

theorem plainWidths_of_paramOp {o : ParamOp} {ps as : List Term} (ho : o = .intToBv → ∃ w : Nat, ps = [.const (.int w)])
    (hp : ∀ p ∈ ps, ∃ z, p = .const (.int z)) (h : ∀ a ∈ as, a.plainWidths) : (Term.paramOp o ps as).plainWidths := by
  intro u hu
  rcases List.mem_cons.1 (show u ∈ Term.paramOp o ps as :: (Term.subtermsL ps ++ Term.subtermsL as) from hu) with rfl | hu
  · cases o <;> first | exact ho rfl | trivial
  · rcases List.mem_append.1 hu with hu | hu
    · obtain ⟨p, hp', hu⟩ := Term.mem_subtermsL.1 hu
      obtain ⟨z, rfl⟩ := hp p hp'
      exact (calm_const _).1 u hu
    · obtain ⟨a, ha, hu⟩ := Term.mem_subtermsL.1 hu
      exact h a ha u hu

theorem plainWidths_of_binder {b : Binder} {bs : List (String × Srt)} {t : Term} (h : t.plainWidths) : (Term.binder b bs t).plainWidths := by
  intro u hu
  rcases List.mem_cons.1 (show u ∈ Term.binder b bs t :: t.subterms from hu) with rfl | hu
  · trivial
  · exact h u hu

theorem plainWidths_of_let {bs : List (String × Term)} {t : Term} (hb : ∀ b ∈ bs, b.2.plainWidths) (h : t.plainWidths) :
    (Term.let_ bs t).plainWidths := by
  intro u hu
  rcases List.mem_cons.1 (show u ∈ Term.let_ bs t :: (Term.subtermsB bs ++ t.subterms) from hu) with rfl | hu
  · trivial
  · rcases List.mem_append.1 hu with hu | hu
    · obtain ⟨b, hb', hu⟩ := Term.mem_subtermsB.1 hu
      exact hb b hb' u hu
    · exact h u hu

/-! ## Building calm terms -/

theorem makeOp_calm {E : PEnv} (ht : E.subtyping = false) {o : Op} (hd : o ≠ .delete) (hb : o ≠ .bvConst) {as : List Term} (h : ∀ a ∈ as, Calm a) :
    NoPanic (makeOp E o as) ∧ ∀ t, makeOp E o as = .ok t → Calm t := by
  refine ⟨.bind (.poolSorts h) fun _ _ => .bind (.checkOp hd) fun _ _ => by split <;> exact .ok, fun t e => ?_⟩
  have hs := makeOp_sorted ht (fun a ha => (h a ha).sorted) e
  simp only [makeOp, pbind_ok] at e
  obtain ⟨ps, hps, _, hc, e⟩ := e
  have op : t = .op o as → Calm t := by
    rintro rfl
    have hw := plainWidths_of_op hb fun a ha => (h a ha).plain
    refine calm_of_pool hs hw ?_
    obtain ⟨s, hs⟩ := Option.isSome_iff_exists.1 (hs hw)
    obtain ⟨ss, h1, h2⟩ := calm_sorts h
    rw [sortOf_op_eq hb, h1] at hs
    rw [poolSort, h2]
    exact opPoolSort_ok hb hs
  split at e
  · next a b _ =>
    cases e
    cases hl : E.divLiteral a b with
    | none =>
      rw [hl] at op
      exact op rfl
    | some t => exact divLiteral_calm hl
  · cases e
    exact op rfl

theorem NoPanic.assertParams : ∀ {ss : List Srt} {as : List Term}, (∀ a ∈ as, Calm a) → NoPanic (assertParams ss as)
  | [], _, _ => .ok
  | _ :: _, [], _ => .ok
  | _ :: _, a :: as, h => .bind (.poolSort (h a (by simp))) fun _ _ => .bind .need fun _ _ => NoPanic.assertParams fun b hb => h b (by simp [hb])

theorem makeApp_calm {f : Term} {as : List Term} (hf : Calm f) (h : ∀ a ∈ as, Calm a) :
    NoPanic (makeApp f as) ∧ ∀ t, makeApp f as = .ok t → Calm t := by
  refine ⟨.bind (.poolSort hf) fun _ _ => ?_, fun t e => ?_⟩
  · split
    · exact .bind .need fun _ _ => .bind (.assertParams h) fun _ _ => .ok
    · exact .err
  · have hs := makeApp_sorted hf.sorted (fun a ha => (h a ha).sorted) e
    simp only [makeApp, pbind_ok] at e
    obtain ⟨p, hp, e⟩ := e
    split at e
    · next ss r =>
      simp only [pbind_ok, Except.ok.injEq] at e
      obtain ⟨_, _, _, _, rfl⟩ := e
      refine calm_of_pool hs (plainWidths_of_app hf.plain fun a ha => (h a ha).plain) ⟨.known r, ?_⟩
      simp only [poolSort, pbind_ok]
      exact ⟨_, hp, rfl⟩
    · cases e

theorem makeVar_calm {E : PEnv} {x : String} : NoPanic (makeVar E x) ∧ ∀ t, makeVar E x = .ok t → Calm t := by
  refine ⟨.bind .getErr fun _ _ => .ok, fun t e => ?_⟩
  simp only [makeVar, pbind_ok, Except.ok.injEq] at e
  obtain ⟨s, _, rfl⟩ := e
  exact calm_var x s

theorem apply_calm {f : FunDef} (hp : f.params = []) (h : Calm f.body) (as : List Term) : NoPanic (f.apply as) ∧ ∀ t, f.apply as = .ok t → Calm t := by
  cases as with
  | nil =>
    have : f.apply [] = .ok f.body := by
      unfold FunDef.apply
      rw [hp]
      rfl
    rw [this]
    exact ⟨.ok, fun t e => by cases e; exact h⟩
  | cons a as =>
    have : f.apply (a :: as) = .error .err := by
      unfold FunDef.apply
      rw [hp]
      rfl
    rw [this]
    exact ⟨.err, fun t e => by cases e⟩

theorem NoPanic.assertIndices : ∀ {ps : List Term}, NoPanic (assertIndices ps)
  | [] => .ok
  | _ :: _ => .bind .need fun _ _ => NoPanic.assertIndices

theorem NoPanic.assertConstants : ∀ {ps : List Term}, NoPanic (assertConstants ps)
  | [] => .ok
  | p :: ps => by
    cases p with
    | const c => exact .bind .need fun _ _ => NoPanic.assertConstants
    | _ => exact .err

theorem NoPanic.assertKnownBv {s : PSrt} : NoPanic (assertKnownBv s) := by
  unfold Carcara.assertKnownBv
  split
  · exact .ok
  · exact .err

/-- What an indexed operator can be read as on calm tokens. -/
structure CalmOp (o : ParamOp) (ps : List Term) : Prop where
  notRepeat : o ≠ .repeat
  ints : ∀ p ∈ ps, ∃ z, p = .const (.int z)
  small : ∀ z, .const (.int z) ∈ (if o = .bvConst then ps.tail else ps) → 0 ≤ z ∧ z < 2 ^ 64

theorem CalmOp.indexAt {o : ParamOp} {ps : List Term} (h : CalmOp o ps) {i : Nat} (hi : i < ps.length) :
    ∃ z, ps[i]? = some (.const (.int z)) ∧ Carcara.indexAt ps i = .ok z := by
  obtain ⟨z, hz⟩ := h.ints ps[i] (List.getElem_mem hi)
  rw [List.getElem?_eq_getElem hi, hz]
  refine ⟨z, rfl, ?_⟩
  simp only [Carcara.indexAt, pbind_ok, getPanic_ok]
  exact ⟨_, by rw [List.getElem?_eq_getElem hi, hz], rfl⟩

theorem CalmOp.usize {o : ParamOp} {ps : List Term} (h : CalmOp o ps) (ho : o ≠ .bvConst) {i : Nat} (hi : i < ps.length) :
    ∃ n : Nat, Carcara.indexAt ps i = .ok (n : Int) ∧ unwrapUsize n = .ok n := by
  obtain ⟨z, h1, h2⟩ := h.indexAt hi
  have := h.small z (by rw [if_neg ho]; exact List.mem_of_getElem? h1)
  refine ⟨z.toNat, ?_, ?_⟩
  · rw [h2, Int.toNat_of_nonneg this.1]
  · rw [unwrapUsize_ok]
    exact ⟨rfl, by omega⟩

theorem all_length {as : List Term} {ss : List PSrt} (h : PRes.all (poolSorts as) = .ok ss) : ss.length = as.length := by
  rw [all_ok, poolSorts_eq] at h
  simpa using (congrArg List.length h).symm

theorem NoPanic.makeIndexedOp {o : ParamOp} {ps as : List Term} (ho : CalmOp o ps) (h : ∀ a ∈ as, Calm a) : NoPanic (makeIndexedOp o ps as) := by
  have h1 : ∀ {s s' : PSrt}, NoPanic (Carcara.assertSort s s') := .need
  have h2 : ∀ {i}, i < ps.length → NoPanic (Carcara.indexAt ps i) := fun hi => by
    obtain ⟨z, _, e⟩ := ho.indexAt hi
    rw [e]
    exact .ok
  have h3 := NoPanic.assertIndices (ps := ps)
  have h4 := NoPanic.assertConstants (ps := ps)
  have h5 : ∀ {s}, NoPanic (Carcara.assertKnownBv s) := .assertKnownBv
  have h6 : ∀ {i}, o ≠ .bvConst → i < ps.length → ∀ {β : Type} {f : Nat → PRes β}, (∀ n, NoPanic (f n)) → NoPanic (do
      f (← unwrapUsize (← Carcara.indexAt ps i))) := fun hb hi β f hf => by
    obtain ⟨n, e1, e2⟩ := ho.usize hb hi
    refine .bind (by rw [e1]; exact .ok) fun z hz => ?_
    rw [e1] at hz
    cases hz
    exact .bind (by rw [e2]; exact .ok) fun m _ => hf m
  refine .bind (.poolSorts h) fun ss hss => ?_
  have hl := all_length hss
  cases o
  case «repeat» => exact absurd rfl ho.notRepeat
  case bvConst =>
    refine .bind .need fun _ hp => .bind .need fun _ _ => ?_
    rw [need_ok] at hp
    obtain ⟨v, _, e1⟩ := ho.indexAt (i := 0) (by omega)
    obtain ⟨w, e2, e3⟩ := ho.indexAt (i := 1) (by omega)
    have := ho.small w (by
      rw [if_pos rfl]
      obtain ⟨a, b, rfl⟩ := List.length_eq_two.1 hp
      simp only [List.getElem?_cons_succ, List.getElem?_cons_zero, Option.some.injEq] at e2
      simp [e2])
    rw [e1, e3]
    refine .bind .ok fun _ _ => .bind .ok fun w' hw' => ?_
    cases hw'
    refine .bind ?_ fun _ _ => .bind .need fun _ _ => .bind .need fun _ _ => .ok
    rw [unwrapUsize, if_pos this]
    exact .ok
  all_goals
    simp only
    repeat' first
      | exact .ok | exact .err | exact .need | exact h1 | exact h3 | exact h4 | exact h5
      | exact .getPanic (by simp only [need_ok] at *; omega)
      | exact h2 (by simp only [need_ok] at *; omega)
      | (refine h6 (by simp) (by simp only [need_ok] at *; omega) fun _ => ?_)
      | (refine NoPanic.bind ?_ fun _ _ => ?_) | split

theorem makeIndexedOp_shape {o : ParamOp} (ho : o ≠ .bvConst) {ps as : List Term} {t : Term} (e : makeIndexedOp o ps as = .ok t) :
    t = .paramOp o ps as ∧ (o = .intToBv → ps.length = 1) := by
  unfold makeIndexedOp at e
  simp only [pbind_ok] at e
  obtain ⟨_, _, e⟩ := e
  cases o
  case bvConst => exact absurd rfl ho
  case arrayConst => cases e
  all_goals
    simp only [pbind_ok, Except.ok.injEq, need_ok, exists_unit] at e
    refine ⟨?_, fun h => ?_⟩
  all_goals first
    | exact e.1
    | cases h
    | grind

theorem popPoolSort_calm {o : ParamOp} {ps : List Term} (ho : CalmOp o ps) {ss : List Srt} {s : Srt} (h : popSort o ps ss = some s) :
    ∃ p, popPoolSort o ps (ss.map fun s => .ok (.known s)) = .ok p := by
  have hr := ho.notRepeat
  unfold popSort at h
  split at h
  all_goals try cases h
  all_goals
    simp only [Option.ite_none_right_eq_some, Option.some.injEq] at h
    obtain ⟨hc, rfl⟩ := h
    simp only [popPoolSort, indexAt_zero, indexAt_one, pbind_ok, Except.ok.injEq, exists_eq_left', unwrapUsize_ok]
  · rename_i i j m
    have hi := ho.small i (by simp)
    have hj := ho.small j (by simp)
    refine ⟨_, i.toNat, ⟨by omega, by omega⟩, j.toNat, ⟨by omega, by omega⟩, if_pos (by omega)⟩
  · exact ⟨_, rfl⟩
  · exact ⟨_, rfl⟩
  · rename_i i w
    have hi := ho.small i (by simp)
    exact ⟨_, i.toNat, ⟨by omega, by omega⟩, _, argSort_ok rfl, rfl⟩
  · rename_i i w
    have hi := ho.small i (by simp)
    exact ⟨_, i.toNat, ⟨by omega, by omega⟩, _, argSort_ok rfl, rfl⟩
  · exact ⟨_, argSort_ok rfl⟩
  · exact ⟨_, argSort_ok rfl⟩
  · exact absurd rfl hr
  · rename_i w
    have hi := ho.small w (by simp)
    exact ⟨_, w.toNat, ⟨by omega, by omega⟩, rfl⟩
  · exact ⟨_, rfl⟩
  · exact ⟨_, rfl⟩

theorem makeIndexedOp_calm {o : ParamOp} {ps as : List Term} (ho : CalmOp o ps) (h : ∀ a ∈ as, Calm a) {t : Term} (e : makeIndexedOp o ps as = .ok t) :
    Calm t := by
  have hs := makeIndexedOp_sorted (fun a ha => (h a ha).sorted) e
  by_cases hb : o = .bvConst
  · subst hb
    simp only [makeIndexedOp, pbind_ok, Except.ok.injEq] at e
    obtain ⟨_, _, _, _, _, _, _, _, _, _, _, _, _, _, _, _, rfl⟩ := e
    exact calm_const _
  · obtain ⟨rfl, h1⟩ := makeIndexedOp_shape hb e
    have hw : (Term.paramOp o ps as).plainWidths := by
      refine plainWidths_of_paramOp (fun hi => ?_) ho.ints fun a ha => (h a ha).plain
      obtain ⟨p, rfl⟩ := List.length_eq_one_iff.1 (h1 hi)
      obtain ⟨z, rfl⟩ := ho.ints p (by simp)
      have := ho.small z (by rw [if_neg hb]; simp)
      exact ⟨z.toNat, by rw [Int.toNat_of_nonneg this.1]⟩
    refine calm_of_pool hs hw ?_
    obtain ⟨s, hs⟩ := Option.isSome_iff_exists.1 (hs hw)
    obtain ⟨ss, h1, h2⟩ := calm_sorts h
    rw [sortOf, h1] at hs
    rw [poolSort, h2]
    exact popPoolSort_calm ho hs

theorem letVars_calm : ∀ {bs : List (String × Term)}, (∀ b ∈ bs, Calm b.2) → NoPanic (letVars bs)
  | [], _ => .ok
  | (x, t) :: bs, h => .bind (.poolSort (h (x, t) (by simp))) fun _ _ => by
    split
    · exact .bind (letVars_calm fun b hb => h b (by simp [hb])) fun _ _ => .ok
    · exact .unmodelled

theorem NoPanic.makeSort {E : PEnv} {s : String} {ss : List Srt} : NoPanic (makeSort E s ss) := by
  unfold Carcara.makeSort
  repeat' first
    | exact .ok | exact .err | exact .unmodelled | exact .need | (refine NoPanic.bind ?_ fun _ _ => ?_) | split

theorem NoPanic.constantArgs : ∀ {ts : List Term}, NoPanic (constantArgs ts)
  | [] => .ok
  | _ :: _ => .bind .getErr fun _ _ => .bind NoPanic.constantArgs fun _ _ => .ok

theorem lookup_mapInsert_isSome {β : Type} {a : String} {b : β} {s : String} : ∀ {m : List (String × β)}, (∃ f, m.lookup s = some f) →
    ∃ f, (mapInsert m a b).lookup s = some f
  | [], h => by
    obtain ⟨f, h⟩ := h
    cases h
  | (k, v) :: m, h => by
    simp only [mapInsert, List.lookup_cons] at h ⊢
    split
    · simp only [List.lookup_cons]
      split
      · exact ⟨_, rfl⟩
      · next e =>
        simp only [e] at h
        exact h
    · simp only [List.lookup_cons]
      split
      · exact ⟨_, rfl⟩
      · next e =>
        simp only [e] at h
        exact lookup_mapInsert_isSome h

/-! ## Readers -/

/-- If `P` holds before, then the reader does not panic, and if it succeeds, then `Q` holds of the result. -/
def Calmly {α : Type} (P : ReadState → Prop) (r : Reader α) (Q : α → ReadState → Prop) : Prop :=
  ∀ st, P st → NoPanic (r st) ∧ ∀ a st', r st = .ok (a, st') → Q a st'

/-- The invariant: calm tokens remain, and calm definitions, among them those of the names in `D`. -/
structure CalmState (D : List String) (st : ReadState) : Prop where
  tokens : CalmTokens st.toks
  defs : CalmDefs st.defs
  known : ∀ s ∈ D, ∃ f, st.defs.lookup s = some f

/-- The invariant, and a property of the result. -/
def Keeping {α : Type} (D : List String) (C : α → Prop) (a : α) (st : ReadState) : Prop := C a ∧ CalmState D st

section
variable {α β : Type} {P : ReadState → Prop} {D : List String}

theorem Calmly.seq {r : Reader α} {f : α → Reader β} {Q : α → ReadState → Prop} {R : β → ReadState → Prop} (h : Calmly P r Q)
    (h' : ∀ a, Calmly (Q a) (f a) R) : Calmly P (r >>= f) R := by
  intro st hP
  obtain ⟨h1, h2⟩ := h st hP
  constructor
  · change NoPanic (match r st with | .ok (a, st) => f a st | .error e => .error e)
    split
    · next a st' e => exact (h' a st' (h2 a st' e)).1
    · next e e' =>
      rw [e'] at h1
      intro h
      cases h
      exact h1 rfl
  · intro b st2 e
    change (match r st with | .ok (a, st) => f a st | .error e => .error e) = _ at e
    split at e
    · next a st' e' => exact (h' a st' (h2 a st' e')).2 b st2 e
    · cases e

theorem Calmly.bind {r : Reader α} {f : α → Reader β} {C : α → Prop} {R : β → ReadState → Prop} (h : Calmly P r (Keeping D C))
    (h' : ∀ a, C a → Calmly (CalmState D) (f a) R) : Calmly P (r >>= f) R :=
  h.seq fun a st hst => h' a hst.1 st hst.2

theorem Calmly.pure {a : α} {C : α → Prop} (h : C a) : Calmly (CalmState D) (Pure.pure a : Reader α) (Keeping D C) :=
  fun _ hP => ⟨.ok, fun _ _ e => by cases e; exact ⟨h, hP⟩⟩

theorem Calmly.fail {e : PFault} (h : e ≠ .panic) {Q : α → ReadState → Prop} : Calmly P (Reader.fail e : Reader α) Q :=
  fun _ _ => ⟨fun e' => h (by cases e'; rfl), fun _ _ e => by cases e⟩

theorem Calmly.lift {x : PRes α} {C : α → Prop} (h : NoPanic x) (h' : ∀ a, x = .ok a → C a) :
    Calmly (CalmState D) (Reader.lift x) (Keeping D C) := by
  intro st hP
  unfold Reader.lift
  split
  · exact ⟨.ok, fun _ _ e => by cases e; exact ⟨h' _ rfl, hP⟩⟩
  · exact ⟨fun e => h (by cases e; rfl), fun _ _ e => by cases e⟩

theorem Calmly.mono {r : Reader α} {Q R : α → ReadState → Prop} (h : Calmly P r Q) (h' : ∀ a st, Q a st → R a st) : Calmly P r R :=
  fun st hP => ⟨(h st hP).1, fun a st' e => h' a st' ((h st hP).2 a st' e)⟩

theorem Calmly.pre {P' : ReadState → Prop} {r : Reader α} {Q : α → ReadState → Prop} (h : Calmly P r Q) (h' : ∀ st, P' st → P st) : Calmly P' r Q :=
  fun st hP => h st (h' st hP)

theorem Calmly.ite {c : Prop} [Decidable c] {r r' : Reader α} {Q : α → ReadState → Prop} (h : c → Calmly P r Q) (h' : ¬ c → Calmly P r' Q) :
    Calmly P (if c then r else r') Q := by
  split
  · next hc => exact h hc
  · next hc => exact h' hc

theorem Calmly.nonEmpty {as : List α} : Calmly (CalmState D) (nonEmpty as) (Keeping D fun as' => as' = as ∧ as ≠ []) := by
  unfold Carcara.nonEmpty
  refine .ite (fun _ => .fail (by simp)) fun h => .pure ⟨rfl, ?_⟩
  simpa using h

theorem CalmTokens.suffix {ts us : List Token} (h : CalmTokens ts) (hs : us <:+ ts) : CalmTokens us :=
  ⟨fun t ht => h.1 t (hs.subset ht), fun rest hr => h.2 rest (hr.trans hs)⟩

theorem CalmState.move {st : ReadState} (h : CalmState D st) {us : List Token} (hs : us <:+ st.toks) : CalmState D { st with toks := us } :=
  ⟨h.tokens.suffix hs, h.defs, h.known⟩

/-- What the current token tells about what is read next. -/
def Ahead (D : List String) (t : Token) (st : ReadState) : Prop := CalmState D st ∧ st.toks.headD .eof = t

/-- What the last token tells. -/
def Behind (D : List String) (t : Token) (st : ReadState) : Prop :=
  CalmState D st ∧ (t = .reserved .underscore → CalmIndex st.toks) ∧ t ≠ .symbol "@d" ∧ t ≠ .symbol "@bv" ∧ t ≠ .symbol "eo"

theorem behind {st : ReadState} (h : CalmState D st) : Behind D (st.toks.headD .eof) { st with toks := st.toks.tail } := by
  refine ⟨h.move (List.tail_suffix _), ?_⟩
  rcases ht : st.toks with _ | ⟨t, ts⟩
  · refine ⟨fun h => ?_, ?_, ?_, ?_⟩ <;> simp at *
  · refine ⟨fun e => h.tokens.2 _ ?_, h.tokens.1 t ?_⟩
    · rw [ht]
      rw [show t = Token.reserved Reserved.underscore from e]
      exact List.suffix_refl _
    · rw [ht]
      simp

theorem Calmly.next : Calmly (CalmState D) Reader.next (Behind D) := fun st h =>
  ⟨.ok, fun a st' e => by cases e; exact behind h⟩

theorem Calmly.next' {t : Token} : Calmly (Ahead D t) Reader.next fun _ => Behind D t := fun st h =>
  ⟨.ok, fun a st' e => by
    cases e
    have := behind h.1
    rwa [h.2] at this⟩

theorem Calmly.skip : Calmly (CalmState D) Reader.next (Keeping D fun _ => True) := Calmly.next.mono fun _ _ h => ⟨trivial, h.1⟩

theorem Calmly.current : Calmly (CalmState D) Reader.current (Ahead D) := fun st h =>
  ⟨.ok, fun a st' e => by cases e; exact ⟨h, rfl⟩⟩

theorem Calmly.peek : Calmly (CalmState D) Reader.current (Keeping D fun _ => True) := Calmly.current.mono fun _ _ h => ⟨trivial, h.1⟩

theorem Calmly.expect {t : Token} : Calmly (CalmState D) (expect t) (Keeping D fun _ => True) :=
  .bind .skip fun _ _ => .ite (fun _ => .pure trivial) fun _ => .fail (by simp)

theorem Calmly.expectSymbol : Calmly (CalmState D) expectSymbol (Keeping D fun _ => True) :=
  .bind .skip fun a _ => by cases a <;> first | exact .fail (by simp) | exact .pure trivial

theorem Calmly.expectKeyword : Calmly (CalmState D) expectKeyword (Keeping D fun _ => True) :=
  .bind .skip fun a _ => by cases a <;> first | exact .fail (by simp) | exact .pure trivial

theorem skipClose_calm : ∀ (d : Nat) (ts : List Token), NoPanic (skipClose d ts) ∧ ∀ us, skipClose d ts = .ok us → us <:+ ts := by
  intro d ts
  induction ts generalizing d with
  | nil => exact ⟨by simp [skipClose, NoPanic], fun us e => by simp [skipClose] at e⟩
  | cons t ts ih =>
    have step : ∀ d, NoPanic (skipClose d ts) ∧ ∀ us, skipClose d ts = .ok us → us <:+ t :: ts := fun d =>
      ⟨(ih d).1, fun us e => ((ih d).2 us e).trans (List.suffix_cons _ _)⟩
    cases t
    case eof => exact ⟨by simp [skipClose, NoPanic], fun us e => by simp [skipClose] at e⟩
    case closeParen =>
      cases d with
      | zero =>
        simp only [skipClose]
        exact ⟨.ok, fun us e => by cases e; exact List.suffix_cons _ _⟩
      | succ d =>
        simp only [skipClose]
        exact step d
    all_goals
      simp only [skipClose]
      exact step _

theorem Calmly.ignoreUntilClose : Calmly (CalmState D) ignoreUntilClose (Keeping D fun _ => True) := by
  intro st h
  obtain ⟨h1, h2⟩ := skipClose_calm 0 st.toks
  unfold Carcara.ignoreUntilClose
  split
  · next ts e => exact ⟨.ok, fun _ _ e' => by cases e'; exact ⟨trivial, h.move (h2 _ e)⟩⟩
  · next e' e =>
    rw [e] at h1
    exact ⟨fun e => h1 (by cases e; rfl), fun _ _ e => by cases e⟩

theorem Calmly.define {s : String} {t : Term} (h : Calm t) : Calmly (CalmState D) (define s ⟨[], t⟩) (Keeping D fun _ => True) := by
  intro st hst
  refine ⟨.ok, fun _ st' e => ?_⟩
  cases e
  refine ⟨trivial, hst.tokens, fun p hp => ?_, fun s' hs' => ?_⟩
  · rcases mem_mapInsert_cases hp with rfl | hp
    · exact ⟨rfl, h⟩
    · exact hst.defs p hp
  · exact lookup_mapInsert_isSome (hst.known s' hs')

theorem Calmly.parseAttribute {t : Term} (h : Calm t) : Calmly (CalmState D) (parseAttribute t) (Keeping D fun _ => True) := by
  refine .bind .expectKeyword fun a _ => .ite (fun _ => .bind .expectSymbol fun s _ => .define h) fun _ => .bind .peek fun c _ => ?_
  cases c
  all_goals first
    | exact .pure trivial
    | exact .bind .skip fun _ _ => .ignoreUntilClose
    | exact .bind .skip fun _ _ => .pure trivial

theorem Calmly.parseAttributes {t : Term} (h : Calm t) : ∀ n, Calmly (CalmState D) (parseAttributes t n) (Keeping D fun _ => True)
  | 0 => .fail (by simp)
  | n + 1 => .bind .peek fun _ _ => .ite (fun _ => .bind .skip fun _ _ => .pure trivial) fun _ =>
      .bind (.parseAttribute h) fun _ _ => .bind (Calmly.parseAttributes h n) fun _ _ => .pure trivial

end

/-! ## Indices -/

/-- A number that is read as a term. -/
def PEnv.number (E : PEnv) (z : Int) : Term := .const (if E.intsAsReals then .real z else .int z)

theorem reader_bind_error {α β : Type} {r : Reader α} {f : α → Reader β} {e : PFault} {st : ReadState} (h : r st = .error e) :
    (r >>= f) st = .error e := by
  change (match r st with | .ok (a, st) => f a st | .error e => .error e) = _
  rw [h]

theorem parseTerms_numbers (E : PEnv) (F : List (String × FunDef)) (rest : List Token) : ∀ (zs : List Int) (n : Nat),
    parseTerms n E ⟨zs.map Token.numeral ++ .closeParen :: rest, F⟩ = .ok (zs.map E.number, ⟨rest, F⟩) ∨
      parseTerms n E ⟨zs.map Token.numeral ++ .closeParen :: rest, F⟩ = .error .fuel
  | _, 0 => .inr rfl
  | [], n + 1 => .inl rfl
  | z :: zs, 1 => .inr rfl
  | z :: zs, n + 2 => by
    have e : ∀ ts, parseTerm (n + 1) E ⟨.numeral z :: ts, F⟩ = .ok (E.number z, ⟨ts, F⟩) := fun ts => by
      rw [parseTerm, reader_bind next_cons]
      rfl
    simp only [List.map_cons, List.cons_append]
    rcases parseTerms_numbers E F rest zs (n + 1) with h | h
    · exact .inl (parseTerms_cons (by simp) (e _) h)
    · refine .inr ?_
      rw [parseTerms, reader_bind current_cons, if_neg (by simp), reader_bind (e _)]
      exact reader_bind_error h

theorem constantArgs_numbers (E : PEnv) {zs : List Int} {ts : List Term} (h : constantArgs (zs.map E.number) = .ok ts) :
    ts = zs.map fun z => .const (.int z) := by
  induction zs generalizing ts with
  | nil => cases h; rfl
  | cons z zs ih =>
    simp only [List.map_cons, constantArgs, pbind_ok, getErr_ok, Except.ok.injEq] at h
    obtain ⟨y, hy, us, hus, rfl⟩ := h
    cases ih hus
    unfold PEnv.number at hy
    split at hy
    · cases hy
    · cases hy
      rfl

theorem indexedHead_calm {s : String} (hr : s ≠ "repeat") (h : ∀ cs, s.toList = 'b' :: 'v' :: cs → cs ≠ [] ∧ cs.all Char.isDigit = true) :
    NoPanic (indexedHead s) ∧ ∀ o vs, indexedHead s = .ok (o, vs) → o ≠ .repeat ∧ ((o = .bvConst ∧ ∃ z, vs = [.const (.int z)]) ∨
      (o ≠ .bvConst ∧ vs = [])) := by
  unfold indexedHead
  split
  · next cs e =>
    obtain ⟨h1, h2⟩ := h cs e
    rw [parseBvValue, if_pos ⟨h1, h2⟩]
    refine ⟨.ok, fun o vs e => ?_⟩
    cases e
    exact ⟨by simp, .inl ⟨rfl, _, rfl⟩⟩
  · next hn =>
    refine ⟨.bind .getErr fun _ _ => .ok, fun o vs e => ?_⟩
    simp only [pbind_ok, getErr_ok, Except.ok.injEq, Prod.mk.injEq] at e
    obtain ⟨o', e, rfl, rfl⟩ := e
    have e := ParamOp.name_of_ofName e
    refine ⟨fun h => hr ?_, .inr ⟨fun h => ?_, rfl⟩⟩
    · rw [← e, h]
      rfl
    · subst h
      subst e
      exact hn [] rfl

theorem Calmly.parseIndexed {E : PEnv} {D : List String} : ∀ n, Calmly (fun st => CalmState D st ∧ CalmIndex st.toks) (parseIndexed n E)
    (Keeping D fun p => CalmOp p.1 p.2)
  | 0 => .fail (by simp)
  | n + 1 => by
    rintro ⟨ts, F⟩ ⟨hst, s, zs, rest, rfl, hr, hz, hs⟩
    obtain ⟨h1, h2⟩ := indexedHead_calm hr hs
    have e : Carcara.parseIndexed (n + 1) E ⟨.symbol s :: (zs.map Token.numeral ++ .closeParen :: rest), F⟩ =
        (do
          let (o, vs) ← Reader.lift (indexedHead s)
          let ts ← parseTerms n E
          let ts ← Carcara.nonEmpty ts
          let zs ← Reader.lift (constantArgs ts)
          Pure.pure (o, vs ++ zs) : Reader _) (ReadState.mk (zs.map Token.numeral ++ .closeParen :: rest) F) := rfl
    have hrest : CalmState D ⟨rest, F⟩ := hst.move (us := rest) ⟨.symbol s :: (zs.map Token.numeral ++ [.closeParen]), by simp⟩
    have hmid : CalmState D ⟨zs.map Token.numeral ++ .closeParen :: rest, F⟩ := hst.move (List.suffix_cons _ _)
    rw [e]
    clear e
    refine Calmly.seq (P := fun st => st = ReadState.mk (zs.map Token.numeral ++ .closeParen :: rest) F)
      (Q := fun p st => (p.1 ≠ .repeat ∧ ((p.1 = .bvConst ∧ ∃ z, p.2 = [.const (.int z)]) ∨ (p.1 ≠ .bvConst ∧ p.2 = []))) ∧
        st = ReadState.mk (zs.map Token.numeral ++ .closeParen :: rest) F) ?_ (fun p => ?_) _ rfl
    · rintro _ rfl
      unfold Reader.lift
      split
      · next p e => exact ⟨.ok, fun _ _ e' => by cases e'; exact ⟨h2 _ _ e, rfl⟩⟩
      · next e =>
        rw [e] at h1
        exact ⟨fun e => h1 (by cases e; rfl), fun _ _ e => by cases e⟩
    · obtain ⟨o, vs⟩ := p
      refine Calmly.bind (D := D) (C := fun ts => ts = zs.map E.number ∧ o ≠ .repeat ∧ ((o = .bvConst ∧ ∃ z, vs = [.const (.int z)]) ∨
        (o ≠ .bvConst ∧ vs = []))) ?_ fun ts hts => .bind .nonEmpty fun ts' h => .bind (.lift .constantArgs fun us h => h) fun us hus => .pure ?_
      · rintro _ ⟨h, rfl⟩
        rcases parseTerms_numbers E F rest zs n with e | e <;> rw [e]
        · exact ⟨.ok, fun _ _ e => by cases e; exact ⟨⟨rfl, h⟩, hrest⟩⟩
        · exact ⟨.fuel, fun _ _ e => by cases e⟩
      · obtain ⟨rfl, h1, h2⟩ := hts
        obtain ⟨rfl, _⟩ := h
        cases constantArgs_numbers E hus
        refine ⟨h1, fun p hp => ?_, fun z hz' => ?_⟩
        · rcases List.mem_append.1 hp with hp | hp
          · rcases h2 with ⟨_, z, rfl⟩ | ⟨_, rfl⟩
            · exact ⟨z, List.mem_singleton.1 hp⟩
            · cases hp
          · obtain ⟨z, _, rfl⟩ := List.mem_map.1 hp
            exact ⟨z, rfl⟩
        · have : Term.const (.int z) ∈ zs.map fun z => Term.const (.int z) := by
            rcases h2 with ⟨rfl, z, rfl⟩ | ⟨hb, rfl⟩
            · exact hz'
            · rwa [if_neg hb] at hz'
          obtain ⟨y, hy, e⟩ := List.mem_map.1 this
          cases e
          exact hz _ hy

theorem Calmly.indexedSort {E : PEnv} {D : List String} (n : Nat) : Calmly (fun st => CalmState D st ∧ CalmIndex st.toks) (do
      let name ← Reader.expectSymbol
      let args ← parseTerms n E
      let args ← Carcara.nonEmpty args
      Reader.lift (makeIndexedSort name args)) (Keeping D fun _ => True) := by
  rintro ⟨ts, F⟩ ⟨hst, s, zs, rest, rfl, _, hz, _⟩
  have e : (do
      let name ← Reader.expectSymbol
      let args ← parseTerms n E
      let args ← Carcara.nonEmpty args
      Reader.lift (makeIndexedSort name args) : Reader _) (ReadState.mk (.symbol s :: (zs.map Token.numeral ++ .closeParen :: rest)) F) =
      (do
        let args ← parseTerms n E
        let args ← Carcara.nonEmpty args
        Reader.lift (makeIndexedSort s args) : Reader _) (ReadState.mk (zs.map Token.numeral ++ .closeParen :: rest) F) := rfl
  have hrest : CalmState D ⟨rest, F⟩ := hst.move (us := rest) ⟨.symbol s :: (zs.map Token.numeral ++ [.closeParen]), by simp⟩
  rw [e]
  clear e
  refine Calmly.bind (P := fun st => st = ReadState.mk (zs.map Token.numeral ++ .closeParen :: rest) F) (D := D)
    (C := fun ts => ts = zs.map E.number) ?_ (fun ts hts => .bind .nonEmpty fun ts' h => .lift ?_ fun _ _ => trivial) _ rfl
  · rintro _ rfl
    rcases parseTerms_numbers E F rest zs n with e | e <;> rw [e]
    · exact ⟨.ok, fun _ _ e => by cases e; exact ⟨rfl, hrest⟩⟩
    · exact ⟨.fuel, fun _ _ e => by cases e⟩
  · obtain ⟨rfl, _⟩ := h
    subst hts
    unfold makeIndexedSort
    split
    · split
      · next a e =>
        obtain ⟨z, hz', rfl⟩ := List.mem_map.1 (show a ∈ zs.map E.number by rw [e]; simp)
        split
        · next w hw =>
          unfold PEnv.number at hw
          split at hw
          · cases hw
          · cases hw
            refine .bind ?_ fun _ _ => .ok
            rw [unwrapUsize, if_pos (hz _ hz')]
            exact .ok
        · exact .err
      · exact .err
    · exact .err

/-! ## All readers -/

/-- A configuration in which lets are kept and reals and integers are different. -/
def PEnv.plain (E : PEnv) : Prop := E.subtyping = false ∧ E.expandLets = false

/-- What holds of the functions that read terms when they are given `n` steps. -/
structure ReadsCalm (n : Nat) : Prop where
  term : ∀ E : PEnv, E.plain → ∀ D, Calmly (CalmState D) (parseTerm n E) (Keeping D Calm)
  terms : ∀ E : PEnv, E.plain → ∀ D, Calmly (CalmState D) (parseTerms n E) (Keeping D fun ts => ∀ t ∈ ts, Calm t)
  sorted : ∀ E : PEnv, E.plain → ∀ s D, Calmly (CalmState D) (parseSorted n E s) (Keeping D fun t => Calm t ∧ sortOf t = some s)
  sortedVar : ∀ E : PEnv, E.plain → ∀ D, Calmly (CalmState D) (parseSortedVar n E) (Keeping D fun _ => True)
  sortedVars : ∀ E : PEnv, E.plain → ∀ D, Calmly (CalmState D) (parseSortedVars n E) (Keeping D fun _ => True)
  binder : ∀ E : PEnv, E.plain → ∀ b D, Calmly (CalmState D) (parseBinder n E b) (Keeping D Calm)
  bindings : ∀ E : PEnv, E.plain → ∀ D, Calmly (CalmState D) (parseBindings n E) (Keeping D fun bs => ∀ b ∈ bs, Calm b.2)
  let_ : ∀ E : PEnv, E.plain → ∀ D, Calmly (CalmState D) (parseLet n E false) (Keeping D Calm)
  annotated : ∀ E : PEnv, E.plain → ∀ D, Calmly (CalmState D) (parseAnnotated n E) (Keeping D Calm)
  application : ∀ E : PEnv, E.plain → ∀ D, Calmly (CalmState D) (parseApplication n E) (Keeping D Calm)
  sort : ∀ E : PEnv, E.plain → ∀ D, Calmly (CalmState D) (parseSort n E) (Keeping D fun _ => True)
  sorts : ∀ E : PEnv, E.plain → ∀ D, Calmly (CalmState D) (parseSorts n E) (Keeping D fun _ => True)

theorem Calmly.definition {s : String} {D : List String} : Calmly (CalmState D) (definition s)
    fun f st => CalmState (if f.isSome then s :: D else D) st ∧ ∀ d, f = some d → d.params = [] ∧ Calm d.body := by
  intro st hst
  refine ⟨.ok, fun f st' e => ?_⟩
  cases e
  refine ⟨⟨hst.tokens, hst.defs, fun s' hs' => ?_⟩, fun d hd => hst.defs _ (mem_of_lookup_eq hd)⟩
  split at hs'
  · next h =>
    rcases List.mem_cons.1 hs' with rfl | hs'
    · exact Option.isSome_iff_exists.1 h
    · exact hst.known s' hs'
  · exact hst.known s' hs'

theorem not_delete {s : String} {o : Op} (h : Op.ofName s = some o) (hs : s ≠ "@d") : o ≠ .delete := by
  rintro rfl
  exact hs (Op.name_of_ofName h).symm

theorem not_bvConst {s : String} {o : Op} (h : Op.ofName s = some o) (hs : s ≠ "@bv") : o ≠ .bvConst := by
  rintro rfl
  exact hs (Op.name_of_ofName h).symm

theorem readsCalm : ∀ n, ReadsCalm n
  | 0 => by constructor <;> intros <;> exact .fail (by simp)
  | n + 1 => by
    have ih := readsCalm n
    have args : ∀ E : PEnv, E.plain → ∀ D, ∀ {f : Term}, Calm f → Calmly (CalmState D) (do
        let args ← parseTerms n E
        let args ← nonEmpty args
        Reader.lift (makeApp f args)) (Keeping D Calm) := fun E hE D f hf =>
      .bind (ih.terms E hE D) fun as has => .bind .nonEmpty fun as' h' => by
        obtain ⟨rfl, _⟩ := h'
        exact .lift (makeApp_calm hf has).1 (makeApp_calm hf has).2
    constructor
    case term =>
      intro E hE D
      refine .seq .next fun a => ?_
      cases a
      case symbol s =>
        rintro st ⟨hst, -, h1, h2, h3⟩
        refine Calmly.seq .definition (fun d => ?_) st hst
        cases d with
        | some f =>
          rintro st ⟨hst, hd⟩
          obtain ⟨h1, h2⟩ := hd f rfl
          exact Calmly.lift (apply_calm h1 h2 []).1 (apply_calm h1 h2 []).2 st ⟨hst.tokens, hst.defs, fun s hs => hst.known s (by simp [hs])⟩
        | none =>
          refine Calmly.pre (P := CalmState D) ?_ fun st h => h.1
          simp only
          split
          · next o ho =>
            have := makeOp_calm hE.1 (not_delete ho (by simpa using h1)) (not_bvConst ho (by simpa using h2)) (as := []) (by simp)
            exact .lift this.1 this.2
          · exact .lift makeVar_calm.1 makeVar_calm.2
      case openParen => exact (ih.application E hE D).pre fun st h => h.1
      all_goals first | exact .fail (by simp) | exact (Calmly.pure (calm_const _)).pre fun st h => h.1
    case terms =>
      intro E hE D
      exact .bind .peek fun _ _ => .ite (fun _ => .bind .skip fun _ _ => .pure (by simp)) fun _ =>
        .bind (ih.term E hE D) fun _ h => .bind (ih.terms E hE D) fun _ hs => .pure fun t ht => by
          rcases List.mem_cons.1 ht with rfl | ht
          · exact h
          · exact hs t ht
    case sorted =>
      intro E hE s D
      refine .bind (ih.term E hE D) fun t ht => .bind (C := fun _ => sortOf t = some s) (.lift ?_ fun _ h => ?_) fun _ h => .pure ⟨ht, h⟩
      · exact .bind (.poolSort ht) fun _ _ => .need
      · obtain ⟨_, s', h1, h2⟩ := ht
        simp only [pbind_ok] at h
        obtain ⟨p, hp, h⟩ := h
        rw [h2] at hp
        cases hp
        rw [assertSort_known] at h
        rw [h1, h]
    case sortedVar =>
      intro E hE D
      exact .bind .expect fun _ _ => .bind .expectSymbol fun _ _ => .bind (ih.sort E hE D) fun _ _ => .bind .expect fun _ _ => .pure trivial
    case sortedVars =>
      intro E hE D
      exact .bind .peek fun _ _ => .ite (fun _ => .bind .skip fun _ _ => .pure trivial) fun _ =>
        .bind (ih.sortedVar E hE D) fun b _ => .bind (ih.sortedVars (E.bind [b]) hE D) fun _ hs => .pure trivial
    case binder =>
      intro E hE b D
      refine .bind .expect fun _ _ => .bind (D := D) (C := fun bs => if b = .choice then ∃ v, bs = [v] else bs ≠ []) ?_ fun bs hbs => ?_
      · refine .ite (fun hb => ?_) fun hb => ?_
        · simp only [if_pos hb]
          exact .bind (ih.sortedVar E hE D) fun v _ => .bind .expect fun _ _ => .pure ⟨v, rfl⟩
        · simp only [if_neg hb]
          exact .bind (ih.sortedVars E hE D) fun bs _ => Calmly.nonEmpty.mono fun as st h => ⟨by rw [h.1.1]; exact h.1.2, h.2⟩
      · refine .bind (D := D) (C := fun t => Calm t ∧ (b ≠ .lambda → sortOf t = some .bool)) ?_ fun t ht => ?_
        · refine .ite (fun hb => ?_) fun hb => ?_
          · exact (ih.term (E.bind bs) hE D).mono fun t st h => ⟨⟨h.1, fun h => absurd hb h⟩, h.2⟩
          · exact (ih.sorted (E.bind bs) hE _ D).mono fun t st h => ⟨⟨h.1.1, fun _ => h.1.2⟩, h.2⟩
        · refine .bind .expect fun _ _ => .pure ?_
          obtain ⟨⟨hw, s, h1, h2⟩, h3⟩ := ht
          refine ⟨plainWidths_of_binder hw, ?_⟩
          cases b
          case choice =>
            obtain ⟨⟨x, s⟩, rfl⟩ := hbs
            exact ⟨s, by simp [sortOf, h3 (by simp)], rfl⟩
          case lambda =>
            cases bs with
            | nil => exact absurd rfl hbs
            | cons v bs =>
              refine ⟨.fn ((v :: bs).map (·.2)) s, by simp [sortOf, h1], ?_⟩
              simp only [poolSort, pbind_ok]
              exact ⟨_, h2, rfl⟩
          all_goals
            cases bs with
            | nil => exact absurd rfl hbs
            | cons v bs => exact ⟨.bool, by simp [sortOf, h3 (by simp)], rfl⟩
    case bindings =>
      intro E hE D
      refine .bind .peek fun _ _ => .ite (fun _ => .bind .skip fun _ _ => .pure (by simp)) fun _ =>
        .bind .expect fun _ _ => .bind .expectSymbol fun x _ => .bind (ih.term E hE D) fun t ht => .bind .expect fun _ _ =>
        .bind (ih.bindings E hE D) fun bs hbs => .pure fun b hb => ?_
      rcases List.mem_cons.1 hb with rfl | hb
      · exact ht
      · exact hbs b hb
    case let_ =>
      intro E hE D
      refine .bind .expect fun _ _ => .bind (ih.bindings E hE D) fun bs hbs => .bind .nonEmpty fun bs' h => ?_
      obtain ⟨rfl, _⟩ := h
      refine .bind (C := fun _ => True) (.lift (letVars_calm hbs) fun _ _ => trivial) fun vs _ => .bind (ih.term (E.bind vs) hE D) fun t ht =>
        .bind .expect fun _ _ => .ite (fun h => (by cases h)) fun _ => .pure ?_
      obtain ⟨hw, s, h1, h2⟩ := ht
      refine ⟨plainWidths_of_let (fun b hb => (hbs b hb).plain) hw, s, ?_, h2⟩
      rw [sortOf, if_pos (sortOfB_of_mem fun b hb => (hbs b hb).sorted (hbs b hb).plain)]
      exact h1
    case annotated =>
      intro E hE D
      exact .bind (ih.term E hE D) fun t ht => .bind (.parseAttributes ht n) fun us _ => .bind .nonEmpty fun _ _ => .pure ht
    case application =>
      intro E hE D
      refine .seq .current fun c => ?_
      cases c
      case reserved r =>
        refine .seq .next' fun _ => ?_
        cases r
        case underscore =>
          refine .bind (D := D) ((Calmly.parseIndexed n).pre fun st h => ⟨h.1, h.2.1 rfl⟩) fun p hp => ?_
          obtain ⟨o, ps⟩ := p
          exact .lift (.makeIndexedOp hp (by simp)) fun t h => makeIndexedOp_calm hp (by simp) h
        case cl =>
          exact Calmly.pre (P := CalmState D) (.bind (ih.terms E hE D) fun as has =>
            .lift (makeOp_calm hE.1 (by simp) (by simp) has).1 (makeOp_calm hE.1 (by simp) (by simp) has).2) fun st h => h.1
        case bang => exact (ih.annotated E hE D).pre fun st h => h.1
        case «let» =>
          simp only [hE.2]
          exact (ih.let_ E hE D).pre fun st h => h.1
        all_goals first | exact .fail (by simp) | exact (ih.binder E hE _ D).pre fun st h => h.1
      case symbol s =>
        rintro st ⟨hst, hs⟩
        have hs' : s ≠ "@d" ∧ s ≠ "@bv" ∧ s ≠ "eo" := by
          have := (behind hst).2.2
          rw [hs] at this
          simpa using this
        refine (?_ : Calmly (CalmState D) _ _) st hst
        simp only
        split
        · next o ho =>
          exact .bind .skip fun _ _ => .bind (ih.terms E hE D) fun as has => .bind .nonEmpty fun as' h' => by
            obtain ⟨rfl, _⟩ := h'
            have := makeOp_calm hE.1 (not_delete ho hs'.1) (not_bvConst ho hs'.2.1) has
            exact .lift this.1 this.2
        · refine .ite (fun h => absurd h hs'.2.2) fun _ => .seq .definition fun d => ?_
          cases d with
          | some f =>
            refine Calmly.pre (P := CalmState (s :: D)) ?_ fun st h => h.1
            refine Calmly.mono (Q := Keeping (s :: D) Calm) ?_ fun t st h => ⟨h.1, h.2.tokens, h.2.defs, fun s' hs => h.2.known s' (by simp [hs])⟩
            refine .bind .skip fun _ _ => .bind (ih.terms E hE (s :: D)) fun as has => .bind .nonEmpty fun as' h' => ?_
            refine .bind (D := s :: D) (C := fun f => ∃ g : FunDef, f = some g ∧ g.params = [] ∧ Calm g.body) ?_ fun g hg => ?_
            · intro st hst
              refine ⟨.ok, fun f st' e => ?_⟩
              cases e
              obtain ⟨g, hg⟩ := hst.known s (by simp)
              exact ⟨⟨g, hg, hst.defs _ (mem_of_lookup_eq hg)⟩, hst⟩
            · obtain ⟨g, rfl, h1, h2⟩ := hg
              exact .lift (apply_calm h1 h2 as').1 (apply_calm h1 h2 as').2
          | none => exact Calmly.pre (P := CalmState D) (.bind (ih.term E hE D) fun f hf => args E hE D hf) fun st h => h.1
      case openParen =>
        refine Calmly.pre (P := CalmState D) ?_ fun st h => h.1
        refine .bind .skip fun _ _ => .seq .current fun c => ?_
        have other : Calmly (CalmState D) (do
            let f ← parseApplication n E
            let args ← parseTerms n E
            let args ← nonEmpty args
            Reader.lift (makeApp f args)) (Keeping D Calm) := .bind (ih.application E hE D) fun f hf => args E hE D hf
        have other := other.pre (P' := Ahead D c) fun st h => h.1
        cases c
        case reserved r =>
          cases r
          case underscore =>
            refine .seq .next' fun _ => .bind (D := D) ((Calmly.parseIndexed n).pre fun st h => ⟨h.1, h.2.1 rfl⟩) fun p hp => ?_
            obtain ⟨o, ps⟩ := p
            exact .bind (ih.terms E hE D) fun as has => .bind .nonEmpty fun as' h' => by
              obtain ⟨rfl, _⟩ := h'
              exact .lift (.makeIndexedOp hp has) fun t h => makeIndexedOp_calm hp has h
          all_goals first | exact .fail (by simp) | exact other
        all_goals exact other
      all_goals exact Calmly.pre (P := CalmState D) (.bind (ih.term E hE D) fun f hf => args E hE D hf) fun st h => h.1
    case sort =>
      intro E hE D
      refine .bind .skip fun c _ => ?_
      cases c
      case symbol s => exact .lift .makeSort fun _ _ => trivial
      case openParen =>
        refine .seq .current fun c => .ite (fun hc => ?_) fun _ => Calmly.pre (P := CalmState D) (.bind .expectSymbol fun _ _ => .bind (ih.sorts E hE D) fun _ _ =>
          .bind .nonEmpty fun _ _ => .lift .makeSort fun _ _ => trivial) fun st h => h.1
        subst hc
        exact .seq .next' fun _ => (Calmly.indexedSort n).pre fun st h => ⟨h.1, h.2.1 rfl⟩
      all_goals exact .fail (by simp)
    case sorts =>
      intro E hE D
      exact .bind .peek fun _ _ => .ite (fun _ => .bind .skip fun _ _ => .pure trivial) fun _ =>
        .bind (ih.sort E hE D) fun _ _ => .bind (ih.sorts E hE D) fun _ hs => .pure trivial

theorem Calmly.parseLiterals {E : PEnv} (hE : E.plain) {D : List String} : ∀ n, Calmly (CalmState D) (parseLiterals n E) (Keeping D fun _ => True)
  | 0 => .fail (by simp)
  | n + 1 => .bind .peek fun _ _ => .ite (fun _ => .bind .skip fun _ _ => .pure trivial) fun _ =>
      .bind ((readsCalm n).sorted E hE _ D) fun t ht => .bind (Calmly.parseLiterals hE n) fun ts hts => .pure trivial

end Carcara
