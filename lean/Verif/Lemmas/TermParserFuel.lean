import Verif.Lemmas.TermParser

/-!
# The step counter of the parser of terms

More steps do not change a result, and twice as many steps as there are tokens suffice.
-/

namespace Carcara
open PRes Reader

/-! ## Functions without a counter -/

/-- A result that is not that of running out of steps. -/
def NoFuel {α : Type} (x : PRes α) : Prop := x ≠ .error .fuel

section
variable {α β : Type}

theorem NoFuel.ok {a : α} : NoFuel (.ok a : PRes α) := by simp [NoFuel]
theorem NoFuel.err : NoFuel (.error .err : PRes α) := by simp [NoFuel]
theorem NoFuel.panic : NoFuel (.error .panic : PRes α) := by simp [NoFuel]
theorem NoFuel.unmodelled : NoFuel (.error .unmodelled : PRes α) := by simp [NoFuel]

theorem NoFuel.bind {x : PRes α} {f : α → PRes β} (h : NoFuel x) (h' : ∀ a, x = .ok a → NoFuel (f a)) : NoFuel (x >>= f) := by
  cases x with
  | ok a => exact h' a rfl
  | error e => exact fun e' => h (by simpa [Bind.bind, Except.bind] using e')

theorem NoFuel.need {p : Prop} [Decidable p] : NoFuel (need p) := by
  unfold PRes.need
  split
  · exact .ok
  · exact .err

theorem NoFuel.getErr {o : Option α} : NoFuel (getErr o) := by cases o <;> simp [NoFuel, PRes.getErr]
theorem NoFuel.getPanic {o : Option α} : NoFuel (getPanic o) := by cases o <;> simp [NoFuel, PRes.getPanic]
theorem NoFuel.ofRes {x : Res α} : NoFuel (ofRes x) := by rcases x with (_ | _) | _ <;> simp [NoFuel, PRes.ofRes]

theorem NoFuel.all : ∀ {xs : List (PRes α)}, (∀ x ∈ xs, NoFuel x) → NoFuel (all xs)
  | [], _ => .ok
  | x :: xs, h => .bind (h x (by simp)) fun _ _ => .bind (NoFuel.all fun y hy => h y (by simp [hy])) fun _ _ => .ok

theorem NoFuel.unwrapUsize {z : Int} : NoFuel (unwrapUsize z) := by
  unfold Carcara.unwrapUsize
  split
  · exact .ok
  · exact .panic

end

/-- Closes goals about results that are composed of the functions above. -/
macro "no_fuel" : tactic => `(tactic| repeat' first
  | assumption | exact .ok | exact .err | exact .panic | exact .unmodelled | exact .need | exact .getErr | exact .getPanic | exact .ofRes
  | exact .unwrapUsize | (refine NoFuel.bind ?_ fun _ _ => ?_) | split)

theorem NoFuel.argSort {ss : List (PRes PSrt)} (h : ∀ s ∈ ss, NoFuel s) (i : Nat) : NoFuel (argSort ss i) := by
  refine .bind .getPanic fun x hx => h x ?_
  rw [getPanic_ok] at hx
  exact List.mem_of_getElem? hx

theorem NoFuel.anyReal : ∀ {ss : List (PRes PSrt)}, (∀ s ∈ ss, NoFuel s) → NoFuel (anyReal ss)
  | [], _ => .ok
  | s :: ss, h => by
    have := NoFuel.anyReal fun x hx => h x (List.mem_cons_of_mem _ hx)
    have := h s (by simp)
    unfold Carcara.anyReal
    no_fuel

theorem NoFuel.concatWidth : ∀ {ss : List (PRes PSrt)}, (∀ s ∈ ss, NoFuel s) → NoFuel (concatWidth ss)
  | [], _ => .ok
  | s :: ss, h => by
    have := NoFuel.concatWidth fun x hx => h x (List.mem_cons_of_mem _ hx)
    have := h s (by simp)
    unfold Carcara.concatWidth
    no_fuel

theorem NoFuel.indexAt {ps : List Term} {i : Nat} : NoFuel (indexAt ps i) := .bind .getPanic fun _ _ => .getPanic

theorem NoFuel.opPoolSort {o : Op} {as : List Term} {ss : List (PRes PSrt)} (h : ∀ s ∈ ss, NoFuel s) : NoFuel (opPoolSort o as ss) := by
  have h1 := NoFuel.argSort h 0
  have h2 := NoFuel.argSort h 1
  have h3 := NoFuel.anyReal h
  have h4 := NoFuel.concatWidth h
  unfold Carcara.opPoolSort
  cases o <;> simp only <;> no_fuel

theorem NoFuel.popPoolSort {o : ParamOp} {ps : List Term} {ss : List (PRes PSrt)} (h : ∀ s ∈ ss, NoFuel s) : NoFuel (popPoolSort o ps ss) := by
  have h1 := NoFuel.argSort h 0
  have h2 := NoFuel.indexAt (ps := ps) (i := 0)
  have h3 := NoFuel.indexAt (ps := ps) (i := 1)
  unfold Carcara.popPoolSort
  cases o <;> simp only <;> no_fuel

theorem NoFuel.poolSort (t : Term) : NoFuel (poolSort t) := by
  have list : ∀ {as : List Term}, (∀ a ∈ as, NoFuel (Carcara.poolSort a)) → ∀ x ∈ poolSorts as, NoFuel x := by
    intro as h
    rw [poolSorts_eq]
    simpa using h
  induction t using Term.ind with
  | const c => exact .ok
  | var x s => exact .ok
  | app f as hf _ =>
    rw [Carcara.poolSort]
    no_fuel
  | op o as has => exact NoFuel.opPoolSort (list has)
  | binder b bs t ht =>
    cases b <;> (unfold Carcara.poolSort; no_fuel)
  | let_ bs t _ ht => exact ht
  | paramOp o ps as _ has => exact NoFuel.popPoolSort (list has)

theorem NoFuel.poolSorts (as : List Term) : NoFuel (PRes.all (poolSorts as)) := .all fun x hx => by
  rw [poolSorts_eq, List.mem_map] at hx
  obtain ⟨a, _, rfl⟩ := hx
  exact .poolSort a

theorem NoFuel.assertSort {s s' : PSrt} : NoFuel (assertSort s s') := .need

theorem NoFuel.assertSorts {s : PSrt} : ∀ {ss : List PSrt}, NoFuel (assertSorts s ss)
  | [] => .ok
  | _ :: _ => .bind .need fun _ _ => NoFuel.assertSorts

theorem NoFuel.assertAllEq : ∀ {ss : List PSrt}, NoFuel (assertAllEq ss)
  | [] | [_] => .ok
  | _ :: _ :: _ => .bind .need fun _ _ => NoFuel.assertAllEq

theorem NoFuel.assertNumeric {s : PSrt} : NoFuel (assertNumeric s) := .need

theorem NoFuel.assertNumerics : ∀ {ss : List PSrt}, NoFuel (assertNumerics ss)
  | [] => .ok
  | _ :: _ => .bind .need fun _ _ => NoFuel.assertNumerics

theorem NoFuel.assertArray {k v : Option PSrt} {s : PSrt} : NoFuel (assertArray k v s) := by
  unfold Carcara.assertArray
  no_fuel

theorem NoFuel.assertBvs : ∀ {ss : List PSrt}, NoFuel (assertBvs ss)
  | [] => .ok
  | _ :: _ => .bind .need fun _ _ => NoFuel.assertBvs

theorem NoFuel.checkOp {E : PEnv} {o : Op} {ss : List PSrt} : NoFuel (checkOp E o ss) := by
  have h1 : ∀ {s s' : PSrt}, NoFuel (Carcara.assertSort s s') := .need
  have h2 : ∀ {s}, NoFuel (Carcara.assertSorts s ss) := .assertSorts
  have h3 := NoFuel.assertAllEq (ss := ss)
  have h4 : ∀ {s : PSrt}, NoFuel (Carcara.assertNumeric s) := .need
  have h5 := NoFuel.assertNumerics (ss := ss)
  have h6 : ∀ {k v s}, NoFuel (Carcara.assertArray k v s) := .assertArray
  have h7 := NoFuel.assertBvs (ss := ss)
  unfold Carcara.checkOp
  cases o <;> simp only <;> repeat' first
    | exact .ok | exact .need | exact .getPanic | exact h1 | exact h2 | exact h3 | exact h4 | exact h5 | exact h6 | exact h7
    | (refine NoFuel.bind ?_ fun _ _ => ?_) | split

theorem NoFuel.makeOp {E : PEnv} {o : Op} {args : List Term} : NoFuel (makeOp E o args) :=
  .bind (.poolSorts args) fun _ _ => .bind .checkOp fun _ _ => by split <;> exact .ok

theorem NoFuel.assertParams : ∀ {ss : List Srt} {as : List Term}, NoFuel (assertParams ss as)
  | [], _ => .ok
  | _ :: _, [] => .ok
  | _ :: _, a :: _ => .bind (.poolSort a) fun _ _ => .bind .need fun _ _ => NoFuel.assertParams

theorem NoFuel.makeApp {f : Term} {as : List Term} : NoFuel (makeApp f as) := .bind (.poolSort f) fun _ _ => by
  split
  · exact .bind .need fun _ _ => .bind .assertParams fun _ _ => .ok
  · exact .err

theorem NoFuel.makeVar {E : PEnv} {x : String} : NoFuel (makeVar E x) := .bind .getErr fun _ _ => .ok

theorem NoFuel.assertIndices : ∀ {ps : List Term}, NoFuel (assertIndices ps)
  | [] => .ok
  | _ :: _ => .bind .need fun _ _ => NoFuel.assertIndices

theorem NoFuel.assertConstants : ∀ {ps : List Term}, NoFuel (assertConstants ps)
  | [] => .ok
  | p :: ps => by
    cases p with
    | const c => exact .bind .need fun _ _ => NoFuel.assertConstants
    | _ => exact .err

theorem NoFuel.assertKnownBv {s : PSrt} : NoFuel (assertKnownBv s) := by
  unfold Carcara.assertKnownBv
  no_fuel

theorem NoFuel.makeIndexedOp {o : ParamOp} {ps as : List Term} : NoFuel (makeIndexedOp o ps as) := by
  have h1 : ∀ {s s' : PSrt}, NoFuel (Carcara.assertSort s s') := .need
  have h2 : ∀ {i}, NoFuel (Carcara.indexAt ps i) := .indexAt
  have h3 := NoFuel.assertIndices (ps := ps)
  have h4 := NoFuel.assertConstants (ps := ps)
  have h5 : ∀ {s}, NoFuel (Carcara.assertKnownBv s) := .assertKnownBv
  refine .bind (.poolSorts as) fun ss _ => ?_
  cases o <;> simp only <;> repeat' first
    | exact .ok | exact .err | exact .need | exact .getPanic | exact .unwrapUsize | exact h1 | exact h2 | exact h3 | exact h4 | exact h5
    | (refine NoFuel.bind ?_ fun _ _ => ?_) | split

theorem NoFuel.substituted {m : List (Term × Term)} {t : Term} : NoFuel (substituted m t) := by
  unfold Carcara.substituted
  no_fuel

theorem NoFuel.apply {f : FunDef} {args : List Term} : NoFuel (f.apply args) := by
  refine .bind .need fun _ _ => ?_
  split
  · exact .ok
  · exact .bind .assertParams fun _ _ => .substituted

theorem NoFuel.makeSort {E : PEnv} {x : String} {as : List Srt} : NoFuel (makeSort E x as) := by
  unfold Carcara.makeSort
  no_fuel

theorem NoFuel.makeIndexedSort {x : String} {as : List Term} : NoFuel (makeIndexedSort x as) := by
  unfold Carcara.makeIndexedSort
  no_fuel

theorem NoFuel.parseBvValue {cs : List Char} : NoFuel (parseBvValue cs) := by
  unfold Carcara.parseBvValue
  no_fuel

theorem NoFuel.indexedHead {s : String} : NoFuel (indexedHead s) := by
  unfold Carcara.indexedHead
  split
  · exact .bind .parseBvValue fun _ _ => .ok
  · exact .bind .getErr fun _ _ => .ok

theorem NoFuel.constantArgs : ∀ {ts : List Term}, NoFuel (constantArgs ts)
  | [] => .ok
  | _ :: _ => .bind .getErr fun _ _ => .bind NoFuel.constantArgs fun _ _ => .ok

theorem NoFuel.letVars : ∀ {bs : List (String × Term)}, NoFuel (letVars bs)
  | [] => .ok
  | (_, t) :: _ => .bind (.poolSort t) fun _ _ => by
    split
    · exact .bind NoFuel.letVars fun _ _ => .ok
    · exact .unmodelled

theorem NoFuel.letMap : ∀ {bs : List (String × Term)}, NoFuel (letMap bs)
  | [] => .ok
  | (_, t) :: _ => .bind (.poolSort t) fun _ _ => by
    split
    · exact .bind NoFuel.letMap fun _ _ => .ok
    · exact .unmodelled

theorem skipClose_fault : ∀ {d : Nat} {ts : List Token} {e : PFault}, skipClose d ts = .error e → e = .err := by
  intro d ts
  induction ts generalizing d with
  | nil => intro e h; simpa [skipClose] using h.symm
  | cons t ts ih =>
    intro e h
    unfold skipClose at h
    split at h
    all_goals first
      | (rename_i heq; cases heq; exact ih h)
      | (rename_i _ heq; cases heq; exact ih h)
      | simp_all

theorem skipClose_length : ∀ {d : Nat} {ts us : List Token}, skipClose d ts = .ok us → us.length ≤ ts.length := by
  intro d ts
  induction ts generalizing d with
  | nil => intro us h; simp [skipClose] at h
  | cons t ts ih =>
    intro us h
    unfold skipClose at h
    split at h
    all_goals first
      | (rename_i heq; cases heq; exact (ih h).trans (by simp))
      | (rename_i heq; cases heq; cases h; simp)
      | cases h

/-! ## More steps do not change a result -/

/-- Where the first reader does not run out of steps, the second does the same. -/
def Refines {α : Type} (r r' : Reader α) : Prop := ∀ st, r st ≠ .error .fuel → r' st = r st

section Refines
variable {α β : Type}

theorem Refines.refl {r : Reader α} : Refines r r := fun _ _ => rfl

theorem Refines.fuel {r : Reader α} : Refines (fail .fuel) r := fun _ h => absurd rfl h

theorem Refines.bind {r r' : Reader α} {f f' : α → Reader β} (h : Refines r r') (h' : ∀ a, Refines (f a) (f' a)) : Refines (r >>= f) (r' >>= f') := by
  intro st hn
  change (match r st with | .ok (a, st) => f a st | .error e => .error e) ≠ _ at hn
  change (match r' st with | .ok (a, st) => f' a st | .error e => .error e) = (match r st with | .ok (a, st) => f a st | .error e => .error e)
  cases hr : r st with
  | ok p =>
    rw [h st (by simp [hr]), hr]
    rw [hr] at hn
    exact h' p.1 p.2 hn
  | error e =>
    rw [hr] at hn
    rw [h st (by rw [hr]; intro e'; exact hn (by cases e'; rfl)), hr]

theorem Refines.next {r r' : Reader α} (h : Refines r r') : Refines (do let _ ← next; r) (do let _ ← next; r') := .bind .refl fun _ => h

theorem Refines.ite {c : Prop} [Decidable c] {r r' s s' : Reader α} (h : Refines r r') (h' : Refines s s') :
    Refines (if c then r else s) (if c then r' else s') := by
  split
  · exact h
  · exact h'

end Refines

/-- What more steps do to the functions that read terms. -/
structure MoreSteps (n : Nat) : Prop where
  term : ∀ E, Refines (parseTerm n E) (parseTerm (n + 1) E)
  terms : ∀ E, Refines (parseTerms n E) (parseTerms (n + 1) E)
  sorted : ∀ E s, Refines (parseSorted n E s) (parseSorted (n + 1) E s)
  var : ∀ E, Refines (parseSortedVar n E) (parseSortedVar (n + 1) E)
  vars : ∀ E, Refines (parseSortedVars n E) (parseSortedVars (n + 1) E)
  binder : ∀ E b, Refines (parseBinder n E b) (parseBinder (n + 1) E b)
  bindings : ∀ E, Refines (parseBindings n E) (parseBindings (n + 1) E)
  lets : ∀ E b, Refines (parseLet n E b) (parseLet (n + 1) E b)
  annotated : ∀ E, Refines (parseAnnotated n E) (parseAnnotated (n + 1) E)
  attributes : ∀ t, Refines (parseAttributes t n) (parseAttributes t (n + 1))
  indexed : ∀ E, Refines (parseIndexed n E) (parseIndexed (n + 1) E)
  app : ∀ E, Refines (parseApplication n E) (parseApplication (n + 1) E)
  sort : ∀ E, Refines (parseSort n E) (parseSort (n + 1) E)
  sorts : ∀ E, Refines (parseSorts n E) (parseSorts (n + 1) E)

/-- Goes through the definition of a reader. -/
macro "refines" : tactic => `(tactic| repeat' first
  | exact Refines.refl | assumption | (refine Refines.ite ?_ ?_) | (refine Refines.bind ?_ fun _ => ?_) | split)

theorem moreSteps : ∀ n, MoreSteps n
  | 0 => by
    constructor <;> intros
    all_goals first
      | (rw [parseTerm.eq_1]; exact .fuel)
      | (rw [parseTerms.eq_1]; exact .fuel)
      | (rw [parseSorted.eq_1]; exact .fuel)
      | (rw [parseSortedVar.eq_1]; exact .fuel)
      | (rw [parseSortedVars.eq_1]; exact .fuel)
      | (rw [parseBinder.eq_1]; exact .fuel)
      | (rw [parseBindings.eq_1]; exact .fuel)
      | (rw [parseLet.eq_1]; exact .fuel)
      | (rw [parseAnnotated.eq_1]; exact .fuel)
      | (rw [parseAttributes.eq_1]; exact .fuel)
      | (rw [parseIndexed.eq_1]; exact .fuel)
      | (rw [parseApplication.eq_1]; exact .fuel)
      | (rw [parseSort.eq_1]; exact .fuel)
      | (rw [parseSorts.eq_1]; exact .fuel)
  | n + 1 => by
    have ih := moreSteps n
    constructor
    · intro E
      have := ih.app E
      rw [parseTerm, parseTerm]
      refines
    · intro E
      have := ih.term E
      have := ih.terms E
      rw [parseTerms, parseTerms]
      refines
    · intro E s
      have := ih.term E
      rw [parseSorted, parseSorted]
      refines
    · intro E
      have := ih.sort E
      rw [parseSortedVar, parseSortedVar]
      refines
    · intro E
      have := ih.var E
      have := ih.vars
      rw [parseSortedVars, parseSortedVars]
      refine .bind .refl fun _ => .ite .refl (.bind (ih.var E) fun b => .bind (ih.vars _) fun _ => .refl)
    · intro E b
      rw [parseBinder, parseBinder]
      refine .bind .refl fun _ => .bind (.ite (.bind (ih.var E) fun _ => .refl) (.bind (ih.vars E) fun _ => .refl)) fun bs =>
        .bind (.ite (ih.term _) (ih.sorted _ _)) fun _ => .refl
    · intro E
      have := ih.term E
      have := ih.bindings E
      rw [parseBindings, parseBindings]
      refines
    · intro E b
      rw [parseLet, parseLet]
      exact .bind .refl fun _ => .bind (ih.bindings E) fun _ => .bind .refl fun _ => .bind .refl fun _ => .bind (ih.term _) fun _ => .refl
    · intro E
      rw [parseAnnotated, parseAnnotated]
      exact .bind (ih.term E) fun t => .bind (ih.attributes t) fun _ => .refl
    · intro t
      have := ih.attributes t
      rw [parseAttributes, parseAttributes]
      refines
    · intro E
      have := ih.terms E
      rw [parseIndexed, parseIndexed]
      refine .bind .refl fun _ => .bind .refl fun p => ?_
      refines
    · intro E
      have h1 := ih.term E
      have h2 := ih.terms E
      have h3 := ih.app E
      have h4 := ih.indexed E
      have h5 := ih.binder E
      have h6 := ih.lets E
      have h7 := ih.annotated E
      rw [parseApplication, parseApplication]
      refine .bind .refl fun t => ?_
      cases t with
      | reserved r =>
        refine .bind .refl fun _ => ?_
        cases r with
        | «forall» => exact h5 _
        | «exists» => exact h5 _
        | choice => exact h5 _
        | lambda => exact h5 _
        | «let» => exact h6 _
        | _ => refines
      | symbol s =>
        simp only
        split
        · refines
        · refine .ite (.bind .refl fun _ => .bind .refl fun _ => .bind .refl fun _ => h6 _) (.bind .refl fun _ => ?_)
          split <;> refines
      | openParen =>
        refine .bind .refl fun _ => .bind .refl fun t => ?_
        split <;> refines
      | _ => refines
    · intro E
      have := ih.sorts E
      have : ∀ x, Refines (parseTerms n x) (parseTerms (n + 1) x) := ih.terms
      have := ih.terms E
      rw [parseSort, parseSort]
      refines
    · intro E
      have := ih.sort E
      have := ih.sorts E
      rw [parseSorts, parseSorts]
      refines

theorem refines_le {n m : Nat} (h : n ≤ m) (E : PEnv) : Refines (parseTerm n E) (parseTerm m E) := by
  induction h with
  | refl => exact .refl
  | step _ ih => exact fun st hn => by rw [(moreSteps _).term E st (by rw [ih st hn]; exact hn), ih st hn]

/-- Two runs with different numbers of steps agree unless one of them runs out of steps. -/
theorem parseTerm_agree {n m : Nat} {E : PEnv} {st : ReadState} (hn : parseTerm n E st ≠ .error .fuel) (hm : parseTerm m E st ≠ .error .fuel) :
    parseTerm n E st = parseTerm m E st := by
  rcases Nat.le_total n m with h | h
  · exact (refines_le h E st hn).symm
  · exact refines_le h E st hm

/-! ## Twice as many steps as there are tokens suffice -/

/-- On at most `l` tokens, the reader does not run out of steps, and if it succeeds it has read at least `d` tokens. -/
def Suffices {α : Type} (l d : Nat) (r : Reader α) : Prop :=
  ∀ st, st.toks.length ≤ l → r st ≠ .error .fuel ∧ ∀ a st', r st = .ok (a, st') → st'.toks.length + d ≤ st.toks.length

/-- The same if the current token is `t`. -/
def SufficesAt {α : Type} (l d : Nat) (t : Token) (r : Reader α) : Prop :=
  ∀ st, st.toks.length ≤ l → st.toks.headD .eof = t → r st ≠ .error .fuel ∧ ∀ a st', r st = .ok (a, st') → st'.toks.length + d ≤ st.toks.length

section Suffices
variable {α β : Type} {l d e : Nat} {t : Token}

theorem Suffices.at {r : Reader α} (h : Suffices l d r) : SufficesAt l d t r := fun st hl _ => h st hl

theorem Suffices.mono {l' d' : Nat} {r : Reader α} (h : Suffices l d r) (hl : l' ≤ l) (hd : d' ≤ d) : Suffices l' d' r := fun st hs =>
  ⟨(h st (hs.trans hl)).1, fun a st' e => by have := (h st (hs.trans hl)).2 a st' e; omega⟩

theorem Suffices.fail {e : PFault} (h : e ≠ .fuel) : Suffices l d (Reader.fail e : Reader α) := fun st _ =>
  ⟨fun h' => h (by cases h'; rfl), fun _ _ h' => by cases h'⟩

theorem Suffices.pure {a : α} : Suffices l 0 (Pure.pure a : Reader α) := fun st _ => ⟨fun h => (by cases h), fun b st' h => by cases h; simp⟩

theorem Suffices.lift {x : PRes α} (h : NoFuel x) : Suffices l 0 (Reader.lift x) := by
  intro st _
  unfold Reader.lift
  cases x with
  | ok a => exact ⟨fun h => (by cases h), fun b st' h => by cases h; simp⟩
  | error e => exact ⟨fun h' => h (by cases h'; rfl), fun _ _ h' => by cases h'⟩

theorem SufficesAt.bind {r : Reader α} {f : α → Reader β} (h : SufficesAt l d t r) (h' : ∀ a, d ≤ l → Suffices (l - d) e (f a)) :
    SufficesAt l (d + e) t (r >>= f) := by
  intro st hl ht
  obtain ⟨h1, h2⟩ := h st hl ht
  change (match r st with | .ok (a, st) => f a st | .error e => .error e) ≠ _ ∧
    ∀ a st', (match r st with | .ok (a, st) => f a st | .error e => .error e) = _ → _
  cases hr : r st with
  | ok p =>
    have h3 := h2 _ _ hr
    obtain ⟨h4, h5⟩ := h' p.1 (by omega) p.2 (by omega)
    exact ⟨h4, fun a st' e => by have := h5 a st' e; omega⟩
  | error e =>
    rw [hr] at h1
    exact ⟨fun e' => h1 (by cases e'; rfl), fun _ _ e' => by cases e'⟩

theorem Suffices.bind {r : Reader α} {f : α → Reader β} (h : Suffices l d r) (h' : ∀ a, d ≤ l → Suffices (l - d) e (f a)) :
    Suffices l (d + e) (r >>= f) := fun st hl => SufficesAt.bind h.at h' st hl rfl

/-- Only the number of tokens that the second reader reads counts. -/
theorem Suffices.then {r : Reader α} {f : α → Reader β} (h : Suffices l 0 r) (h' : ∀ a, Suffices l e (f a)) : Suffices l e (r >>= f) := by
  have := Suffices.bind h (e := e) fun a _ => by rw [Nat.sub_zero]; exact h' a
  rwa [Nat.zero_add] at this

theorem Suffices.ite {c : Prop} [Decidable c] {r r' : Reader α} (h : Suffices l d r) (h' : Suffices l d r') : Suffices l d (if c then r else r') := by
  split
  · exact h
  · exact h'

theorem Suffices.current {f : Token → Reader α} (h : ∀ t, SufficesAt l d t (f t)) : Suffices l d (current >>= f) := fun st hl =>
  h (st.toks.headD .eof) st hl rfl

theorem SufficesAt.next {f : Token → Reader α} (ht : t ≠ .eof) (h : 1 ≤ l → Suffices (l - 1) d (f t)) : SufficesAt l (d + 1) t (next >>= f) := by
  intro st hl he
  obtain ⟨ts, F⟩ := st
  cases ts with
  | nil => exact absurd he.symm ht
  | cons u ts =>
    cases (show u = t from he)
    simp only [List.length_cons] at hl
    have := h (by omega) ⟨ts, F⟩ (by simp only; omega)
    exact ⟨this.1, fun a st' e => by have := this.2 a st' e; simp only [List.length_cons] at this ⊢; omega⟩

theorem Suffices.next0 {f : Token → Reader α} (h : ∀ t, Suffices l d (f t)) : Suffices l d (next >>= f) := by
  intro st hl
  have ht : st.toks.tail.length ≤ st.toks.length := by simp
  obtain ⟨h1, h2⟩ := h (st.toks.headD .eof) { st with toks := st.toks.tail } (by simp only; omega)
  exact ⟨h1, fun a st' e => by have := h2 a st' e; simp only at this; omega⟩

theorem Suffices.next {f : Token → Reader α} (h : ∀ t, t ≠ .eof → 1 ≤ l → Suffices (l - 1) d (f t)) (h' : ∀ st, f .eof st = .error .err) :
    Suffices l (d + 1) (next >>= f) := by
  intro st hl
  by_cases ht : st.toks.headD .eof = .eof
  · have e : (Reader.next >>= f) st = .error .err := by
      change f (st.toks.headD .eof) _ = _
      rw [ht, h']
    rw [e]
    exact ⟨by simp, fun _ _ e => by cases e⟩
  · have := SufficesAt.next (t := st.toks.headD .eof) ht (h _ ht) st hl rfl
    exact this

theorem Suffices.expect (ht : t ≠ .eof) : Suffices l 1 (expect t) :=
  .next (fun u _ _ => .ite .pure (.fail (by simp))) fun st => by rw [if_neg ht.symm]; rfl

theorem Suffices.expectSymbol : Suffices l 1 expectSymbol :=
  .next (fun u _ _ => by cases u <;> first | exact .pure | exact .fail (by simp)) fun st => rfl

theorem Suffices.expectKeyword : Suffices l 1 expectKeyword :=
  .next (fun u _ _ => by cases u <;> first | exact .pure | exact .fail (by simp)) fun st => rfl

theorem Suffices.definition {s : String} : Suffices l 0 (definition s) := fun st _ => ⟨fun h => (by cases h), fun b st' h => by cases h; simp⟩

theorem SufficesAt.definition {s : String} {f : Option FunDef → Reader α} (h : ∀ a, SufficesAt l d t (f a)) :
    SufficesAt l d t (definition s >>= f) := fun st hl ht => h _ st hl ht

theorem Suffices.define {s : String} {f : FunDef} : Suffices l 0 (define s f) := fun st _ => ⟨fun h => (by cases h), fun b st' h => by cases h; simp⟩

theorem Suffices.nonEmpty {as : List α} : Suffices l 0 (nonEmpty as) := .ite (.fail (by simp)) .pure

theorem Suffices.ignoreUntilClose : Suffices l 0 ignoreUntilClose := by
  intro st _
  unfold Carcara.ignoreUntilClose
  cases h : skipClose 0 st.toks with
  | ok ts => exact ⟨fun h => (by cases h), fun b st' e => by cases e; simpa using skipClose_length h⟩
  | error e =>
    cases skipClose_fault h
    exact ⟨fun h => (by cases h), fun _ _ e => by cases e⟩

theorem Suffices.parseAttribute {t : Term} : Suffices l 1 (parseAttribute t) := by
  refine .bind (d := 1) (e := 0) .expectKeyword fun a _ => .ite ((Suffices.expectSymbol.bind fun s _ => Suffices.define (l := _)).mono (Nat.le_refl _) (by omega))
    (.current fun c => Suffices.at ?_)
  cases c
  all_goals first
    | exact .pure
    | exact .next0 fun _ => .ignoreUntilClose
    | exact .next0 fun _ => .pure

theorem Suffices.parseAttributes {t : Term} : ∀ {n l}, l + 1 ≤ n → Suffices l 0 (parseAttributes t n)
  | 0, _, h => by omega
  | n + 1, l, h => .current fun _ => Suffices.at (.ite (.next0 fun _ => .pure)
      ((Suffices.parseAttribute.bind fun _ _ => .then (Suffices.parseAttributes (by omega)) fun _ => .pure).mono (Nat.le_refl _) (by omega)))

/-- Weaker: nothing about the number of tokens that are read. -/
theorem Suffices.seq {r : Reader α} {f : α → Reader β} (h : Suffices l d r) (h' : ∀ a, d ≤ l → Suffices (l - d) 0 (f a)) : Suffices l 0 (r >>= f) :=
  (Suffices.bind h h').mono (Nat.le_refl _) (by omega)

end Suffices

/-- How many steps suffice for the functions that read terms. -/
structure EnoughSteps (n : Nat) : Prop where
  term : ∀ E l, 2 * l + 1 ≤ n → Suffices l 1 (parseTerm n E)
  terms : ∀ E l, 2 * l + 2 ≤ n → Suffices l 0 (parseTerms n E)
  sorted : ∀ E s l, 2 * l + 2 ≤ n → Suffices l 1 (parseSorted n E s)
  var : ∀ E l, 2 * l + 1 ≤ n → Suffices l 1 (parseSortedVar n E)
  vars : ∀ E l, 2 * l + 2 ≤ n → Suffices l 0 (parseSortedVars n E)
  binder : ∀ E b l, 2 * l + 1 ≤ n → Suffices l 0 (parseBinder n E b)
  bindings : ∀ E l, 2 * l + 2 ≤ n → Suffices l 0 (parseBindings n E)
  lets : ∀ E b l, 2 * l + 1 ≤ n → Suffices l 0 (parseLet n E b)
  annotated : ∀ E l, 2 * l + 2 ≤ n → Suffices l 0 (parseAnnotated n E)
  indexed : ∀ E l, 2 * l + 1 ≤ n → Suffices l 0 (parseIndexed n E)
  app : ∀ E l, 2 * l + 2 ≤ n → Suffices l 0 (parseApplication n E)
  sort : ∀ E l, 2 * l + 1 ≤ n → Suffices l 1 (parseSort n E)
  sorts : ∀ E l, 2 * l + 2 ≤ n → Suffices l 0 (parseSorts n E)

theorem enoughSteps : ∀ n, EnoughSteps n
  | 0 => by constructor <;> intros <;> omega
  | n + 1 => by
    have ih := enoughSteps n
    have err : ∀ {α : Type} {l d : Nat}, Suffices l d (fail .err : Reader α) := .fail (by simp)
    have unm : ∀ {α : Type} {l d : Nat}, Suffices l d (fail .unmodelled : Reader α) := .fail (by simp)
    have args : ∀ {β : Type} {l : Nat} {E : PEnv} {f : List Term → Reader β}, 2 * l + 2 ≤ n → (∀ a, Suffices l 0 (f a)) →
        Suffices l 0 (do
          let args ← parseTerms n E
          let args ← nonEmpty args
          f args) := fun h h' => .then (ih.terms _ _ h) fun _ => .then .nonEmpty h'
    constructor
    · intro E l h
      rw [parseTerm]
      refine .next (fun t _ _ => ?_) fun st => rfl
      cases t with
      | symbol s =>
        refine .then .definition fun f => ?_
        split
        · exact .lift .apply
        · split
          · exact .lift .makeOp
          · exact .lift .makeVar
      | openParen => exact ih.app _ _ (by omega)
      | _ => first | exact .pure | exact err
    · intro E l h
      rw [parseTerms]
      exact .current fun _ => Suffices.at (.ite (.next0 fun _ => .pure) (.seq (ih.term _ _ (by omega)) fun _ _ =>
        .then (ih.terms _ _ (by omega)) fun _ => .pure))
    · intro E s l h
      rw [parseSorted]
      exact .bind (e := 0) (ih.term _ _ (by omega)) fun t _ => .then (.lift (.bind (.poolSort t) fun _ _ => .need)) fun _ => .pure
    · intro E l h
      rw [parseSortedVar]
      exact .bind (e := 0) (.expect (by simp)) fun _ _ => .seq .expectSymbol fun _ _ => .seq (ih.sort _ _ (by omega)) fun _ _ =>
        .seq (.expect (by simp)) fun _ _ => .pure
    · intro E l h
      rw [parseSortedVars]
      exact .current fun _ => Suffices.at (.ite (.next0 fun _ => .pure) (.seq (ih.var _ _ (by omega)) fun _ _ =>
        .then (ih.vars _ _ (by omega)) fun _ => .pure))
    · intro E b l h
      rw [parseBinder]
      exact .seq (.expect (by simp)) fun _ _ => .then (.ite (.seq (ih.var _ _ (by omega)) fun _ _ => .seq (.expect (by simp)) fun _ _ => .pure)
        (.then (ih.vars _ _ (by omega)) fun _ => .nonEmpty)) fun _ => .seq (.ite (ih.term _ _ (by omega)) (ih.sorted _ _ _ (by omega))) fun _ _ =>
        .seq (.expect (by simp)) fun _ _ => .pure
    · intro E l h
      rw [parseBindings]
      exact .current fun _ => Suffices.at (.ite (.next0 fun _ => .pure) (.seq (.expect (by simp)) fun _ _ => .seq .expectSymbol fun _ _ =>
        .seq (ih.term _ _ (by omega)) fun _ _ => .seq (.expect (by simp)) fun _ _ => .then (ih.bindings _ _ (by omega)) fun _ => .pure))
    · intro E b l h
      rw [parseLet]
      refine .seq (.expect (by simp)) fun _ _ => .then (ih.bindings _ _ (by omega)) fun bs => .then .nonEmpty fun _ => .then (.lift .letVars) fun _ =>
        .seq (ih.term _ _ (by omega)) fun _ _ => .seq (.expect (by simp)) fun _ _ => .ite (.lift ?_) .pure
      exact .bind .letMap fun _ _ => .substituted
    · intro E l h
      rw [parseAnnotated]
      exact .seq (ih.term _ _ (by omega)) fun _ _ => .then (.parseAttributes (by omega)) fun _ => .then .nonEmpty fun _ => .pure
    · intro E l h
      rw [parseIndexed]
      refine .seq .expectSymbol fun _ _ => .then (.lift .indexedHead) fun p => args (by omega) fun _ => .then (.lift .constantArgs) fun _ => .pure
    · intro E l h
      rw [parseApplication]
      have skip : ∀ {t : Token} {f : Token → Reader Term}, t ≠ .eof → (1 ≤ l → Suffices (l - 1) 0 (f t)) → SufficesAt l 0 t (next >>= f) :=
        fun ht hf st hl he => by
          obtain ⟨h1, h2⟩ := SufficesAt.next ht hf st hl he
          exact ⟨h1, fun a st' e => by have := h2 a st' e; omega⟩
      have other : Suffices l 0 (do
          let f ← parseTerm n E
          let args ← parseTerms n E
          let args ← nonEmpty args
          Reader.lift (makeApp f args)) := .seq (ih.term _ _ (by omega)) fun _ _ => args (by omega) fun _ => .lift .makeApp
      refine .current fun t => ?_
      cases t with
      | reserved r =>
        refine skip (by simp) fun _ => ?_
        cases r with
        | underscore => exact .then (ih.indexed _ _ (by omega)) fun p => .lift .makeIndexedOp
        | as => exact unm
        | «forall» => exact ih.binder _ _ _ (by omega)
        | «exists» => exact ih.binder _ _ _ (by omega)
        | choice => exact ih.binder _ _ _ (by omega)
        | lambda => exact ih.binder _ _ _ (by omega)
        | «let» => exact ih.lets _ _ _ (by omega)
        | bang => exact ih.annotated _ _ (by omega)
        | cl => exact .then (ih.terms _ _ (by omega)) fun _ => .lift .makeOp
        | _ => exact err
      | symbol s =>
        simp only
        split
        · exact skip (by simp) fun _ => args (by omega) fun _ => .lift .makeOp
        · split
          · exact skip (by simp) fun _ => .seq .expectKeyword fun _ _ => .seq (.expect (by simp)) fun _ _ => ih.lets _ _ _ (by omega)
          · refine .definition fun f => ?_
            cases f with
            | some f => exact skip (by simp) fun _ => args (by omega) fun _ => .then .definition fun f => .lift (.bind .getPanic fun _ _ => .apply)
            | none => exact other.at
      | openParen =>
        refine skip (by simp) fun _ => .current fun t => Suffices.at ?_
        split
        · exact .next0 fun _ => .then (ih.indexed _ _ (by omega)) fun p => args (by omega) fun _ => .lift .makeIndexedOp
        · exact unm
        · exact .then (ih.app _ _ (by omega)) fun _ => args (by omega) fun _ => .lift .makeApp
      | _ => exact other.at
    · intro E l h
      rw [parseSort]
      refine .next (fun t _ _ => ?_) fun st => rfl
      cases t with
      | symbol s => exact .lift .makeSort
      | openParen =>
        exact .current fun _ => Suffices.at (.ite (.next0 fun _ => .seq .expectSymbol fun _ _ => args (by omega) fun _ => .lift .makeIndexedSort)
          (.seq .expectSymbol fun _ _ => .then (ih.sorts _ _ (by omega)) fun _ => .then .nonEmpty fun _ => .lift .makeSort))
      | _ => exact err
    · intro E l h
      rw [parseSorts]
      exact .current fun _ => Suffices.at (.ite (.next0 fun _ => .pure) (.seq (ih.sort _ _ (by omega)) fun _ _ =>
        .then (ih.sorts _ _ (by omega)) fun _ => .pure))

theorem Suffices.parseLiterals {E : PEnv} : ∀ {n l}, 2 * l + 3 ≤ n → Suffices l 0 (parseLiterals n E)
  | 0, _, h => by omega
  | n + 1, l, h => by
    rw [Carcara.parseLiterals]
    exact .current fun _ => Suffices.at (.ite (.next0 fun _ => .pure) (.seq ((enoughSteps n).sorted _ _ _ (by omega)) fun _ _ =>
      .then (Suffices.parseLiterals (by omega)) fun _ => .pure))

theorem refines_literals {E : PEnv} : ∀ {n}, Refines (parseLiterals n E) (parseLiterals (n + 1) E)
  | 0 => by
    rw [parseLiterals.eq_1]
    exact .fuel
  | n + 1 => by
    rw [parseLiterals, parseLiterals]
    exact .bind .refl fun _ => .ite .refl (.bind ((moreSteps n).sorted _ _) fun _ => .bind refines_literals fun _ => .refl)

theorem refines_clause_le {n m : Nat} (h : n ≤ m) (E : PEnv) : Refines (parseClause n E) (parseClause m E) := by
  induction h with
  | refl => exact .refl
  | @step m _ ih =>
    have : Refines (parseClause m E) (parseClause (m + 1) E) := .bind .refl fun _ => .bind .refl fun _ => refines_literals
    exact fun st hn => by rw [this st (by rw [ih st hn]; exact hn), ih st hn]

end Carcara
