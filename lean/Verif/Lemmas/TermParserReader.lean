import Verif.Lemmas.TermParserSort

/-!
# Reasoning about readers, and the sorts of the terms that are read
-/

namespace Carcara
open PRes Reader

/-- If `P` holds before and the reader succeeds, then `P` holds after and the result satisfies `Q`. -/
def Ensures {α : Type} (P : ReadState → Prop) (r : Reader α) (Q : α → Prop) : Prop :=
  ∀ st a st', P st → r st = .ok (a, st') → Q a ∧ P st'

section Ensures
variable {α β : Type} {P : ReadState → Prop}

theorem Ensures.bind {r : Reader α} {f : α → Reader β} {Q : α → Prop} {R : β → Prop} (h : Ensures P r Q) (h' : ∀ a, Q a → Ensures P (f a) R) :
    Ensures P (r >>= f) R := by
  intro st b st' hP e
  change (match r st with | .ok (a, st) => f a st | .error e => .error e) = _ at e
  split at e
  · next a st1 e1 =>
    obtain ⟨h1, h2⟩ := h _ _ _ hP e1
    exact h' a h1 _ _ _ h2 e
  · cases e

theorem Ensures.pure {a : α} {Q : α → Prop} (h : Q a) : Ensures P (Pure.pure a : Reader α) Q := by
  intro st b st' hP e
  cases e
  exact ⟨h, hP⟩

theorem Ensures.fail {e : PFault} {Q : α → Prop} : Ensures P (Reader.fail e : Reader α) Q := by
  intro st b st' _ h
  cases h

theorem Ensures.lift {x : PRes α} {Q : α → Prop} (h : ∀ a, x = .ok a → Q a) : Ensures P (Reader.lift x) Q := by
  intro st b st' hP e
  unfold Reader.lift at e
  split at e
  · cases e
    exact ⟨h _ rfl, hP⟩
  · cases e

theorem Ensures.mono {r : Reader α} {Q R : α → Prop} (h : Ensures P r Q) (h' : ∀ a, Q a → R a) : Ensures P r R := fun st a st' hP e =>
  ⟨h' a (h st a st' hP e).1, (h st a st' hP e).2⟩

theorem Ensures.ite {c : Prop} [Decidable c] {r r' : Reader α} {Q : α → Prop} (h : c → Ensures P r Q) (h' : ¬ c → Ensures P r' Q) :
    Ensures P (if c then r else r') Q := by
  split
  · next hc => exact h hc
  · next hc => exact h' hc

theorem Ensures.nonEmpty {as : List α} : Ensures P (nonEmpty as) fun as' => as' = as ∧ as ≠ [] := by
  unfold Carcara.nonEmpty
  refine .ite (fun _ => .fail) fun h => .pure ⟨rfl, ?_⟩
  simpa using h

end Ensures

/-- An invariant about the definitions only. -/
def DefsP (P : List (String × FunDef) → Prop) (st : ReadState) : Prop := P st.defs

section Defs
variable {P : List (String × FunDef) → Prop}

theorem Ensures.current : Ensures (DefsP P) Reader.current fun _ => True := by
  intro st b st' hP e
  cases e
  exact ⟨trivial, hP⟩

theorem Ensures.next : Ensures (DefsP P) Reader.next fun _ => True := by
  intro st b st' hP e
  cases e
  exact ⟨trivial, hP⟩

theorem Ensures.expect {t : Token} : Ensures (DefsP P) (expect t) fun _ => True :=
  .bind .next fun _ _ => .ite (fun _ => .pure trivial) fun _ => .fail

theorem Ensures.expectSymbol : Ensures (DefsP P) expectSymbol fun _ => True :=
  .bind .next fun a _ => by cases a <;> first | exact .fail | exact .pure trivial

theorem Ensures.expectKeyword : Ensures (DefsP P) expectKeyword fun _ => True :=
  .bind .next fun a _ => by cases a <;> first | exact .fail | exact .pure trivial

theorem Ensures.ignoreUntilClose : Ensures (DefsP P) ignoreUntilClose fun _ => True := by
  intro st b st' hP e
  unfold Carcara.ignoreUntilClose at e
  split at e
  · cases e
    exact ⟨trivial, hP⟩
  · cases e

end Defs

/-- Every definition that takes no arguments is well sorted, as far as its widths are natural numbers. -/
def DefsSorted (ds : List (String × FunDef)) : Prop := ∀ p ∈ ds, SortedIfPlain p.2.body

theorem mem_of_lookup_eq {α β : Type} [BEq α] [LawfulBEq α] {l : List (α × β)} {a : α} {b : β} (h : l.lookup a = some b) : (a, b) ∈ l := by
  induction l with
  | nil => cases h
  | cons p l ih =>
    obtain ⟨x, y⟩ := p
    rw [List.lookup_cons] at h
    split at h
    · next e =>
      cases h
      rw [beq_iff_eq] at e
      simp [e]
    · exact List.mem_cons_of_mem _ (ih h)

theorem Ensures.definition {s : String} : Ensures (DefsP DefsSorted) (definition s) fun f => ∀ d, f = some d → SortedIfPlain d.body := by
  intro st b st' hP e
  cases e
  exact ⟨fun d hd => hP _ (mem_of_lookup_eq hd), hP⟩

theorem Ensures.define {s : String} {f : FunDef} (h : SortedIfPlain f.body) : Ensures (DefsP DefsSorted) (define s f) fun _ => True := by
  intro st b st' hP e
  cases e
  refine ⟨trivial, fun p hp => ?_⟩
  rcases mem_mapInsert_cases hp with rfl | hp
  · exact h
  · exact hP p hp

theorem Ensures.parseAttribute {t : Term} (h : SortedIfPlain t) : Ensures (DefsP DefsSorted) (parseAttribute t) fun _ => True := by
  refine .bind .expectKeyword fun a _ => .ite (fun _ => .bind .expectSymbol fun s _ => .define h) fun _ => .bind .current fun c _ => ?_
  cases c
  all_goals first
    | exact .pure trivial
    | exact .bind .next fun _ _ => .ignoreUntilClose
    | exact .bind .next fun _ _ => .pure trivial

theorem Ensures.parseAttributes {t : Term} (h : SortedIfPlain t) : ∀ n, Ensures (DefsP DefsSorted) (parseAttributes t n) fun _ => True
  | 0 => .fail
  | n + 1 => .bind .current fun _ _ => .ite (fun _ => .bind .next fun _ _ => .pure trivial) fun _ =>
      .bind (.parseAttribute h) fun _ _ => .bind (Ensures.parseAttributes h n) fun _ _ => .pure trivial

/-- All terms of a list are well sorted, as far as their widths are natural numbers. -/
def SortedList (ts : List Term) : Prop := ∀ t ∈ ts, SortedIfPlain t

/-- What holds of the functions that read terms when they are given `n` steps. -/
structure ReadsSorted (n : Nat) : Prop where
  term : ∀ E : PEnv, E.subtyping = false → Ensures (DefsP DefsSorted) (parseTerm n E) SortedIfPlain
  terms : ∀ E : PEnv, E.subtyping = false → Ensures (DefsP DefsSorted) (parseTerms n E) SortedList
  sorted : ∀ E : PEnv, E.subtyping = false → ∀ s, Ensures (DefsP DefsSorted) (parseSorted n E s) fun t => t.plainWidths → sortOf t = some s
  sortedVar : ∀ E : PEnv, E.subtyping = false → Ensures (DefsP DefsSorted) (parseSortedVar n E) fun _ => True
  sortedVars : ∀ E : PEnv, E.subtyping = false → Ensures (DefsP DefsSorted) (parseSortedVars n E) fun _ => True
  binder : ∀ E : PEnv, E.subtyping = false → ∀ b, Ensures (DefsP DefsSorted) (parseBinder n E b) SortedIfPlain
  bindings : ∀ E : PEnv, E.subtyping = false → Ensures (DefsP DefsSorted) (parseBindings n E) fun bs => ∀ b ∈ bs, SortedIfPlain b.2
  let_ : ∀ E : PEnv, E.subtyping = false → ∀ x, Ensures (DefsP DefsSorted) (parseLet n E x) SortedIfPlain
  annotated : ∀ E : PEnv, E.subtyping = false → Ensures (DefsP DefsSorted) (parseAnnotated n E) SortedIfPlain
  indexed : ∀ E : PEnv, E.subtyping = false → Ensures (DefsP DefsSorted) (parseIndexed n E) fun _ => True
  application : ∀ E : PEnv, E.subtyping = false → Ensures (DefsP DefsSorted) (parseApplication n E) SortedIfPlain
  sort : ∀ E : PEnv, E.subtyping = false → Ensures (DefsP DefsSorted) (parseSort n E) fun _ => True
  sorts : ∀ E : PEnv, E.subtyping = false → Ensures (DefsP DefsSorted) (parseSorts n E) fun _ => True

theorem sortedIfPlain_const (c : Const) : SortedIfPlain (.const c) := fun _ => rfl

theorem makeVar_sorted {E : PEnv} {x : String} {t : Term} (h : makeVar E x = .ok t) : SortedIfPlain t := by
  simp only [makeVar, pbind_ok, Except.ok.injEq] at h
  obtain ⟨s, _, rfl⟩ := h
  exact fun _ => rfl

theorem sortedList_nil : SortedList [] := fun _ h => (by cases h)

theorem SortedList.cons {t : Term} {ts : List Term} (h : SortedIfPlain t) (hs : SortedList ts) : SortedList (t :: ts) := fun u hu => by
  rcases List.mem_cons.1 hu with rfl | hu
  · exact h
  · exact hs u hu

theorem sortOfB_of_mem {bs : List (String × Term)} (h : ∀ b ∈ bs, (sortOf b.2).isSome = true) : sortOfB bs = true := by
  induction bs with
  | nil => rfl
  | cons b bs ih =>
    obtain ⟨x, t⟩ := b
    simp only [sortOfB, Bool.and_eq_true]
    exact ⟨h (x, t) (by simp), ih fun b hb => h b (by simp [hb])⟩

theorem readsSorted : ∀ n, ReadsSorted n
  | 0 => by constructor <;> intros <;> exact .fail
  | n + 1 => by
    have ih := readsSorted n
    have var : ∀ E : PEnv, E.subtyping = false → Ensures (DefsP DefsSorted) (parseSortedVar (n + 1) E) fun _ => True := fun E hE =>
      .bind .expect fun _ _ => .bind .expectSymbol fun _ _ => .bind (ih.sort E hE) fun _ _ => .bind .expect fun _ _ => .pure trivial
    have args : ∀ E : PEnv, E.subtyping = false → ∀ {f : Term}, SortedIfPlain f → Ensures (DefsP DefsSorted) (do
        let args ← parseTerms n E
        let args ← nonEmpty args
        Reader.lift (makeApp f args)) SortedIfPlain := fun E hE f hf =>
      .bind (ih.terms E hE) fun as has => .bind .nonEmpty fun as' h' => .lift fun t h => by
        rw [h'.1] at h
        exact makeApp_sorted hf has h
    constructor
    case term =>
      intro E hE
      refine .bind .next fun a _ => ?_
      cases a
      case symbol s =>
        refine .bind .definition fun d hd => ?_
        cases d with
        | some f => exact .lift fun t h => FunDef.apply_sorted (hd f rfl) h
        | none =>
          simp only
          split
          · exact .lift fun t h => makeOp_sorted hE sortedList_nil h
          · exact .lift fun t h => makeVar_sorted h
      case openParen => exact ih.application E hE
      all_goals first | exact .fail | exact .pure (sortedIfPlain_const _)
    case terms =>
      intro E hE
      exact .bind .current fun _ _ => .ite (fun _ => .bind .next fun _ _ => .pure sortedList_nil) fun _ =>
        .bind (ih.term E hE) fun _ h => .bind (ih.terms E hE) fun _ hs => .pure (.cons h hs)
    case sorted =>
      intro E hE s
      refine .bind (ih.term E hE) fun t ht => .bind (Q := fun _ => t.plainWidths → sortOf t = some s) (.lift fun _ h => ?_) fun _ h => .pure h
      intro hw
      obtain ⟨s', hs⟩ := Option.isSome_iff_exists.1 (ht hw)
      simp only [pbind_ok] at h
      obtain ⟨p, hp, h⟩ := h
      cases poolSort_yields t hs p hp
      rw [assertSort_known] at h
      rw [hs, h]
    case sortedVar => exact var
    case sortedVars =>
      intro E hE
      exact .bind .current fun _ _ => .ite (fun _ => .bind .next fun _ _ => .pure trivial) fun _ =>
        .bind (ih.sortedVar E hE) fun b _ => .bind (ih.sortedVars (E.bind [b]) hE) fun _ hs => .pure trivial
    case binder =>
      intro E hE b
      refine .bind .expect fun _ _ => .bind (Q := fun bs => if b = .choice then ∃ v, bs = [v] else bs ≠ []) ?_ fun bs hbs => ?_
      · refine .ite (fun hb => ?_) fun hb => ?_
        · simp only [if_pos hb]
          exact .bind (ih.sortedVar E hE) fun v _ => .bind .expect fun _ _ => .pure ⟨v, rfl⟩
        · simp only [if_neg hb]
          exact .bind (ih.sortedVars E hE) fun bs _ => Ensures.nonEmpty.mono fun as h => by rw [h.1]; exact h.2
      · refine .bind (Q := fun t => t.plainWidths → if b = .lambda then (sortOf t).isSome = true else sortOf t = some .bool) ?_ fun t ht => ?_
        · refine .ite (fun hb => ?_) fun hb => ?_
          · simp only [if_pos hb]
            exact ih.term _ hE
          · simp only [if_neg hb]
            exact ih.sorted (E.bind bs) hE _
        · refine .bind .expect fun _ _ => .pure fun hw => ?_
          have ht := ht (plainWidths_binder hw)
          cases b
          case choice =>
            obtain ⟨⟨x, s⟩, rfl⟩ := hbs
            simp only [reduceCtorEq, if_false] at ht
            simp [sortOf, ht]
          case lambda =>
            obtain ⟨s, hs⟩ := Option.isSome_iff_exists.1 ht
            cases bs with
            | nil => exact absurd rfl hbs
            | cons v bs => simp [sortOf, hs]
          all_goals
            simp only [reduceCtorEq, if_false] at ht
            cases bs with
            | nil => exact absurd rfl hbs
            | cons v bs => simp [sortOf, ht]
    case bindings =>
      intro E hE
      refine .bind .current fun _ _ => .ite (fun _ => .bind .next fun _ _ => .pure fun _ h => (by cases h)) fun _ =>
        .bind .expect fun _ _ => .bind .expectSymbol fun x _ => .bind (ih.term E hE) fun t ht => .bind .expect fun _ _ =>
        .bind (ih.bindings E hE) fun bs hbs => .pure fun b hb => ?_
      rcases List.mem_cons.1 hb with rfl | hb
      · exact ht
      · exact hbs b hb
    case let_ =>
      intro E hE x
      refine .bind .expect fun _ _ => .bind (ih.bindings E hE) fun bs hbs => .bind .nonEmpty fun bs' h => ?_
      obtain ⟨rfl, _⟩ := h
      refine .bind (Q := fun _ => True) (.lift fun _ _ => trivial) fun vs _ => .bind (ih.term _ hE) fun t ht => .bind .expect fun _ _ =>
        .ite (fun _ => .lift fun t' h => ?_) fun _ => .pure fun hw => ?_
      · simp only [pbind_ok] at h
        obtain ⟨m, _, h⟩ := h
        exact fun _ => substituted_sorted h
      · obtain ⟨h1, h2⟩ := plainWidths_let hw
        rw [sortOf, if_pos (sortOfB_of_mem fun b hb => hbs b hb (h1 b hb))]
        exact ht h2
    case annotated =>
      intro E hE
      exact .bind (ih.term E hE) fun t ht => .bind (.parseAttributes ht n) fun us _ => .bind .nonEmpty fun _ _ => .pure ht
    case indexed =>
      intro E hE
      refine .bind .expectSymbol fun s _ => .bind (Q := fun _ => True) (.lift fun _ _ => trivial) fun p _ => ?_
      obtain ⟨o, vs⟩ := p
      exact .bind (ih.terms E hE) fun ts _ => .bind .nonEmpty fun ts _ => .bind (Q := fun _ => True) (.lift fun _ _ => trivial) fun zs _ =>
        .pure trivial
    case application =>
      intro E hE
      refine .bind .current fun c _ => ?_
      cases c
      case reserved r =>
        refine .bind .next fun _ _ => ?_
        cases r
        case underscore =>
          refine .bind (ih.indexed E hE) fun p _ => ?_
          obtain ⟨o, ps⟩ := p
          exact .lift fun t h => makeIndexedOp_sorted sortedList_nil h
        case cl => exact .bind (ih.terms E hE) fun as has => .lift fun t h => makeOp_sorted hE has h
        case bang => exact ih.annotated E hE
        case «let» => exact ih.let_ E hE _
        all_goals first | exact .fail | exact ih.binder E hE _
      case symbol s =>
        simp only
        split
        · exact .bind .next fun _ _ => .bind (ih.terms E hE) fun as has => .bind .nonEmpty fun as' h' => .lift fun t h => by
            rw [h'.1] at h
            exact makeOp_sorted hE has h
        · refine .ite (fun _ => ?_) fun _ => .bind .definition fun d _ => ?_
          · exact .bind .next fun _ _ => .bind .expectKeyword fun _ _ => .bind .expect fun _ _ => ih.let_ E hE _
          · cases d with
            | some f =>
              exact .bind .next fun _ _ => .bind (ih.terms E hE) fun as has => .bind .nonEmpty fun as' h' => .bind .definition fun d hd =>
                .lift fun t h => by
                  simp only [pbind_ok, getPanic_ok] at h
                  obtain ⟨g, hg, h⟩ := h
                  exact FunDef.apply_sorted (hd g hg) h
            | none => exact .bind (ih.term E hE) fun f hf => args E hE hf
      case openParen =>
        refine .bind .next fun _ _ => .bind .current fun c _ => ?_
        have other : Ensures (DefsP DefsSorted) (do
            let f ← parseApplication n E
            let args ← parseTerms n E
            let args ← nonEmpty args
            Reader.lift (makeApp f args)) SortedIfPlain := .bind (ih.application E hE) fun f hf => args E hE hf
        cases c
        case reserved r =>
          cases r
          case underscore =>
            refine .bind .next fun _ _ => .bind (ih.indexed E hE) fun p _ => ?_
            obtain ⟨o, ps⟩ := p
            exact .bind (ih.terms E hE) fun as has => .bind .nonEmpty fun as' h' => .lift fun t h => by
              rw [h'.1] at h
              exact makeIndexedOp_sorted has h
          all_goals first | exact .fail | exact other
        all_goals exact other
      all_goals exact .bind (ih.term E hE) fun f hf => args E hE hf
    case sort =>
      intro E hE
      refine .bind .next fun c _ => ?_
      cases c
      case symbol s => exact .lift fun _ _ => trivial
      case openParen =>
        exact .bind .current fun _ _ => .ite (fun _ => .bind .next fun _ _ => .bind .expectSymbol fun _ _ => .bind (ih.terms E hE) fun _ _ =>
          .bind .nonEmpty fun _ _ => .lift fun _ _ => trivial) fun _ => .bind .expectSymbol fun _ _ => .bind (ih.sorts E hE) fun _ _ =>
          .bind .nonEmpty fun _ _ => .lift fun _ _ => trivial
      all_goals exact .fail
    case sorts =>
      intro E hE
      exact .bind .current fun _ _ => .ite (fun _ => .bind .next fun _ _ => .pure trivial) fun _ =>
        .bind (ih.sort E hE) fun _ _ => .bind (ih.sorts E hE) fun _ hs => .pure trivial

theorem Ensures.parseLiterals {E : PEnv} (hE : E.subtyping = false) : ∀ n, Ensures (DefsP DefsSorted) (parseLiterals n E)
    fun ts => ∀ t ∈ ts, t.plainWidths → sortOf t = some .bool
  | 0 => .fail
  | n + 1 => .bind .current fun _ _ => .ite (fun _ => .bind .next fun _ _ => .pure fun _ h => (by cases h)) fun _ =>
      .bind ((readsSorted n).sorted E hE _) fun t ht => .bind (Ensures.parseLiterals hE n) fun ts hts => .pure fun u hu => by
        rcases List.mem_cons.1 hu with rfl | hu
        · exact ht
        · exact hts u hu

end Carcara
