import Verif.Model.RareParser
import Verif.Lemmas.TermParserPanic
import Verif.Lemmas.TermParserFuel

/-!
# The parser of rewrite rules: panics, and the number of steps
-/

namespace Carcara
open PRes Reader

variable {E : PEnv} {D : List String}

theorem Calmly.readRareSort (n : Nat) : Calmly (CalmState D) (readRareSort n E) (Keeping D fun _ => True) := by
  refine .seq .next fun t => ?_
  cases t
  case symbol s => exact Calmly.pre (P := CalmState D) (.ite (fun _ => .fail (by simp)) fun _ => .lift .makeSort fun _ _ => trivial) fun st h => h.1
  case openParen =>
    refine Calmly.pre (P := CalmState D) ?_ fun st h => h.1
    refine .seq .current fun t => .ite (fun ht => ?_) fun _ => .fail (by simp)
    subst ht
    exact .seq .next' fun _ => (Calmly.indexedSort n).pre fun st h => ⟨h.1, h.2.1 rfl⟩
  all_goals exact .fail (by simp)

theorem Calmly.readRareAttribute : Calmly (CalmState D) readRareAttribute (Keeping D fun _ => True) :=
  .bind .peek fun t _ => by
    cases t
    case closeParen => exact .bind .expect fun _ _ => .pure trivial
    case keyword k => exact .bind .expectKeyword fun _ _ => .bind .expect fun _ _ => .ite (fun _ => .pure trivial) fun _ => .fail (by simp)
    all_goals exact .fail (by simp)

theorem Calmly.readRareParam (n : Nat) : Calmly (CalmState D) (readRareParam n E) (Keeping D fun _ => True) :=
  .bind .expect fun _ _ => .bind .expectSymbol fun _ _ => .bind (.readRareSort n) fun _ _ => .bind .readRareAttribute fun _ _ => .pure trivial

theorem Calmly.readRareParams : ∀ (n : Nat) {E : PEnv}, E.plain → Calmly (CalmState D) (readRareParams n E) (Keeping D fun r => r.2.plain)
  | 0, _, _ => .fail (by simp)
  | n + 1, E, hE => .bind .peek fun _ _ => .ite (fun _ => .bind .skip fun _ _ => .pure hE) fun _ => .bind (.readRareParam n) fun _ _ =>
      .bind (Calmly.readRareParams n (hE : (E.declareParam _ _).plain)) fun _ h => .pure h

theorem Calmly.readSymbols : ∀ n : Nat, Calmly (CalmState D) (readSymbols n) (Keeping D fun _ => True)
  | 0 => .fail (by simp)
  | n + 1 => .bind .peek fun _ _ => .ite (fun _ => .bind .skip fun _ _ => .pure trivial) fun _ => .bind .expectSymbol fun _ _ =>
      .bind (Calmly.readSymbols n) fun _ _ => .pure trivial

/-- The terms of a rule are calm. -/
def RareBody.Calm : RareBody → Prop
  | .conclusion t => Carcara.Calm t
  | .premises ts => ∀ t ∈ ts, Carcara.Calm t
  | .args _ => True

theorem Calmly.readRareBody (hE : E.plain) (n : Nat) : Calmly (CalmState D) (readRareBody n E) (Keeping D RareBody.Calm) :=
  .bind .expectKeyword fun _ _ => .ite (fun _ => .bind ((readsCalm n).term E hE D) fun _ h => .pure h) fun _ =>
    .ite (fun _ => .bind .expect fun _ _ => .bind (.readSymbols n) fun _ _ => .pure trivial) fun _ =>
    .ite (fun _ => .bind .expect fun _ _ => .bind ((readsCalm n).terms E hE D) fun _ h => .pure h) fun _ => .fail (by simp)

theorem Calmly.readRareBodies (hE : E.plain) : ∀ n : Nat, Calmly (CalmState D) (readRareBodies n E) (Keeping D fun _ => True)
  | 0 => .fail (by simp)
  | n + 1 => .bind .peek fun _ _ => .ite (fun _ => .bind .skip fun _ _ => .pure trivial) fun _ => .bind (.readRareBody hE n) fun _ _ =>
      .bind (Calmly.readRareBodies hE n) fun _ _ => .pure trivial

theorem Calmly.readRareRule (hE : E.plain) (n : Nat) : Calmly (CalmState D) (readRareRule n E) (Keeping D fun r => r.2.plain) :=
  .bind .expect fun _ _ => .bind .expect fun _ _ => .bind .expectSymbol fun _ _ => .bind .expect fun _ _ => .bind (.readRareParams n hE) fun _ hE' =>
    .bind (.readRareBodies hE' n) fun bs _ => by
      dsimp only
      split
      · exact .fail (by simp)
      · exact .pure hE'

theorem Calmly.readRareRules : ∀ (n : Nat) {E : PEnv}, E.plain → Calmly (CalmState D) (readRareRules n E) (Keeping D fun _ => True)
  | 0, _, _ => .fail (by simp)
  | n + 1, _, hE => .bind .peek fun _ _ => .ite (fun _ => .pure trivial) fun _ => .bind (.readRareRule hE n) fun _ h =>
      .bind (Calmly.readRareRules n h) fun _ _ => .pure trivial

/-! ## More steps do not change a result -/

theorem refines_rareSort (n : Nat) (E : PEnv) : Refines (readRareSort n E) (readRareSort (n + 1) E) := by
  unfold readRareSort
  have := (moreSteps n).terms E
  refines

theorem refines_symbols : ∀ n : Nat, Refines (readSymbols n) (readSymbols (n + 1))
  | 0 => .fuel
  | n + 1 => .bind .refl fun _ => .ite .refl (.bind .refl fun _ => .bind (refines_symbols n) fun _ => .refl)

theorem refines_rareParams : ∀ (n : Nat) (E : PEnv), Refines (readRareParams n E) (readRareParams (n + 1) E)
  | 0, _ => .fuel
  | n + 1, E => .bind .refl fun _ => .ite .refl (.bind (.bind .refl fun _ => .bind .refl fun _ => .bind (refines_rareSort n E) fun _ => .refl) fun _ =>
      .bind (refines_rareParams n _) fun _ => .refl)

theorem refines_rareBody (n : Nat) (E : PEnv) : Refines (readRareBody n E) (readRareBody (n + 1) E) := by
  unfold readRareBody
  have h1 := (moreSteps n).terms E
  have h2 := (moreSteps n).term E
  have h3 := refines_symbols n
  refines

theorem refines_rareBodies : ∀ (n : Nat) (E : PEnv), Refines (readRareBodies n E) (readRareBodies (n + 1) E)
  | 0, _ => .fuel
  | n + 1, E => .bind .refl fun _ => .ite .refl (.bind (refines_rareBody n E) fun _ => .bind (refines_rareBodies n E) fun _ => .refl)

theorem refines_rareRule (n : Nat) (E : PEnv) : Refines (readRareRule n E) (readRareRule (n + 1) E) :=
  .bind .refl fun _ => .bind .refl fun _ => .bind .refl fun _ => .bind .refl fun _ => .bind (refines_rareParams n E) fun _ =>
    .bind (refines_rareBodies n _) fun _ => .refl

theorem refines_rareRules : ∀ (n : Nat) (E : PEnv), Refines (readRareRules n E) (readRareRules (n + 1) E)
  | 0, _ => .fuel
  | n + 1, E => .bind .refl fun _ => .ite .refl (.bind (refines_rareRule n E) fun _ => .bind (refines_rareRules n _) fun _ => .refl)

theorem refines_rareRules_le {n m : Nat} (h : n ≤ m) (E : PEnv) : Refines (readRareRules n E) (readRareRules m E) := by
  induction h with
  | refl => exact .refl
  | step _ ih => exact fun st hn => by rw [refines_rareRules _ E st (by rw [ih st hn]; exact hn), ih st hn]

end Carcara
