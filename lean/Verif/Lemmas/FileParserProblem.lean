import Verif.Lemmas.FileParser

/-!
# Reading a problem leaves only well-sorted definitions
-/

namespace Carcara
open PRes Reader

theorem Ensures.expectIf {P : List (String × FunDef) → Prop} (b : Bool) (t : Token) : Ensures (DefsP P) (expectIf b t) fun _ => True :=
  .ite (fun _ => .expect) fun _ => .pure trivial

theorem Ensures.readSymbols {P : List (String × FunDef) → Prop} : ∀ n : Nat, Ensures (DefsP P) (readSymbols n) fun _ => True
  | 0 => .fail
  | n + 1 => .bind .current fun _ _ => .ite (fun _ => .bind .next fun _ _ => .pure trivial) fun _ =>
      .bind .expectSymbol fun _ _ => .bind (Ensures.readSymbols n) fun _ _ => .pure trivial

theorem Ensures.readFunctionDecs {E : PEnv} (hE : E.subtyping = false) : ∀ n : Nat, Ensures (DefsP DefsSorted) (readFunctionDecs n E) fun _ => True
  | 0 => .fail
  | n + 1 => .bind .current fun _ _ => .ite (fun _ => .bind .next fun _ _ => .pure trivial) fun _ =>
      .bind .expect fun _ _ => .bind (.readFunctionDec hE n) fun _ _ => .bind .expect fun _ _ => .bind (Ensures.readFunctionDecs hE n) fun _ _ => .pure trivial

theorem Ensures.readBodies {E : PEnv} (hE : E.subtyping = false) (n : Nat) : ∀ (ds : List (String × List (String × Srt) × Srt)) (Q : Problem),
    Ensures (DefsP DefsSorted) (readBodies n E ds Q) fun _ => True
  | [], _ => .pure trivial
  | (_, params, s) :: ds, _ => .bind ((readsSorted n).sorted (E.bind params) hE s) fun _ _ => .bind (.lift fun _ _ => trivial) fun _ _ =>
      Ensures.readBodies hE n ds _

theorem Ensures.readDefineFunRec {E : PEnv} (hE : E.subtyping = false) (n : Nat) (multiple : Bool) (Q : Problem) :
    Ensures (DefsP DefsSorted) (readDefineFunRec n multiple E Q) fun p => p.1.subtyping = false := by
  refine .bind (Q := fun _ => True) (.ite (fun _ => .bind .expect fun _ _ => .bind (.readFunctionDecs hE n) fun _ _ => .mono .nonEmpty fun _ _ => trivial)
    fun _ => .bind (.readFunctionDec hE n) fun _ _ => .pure trivial) fun ds _ => ?_
  exact .bind (.expectIf _ _) fun _ _ => .bind (.readBodies (by exact hE) n ds Q) fun _ _ => .bind (.expectIf _ _) fun _ _ => .bind .expect fun _ _ =>
    .pure hE

theorem Ensures.readProblemCommand {E : PEnv} (hE : E.subtyping = false) (n : Nat) (apply : Bool) (Q : Problem) :
    Ensures (DefsP DefsSorted) (readProblemCommand n apply E Q) fun p => p.1.subtyping = false := by
  have skip : Ensures (DefsP DefsSorted) (Carcara.ignoreUntilClose >>= fun _ => Pure.pure (E, Q)) fun p => p.1.subtyping = false :=
    .bind .ignoreUntilClose fun _ _ => .pure hE
  refine .bind .next fun c _ => ?_
  cases c
  case reserved w =>
    cases w
    case declareFun =>
      exact .bind (Q := fun _ => True) (.bind .expectSymbol fun _ _ => .bind .expect fun _ _ => .bind ((readsSorted n).sorts E hE) fun _ _ =>
        .bind ((readsSorted n).sort E hE) fun _ _ => .bind .expect fun _ _ => .pure trivial) fun _ _ => .pure hE
    case declareConst =>
      exact .bind .expectSymbol fun _ _ => .bind ((readsSorted n).sort E hE) fun _ _ => .bind .expect fun _ _ => .pure hE
    case declareSort =>
      refine .bind (Q := fun _ => True) (.bind .expectSymbol fun _ _ => .bind .next fun c _ => ?_) fun _ _ => .pure hE
      cases c
      case numeral => exact .bind .expect fun _ _ => .ite (fun _ => .pure trivial) fun _ => .fail
      all_goals exact .fail
    case defineFun =>
      exact .bind (.readDefineFun hE n) fun p hp => .ite (fun _ => .bind (.define hp) fun _ _ => .pure hE) fun _ =>
        .bind (Q := fun _ => True) (.lift fun _ _ => trivial) fun _ _ => .pure hE
    case defineFunRec => exact .readDefineFunRec hE n false Q
    case defineFunsRec => exact .readDefineFunRec hE n true Q
    case defineSort =>
      exact .bind (Q := fun _ => True) (.bind .expectSymbol fun _ _ => .bind .expect fun _ _ => .bind (.readSymbols n) fun ps _ =>
        .bind ((readsSorted n).sort { E with sortDecls := (ps.map fun p => (p, 0)).reverse ++ E.sortDecls } hE) fun _ _ =>
          .bind .expect fun _ _ => .pure trivial) fun _ _ => .pure hE
    case assert => exact .bind ((readsSorted n).term E hE) fun _ _ => .bind .expect fun _ _ => .pure hE
    case checkSatAssuming =>
      exact .bind .expect fun _ _ => .bind ((readsSorted n).terms E hE) fun _ _ => .bind .nonEmpty fun _ _ => .bind .expect fun _ _ => .pure hE
    case setLogic => exact .bind .expectSymbol fun _ _ => .bind .expect fun _ _ => .pure hE
    all_goals exact skip
  all_goals exact skip

theorem Ensures.readProblemCommands (apply : Bool) : ∀ (n : Nat) {E : PEnv}, E.subtyping = false → ∀ Q : Problem,
    Ensures (DefsP DefsSorted) (readProblemCommands apply n E Q) fun p => p.1.subtyping = false
  | 0, _, _, _ => .fail
  | n + 1, _, hE, Q => .bind .current fun _ _ => .ite (fun _ => .pure hE) fun _ => .bind .expect fun _ _ => .bind (.readProblemCommand hE n apply Q)
      fun _ hp => Ensures.readProblemCommands apply n hp _

/-- What is read for a problem and a proof is built from commands that are well sorted. -/
theorem readInstance_sorted {n : Nat} {apply holeArgs : Bool} {E : PEnv} {problem proof : List Token} {Q : Problem} {P : ParsedProof}
    (hE : E.subtyping = false) (h : readInstance n apply holeArgs E problem proof = .ok (Q, P)) :
    ∃ rs, parseProof rs = .ok P.commands ∧ ∀ r ∈ rs, r.Sorted := by
  obtain ⟨⟨⟨E', Q'⟩, st⟩, h1, h⟩ := pbind_ok.1 h
  obtain ⟨⟨P', st'⟩, h2, h⟩ := pbind_ok.1 h
  cases h
  obtain ⟨hs, hd⟩ := Ensures.readProblemCommands apply n (E := { E with intsAsReals := false }) hE {} _ _ _ (by intro p hp; cases hp) h1
  exact (Ensures.readProof (E := { E' with intsAsReals := false }) hs holeArgs n ⟨proof, st.defs⟩ _ _ hd h2).1

end Carcara
