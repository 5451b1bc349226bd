import Verif.Lemmas.TermParserReader
import Verif.Lemmas.TermParserDef
import Verif.Model.FileParser

/-!
# What the parser of proofs builds from tokens, it builds from commands
-/

namespace Carcara
open PRes Reader

/-- The terms of a command are well sorted, as far as their widths are natural numbers; literals and assumptions have sort `Bool`, and the values of
variables have the sorts of these variables. -/
def RawCommand.Sorted : RawCommand → Prop
  | .assume _ t => t.plainWidths → sortOf t = some .bool
  | .step r => (∀ l ∈ r.clause, l.plainWidths → sortOf l = some .bool) ∧ ∀ a ∈ r.args, SortedIfPlain a
  | .anchor _ as => ∀ a ∈ as, ∀ x s v, a = .assign x s v → v.plainWidths → sortOf v = some s

/-- The frames after some commands. -/
def runRawCommands (st : PState) : List RawCommand → Res PState
  | [] => .ok st
  | c :: cs => do
    let st ← parseCommand st c
    runRawCommands st cs

theorem runCommands_append {st st' : PState} {cs cs' : List RawCommand} (h : runRawCommands st cs = .ok st') :
    runRawCommands st (cs ++ cs') = runRawCommands st' cs' := by
  induction cs generalizing st with
  | nil =>
    cases h
    rfl
  | cons c cs ih =>
    simp only [runRawCommands, List.cons_append] at h ⊢
    obtain ⟨st1, h1, h⟩ := bind_ok.1 h
    rw [h1]
    exact ih h

theorem parseLoop_of_run {st st' : PState} {cs : List RawCommand} (h : runRawCommands st cs = .ok st') : parseLoop st cs = parseLoop st' [] := by
  induction cs generalizing st with
  | nil =>
    cases h
    rfl
  | cons c cs ih =>
    simp only [runRawCommands] at h
    obtain ⟨st1, h1, h⟩ := bind_ok.1 h
    refine Eq.trans ?_ (ih h)
    conv_lhs => rw [parseLoop, h1]
    rfl

section
variable {P : List (String × FunDef) → Prop}

theorem Ensures.ignoreAttributes : ∀ n, Ensures (DefsP P) (ignoreAttributes n) fun _ => True
  | 0 => .fail
  | n + 1 => by
    refine .bind .current fun c _ => ?_
    cases c
    case keyword k =>
      refine .bind .next fun _ _ => .bind .current fun c _ => ?_
      cases c
      case closeParen => exact .pure trivial
      case eof => exact .pure trivial
      case keyword => exact Ensures.ignoreAttributes n
      case openParen => exact .bind .next fun _ _ => .bind .ignoreUntilClose fun _ _ => Ensures.ignoreAttributes n
      all_goals exact .bind .next fun _ _ => Ensures.ignoreAttributes n
    all_goals exact .pure trivial

theorem Ensures.optional {α : Type} {key : String} {r : Reader (List α)} {Q : List α → Prop} (h : Ensures (DefsP P) r Q) (h0 : Q []) :
    Ensures (DefsP P) (optional key r) Q :=
  .bind .current fun _ _ => .ite (fun _ => .bind .next fun _ _ => .bind .expect fun _ _ => h) fun _ => .pure h0

theorem Ensures.readRule : Ensures (DefsP P) readRule fun _ => True :=
  .bind .next fun a _ => by cases a <;> first | exact .fail | exact .pure trivial

theorem Ensures.readReferences {resolve : String → Res (Nat × Nat)} : ∀ n, Ensures (DefsP P) (readReferences resolve n)
    fun ps => ∃ names, mapRes resolve names = .ok ps
  | 0 => .fail
  | n + 1 => .bind .current fun _ _ => .ite (fun _ => .bind .next fun _ _ => .pure ⟨[], rfl⟩) fun _ =>
      .bind .expectSymbol fun s _ => .bind (.lift fun p hp => hp) fun p hp => .bind (Ensures.readReferences n) fun ps ⟨names, h⟩ => .pure
        ⟨s :: names, by
          rw [ofRes_ok] at hp
          simp only [mapRes, hp, h]
          rfl⟩

theorem Ensures.nonEmptyOf {α : Type} {r : Reader (List α)} {Q : List α → Prop} (h : Ensures (DefsP P) r Q) :
    Ensures (DefsP P) (r >>= fun as => Carcara.nonEmpty as) Q :=
  .bind h fun _ ha => .mono .nonEmpty fun _ h' => h'.1 ▸ ha
end

theorem Ensures.parseClause {E : PEnv} (hE : E.subtyping = false) (n : Nat) : Ensures (DefsP DefsSorted) (parseClause n E)
    fun ts => ∀ t ∈ ts, t.plainWidths → sortOf t = some .bool :=
  .bind .expect fun _ _ => .bind .expect fun _ _ => Ensures.parseLiterals hE n

theorem Ensures.readStep {E : PEnv} (hE : E.subtyping = false) (n : Nat) (holeArgs : Bool) (ids : HashMapStack String Nat) :
    Ensures (DefsP DefsSorted) (readStep n holeArgs E ids) fun s => ∃ r : RawStep, r.id = s.id ∧ parseStep ids r = .ok s ∧ (RawCommand.step r).Sorted := by
  refine .bind .expectSymbol fun id _ => .bind (.parseClause hE n) fun clause hc => .bind .expect fun _ _ => .bind .readRule fun rule _ =>
    .bind (.optional (.nonEmptyOf (.readReferences n)) ⟨[], rfl⟩) fun ps ⟨names, hps⟩ => .bind (.optional (Q := SortedList) ?_ fun _ h => (by cases h))
      fun as has => .bind (.optional (.nonEmptyOf (.readReferences n)) ⟨[], rfl⟩) fun ds ⟨names', hds⟩ => .bind (.ignoreAttributes n) fun _ _ =>
        .bind .expect fun _ _ => .pure ⟨⟨id, clause, rule, names, as, names'⟩, rfl, ?_, hc, has⟩
  · exact .ite (fun _ => .bind .ignoreUntilClose fun _ _ => .pure fun _ h => (by cases h)) fun _ => .nonEmptyOf ((readsSorted n).terms E hE)
  · simp only [parseStep, hps, hds]
    rfl

theorem Ensures.readAssume {E : PEnv} (hE : E.subtyping = false) (n : Nat) :
    Ensures (DefsP DefsSorted) (readAssume n E) fun p => (RawCommand.assume p.1 p.2).Sorted :=
  .bind .expectSymbol fun _ _ => .bind ((readsSorted n).sorted E hE _) fun _ ht => .bind (.ignoreAttributes n) fun _ _ => .bind .expect fun _ _ =>
    .pure ht

theorem Ensures.readAnchorArg {E : PEnv} (hE : E.subtyping = false) (n : Nat) :
    Ensures (DefsP DefsSorted) (readAnchorArg n E) fun a => ∀ x s v, a = .assign x s v → v.plainWidths → sortOf v = some s := by
  refine .bind .expect fun _ _ => .bind .current fun _ _ => .ite (fun _ => .bind .next fun _ _ =>
    .bind (Q := fun p => p.2.1.plainWidths → sortOf p.2.1 = some p.2.2) (.bind .current fun c _ => ?_) fun p hp => .bind .expect fun _ _ => .pure ?_)
      fun _ => .bind .expectSymbol fun _ _ => .bind ((readsSorted n).sort E hE) fun _ _ => .bind .expect fun _ _ => .pure (by simp)
  · have new : Ensures (DefsP DefsSorted) (do
        let p ← parseSortedVar n E
        let v ← parseSorted n E p.2
        Pure.pure (p.1, v, p.2) : Reader (String × Term × Srt)) fun p => p.2.1.plainWidths → sortOf p.2.1 = some p.2.2 :=
      .bind ((readsSorted n).sortedVar E hE) fun p _ => .bind ((readsSorted n).sorted E hE _) fun v hv => .pure hv
    split
    · refine .bind .expectSymbol fun x _ => .bind ((readsSorted n).term E hE) fun v hv => .bind (.lift fun s hs => hs) fun s hs => ?_
      cases s with
      | known s =>
        refine .pure fun hw => ?_
        obtain ⟨s', hs'⟩ := Option.isSome_iff_exists.1 (hv hw)
        have := poolSort_yields v hs' _ hs
        cases this
        exact hs'
      | param => exact .fail
    · exact new
  · rintro x s v e
    cases e
    exact hp

theorem Ensures.readAnchorArgs : ∀ (n : Nat) {E : PEnv}, E.subtyping = false →
    Ensures (DefsP DefsSorted) (readAnchorArgs n E) fun as => ∀ e, (RawCommand.anchor e as).Sorted
  | 0, _, _ => .fail
  | n + 1, E, hE => .bind .current fun _ _ => .ite (fun _ => .bind .next fun _ _ => .pure fun _ _ h => (by cases h)) fun _ =>
      .bind (.readAnchorArg hE n) fun a ha => .bind (Ensures.readAnchorArgs n hE) fun as has => .pure fun e b hb => by
        rcases List.mem_cons.1 hb with rfl | hb
        · exact ha
        · exact has e b hb

theorem Ensures.readAnchor {E : PEnv} (hE : E.subtyping = false) (n : Nat) :
    Ensures (DefsP DefsSorted) (readAnchor n E) fun p => (RawCommand.anchor p.1 p.2).Sorted :=
  .bind .expect fun _ _ => .bind .expectSymbol fun _ _ => .bind (.optional (.nonEmptyOf (.readAnchorArgs n hE)) fun _ _ h => (by cases h)) fun as has =>
    .bind (.ignoreAttributes n) fun _ _ => .bind .expect fun _ _ => .pure (has _)

theorem Ensures.readParams {E : PEnv} (hE : E.subtyping = false) : ∀ n : Nat, Ensures (DefsP DefsSorted) (readParams n E) fun _ => True
  | 0 => .fail
  | n + 1 => .bind .current fun _ _ => .ite (fun _ => .bind .next fun _ _ => .pure trivial) fun _ =>
      .bind ((readsSorted n).sortedVar E hE) fun _ _ => .bind (Ensures.readParams hE n) fun _ _ => .pure trivial

theorem Ensures.readFunctionDec {E : PEnv} (hE : E.subtyping = false) (n : Nat) : Ensures (DefsP DefsSorted) (readFunctionDec n E) fun _ => True :=
  .bind .expectSymbol fun _ _ => .bind .expect fun _ _ => .bind (.readParams hE n) fun _ _ => .bind ((readsSorted n).sort E hE) fun _ _ => .pure trivial

theorem Ensures.readDefineFun {E : PEnv} (hE : E.subtyping = false) (n : Nat) :
    Ensures (DefsP DefsSorted) (readDefineFun n E) fun p => SortedIfPlain p.2.body :=
  .bind (.readFunctionDec hE n) fun p _ => .bind ((readsSorted n).sorted (E.bind p.2.1) hE p.2.2) fun t ht => .bind .expect fun _ _ =>
    .pure fun hw => by rw [ht hw]; rfl

theorem Ensures.readCommand {E : PEnv} (hE : E.subtyping = false) (n : Nat) (holeArgs : Bool) (P : Progress) :
    Ensures (DefsP DefsSorted) (readCommand n holeArgs E P)
      fun P' => ∃ rs, runRawCommands P.proof rs = .ok P'.proof ∧ ∀ r ∈ rs, r.Sorted := by
  have hE' : { E with vars := P.scopes.headD [] }.subtyping = false := hE
  have add : ∀ {Q P' : Progress} {id : String} {c : Command}, Q.add id c = .ok P' → addCommand Q.proof id c = .ok P'.proof := by
    intro Q P' id c h
    obtain ⟨st, h1, h2⟩ := bind_ok.1 h
    cases h2
    exact h1
  refine .bind .next fun c _ => ?_
  cases c
  case reserved w =>
    cases w
    case assume =>
      refine .bind (.readAssume hE' n) fun p hp => ?_
      obtain ⟨id, t⟩ := p
      dsimp only
      rcases hst : P.proof.stack with _ | ⟨top, outer⟩
      · exact .fail
      · refine .ite (fun _ => .fail) fun hc => .lift fun P' h => ⟨[.assume id t], ?_, by simpa using hp⟩
        rw [ofRes_ok] at h
        have hc' : (top.sawStep && decide (outer ≠ [])) = false := by simpa using hc
        simp only [runRawCommands, parseCommand, hst, hc', add h]
        rfl
    case step =>
      dsimp only
      rcases hst : P.proof.stack with _ | ⟨top, outer⟩
      · exact .fail
      · refine .bind (.readStep hE' n holeArgs _) fun s ⟨r, hid, hr, hs⟩ => .lift fun P' h => ⟨[.step r], ?_, by simpa using hs⟩
        rw [ofRes_ok] at h
        simp only [runRawCommands, parseCommand, hst, hr, hid]
        exact bind_ok.2 ⟨_, bind_ok.2 ⟨_, rfl, add h⟩, rfl⟩
    case defineFun =>
      exact .bind (.readDefineFun hE' n) fun p hp => .bind (.define hp) fun _ _ => .pure ⟨[], by split <;> rfl, fun _ h => (by cases h)⟩
    case anchor =>
      exact .bind (.readAnchor hE' n) fun p hp => .pure ⟨[.anchor p.1 p.2], rfl, by simpa using hp⟩
    all_goals exact .fail
  all_goals exact .fail

theorem Ensures.readCommands {E : PEnv} (hE : E.subtyping = false) (holeArgs : Bool) : ∀ (n : Nat) (first extra : Bool) (P : Progress),
    Ensures (DefsP DefsSorted) (readCommands holeArgs E n first extra P)
      fun p => ∃ rs, runRawCommands P.proof rs = .ok p.2.proof ∧ ∀ r ∈ rs, r.Sorted
  | 0, _, _, _ => .fail
  | n + 1, first, extra, P => by
    have stop : Ensures (DefsP DefsSorted) (Pure.pure (extra, P) : Reader (Bool × Progress))
        fun p => ∃ rs, runRawCommands P.proof rs = .ok p.2.proof ∧ ∀ r ∈ rs, r.Sorted := .pure ⟨[], rfl, fun _ h => (by cases h)⟩
    refine .bind .current fun c _ => ?_
    have go : Ensures (DefsP DefsSorted) (do
        Reader.expect Token.openParen
        let t ← Reader.current
        if first ∧ t = Token.openParen ∨ t = Token.closeParen then Carcara.readCommands holeArgs E n false true P
        else do
          let P ← Carcara.readCommand n holeArgs E P
          Carcara.readCommands holeArgs E n false extra P) fun p => ∃ rs, runRawCommands P.proof rs = .ok p.2.proof ∧ ∀ r ∈ rs, r.Sorted := by
      refine .bind .expect fun _ _ => .bind .current fun t _ => .ite (fun _ => Ensures.readCommands hE holeArgs n _ _ P) fun _ =>
        .bind (.readCommand hE n holeArgs P) fun P' ⟨rs, h1, h2⟩ => .mono (Ensures.readCommands hE holeArgs n _ _ P') fun p ⟨rs', h3, h4⟩ =>
          ⟨rs ++ rs', (runCommands_append h1).trans h3, fun r hr => ?_⟩
      rcases List.mem_append.1 hr with hr | hr
      · exact h2 r hr
      · exact h4 r hr
    cases c <;> first | exact stop | exact go

theorem Ensures.readProof {E : PEnv} (hE : E.subtyping = false) (holeArgs : Bool) (n : Nat) :
    Ensures (DefsP DefsSorted) (readProof n holeArgs E) fun p => ∃ rs, parseProof rs = .ok p.commands ∧ ∀ r ∈ rs, r.Sorted := by
  have skip : Ensures (DefsP DefsSorted) skipUnsat fun _ => True :=
    .bind .current fun _ _ => .ite (fun _ => .bind .next fun _ _ => .pure trivial) fun _ => .pure trivial
  have close : ∀ b t, Ensures (DefsP DefsSorted) (expectIf b t) fun _ => True := fun b t => .ite (fun _ => .expect) fun _ => .pure trivial
  refine .bind skip fun _ _ => .bind (.readCommands hE holeArgs n _ _ _) fun p ⟨rs, h1, h2⟩ => .bind (close _ _) fun _ _ => .bind .expect fun _ _ => ?_
  split
  · next root hr =>
    refine .pure ⟨rs, ?_, h2⟩
    unfold parseProof
    rw [parseLoop_of_run h1, parseLoop, hr]
  · exact .fail

end Carcara
