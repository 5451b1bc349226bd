import Verif.Spec.RareParser
import Verif.Lemmas.FileParserProblem
import Verif.Lemmas.FileParserPrint
import Verif.Lemmas.TermParserFuel

/-!
# Lemmas about the parser of rewrite rules
-/

namespace Carcara
open PRes Reader

/-! ## Sorts of terms -/

/-- All terms of a rule have a sort, if the widths in them are literals. -/
def RareDecl.Sorted (r : RareDecl) : Prop := ∀ t ∈ r.conclusion :: r.premises, SortedIfPlain t

/-- The same for what has been read of a rule. -/
def RareParts.Sorted (P : RareParts) : Prop := (∀ t, P.conclusion = some t → SortedIfPlain t) ∧ ∀ t ∈ P.premises, SortedIfPlain t

def RareBody.Sorted : RareBody → Prop
  | .conclusion t => SortedIfPlain t
  | .premises ts => ∀ t ∈ ts, SortedIfPlain t
  | .args _ => True

theorem RareParts.Sorted.add {P : RareParts} (h : P.Sorted) : ∀ {b : RareBody}, b.Sorted → (P.add b).Sorted
  | .conclusion t, hb => ⟨fun u hu => by cases hu; exact hb, h.2⟩
  | .premises ts, hb => ⟨h.1, hb⟩
  | .args _, _ => h

theorem RareParts.sorted_foldl {bs : List RareBody} (hb : ∀ b ∈ bs, b.Sorted) : ∀ {P : RareParts}, P.Sorted → (bs.foldl RareParts.add P).Sorted := by
  induction bs with
  | nil => exact fun h => h
  | cons b bs ih => exact fun h => ih (fun c hc => hb c (by simp [hc])) (RareParts.Sorted.add h (hb b (by simp)))

section
variable {E : PEnv}

theorem PEnv.declareParam_subtyping (x : String) (s : Srt) : (E.declareParam x s).subtyping = E.subtyping := rfl

theorem Ensures.readRareSort (hE : E.subtyping = false) (n : Nat) : Ensures (DefsP DefsSorted) (readRareSort n E) fun _ => True :=
  .bind .next fun t _ => by
    cases t
    case symbol s => exact .ite (fun _ => .fail) fun _ => .lift fun _ _ => trivial
    case openParen =>
      exact .bind .current fun _ _ => .ite (fun _ => .bind .next fun _ _ => .bind .expectSymbol fun _ _ => .bind ((readsSorted n).terms E hE) fun _ _ =>
        .bind .nonEmpty fun _ _ => .lift fun _ _ => trivial) fun _ => .fail
    all_goals exact .fail

theorem Ensures.readRareAttribute : Ensures (DefsP DefsSorted) readRareAttribute fun _ => True :=
  .bind .current fun t _ => by
    cases t
    case closeParen => exact .bind .expect fun _ _ => .pure trivial
    case keyword k => exact .bind .expectKeyword fun _ _ => .bind .expect fun _ _ => .ite (fun _ => .pure trivial) fun _ => .fail
    all_goals exact .fail

theorem Ensures.readRareParams : ∀ (n : Nat) {E : PEnv}, E.subtyping = false →
    Ensures (DefsP DefsSorted) (readRareParams n E) fun r => r.2.subtyping = false
  | 0, _, _ => .fail
  | n + 1, E, hE => .bind .current fun _ _ => .ite (fun _ => .bind .next fun _ _ => .pure hE) fun _ =>
      .bind (Q := fun _ => True) (.bind .expect fun _ _ => .bind .expectSymbol fun _ _ => .bind (.readRareSort hE n) fun _ _ =>
        .bind .readRareAttribute fun _ _ => .pure trivial) fun _ _ =>
      .bind (Ensures.readRareParams n (hE : (E.declareParam _ _).subtyping = false)) fun _ h => .pure h

theorem Ensures.readRareBody (hE : E.subtyping = false) (n : Nat) : Ensures (DefsP DefsSorted) (readRareBody n E) RareBody.Sorted :=
  .bind .expectKeyword fun _ _ => .ite (fun _ => .bind ((readsSorted n).term E hE) fun _ h => .pure h) fun _ =>
    .ite (fun _ => .bind .expect fun _ _ => .bind (.readSymbols n) fun _ _ => .pure trivial) fun _ =>
    .ite (fun _ => .bind .expect fun _ _ => .bind ((readsSorted n).terms E hE) fun _ h => .pure h) fun _ => .fail

theorem Ensures.readRareBodies (hE : E.subtyping = false) : ∀ n : Nat, Ensures (DefsP DefsSorted) (readRareBodies n E) fun bs => ∀ b ∈ bs, b.Sorted
  | 0 => .fail
  | n + 1 => .bind .current fun _ _ => .ite (fun _ => .bind .next fun _ _ => .pure (by simp)) fun _ =>
      .bind (.readRareBody hE n) fun _ h => .bind (Ensures.readRareBodies hE n) fun _ h' => .pure fun c hc => by
        rcases List.mem_cons.1 hc with rfl | hc
        · exact h
        · exact h' c hc

theorem Ensures.readRareRule (hE : E.subtyping = false) (n : Nat) :
    Ensures (DefsP DefsSorted) (readRareRule n E) fun r => r.1.Sorted ∧ r.2.subtyping = false :=
  .bind .expect fun _ _ => .bind .expect fun _ _ => .bind .expectSymbol fun _ _ => .bind .expect fun _ _ => .bind (.readRareParams n hE) fun _ hE' =>
    .bind (.readRareBodies hE' n) fun bs hb => by
      have := RareParts.sorted_foldl hb (P := {}) ⟨fun _ h => (by cases h), fun _ h => (by cases h)⟩
      dsimp only
      split
      · exact .fail
      · next t ht =>
        refine .pure ⟨fun u hu => ?_, hE'⟩
        rcases List.mem_cons.1 hu with rfl | hu
        · exact this.1 _ ht
        · exact this.2 u hu

theorem Ensures.readRareRules : ∀ (n : Nat) {E : PEnv}, E.subtyping = false →
    Ensures (DefsP DefsSorted) (readRareRules n E) fun rs => ∀ r ∈ rs, r.Sorted
  | 0, _, _ => .fail
  | n + 1, _, hE => .bind .current fun _ _ => .ite (fun _ => .pure (by simp)) fun _ => .bind (.readRareRule hE n) fun _ h =>
      .bind (Ensures.readRareRules n h.2) fun _ h' => .pure fun c hc => by
        rcases List.mem_cons.1 hc with rfl | hc
        · exact h.1
        · exact h' c hc

/-! ## Termination -/

theorem Suffices.readSymbols : ∀ {n l : Nat}, l + 1 ≤ n → Suffices l 0 (readSymbols n)
  | 0, _, h => by omega
  | n + 1, l, h => .current fun _ => Suffices.at (.ite (.next0 fun _ => .pure) (.seq .expectSymbol fun _ _ =>
      .then (Suffices.readSymbols (by omega)) fun _ => .pure))

theorem Suffices.readRareSort {n l : Nat} (h : 2 * l ≤ n) : Suffices l 1 (readRareSort n E) := by
  refine .next (d := 0) (fun t _ hl => ?_) fun _ => rfl
  cases t
  case symbol s => exact .ite (.fail (by simp)) (.lift .makeSort)
  case openParen =>
    exact .current fun _ => Suffices.at (.ite (.next0 fun _ => .seq .expectSymbol fun _ _ => .then ((enoughSteps n).terms _ _ (by omega)) fun _ =>
      .then .nonEmpty fun _ => .lift .makeIndexedSort) (.fail (by simp)))
  all_goals exact .fail (by simp)

theorem Suffices.readRareAttribute {l : Nat} : Suffices l 0 readRareAttribute := by
  refine .current fun t => Suffices.at ?_
  cases t
  case closeParen => exact .seq (.expect (by simp)) fun _ _ => .pure
  case keyword k => exact .seq .expectKeyword fun _ _ => .seq (.expect (by simp)) fun _ _ => .ite .pure (.fail (by simp))
  all_goals exact .fail (by simp)

theorem Suffices.readRareParam {n l : Nat} (h : 2 * l ≤ n) : Suffices l 1 (readRareParam n E) :=
  .bind (d := 1) (e := 0) (.expect (by simp)) fun _ _ => .seq .expectSymbol fun _ _ => .seq (.readRareSort (by omega)) fun _ _ =>
    .then .readRareAttribute fun _ => .pure

theorem Suffices.readRareParams : ∀ {n l : Nat} {E : PEnv}, 2 * l + 1 ≤ n → Suffices l 0 (readRareParams n E)
  | 0, _, _, h => by omega
  | n + 1, l, E, h => .current fun _ => Suffices.at (.ite (.next0 fun _ => .pure) (.seq (.readRareParam (by omega)) fun _ _ =>
      .then (Suffices.readRareParams (by omega)) fun _ => .pure))

theorem Suffices.readRareBody {n l : Nat} (h : 2 * l ≤ n) : Suffices l 1 (readRareBody n E) :=
  .bind (d := 1) (e := 0) .expectKeyword fun _ _ => .ite (.seq ((enoughSteps n).term _ _ (by omega)) fun _ _ => .pure)
    (.ite (.seq (.expect (by simp)) fun _ _ => .then (.readSymbols (by omega)) fun _ => .pure)
    (.ite (.seq (.expect (by simp)) fun _ _ => .then ((enoughSteps n).terms _ _ (by omega)) fun _ => .pure) (.fail (by simp))))

theorem Suffices.readRareBodies : ∀ {n l : Nat}, 2 * l + 1 ≤ n → Suffices l 0 (readRareBodies n E)
  | 0, _, h => by omega
  | n + 1, l, h => .current fun _ => Suffices.at (.ite (.next0 fun _ => .pure) (.seq (.readRareBody (by omega)) fun _ _ =>
      .then (Suffices.readRareBodies (by omega)) fun _ => .pure))

theorem Suffices.readRareRule {n l : Nat} (h : 2 * l ≤ n) : Suffices l 1 (readRareRule n E) :=
  .bind (d := 1) (e := 0) (.expect (by simp)) fun _ _ => .seq (.expect (by simp)) fun _ _ => .seq .expectSymbol fun _ _ => .seq (.expect (by simp)) fun _ _ =>
    .then (.readRareParams (by omega)) fun _ => .then (.readRareBodies (by omega)) fun bs => by
      dsimp only
      split
      · exact .fail (by simp)
      · exact .pure

theorem Suffices.readRareRules : ∀ {n l : Nat} {E : PEnv}, 2 * l + 1 ≤ n → Suffices l 0 (readRareRules n E)
  | 0, _, _, h => by omega
  | n + 1, l, E, h => .current fun _ => Suffices.at (.ite .pure (.seq (.readRareRule (by omega)) fun _ _ =>
      .then (Suffices.readRareRules (by omega)) fun _ => .pure))

/-! ## Rules are read back -/

variable {F : List (String × FunDef)}

theorem readRareSort_tokens (hE : PlainEnv E) {s : Srt} (hk : s.Known E) (hf : s.flat = true) {n : Nat} {rest : List Token} (hn : 2 * s.tokens.length ≤ n) :
    readRareSort n E ⟨s.tokens ++ rest, F⟩ = .ok (s, ⟨rest, F⟩) := by
  have h := parseSort_tokens (F := F) hE.ints hk (n := n + 1) (rest := rest) (by omega)
  rw [← h]
  cases s with
  | fn _ _ => cases hf
  | array _ _ => cases hf
  | rareList => cases hf
  | bv w => 
    rw [parseSort]
    rfl
  | atom x as =>
    cases as with
    | cons _ _ => cases hf
    | nil =>
      rw [parseSort, readRareSort]
      simp only [Srt.tokens, List.cons_append, List.nil_append]
      rw [reader_bind next_cons, reader_bind next_cons]
      simp only
      rw [if_neg]
      rw [Srt.Known] at hk
      simp [hk.2.1]
  | _ =>
    rw [parseSort, readRareSort]
    simp only [Srt.tokens, List.cons_append, List.nil_append]
    rw [reader_bind next_cons, reader_bind next_cons]
    simp only
    rw [if_neg (fun h => absurd h.1 (by decide))]

theorem readRareAttribute_tokens {b : Bool} {rest : List Token} :
    readRareAttribute ⟨(if b then [.keyword "list"] else []) ++ .closeParen :: rest, F⟩ = .ok (b, ⟨rest, F⟩) := by
  cases b <;> rfl

theorem readRareParam_tokens (hE : PlainEnv E) {p : RareParamDecl} (hk : p.sort.Known E) (hf : p.sort.flat = true) {n : Nat} {rest : List Token}
    (hn : 2 * p.tokens.length ≤ n) : readRareParam n E ⟨p.tokens ++ rest, F⟩ = .ok (p, ⟨rest, F⟩) := by
  simp only [RareParamDecl.tokens, List.length_cons, List.length_append] at hn
  simp only [RareParamDecl.tokens, List.cons_append, List.append_assoc, List.nil_append]
  rw [readRareParam, reader_bind expect_cons, reader_bind expectSymbol_cons, reader_bind (readRareSort_tokens hE hk hf (by omega)),
    reader_bind readRareAttribute_tokens]
  rfl

theorem PlainEnv.declareParam (h : PlainEnv E) (x : String) (s : Srt) : PlainEnv (E.declareParam x s) := ⟨h.strict, h.ints⟩

theorem PlainEnv.declareParams : ∀ {ps : List RareParamDecl} {E : PEnv}, PlainEnv E → PlainEnv (E.declareParams ps)
  | [], _, h => h
  | _ :: ps, _, h => PlainEnv.declareParams (ps := ps) (h.declareParam _ _)

theorem readRareParams_tokens : ∀ {ps : List RareParamDecl} {E : PEnv}, PlainEnv E → KnownParams E ps → ∀ {n : Nat} {rest : List Token},
    2 * (ps.map RareParamDecl.tokens).flatten.length + 1 ≤ n →
    readRareParams n E ⟨(ps.map RareParamDecl.tokens).flatten ++ .closeParen :: rest, F⟩ = .ok ((ps, E.declareParams ps), ⟨rest, F⟩)
  | _, _, _, _, 0, _, hn => by omega
  | [], _, _, _, n + 1, rest, _ => by
    simp only [List.map_nil, List.flatten_nil, List.nil_append]
    rw [readRareParams, reader_bind current_cons, if_pos rfl, reader_bind next_cons]
    rfl
  | p :: ps, E, hE, h, n + 1, rest, hn => by
    have hl : 4 ≤ p.tokens.length := by
      obtain ⟨t, ts, e, _⟩ := p.sort.tokens_head
      simp [RareParamDecl.tokens, e]
      omega
    simp only [List.map_cons, List.flatten_cons, List.length_append] at hn
    simp only [List.map_cons, List.flatten_cons, List.append_assoc]
    have ih := readRareParams_tokens (hE.declareParam p.name p.sort) h.2.2 (n := n) (rest := rest) (by omega)
    have e1 := readRareParam_tokens (F := F) hE h.1 h.2.1 (n := n) (rest := (ps.map RareParamDecl.tokens).flatten ++ .closeParen :: rest)
    have hc : current ⟨p.tokens ++ ((ps.map RareParamDecl.tokens).flatten ++ .closeParen :: rest), F⟩ =
        .ok (.openParen, ⟨p.tokens ++ ((ps.map RareParamDecl.tokens).flatten ++ .closeParen :: rest), F⟩) := rfl
    rw [readRareParams, reader_bind hc, if_neg (by simp), reader_bind (e1 (by omega)), reader_bind ih]
    rfl

theorem readSymbols_tokens : ∀ {xs : List String} {n : Nat} {rest : List Token}, xs.length + 1 ≤ n →
    readSymbols n ⟨xs.map Token.symbol ++ .closeParen :: rest, F⟩ = .ok (xs, ⟨rest, F⟩)
  | _, 0, _, hn => by omega
  | [], n + 1, rest, _ => by
    simp only [List.map_nil, List.nil_append]
    rw [readSymbols, reader_bind current_cons, if_pos rfl, reader_bind next_cons]
    rfl
  | x :: xs, n + 1, rest, hn => by
    simp only [List.map_cons, List.cons_append]
    rw [readSymbols, reader_bind current_cons, if_neg (by simp), reader_bind expectSymbol_cons,
      reader_bind (readSymbols_tokens (by simpa using hn))]
    rfl

theorem readRareBodies_cons {n : Nat} {k : String} {b : RareBody} {bs : List RareBody} {ts ts' rest : List Token}
    (h : readRareBody n E ⟨.keyword k :: ts, F⟩ = .ok (b, ⟨ts', F⟩)) (h' : readRareBodies n E ⟨ts', F⟩ = .ok (bs, ⟨rest, F⟩)) :
    readRareBodies (n + 1) E ⟨.keyword k :: ts, F⟩ = .ok (b :: bs, ⟨rest, F⟩) := by
  rw [readRareBodies, reader_bind current_cons, if_neg (by simp), reader_bind h, reader_bind h']
  rfl

theorem readRareBodies_close {n : Nat} {rest : List Token} : readRareBodies (n + 1) E ⟨.closeParen :: rest, F⟩ = .ok ([], ⟨rest, F⟩) := by
  rw [readRareBodies, reader_bind current_cons, if_pos rfl, reader_bind next_cons]
  rfl

/-- The terms of a rule can be written where its parameters are declared. -/
structure RareDecl.WritableIn (F : List (String × FunDef)) (E : PEnv) (r : RareDecl) : Prop where
  params : KnownParams E r.params
  premises : ∀ t ∈ r.premises, Writable [] F (E.declareParams r.params) t
  conclusion : Writable [] F (E.declareParams r.params) r.conclusion

theorem readRareRule_tokens (hE : PlainEnv E) {r : RareDecl} (h : r.WritableIn F E) {n : Nat} {rest : List Token} (hn : 2 * r.tokens.length ≤ n) :
    readRareRule n E ⟨r.tokens ++ rest, F⟩ = .ok ((r, E.declareParams r.params), ⟨rest, F⟩) := by
  simp only [RareDecl.tokens, List.length_cons, List.length_append, List.length_map, List.length_nil] at hn
  simp only [RareDecl.tokens, List.cons_append, List.append_assoc, List.nil_append]
  have hE' := hE.declareParams (ps := r.params)
  obtain ⟨m, rfl⟩ := Nat.exists_eq_add_of_le (show 4 ≤ n by omega)
  rw [readRareRule, reader_bind expect_cons, reader_bind expect_cons, reader_bind expectSymbol_cons, reader_bind expect_cons,
    reader_bind (readRareParams_tokens hE h.params (by omega))]
  simp only
  have b3 : readRareBodies (m + 2) (E.declareParams r.params) ⟨.keyword "conclusion" :: (r.conclusion.tokens false [] ++ .closeParen :: rest), F⟩ =
      .ok ([.conclusion r.conclusion], ⟨rest, F⟩) := by
    refine readRareBodies_cons (ts' := .closeParen :: rest) ?_ readRareBodies_close
    rw [readRareBody, reader_bind expectKeyword_cons, if_pos rfl, reader_bind (readsTerm r.conclusion _ hE' h.conclusion _ _ (by omega))]
    rfl
  have b2 := readRareBodies_cons (n := m + 2) (k := "premises") (b := .premises r.premises)
    (ts := .openParen :: ((Term.tokensL false [] r.premises).flatten ++ .closeParen :: _)) (by
    rw [readRareBody, reader_bind expectKeyword_cons, if_neg (by decide), if_neg (by decide), if_pos rfl, reader_bind expect_cons,
      reader_bind (parseTerms_tokens hE' (fun a _ => readsTerm a) h.premises (by omega))]
    rfl) b3
  have b1 := readRareBodies_cons (n := m + 3) (k := "args") (b := .args r.args) (ts := .openParen :: (r.args.map Token.symbol ++ .closeParen :: _)) (by
    rw [readRareBody, reader_bind expectKeyword_cons, if_neg (by decide), if_pos rfl, reader_bind expect_cons,
      reader_bind (readSymbols_tokens (by omega))]
    rfl) b2
  rw [Nat.add_comm 4 m, reader_bind b1]
  rfl

/-- The same for the rules of a file: the parameters of a rule stay declared. -/
def RareWritable (F : List (String × FunDef)) : PEnv → List RareDecl → Prop
  | _, [] => True
  | E, r :: rs => r.WritableIn F E ∧ RareWritable F (E.declareParams r.params) rs

theorem readRareRules_tokens : ∀ {rs : List RareDecl} {E : PEnv}, PlainEnv E → RareWritable F E rs → ∀ {n : Nat},
    2 * (rs.map RareDecl.tokens).flatten.length + 1 ≤ n →
    readRareRules n E ⟨(rs.map RareDecl.tokens).flatten, F⟩ = .ok (rs, ⟨[], F⟩)
  | _, _, _, _, 0, hn => by omega
  | [], _, _, _, n + 1, _ => rfl
  | r :: rs, E, hE, h, n + 1, hn => by
    have hl : 1 ≤ r.tokens.length := by simp [RareDecl.tokens]
    simp only [List.map_cons, List.flatten_cons, List.length_append] at hn
    simp only [List.map_cons, List.flatten_cons]
    have ih := readRareRules_tokens hE.declareParams h.2 (n := n) (by omega)
    have hc : current ⟨r.tokens ++ (rs.map RareDecl.tokens).flatten, F⟩ = .ok (.openParen, ⟨r.tokens ++ (rs.map RareDecl.tokens).flatten, F⟩) := rfl
    rw [readRareRules, reader_bind hc, if_neg (by simp), reader_bind (readRareRule_tokens hE h.1 (by omega))]
    simp only
    rw [reader_bind ih]
    rfl

end

end Carcara
