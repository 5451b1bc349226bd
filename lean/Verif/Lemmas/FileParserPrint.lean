import Verif.Lemmas.TermParserPrint
import Verif.Lemmas.ProofParser
import Verif.Model.FileParser
import Verif.Spec.FileParser

/-!
# The tokens of a proof are read as the proof
-/

namespace Carcara
open PRes Reader

/-- The variable that an argument of an anchor declares. -/
def AnchorArg.declares : AnchorArg → String × Srt
  | .var x s | .assign x s _ => (x, s)

/-- Arguments of an anchor that can be written: their sorts are known, and a value has the sort of its variable, where earlier variables are declared. -/
def ArgsWritable (D : List (Term × String)) (F : List (String × FunDef)) : PEnv → List AnchorArg → Prop
  | _, [] => True
  | E, a :: as => a.declares.2.Known E ∧ (∀ x s v, a = .assign x s v → Writable D F E v ∧ sortOf v = some s) ∧ ArgsWritable D F (E.bind [a.declares]) as

mutual
/-- Commands whose terms can be written, where the variables of the enclosing anchors are declared. -/
def Command.WritableIn (D : List (Term × String)) (F : List (String × FunDef)) (E : PEnv) : Command → Prop
  | .assume _ t => Writable D F E t ∧ sortOf t = some .bool
  | .step s => (∀ l ∈ s.clause, Writable D F E l ∧ sortOf l = some .bool) ∧ ∀ a ∈ s.args, Writable D F E a
  | .subproof cs as _ => ArgsWritable D F E as ∧ Command.WritableInL D F (E.bind (as.map AnchorArg.declares)) cs
def Command.WritableInL (D : List (Term × String)) (F : List (String × FunDef)) (E : PEnv) : List Command → Prop
  | [] => True
  | c :: cs => c.WritableIn D F E ∧ Command.WritableInL D F E cs
end

section
variable {D : List (Term × String)} {F : List (String × FunDef)} {E : PEnv}

theorem Command.writableInL_append {cs cs' : List Command} :
    Command.WritableInL D F E (cs ++ cs') ↔ Command.WritableInL D F E cs ∧ Command.WritableInL D F E cs' := by
  induction cs with
  | nil => simp [Command.WritableInL]
  | cons c cs ih => simp [Command.WritableInL, ih, and_assoc]

theorem parseSorted_tokens (hE : PlainEnv E) {t : Term} {s : Srt} (h : Writable D F E t) (hs : sortOf t = some s) {n : Nat} {rest : List Token}
    (hn : 2 * (t.tokens false D).length + 1 ≤ n) : parseSorted n E s ⟨t.tokens false D ++ rest, F⟩ = .ok (t, ⟨rest, F⟩) := by
  obtain ⟨n, rfl⟩ := Nat.exists_eq_add_of_le (show 1 ≤ n by omega)
  have h3 : (do assertSort (.known s) (← poolSort t)) = (.ok () : PRes Unit) := by
    rw [poolSort_ok t hs h.small]
    change assertSort (.known s) (.known s) = _
    simp [assertSort, need]
  rw [Nat.add_comm 1 n, parseSorted, reader_bind (readsTerm t E hE h n rest (by omega)), reader_bind (reader_lift h3)]
  rfl

theorem ignoreAttributes_close {n : Nat} {rest : List Token} :
    ignoreAttributes (n + 1) ⟨.closeParen :: rest, F⟩ = .ok ((), ⟨.closeParen :: rest, F⟩) := by
  rw [ignoreAttributes, reader_bind current_cons]
  rfl

theorem optional_tokens {α : Type} {key : String} {r : Reader (List α)} {tss : List (List Token)} {as : List α} {h : Token} {rest : List Token}
    (h0 : tss = [] → as = []) (hr : tss ≠ [] → r ⟨tss.flatten ++ .closeParen :: h :: rest, F⟩ = .ok (as, ⟨h :: rest, F⟩)) (hh : h ≠ .keyword key) :
    optional key r ⟨(attributeTokens key tss).flatten ++ h :: rest, F⟩ = .ok (as, ⟨h :: rest, F⟩) := by
  unfold optional attributeTokens
  by_cases ht : tss = []
  · rw [if_pos ht, h0 ht]
    simp only [List.flatten_nil, List.nil_append]
    rw [reader_bind current_cons, if_neg hh]
    rfl
  · rw [if_neg ht]
    simp only [List.flatten_cons, List.flatten_nil, List.append_nil, List.append_assoc, List.cons_append, List.nil_append, parens_append]
    rw [reader_bind current_cons, if_pos rfl, reader_bind next_cons, reader_bind expect_cons]
    exact hr ht

theorem readReferences_tokens {resolve : String → Res (Nat × Nat)} : ∀ {names : List String} {ps : List (Nat × Nat)}, mapRes resolve names = .ok ps →
    ∀ {n : Nat} {rest : List Token}, names.length + 1 ≤ n →
    readReferences resolve n ⟨(names.map fun i => [Token.symbol i]).flatten ++ .closeParen :: rest, F⟩ = .ok (ps, ⟨rest, F⟩)
  | _, _, _, 0, _, hn => by omega
  | [], _, h, n + 1, rest, _ => by
    cases h
    simp only [List.map_nil, List.flatten_nil, List.nil_append]
    rw [readReferences, reader_bind current_cons, if_pos rfl, reader_bind next_cons]
    rfl
  | i :: names, ps, h, n + 1, rest, hn => by
    simp only [mapRes] at h
    obtain ⟨p, h1, h⟩ := bind_ok.1 h
    obtain ⟨qs, h2, h⟩ := bind_ok.1 h
    cases h
    have ih := readReferences_tokens h2 (n := n) (rest := rest) (by simpa using hn)
    simp only [List.map_cons, List.flatten_cons, List.cons_append, List.nil_append]
    rw [readReferences, reader_bind current_cons, if_neg (by simp), reader_bind expectSymbol_cons, reader_bind (reader_lift (ofRes_ok.2 h1)), reader_bind ih]
    rfl

theorem mapRes_nil_iff {α β : Type} {f : α → Res β} {as : List α} {bs : List β} (h : mapRes f as = .ok bs) : as = [] ↔ bs = [] := by
  cases as with
  | nil =>
    cases h
    simp
  | cons a as =>
    simp only [mapRes] at h
    obtain ⟨b, _, h⟩ := bind_ok.1 h
    obtain ⟨bs', _, h⟩ := bind_ok.1 h
    cases h
    simp

theorem attributeTokens_length (key : String) (tss : List (List Token)) : tss.flatten.length ≤ (attributeTokens key tss).flatten.length := by
  unfold attributeTokens
  split
  · next h => simp [h]
  · simp [parens_length]
    omega

theorem attributeTokens_head (key : String) (tss : List (List Token)) {h : Token} {rest : List Token} :
    ∃ h' rest', (attributeTokens key tss).flatten ++ h :: rest = h' :: rest' ∧ (h' = .keyword key ∨ h' = h) := by
  unfold attributeTokens
  split
  · exact ⟨h, rest, rfl, .inr rfl⟩
  · exact ⟨.keyword key, _, rfl, .inl rfl⟩

theorem tokensL_nil {as : List Term} : Term.tokensL false D as = [] ↔ as = [] := by
  cases as <;> simp [Term.tokensL]

theorem tokensL_length (as : List Term) : as.length ≤ (Term.tokensL false D as).flatten.length := by
  induction as with
  | nil => simp
  | cons a as ih =>
    have := tokens_pos (D := D) a
    simp only [Term.tokensL, List.flatten_cons, List.length_append, List.length_cons]
    omega

theorem symbols_length (names : List String) : (names.map fun i => [Token.symbol i]).flatten.length = names.length := by
  induction names with
  | nil => rfl
  | cons a as ih => simp [ih]

/-- The tokens of a step after the first two. -/
def stepTail (D : List (Term × String)) (r : RawStep) : List Token :=
  .symbol r.id :: (parens ([.reserved .cl] :: Term.tokensL false D r.clause) ++ .keyword "rule" :: .symbol r.rule ::
    ((attributeTokens "premises" (r.premises.map fun i => [.symbol i])).flatten ++ ((attributeTokens "args" (Term.tokensL false D r.args)).flatten ++
      ((attributeTokens "discharge" (r.discharge.map fun i => [.symbol i])).flatten ++ [.closeParen]))))

theorem stepTokens_eq (r : RawStep) : (RawCommand.step r).tokens D = .openParen :: .reserved .step :: stepTail D r := by
  simp [RawCommand.tokens, stepTokens, stepTail, parens, List.append_assoc]

theorem readStep_tokens (hE : PlainEnv E) {holeArgs : Bool} {ids : HashMapStack String Nat} {r : RawStep} {s : Step} (h : parseStep ids r = .ok s)
    (hc : ∀ l ∈ r.clause, Writable D F E l ∧ sortOf l = some .bool) (ha : ∀ a ∈ r.args, Writable D F E a)
    (hh : r.rule = "hole" → r.args ≠ [] → holeArgs = true) {n : Nat} {rest : List Token} (hn : 2 * (stepTail D r).length ≤ n) :
    readStep n holeArgs E ids ⟨stepTail D r ++ rest, F⟩ = .ok (s, ⟨rest, F⟩) := by
  obtain ⟨ps, h1, h⟩ := bind_ok.1 h
  obtain ⟨ds, h2, h⟩ := bind_ok.1 h
  cases h
  have l1 := attributeTokens_length "premises" (r.premises.map fun i => [.symbol i])
  have l2 := attributeTokens_length "args" (Term.tokensL false D r.args)
  have l3 := attributeTokens_length "discharge" (r.discharge.map fun i => [.symbol i])
  rw [symbols_length] at l1 l3
  simp only [stepTail, List.length_cons, List.length_append, parens_length, List.flatten_cons, List.length_nil] at hn
  simp only [stepTail, List.cons_append, List.append_assoc, List.nil_append]
  have c1 : ∀ rest, parseClause n E ⟨parens ([.reserved .cl] :: Term.tokensL false D r.clause) ++ rest, F⟩ = .ok (r.clause, ⟨rest, F⟩) := by
    intro rest
    simp only [parens_append, List.flatten_cons, List.append_assoc, List.cons_append, List.nil_append]
    rw [parseClause, reader_bind expect_cons, reader_bind expect_cons]
    exact parseLiterals_tokens hE hc (by omega)
  have c2 : ∀ rest, readRule ⟨.symbol r.rule :: rest, F⟩ = .ok (r.rule, ⟨rest, F⟩) := fun rest => by
    rw [readRule, reader_bind next_cons]
    rfl
  have refs : ∀ {resolve : String → Res (Nat × Nat)} {names : List String} {ps : List (Nat × Nat)}, mapRes resolve names = .ok ps → names.length + 1 ≤ n →
      ∀ {h : Token} {rest : List Token} {key : String}, h ≠ .keyword key →
      optional key (do
        let ps ← readReferences resolve n
        nonEmpty ps) ⟨(attributeTokens key (names.map fun i => [Token.symbol i])).flatten ++ h :: rest, F⟩ = .ok (ps, ⟨h :: rest, F⟩) := by
    intro resolve names ps hm hl h rest key hk
    refine optional_tokens (fun he => (mapRes_nil_iff hm).1 (by simpa using he)) (fun he => ?_) hk
    rw [reader_bind (readReferences_tokens hm hl)]
    exact nonEmpty_ok fun e => he (by simpa using (mapRes_nil_iff hm).2 e)
  have args : ∀ {h : Token} {rest : List Token}, h ≠ .keyword "args" → optional "args" (if r.rule = "hole" ∧ holeArgs = false then do
        ignoreUntilClose
        pure []
      else do
        let as ← parseTerms n E
        nonEmpty as) ⟨(attributeTokens "args" (Term.tokensL false D r.args)).flatten ++ h :: rest, F⟩ = .ok (r.args, ⟨h :: rest, F⟩) := by
    intro h rest hk
    refine optional_tokens (fun he => tokensL_nil.1 he) (fun he => ?_) hk
    have hne : r.args ≠ [] := fun e => he (tokensL_nil.2 e)
    rw [if_neg (by rintro ⟨e1, e2⟩; rw [hh e1 hne] at e2; cases e2),
      reader_bind (parseTerms_tokens hE (fun a _ => readsTerm a) ha (by omega))]
    exact nonEmpty_ok hne
  rw [readStep, reader_bind expectSymbol_cons, reader_bind (c1 _), reader_bind expect_cons, reader_bind (c2 _)]
  obtain ⟨t3, r3, e3, k3⟩ := attributeTokens_head "discharge" (r.discharge.map fun i => [Token.symbol i]) (h := .closeParen) (rest := rest)
  obtain ⟨t2, r2, e2, k2⟩ := attributeTokens_head "args" (Term.tokensL false D r.args) (h := t3) (rest := r3)
  rw [e3, e2, reader_bind (refs h1 (by omega) (by rcases k2 with rfl | rfl <;> (try rcases k3 with rfl | rfl) <;> simp)), ← e2,
    reader_bind (args (by rcases k3 with rfl | rfl <;> simp)), ← e3, reader_bind (refs h2 (by omega) (by simp))]
  obtain ⟨n, rfl⟩ := Nat.exists_eq_add_of_le (show 1 ≤ n by omega)
  rw [Nat.add_comm 1 n, reader_bind ignoreAttributes_close, reader_bind expect_cons]
  rfl

theorem readAssume_tokens (hE : PlainEnv E) {id : String} {t : Term} (h : Writable D F E t) (hs : sortOf t = some .bool) {n : Nat} {rest : List Token}
    (hn : 2 * (t.tokens false D).length + 1 ≤ n) :
    readAssume n E ⟨.symbol id :: (t.tokens false D ++ .closeParen :: rest), F⟩ = .ok ((id, t), ⟨rest, F⟩) := by
  rw [readAssume, reader_bind expectSymbol_cons, reader_bind (parseSorted_tokens hE h hs hn)]
  obtain ⟨n, rfl⟩ := Nat.exists_eq_add_of_le (show 1 ≤ n by omega)
  rw [Nat.add_comm 1 n, reader_bind ignoreAttributes_close, reader_bind expect_cons]
  rfl

theorem AnchorArg.sortedVar_eq (a : AnchorArg) : a.sortedVar = a.declares := by cases a <;> rfl

theorem readAnchorArg_tokens (hE : PlainEnv E) {a : AnchorArg} (h : a.declares.2.Known E)
    (hv : ∀ x s v, a = .assign x s v → Writable D F E v ∧ sortOf v = some s) {n : Nat} {rest : List Token} (hn : 2 * (a.tokens D).length ≤ n) :
    readAnchorArg n E ⟨a.tokens D ++ rest, F⟩ = .ok (a, ⟨rest, F⟩) := by
  cases a with
  | var x s =>
    simp only [AnchorArg.tokens, parens_append, parens_length, List.flatten_cons, List.flatten_nil, List.append_nil, List.append_assoc, List.cons_append,
      List.nil_append, List.length_cons] at hn ⊢
    have h1 : ∀ rest, parseSort n E ⟨s.tokens ++ rest, F⟩ = .ok (s, ⟨rest, F⟩) := fun rest =>
      parseSort_tokens hE.ints (show s.Known E from h) (by omega)
    rw [readAnchorArg, reader_bind expect_cons, reader_bind current_cons, if_neg (by simp), reader_bind expectSymbol_cons, reader_bind (h1 _),
      reader_bind expect_cons]
    rfl
  | assign x s v =>
    obtain ⟨h1, h2⟩ := hv x s v rfl
    have e : parens [[Token.symbol x], s.tokens] = varTokens (x, s) := rfl
    rw [AnchorArg.tokens, e] at hn ⊢
    simp only [parens_append, parens_length, List.flatten_cons, List.flatten_nil, List.append_nil, List.append_assoc, List.cons_append,
      List.nil_append, List.length_cons, List.length_append] at hn ⊢
    have e1 : ∀ rest, parseSortedVar n E ⟨varTokens (x, s) ++ rest, F⟩ = .ok ((x, s), ⟨rest, F⟩) := fun rest =>
      parseSortedVar_tokens hE (p := (x, s)) h (by omega)
    have e2 : ∀ rest, parseSorted n E s ⟨v.tokens false D ++ rest, F⟩ = .ok (v, ⟨rest, F⟩) := fun rest => parseSorted_tokens hE h1 h2 (by omega)
    obtain ⟨ts, ets⟩ := varTokens_cons (x, s)
    rw [readAnchorArg, reader_bind expect_cons, reader_bind current_cons, if_pos rfl, reader_bind next_cons]
    have e3 : ∀ rest, readAssignment n E ⟨varTokens (x, s) ++ (v.tokens false D ++ rest), F⟩ = .ok ((x, v, s), ⟨rest, F⟩) := by
      intro rest
      rw [readAssignment, ets, List.cons_append, reader_bind current_cons, hE.strict]
      simp only
      rw [← List.cons_append, ← ets, reader_bind (e1 _)]
      simp only
      rw [reader_bind (e2 _)]
      rfl
    rw [reader_bind (e3 _)]
    simp only
    rw [reader_bind expect_cons]
    rfl

theorem AnchorArg.tokens_cons (a : AnchorArg) : ∃ ts, a.tokens D = .openParen :: ts := by cases a <;> exact ⟨_, rfl⟩

theorem readAnchorArgs_tokens : ∀ {as : List AnchorArg} {E : PEnv}, PlainEnv E → ArgsWritable D F E as → ∀ {n : Nat} {rest : List Token},
    2 * (as.map (AnchorArg.tokens D)).flatten.length + 1 ≤ n →
    readAnchorArgs n E ⟨(as.map (AnchorArg.tokens D)).flatten ++ .closeParen :: rest, F⟩ = .ok (as, ⟨rest, F⟩)
  | _, _, _, _, 0, _, hn => by omega
  | [], _, _, _, n + 1, rest, _ => by
    simp only [List.map_nil, List.flatten_nil, List.nil_append]
    rw [readAnchorArgs, reader_bind current_cons, if_pos rfl, reader_bind next_cons]
    rfl
  | a :: as, E, hE, h, n + 1, rest, hn => by
    rw [ArgsWritable] at h
    obtain ⟨ts, ets⟩ := a.tokens_cons (D := D)
    simp only [List.map_cons, List.flatten_cons, List.length_append] at hn
    simp only [List.map_cons, List.flatten_cons, List.append_assoc]
    have ih := readAnchorArgs_tokens (hE.bind [a.declares]) h.2.2 (n := n) (rest := rest) (by
      rw [ets] at hn
      simp only [List.length_cons] at hn
      omega)
    rw [readAnchorArgs]
    have hc : current ⟨a.tokens D ++ ((as.map (AnchorArg.tokens D)).flatten ++ .closeParen :: rest), F⟩ =
        .ok (.openParen, ⟨a.tokens D ++ ((as.map (AnchorArg.tokens D)).flatten ++ .closeParen :: rest), F⟩) := by
      rw [ets]
      rfl
    by_cases he : as = []
    · subst he
      rw [reader_bind hc, if_neg (by simp), reader_bind (readAnchorArg_tokens hE h.1 h.2.1 (by
        simp only [List.map_nil, List.flatten_nil, List.length_nil] at hn
        omega)), a.sortedVar_eq, reader_bind ih]
      rfl
    · rw [reader_bind hc, if_neg (by simp), reader_bind (readAnchorArg_tokens hE h.1 h.2.1 (by omega)), a.sortedVar_eq, reader_bind ih]
      rfl

theorem readAnchor_tokens (hE : PlainEnv E) {e : String} {as : List AnchorArg} (h : ArgsWritable D F E as) {n : Nat} {rest : List Token}
    (hn : 2 * (attributeTokens "args" (as.map (AnchorArg.tokens D))).flatten.length + 1 ≤ n) :
    readAnchor n E ⟨.keyword "step" :: .symbol e :: ((attributeTokens "args" (as.map (AnchorArg.tokens D))).flatten ++ .closeParen :: rest), F⟩ =
      .ok ((e, as), ⟨rest, F⟩) := by
  have l := attributeTokens_length "args" (as.map (AnchorArg.tokens D))
  have args : optional "args" (do
      let as ← readAnchorArgs n E
      nonEmpty as) ⟨(attributeTokens "args" (as.map (AnchorArg.tokens D))).flatten ++ .closeParen :: rest, F⟩ = .ok (as, ⟨.closeParen :: rest, F⟩) := by
    refine optional_tokens (by simp) (fun he => ?_) (by simp)
    rw [reader_bind (readAnchorArgs_tokens hE h (by omega))]
    exact nonEmpty_ok (by simpa using he)
  rw [readAnchor, reader_bind expect_cons, reader_bind expectSymbol_cons, reader_bind args]
  obtain ⟨n, rfl⟩ := Nat.exists_eq_add_of_le (show 1 ≤ n by omega)
  rw [Nat.add_comm 1 n, reader_bind ignoreAttributes_close, reader_bind expect_cons]
  rfl

/-! ## Commands -/

/-- A configuration with these variables. -/
def PEnv.withVars (E : PEnv) (vs : List (String × Srt)) : PEnv := { E with vars := vs }

theorem PlainEnv.withVars (h : PlainEnv E) (vs : List (String × Srt)) : PlainEnv (E.withVars vs) := ⟨h.strict, h.ints⟩

theorem readCommands_one {holeArgs : Bool} {n : Nat} {first extra : Bool} {P P' : Progress} {r : Reserved} {ts rest : List Token}
    (h : readCommand n holeArgs E P ⟨.reserved r :: ts, F⟩ = .ok (P', ⟨rest, F⟩)) :
    readCommands holeArgs E (n + 1) first extra P ⟨.openParen :: .reserved r :: ts, F⟩ = readCommands holeArgs E n false extra P' ⟨rest, F⟩ := by
  rw [readCommands, reader_bind current_cons]
  simp only
  rw [reader_bind expect_cons, reader_bind current_cons, if_neg (by simp), reader_bind h]

theorem readCommand_assume (hE : PlainEnv E) {holeArgs : Bool} {n : Nat} {f : PFrame} {outer : List PFrame} {ids : HashMapStack String Nat} {k : Nat}
    {st : PState} {vs : List (String × Srt)} {scopes : List (List (String × Srt))} {consts : List (String × Term)} {id : String} {t : Term}
    {rest : List Token} (h : Writable D F (E.withVars vs) t) (hs : sortOf t = some .bool) (hn : 2 * (t.tokens false D).length + 1 ≤ n)
    (hc : (f.sawStep && decide (outer ≠ [])) = false) (ha : addCommand ⟨f :: outer, ids, k⟩ id (.assume id t) = .ok st) (hid : id ≠ f.endStep) :
    readCommand n holeArgs E ⟨⟨f :: outer, ids, k⟩, vs :: scopes, consts⟩ ⟨.reserved .assume :: .symbol id :: (t.tokens false D ++ .closeParen :: rest), F⟩ =
      .ok (⟨st, vs :: scopes, consts⟩, ⟨rest, F⟩) := by
  rw [readCommand, reader_bind next_cons]
  simp only
  have h1 := readAssume_tokens (hE.withVars vs) (id := id) h hs hn (rest := rest)
  refine (reader_bind h1).trans ?_
  simp only
  rw [if_neg (by simpa using hc)]
  refine reader_lift (ofRes_ok.2 ?_)
  rw [Progress.add]
  simp only [PState.closes, List.head?_cons, Option.map_some, Option.some.injEq, fun e : f.endStep = id => hid e.symm, ha]
  have : (decide (f.endStep = id)) = false := by simpa using fun e => hid e.symm
  simp [this, bind, Except.bind]

theorem readCommand_step (hE : PlainEnv E) {holeArgs : Bool} {n : Nat} {f : PFrame} {outer : List PFrame} {ids : HashMapStack String Nat} {k : Nat}
    {st : PState} {vs : List (String × Srt)} {scopes : List (List (String × Srt))} {consts : List (String × Term)} {r : RawStep} {s : Step}
    {rest : List Token} (hr : parseStep ids r = .ok s) (hs : (Command.step s).WritableIn D F (E.withVars vs)) (hn : 2 * (stepTail D r).length ≤ n)
    (hh : r.rule = "hole" → r.args ≠ [] → holeArgs = true) (ha : addCommand ⟨{ f with sawStep := true } :: outer, ids, k⟩ s.id (.step s) = .ok st) :
    readCommand n holeArgs E ⟨⟨f :: outer, ids, k⟩, vs :: scopes, consts⟩ ⟨.reserved .step :: (stepTail D r ++ rest), F⟩ =
      .ok (⟨st, if s.id = f.endStep then scopes else vs :: scopes, consts⟩, ⟨rest, F⟩) := by
  rw [readCommand, reader_bind next_cons]
  simp only
  have e : s.clause = r.clause ∧ s.args = r.args := by
    obtain ⟨ps, _, h⟩ := bind_ok.1 hr
    obtain ⟨ds, _, h⟩ := bind_ok.1 h
    cases h
    exact ⟨rfl, rfl⟩
  rw [Command.WritableIn, e.1, e.2] at hs
  have h1 := readStep_tokens (hE.withVars vs) hr hs.1 hs.2 hh hn (rest := rest)
  refine (reader_bind h1).trans ?_
  refine reader_lift (ofRes_ok.2 ?_)
  rw [Progress.add]
  simp only [ha]
  simp only [PState.closes, bind, Except.bind, List.head?_cons, Option.map_some, Option.some.injEq, List.tail_cons, decide_eq_true_eq]
  by_cases he : s.id = f.endStep
  · simp [he]
  · have he' : ¬ f.endStep = s.id := fun e => he e.symm
    simp [he, he']

theorem readCommand_anchor (hE : PlainEnv E) {holeArgs : Bool} {n : Nat} {st : PState} {vs : List (String × Srt)}
    {scopes : List (List (String × Srt))} {consts : List (String × Term)} {e : String} {as : List AnchorArg} {rest : List Token}
    (h : ArgsWritable D F (E.withVars vs) as) (hn : 2 * (attributeTokens "args" (as.map (AnchorArg.tokens D))).flatten.length + 1 ≤ n) :
    readCommand n holeArgs E ⟨st, vs :: scopes, consts⟩
      ⟨.reserved .anchor :: .keyword "step" :: .symbol e :: ((attributeTokens "args" (as.map (AnchorArg.tokens D))).flatten ++ .closeParen :: rest), F⟩ =
      .ok (⟨⟨{ args := as, contextId := st.nextId, endStep := e } :: st.stack, st.ids.pushScope, st.nextId + 1⟩,
        ((as.map AnchorArg.declares).reverse ++ vs) :: vs :: scopes, consts⟩, ⟨rest, F⟩) := by
  rw [readCommand, reader_bind next_cons]
  simp only
  have h1 := readAnchor_tokens (hE.withVars vs) (e := e) h hn (rest := rest)
  refine (reader_bind h1).trans ?_
  have : as.map AnchorArg.sortedVar = as.map AnchorArg.declares := List.map_congr_left fun a _ => a.sortedVar_eq
  simp only [this]
  rfl

/-- A command is not longer than its tokens need steps. -/
def Fits (D : List (Term × String)) (m : Nat) (raws : List RawCommand) : Prop := ∀ r ∈ raws, 2 * (r.tokens D).length ≤ m

/-- The arguments of holes are only there if they are read. -/
def HolesRead (holeArgs : Bool) (raws : List RawCommand) : Prop := ∀ r, .step r ∈ raws → r.rule = "hole" → r.args ≠ [] → holeArgs = true

theorem assume_tokens {id : String} {t : Term} {rest : List Token} :
    (RawCommand.assume id t).tokens D ++ rest = .openParen :: .reserved .assume :: .symbol id :: (t.tokens false D ++ .closeParen :: rest) := by
  simp [RawCommand.tokens, parens]

theorem anchor_tokens {e : String} {as : List AnchorArg} {rest : List Token} :
    (RawCommand.anchor e as).tokens D ++ rest = .openParen :: .reserved .anchor :: .keyword "step" :: .symbol e ::
      ((attributeTokens "args" (as.map (AnchorArg.tokens D))).flatten ++ .closeParen :: rest) := by
  simp [RawCommand.tokens, parens]

/-- The tokens of commands are read as the commands. -/
theorem Parses.read (hE : PlainEnv E) (holeArgs : Bool) {V e pre n raws cs n'} (h : Parses V e pre n raws cs n') :
    ∀ (f : PFrame) (outer : List PFrame) (ids : HashMapStack String Nat) (vs : List (String × Srt)) (scopes : List (List (String × Srt)))
      (consts : List (String × Term)) (m : Nat) (first extra : Bool) (rest : List Token),
    StOK (f :: outer) ids → levels outer = V → f.commands = pre → f.endStep = e → Command.WritableInL D F (E.withVars vs) cs → HolesRead holeArgs raws →
    Fits D m raws →
    ∃ f' ids' first', readCommands holeArgs E (m + raws.length) first extra ⟨⟨f :: outer, ids, n⟩, vs :: scopes, consts⟩
        ⟨(raws.map (RawCommand.tokens D)).flatten ++ rest, F⟩ =
        readCommands holeArgs E m first' extra ⟨⟨f' :: outer, ids', n'⟩, vs :: scopes, consts⟩ ⟨rest, F⟩ ∧
      StOK (f' :: outer) ids' ∧ f'.commands = pre ++ cs ∧ f'.endStep = e ∧ f'.args = f.args ∧ f'.contextId = f.contextId := by
  induction h with
  | nil =>
    intro f outer ids vs scopes consts m first extra rest hst hV hp he _ _ _
    exact ⟨f, ids, first, rfl, hst, by simp [hp], he, rfl, rfl⟩
  | @assume V e pre n id t rs cs n' hne hf hcond hrest ih =>
    intro f outer ids vs scopes consts m first extra rest hst hV hp he hw hh hm
    subst hV hp he
    rw [Command.WritableInL, Command.WritableIn] at hw
    obtain ⟨ids', hadd, hok⟩ := addCommand_normal (n := n) hst.ids (c := .assume id t) rfl hf hne
    have hst' : StOK ({ f with commands := f.commands ++ [.assume id t] } :: outer) ids' := by
      refine ⟨hok, ?_⟩
      intro g hg
      rcases List.mem_cons.1 hg with rfl | hg
      · exact (hst.saw f (by simp)).add rfl
      · exact hst.saw g (by simp [hg])
    obtain ⟨f', ids'', first', h1, h2, h3, h4, h5, h6⟩ := ih _ outer ids' vs scopes consts m false extra rest hst' rfl rfl rfl hw.2
      (fun r hr => hh r (by simp [hr])) (fun r hr => hm r (by simp [hr]))
    refine ⟨f', ids'', first', ?_, h2, by simpa using h3, h4, h5, h6⟩
    have hl : 2 * (t.tokens false D).length + 1 ≤ m + rs.length := by
      have := hm _ (List.mem_cons_self ..)
      simp [RawCommand.tokens, parens_length] at this
      omega
    rw [List.map_cons, List.flatten_cons, List.append_assoc, assume_tokens, List.length_cons, ← Nat.add_assoc, ← h1]
    exact readCommands_one (readCommand_assume hE hw.1.1 hw.1.2 hl ((assume_cond (outer := outer) (hst.saw f (by simp))).2 hcond) hadd hne)
  | @step V e pre n r s rs cs n' hne hf hres hrest ih =>
    intro f outer ids vs scopes consts m first extra rest hst hV hp he hw hh hm
    subst hV hp he
    rw [Command.WritableInL] at hw
    have hst0 : IdsOK (levels ({ f with sawStep := true } :: outer)).reverse ids.scopes := hst.ids
    obtain ⟨ids', hadd, hok⟩ := addCommand_normal (n := n) (f := { f with sawStep := true }) hst0
      (c := .step s) (id := r.id) (by simp [Command.id, hres.1]) hf hne
    have hst' : StOK ({ f with sawStep := true, commands := f.commands ++ [.step s] } :: outer) ids' := by
      refine ⟨hok, ?_⟩
      intro g hg
      rcases List.mem_cons.1 hg with rfl | hg
      · simp only [SawOK, true_iff]
        exact ⟨.step s, by simp, rfl⟩
      · exact hst.saw g (by simp [hg])
    obtain ⟨f', ids'', first', h1, h2, h3, h4, h5, h6⟩ := ih _ outer ids' vs scopes consts m false extra rest hst' rfl rfl rfl hw.2
      (fun r hr => hh r (by simp [hr])) (fun r hr => hm r (by simp [hr]))
    refine ⟨f', ids'', first', ?_, h2, by simpa using h3, h4, h5, h6⟩
    have hl : 2 * (stepTail D r).length ≤ m + rs.length := by
      have := hm _ (List.mem_cons_self ..)
      rw [stepTokens_eq] at this
      simp only [List.length_cons] at this
      omega
    rw [List.map_cons, List.flatten_cons, List.append_assoc, stepTokens_eq, List.length_cons, ← Nat.add_assoc, ← h1]
    have := readCommand_step (holeArgs := holeArgs) (scopes := scopes) (consts := consts) (f := f) (outer := outer) (k := n) hE
      ((parseStep_ok hst.ids).2 hres) hw.1 hl (rest := (rs.map (RawCommand.tokens D)).flatten ++ rest) (hh r (by simp)) (by rw [hres.1]; exact hadd)
    rw [if_neg (by rw [hres.1]; exact hne)] at this
    exact readCommands_one this
  | @subproof V e pre n as r s inner sub n₁ rs cs n' hinner hne hf hres hrest ih1 ih2 =>
    intro f outer ids vs scopes consts m first extra rest hst hV hp he hw hh hm
    subst hV hp he
    rw [Command.WritableInL, Command.WritableIn, Command.writableInL_append] at hw
    obtain ⟨⟨hwa, hwi, hws⟩, hwr⟩ := hw
    have hst1 : StOK ({ args := as, contextId := n, endStep := r.id } :: f :: outer) ids.pushScope := by
      refine ⟨?_, ?_⟩
      · have := hst.ids.push
        simpa [levels, HashMapStack.pushScope] using this
      · intro g hg
        rcases List.mem_cons.1 hg with rfl | hg
        · simp [SawOK]
        · exact hst.saw g hg
    obtain ⟨g, ids1, first1, h1, h2, h3, h4, h5, h6⟩ := ih1 { args := as, contextId := n, endStep := r.id } (f :: outer) ids.pushScope
      ((as.map AnchorArg.declares).reverse ++ vs) (vs :: scopes) consts (m + rs.length + 1) false extra
      ((RawCommand.step r).tokens D ++ ((rs.map (RawCommand.tokens D)).flatten ++ rest)) hst1 rfl rfl rfl hwi
      (fun r hr => hh r (by simp [hr])) (fun r hr => by have := hm r (by simp [hr]); omega)
    simp only [List.nil_append] at h3
    have hst2 : IdsOK (levels ({ g with sawStep := true } :: f :: outer)).reverse ids1.scopes := h2.ids
    have hlev : levels ({ g with sawStep := true } :: f :: outer) = sub :: f.commands :: levels outer := by
      simp [levels, h3]
    obtain ⟨ids2, hadd, hok⟩ := addCommand_close (n := n₁) (s := s) (f := { g with sawStep := true }) hst2
      (by rw [hlev, hres.1]; exact hf) (by rw [hres.1]; exact h4.symm) (by simpa [h3] using hne)
    have hst3 : StOK ({ f with commands := f.commands ++
        [.subproof (g.commands ++ [.step s]) g.args g.contextId] } :: outer) ids2 := by
      refine ⟨hok, ?_⟩
      intro g' hg
      rcases List.mem_cons.1 hg with rfl | hg
      · exact (hst.saw f (by simp)).add rfl
      · exact hst.saw g' (by simp [hg])
    obtain ⟨f', ids3, first3, k1, k2, k3, k4, k5, k6⟩ := ih2 _ outer ids2 vs scopes consts m false extra rest hst3 rfl (by simp [h3, h5, h6]) rfl hwr
      (fun r hr => hh r (by simp [hr])) (fun r hr => hm r (by simp [hr]))
    refine ⟨f', ids3, first3, ?_, k2, by simpa using k3, k4, k5, k6⟩
    rw [← k1]
    have e1 : ((RawCommand.anchor r.id as :: inner ++ RawCommand.step r :: rs).map (RawCommand.tokens D)).flatten ++ rest =
        (RawCommand.anchor r.id as).tokens D ++ ((inner.map (RawCommand.tokens D)).flatten ++ ((RawCommand.step r).tokens D ++
          ((rs.map (RawCommand.tokens D)).flatten ++ rest))) := by simp
    have e2 : m + (RawCommand.anchor r.id as :: inner ++ RawCommand.step r :: rs).length = m + rs.length + 1 + inner.length + 1 := by
      simp
      omega
    rw [e1, e2, anchor_tokens]
    have hl1 : 2 * (attributeTokens "args" (as.map (AnchorArg.tokens D))).flatten.length + 1 ≤ m + rs.length + 1 + inner.length := by
      have := hm (.anchor r.id as) (by simp)
      simp [RawCommand.tokens, parens_length, -List.length_flatten] at this
      omega
    rw [readCommands_one (readCommand_anchor hE hwa hl1)]
    change readCommands holeArgs E (m + rs.length + 1 + inner.length) false extra ⟨⟨_ :: f :: outer, ids.pushScope, n + 1⟩, _, consts⟩ _ = _
    rw [h1, stepTokens_eq]
    have hs : parseStep ids1 r = .ok s := by
      refine (parseStep_ok h2.ids).2 ?_
      have : levels (g :: f :: outer) = sub :: f.commands :: levels outer := by simp [levels, h3]
      rw [this]; exact hres
    have hl2 : 2 * (stepTail D r).length ≤ m + rs.length := by
      have := hm (.step r) (by simp)
      rw [stepTokens_eq] at this
      simp only [List.length_cons] at this
      omega
    rw [Command.WritableInL] at hws
    have := readCommand_step (holeArgs := holeArgs) (scopes := vs :: scopes) (consts := consts) (f := g) (outer := f :: outer) (k := n₁) hE hs
      hws.1 hl2 (rest := (rs.map (RawCommand.tokens D)).flatten ++ rest) (hh r (by simp)) hadd
    rw [if_pos (by rw [hres.1]; exact h4.symm)] at this
    exact readCommands_one this

/-- After the last command. -/
theorem readCommands_stop {holeArgs : Bool} {m : Nat} {first extra : Bool} {P : Progress} {toks : List Token}
    (h : toks = [] ∨ ∃ ts, toks = .closeParen :: ts) : readCommands holeArgs E (m + 1) first extra P ⟨toks, F⟩ = .ok ((extra, P), ⟨toks, F⟩) := by
  rcases h with rfl | ⟨ts, rfl⟩
  · rfl
  · rw [readCommands, reader_bind current_cons]
    rfl

/-- What the parser of proofs does with the tokens of a proof, after the definitions. -/
theorem readProof_commands (hE : PlainEnv E) {holeArgs : Bool} {raws : List RawCommand} {proof : List Command} (h : parseProof raws = .ok proof)
    (hw : Command.WritableInL D F E proof) (hh : HolesRead holeArgs raws) {m : Nat} (hm : Fits D m raws) (hm1 : 1 ≤ m) (consts : List (String × Term))
    (first extra : Bool) {rest : List Token} (hr : rest = [] ∨ ∃ ts, rest = .closeParen :: ts) :
    ∃ P : Progress, readCommands holeArgs E (m + raws.length) first extra { scopes := [E.vars], consts }
        ⟨(raws.map (RawCommand.tokens D)).flatten ++ rest, F⟩ = .ok ((extra, P), ⟨rest, F⟩) ∧ P.consts = consts ∧
      ∃ root, P.proof.stack = [root] ∧ root.commands = proof := by
  obtain ⟨n, hp⟩ := parseProof_iff.1 h
  obtain ⟨f', ids', first', h1, -, h3, -⟩ := hp.read hE holeArgs {} [] HashMapStack.new E.vars [] consts m first extra rest stOK_start rfl rfl rfl hw hh hm
  obtain ⟨m, rfl⟩ := Nat.exists_eq_add_of_le hm1
  rw [Nat.add_comm 1 m] at h1 ⊢
  exact ⟨_, h1.trans (readCommands_stop hr), rfl, f', rfl, by simpa using h3⟩

/-! ## Definitions -/

/-- Constants that can be defined one after the other; `F` are the definitions before them, and `F'` those after them. -/
inductive DefsWritable (E : PEnv) : List (String × FunDef) → List (String × Srt × Term) → List (String × FunDef) → Prop
  | nil {F : List (String × FunDef)} : DefsWritable E F [] F
  | cons {F F' : List (String × FunDef)} {x : String} {s : Srt} {t : Term} {ds : List (String × Srt × Term)} : s.Known E → Writable [] F E t → sortOf t = some s → DefsWritable E (mapInsert F x ⟨[], t⟩) ds F' →
      DefsWritable E F ((x, s, t) :: ds) F'

/-- The tokens of definitions. -/
def definitionsTokens (ds : List (String × Srt × Term)) : List Token := (ds.map fun d => definitionTokens d.1 d.2.1 d.2.2).flatten

theorem readDefineFun_tokens (hE : PlainEnv E) {x : String} {s : Srt} {t : Term} (hk : s.Known E) (h : Writable [] F E t) (hs : sortOf t = some s)
    {n : Nat} {rest : List Token} (hn : 2 * (definitionTokens x s t).length ≤ n) :
    readDefineFun n E ⟨.symbol x :: .openParen :: .closeParen :: (s.tokens ++ (t.tokens false [] ++ .closeParen :: rest)), F⟩ =
      .ok ((x, ⟨[], t⟩), ⟨rest, F⟩) := by
  simp only [definitionTokens, parens_length, List.flatten_cons, List.flatten_nil, List.length_append, List.length_cons, List.length_nil] at hn
  have h1 : ∀ rest, parseSort n E ⟨s.tokens ++ rest, F⟩ = .ok (s, ⟨rest, F⟩) := fun rest => parseSort_tokens hE.ints hk (by omega)
  have h2 : ∀ rest, parseSorted n E s ⟨t.tokens false [] ++ rest, F⟩ = .ok (t, ⟨rest, F⟩) := fun rest => parseSorted_tokens hE h hs (by omega)
  have h3 : ∀ rest, readParams n E ⟨.closeParen :: rest, F⟩ = .ok ([], ⟨rest, F⟩) := by
    intro rest
    obtain ⟨n, rfl⟩ := Nat.exists_eq_add_of_le (show 1 ≤ n by omega)
    rw [Nat.add_comm 1 n, readParams, reader_bind current_cons, if_pos rfl, reader_bind next_cons]
    rfl
  have h4 : ∀ rest, readFunctionDec n E ⟨.symbol x :: .openParen :: .closeParen :: (s.tokens ++ rest), F⟩ = .ok ((x, [], s), ⟨rest, F⟩) := by
    intro rest
    rw [readFunctionDec, reader_bind expectSymbol_cons, reader_bind expect_cons, reader_bind (h3 _), reader_bind (h1 _)]
    rfl
  rw [readDefineFun, reader_bind (h4 _)]
  change (parseSorted n E s >>= fun body => expect .closeParen >>= fun _ => pure (x, FunDef.mk [] body) : Reader (String × FunDef)) _ = _
  rw [reader_bind (h2 _), reader_bind expect_cons]
  rfl

theorem readCommands_definitions (hE : PlainEnv E) {holeArgs : Bool} {ds : List (String × Srt × Term)} {F F' : List (String × FunDef)}
    (h : DefsWritable E F ds F') : ∀ {m : Nat} {first extra : Bool} {consts : List (String × Term)} {rest : List Token},
    (∀ d ∈ ds, 2 * (definitionTokens d.1 d.2.1 d.2.2).length ≤ m) →
    ∃ first', readCommands holeArgs E (m + ds.length) first extra { scopes := [E.vars], consts } ⟨definitionsTokens ds ++ rest, F⟩ =
      readCommands holeArgs E m first' extra { scopes := [E.vars], consts := consts ++ ds.map fun d => (d.1, d.2.2) } ⟨rest, F'⟩ := by
  induction h with
  | nil =>
    intro m first extra consts rest _
    exact ⟨first, by simp [definitionsTokens]⟩
  | @cons F F' x s t ds hk hw hs _ ih =>
    intro m first extra consts rest hm
    obtain ⟨first', e⟩ := ih (m := m) (first := false) (extra := extra) (consts := consts ++ [(x, t)]) (rest := rest) fun d hd => hm d (by simp [hd])
    refine ⟨first', ?_⟩
    have e0 : definitionsTokens ((x, s, t) :: ds) ++ rest = .openParen :: .reserved .defineFun :: .symbol x :: .openParen :: .closeParen ::
        (s.tokens ++ (t.tokens false [] ++ .closeParen :: (definitionsTokens ds ++ rest))) := by
      simp [definitionsTokens, definitionTokens, parens]
    have h1 := readDefineFun_tokens (hE.withVars E.vars) (x := x) (n := m + ds.length) (rest := definitionsTokens ds ++ rest) hk hw hs
      (by have := hm (x, s, t) (by simp); simp only at this; omega)
    have h2 : readCommand (m + ds.length) holeArgs E { scopes := [E.vars], consts } ⟨.reserved .defineFun :: .symbol x :: .openParen :: .closeParen ::
        (s.tokens ++ (t.tokens false [] ++ .closeParen :: (definitionsTokens ds ++ rest))), F⟩ =
        .ok ({ scopes := [E.vars], consts := consts ++ [(x, t)] }, ⟨definitionsTokens ds ++ rest, mapInsert F x ⟨[], t⟩⟩) := by
      rw [readCommand, reader_bind next_cons]
      simp only
      exact (reader_bind h1).trans rfl
    rw [e0, List.length_cons, ← Nat.add_assoc, readCommands, reader_bind current_cons]
    simp only
    rw [reader_bind expect_cons, reader_bind current_cons, if_neg (by simp), reader_bind h2, e]
    simp

end

end Carcara
