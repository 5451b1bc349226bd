import Verif.Lemmas.Expansion

/-!
# Problems with definitions: what is read, and what it means
-/

namespace Carcara
open PRes Reader

/-- The formulas of a problem with definitions expanded. -/
def expandedFormulas : List (String × FunDef) → List ProblemLine → List Term
  | _, [] => []
  | F, .declare _ _ :: ls => expandedFormulas F ls
  | F, .define x _ t :: ls => expandedFormulas (mapInsert F x ⟨[], t.expanded F⟩) ls
  | F, .assert t :: ls => t.expanded F :: expandedFormulas F ls

/-- The names that an environment knows. -/
def PEnv.Knows (E : PEnv) (x : String) : Prop := E.vars.lookup x ≠ none

theorem lookup_mapInsert63 {β : Type} {a c : String} {b : β} : ∀ {m : List (String × β)}, (mapInsert m a b).lookup c = if c = a then some b else m.lookup c
  | [] => by
    by_cases h : c = a
    · simp [mapInsert, List.lookup, h]
    · have : (c == a) = false := by simpa using h
      simp [mapInsert, List.lookup, h, this]
  | (k, v) :: m => by
    have ih := lookup_mapInsert63 (a := a) (c := c) (b := b) (m := m)
    by_cases e : k = a
    · subst e
      by_cases h : c = k
      · simp [mapInsert, List.lookup, h]
      · have : (c == k) = false := by simpa using h
        simp [mapInsert, List.lookup, h, this]
    · by_cases h : c = k
      · subst h
        simp [mapInsert, List.lookup, e]
      · have : (c == k) = false := by simpa using h
        simp [mapInsert, List.lookup, e, this, ih]

theorem mem_assert {Q : Problem} {t u : Term} : u ∈ (Q.assert t).premises ↔ u ∈ Q.premises ∨ u = t := by
  simp only [Problem.assert]
  split
  · next h => exact ⟨.inl, fun h' => h'.elim id fun e => e ▸ h⟩
  · simp

theorem lookup_bind_one {E : PEnv} {x y : String} {s : Srt} : (E.bind [(x, s)]).vars.lookup y = if y = x then some s else E.vars.lookup y := by
  rw [lookup_bind, List.reverse_singleton]
  by_cases e : y = x
  · simp [List.lookup, e]
  · have : (y == x) = false := by simpa using e
    simp [List.lookup, this, e]

theorem Srt.Known.not_fn {E : PEnv} {s : Srt} (h : s.Known E) (ss : List Srt) (r : Srt) : s ≠ .fn ss r := by
  rintro rfl
  exact h

section
variable {F : List (String × FunDef)} {Ed Ef : PEnv}

theorem Defining.undefined (h : Defining Ef.Knows F Ed Ef) {x : String} (hx : Ef.vars.lookup x = none) : F.lookup x = none := by
  cases hF : F.lookup x with
  | none => rfl
  | some f => exact absurd hx (h.defn x f hF).1

theorem Defining.declared (h : Defining Ef.Knows F Ed Ef) {x : String} {s : Srt} (hx : Ed.vars.lookup x = some s) :
    F.lookup x = none ∧ Ef.vars.lookup x = some s := by
  cases hF : F.lookup x with
  | none => exact ⟨rfl, by rw [← h.vars x hF, hx]⟩
  | some f =>
    have := (h.defn x f hF).2.2.1
    rw [hx] at this
    cases this

theorem Defining.declare (h : Defining Ef.Knows F Ed Ef) {x : String} {s : Srt} (hx : Ef.vars.lookup x = none) :
    Defining (Ef.bind [(x, s)]).Knows F (Ed.bind [(x, s)]) (Ef.bind [(x, s)]) := by
  have hF := h.undefined hx
  have hk : ∀ {y : String}, Ef.Knows y → (Ef.bind [(x, s)]).Knows y := fun {y} hy => by
    rw [PEnv.Knows, lookup_bind_one]
    split
    · simp
    · exact hy
  refine ⟨h.plain.bind _, h.decls, h.sdefs, fun y f hf => ?_, fun y hy => ?_⟩
  · obtain ⟨h1, h2, h3, d, s', h4, h5, h6, h7, h8, h9⟩ := h.defn y f hf
    have hne : y ≠ x := by
      rintro rfl
      rw [hF] at hf
      cases hf
    refine ⟨hk h1, h2, by rw [lookup_bind_one, if_neg hne, h3], d, s', h4, h5, h6, h7, by rw [lookup_bind_one, if_neg hne, h8], fun v hv => ?_⟩
    have hv := h9 v hv
    refine ⟨hk hv.1, ?_⟩
    rw [lookup_bind_one, if_neg ?_, hv.2]
    rintro rfl
    exact hv.1 hx
  · rw [lookup_bind_one, lookup_bind_one, h.vars y hy]

theorem Defining.define (h : Defining Ef.Knows F Ed Ef) {x : String} {s : Srt} {t : Term} (hk : s.Known Ef) (hx : Ef.vars.lookup x = none)
    (ho : Op.ofName x = none) (hs : sortOf t = some s) (ht : ExpandsTo F Ed t) :
    Defining (Ef.bind [(x, s)]).Knows (mapInsert F x ⟨[], t.expanded F⟩) Ed (Ef.bind [(x, s)]) := by
  have hF := h.undefined hx
  have hd : Ed.vars.lookup x = none := by rw [h.vars x hF, hx]
  have hkn : ∀ {y : String}, Ef.Knows y → (Ef.bind [(x, s)]).Knows y := fun {y} hy => by
    rw [PEnv.Knows, lookup_bind_one]
    split
    · simp
    · exact hy
  refine ⟨h.plain, h.decls, h.sdefs, fun y f hf => ?_, fun y hy => ?_⟩
  · rw [lookup_mapInsert63] at hf
    split at hf
    · next e =>
      subst e
      cases hf
      refine ⟨by simp [PEnv.Knows, lookup_bind_one], ho, hd, _, s, rfl, ht.sort.trans hs, hk.not_fn, ht.small, by simp [lookup_bind_one], fun v hv => ?_⟩
      have hv := ht.free v hv
      refine ⟨hkn ?_, hv⟩
      rw [PEnv.Knows, (h.declared hv).2]
      simp
    · next hne =>
      obtain ⟨h1, h2, h3, d, s', h4, h5, h6, h7, h8, h9⟩ := h.defn y f hf
      exact ⟨hkn h1, h2, h3, d, s', h4, h5, h6, h7, by rw [lookup_bind_one, if_neg hne, h8], fun v hv => ⟨hkn (h9 v hv).1, (h9 v hv).2⟩⟩
  · rw [lookup_mapInsert63] at hy
    split at hy
    · cases hy
    · next hne => rw [lookup_bind_one, if_neg hne, h.vars y hy]

theorem Term.Fresh.not_knows {t : Term} (h : t.Fresh Ef) : ∀ x ∈ t.boundNames, ¬ Ef.Knows x := fun x hx hk => hk (h x hx)

/-! ## Reading -/

theorem current_nil : current ⟨[], F⟩ = .ok (.eof, ⟨[], F⟩) := rfl

theorem readCommands63_nil {apply : Bool} {n : Nat} {E : PEnv} {Q : Problem} (hn : 1 ≤ n) :
    readProblemCommands apply n E Q ⟨[], F⟩ = .ok ((E, Q), ⟨[], F⟩) := by
  obtain ⟨n, rfl⟩ := Nat.exists_eq_add_of_le hn
  rw [Nat.add_comm 1 n, readProblemCommands, reader_bind current_nil, if_pos rfl]
  rfl

theorem readCommands63_cons {apply : Bool} {n : Nat} {E E' : PEnv} {Q Q' : Problem} {ts ts' : List Token} {F' : List (String × FunDef)}
    (h : readProblemCommand n apply E Q ⟨ts, F⟩ = .ok ((E', Q'), ⟨ts', F'⟩)) :
    readProblemCommands apply (n + 1) E Q ⟨.openParen :: ts, F⟩ = readProblemCommands apply n E' Q' ⟨ts', F'⟩ := by
  rw [readProblemCommands, reader_bind current_cons, if_neg (by simp), reader_bind expect_cons, reader_bind h]

theorem readDeclare63 {apply : Bool} {n : Nat} {E : PEnv} {Q : Problem} {x : String} {s : Srt} {rest : List Token} (hE : PlainEnv E) (hk : s.Known E)
    (hn : 2 * s.tokens.length ≤ n) : readProblemCommand n apply E Q ⟨.reserved .declareConst :: .symbol x :: (s.tokens ++ .closeParen :: rest), F⟩ =
      .ok ((E.bind [(x, s)], Q.declare x s), ⟨rest, F⟩) := by
  rw [readProblemCommand, reader_bind next_cons]
  simp only
  rw [reader_bind expectSymbol_cons, reader_bind (parseSort_tokens hE.ints hk hn), reader_bind expect_cons]
  rfl

theorem readAssert63 {apply : Bool} {n : Nat} {E : PEnv} {Q : Problem} {t : Term} {ts rest : List Token}
    (h : parseTerm n E ⟨ts, F⟩ = .ok (t, ⟨.closeParen :: rest, F⟩)) : readProblemCommand n apply E Q ⟨.reserved .assert :: ts, F⟩ =
      .ok ((E, Q.assert t), ⟨rest, F⟩) := by
  rw [readProblemCommand, reader_bind next_cons]
  simp only
  rw [reader_bind h, reader_bind expect_cons]
  rfl

theorem readDefineFun_expanded (hE : PlainEnv Ed) {x : String} {s : Srt} {t : Term} (hk : s.Known Ed) (h : ExpandsTo F Ed t) (hs : sortOf t = some s)
    {n : Nat} {rest : List Token} (hn : 2 * (definitionTokens x s t).length ≤ n) :
    readDefineFun n Ed ⟨.symbol x :: .openParen :: .closeParen :: (s.tokens ++ (t.tokens false [] ++ .closeParen :: rest)), F⟩ =
      .ok ((x, ⟨[], t.expanded F⟩), ⟨rest, F⟩) := by
  simp only [definitionTokens, parens_length, List.flatten_cons, List.flatten_nil, List.length_append, List.length_cons, List.length_nil] at hn
  have h1 : ∀ rest, parseSort n Ed ⟨s.tokens ++ rest, F⟩ = .ok (s, ⟨rest, F⟩) := fun rest => parseSort_tokens hE.ints hk (by omega)
  have h2 : ∀ rest, parseSorted n Ed s ⟨t.tokens false [] ++ rest, F⟩ = .ok (t.expanded F, ⟨rest, F⟩) := fun rest => parseSorted_expanded h hs (by omega)
  have h3 : ∀ rest, readParams n Ed ⟨.closeParen :: rest, F⟩ = .ok ([], ⟨rest, F⟩) := by
    intro rest
    obtain ⟨n, rfl⟩ := Nat.exists_eq_add_of_le (show 1 ≤ n by omega)
    rw [Nat.add_comm 1 n, readParams, reader_bind current_cons, if_pos rfl, reader_bind next_cons]
    rfl
  have h4 : ∀ rest, readFunctionDec n Ed ⟨.symbol x :: .openParen :: .closeParen :: (s.tokens ++ rest), F⟩ = .ok ((x, [], s), ⟨rest, F⟩) := by
    intro rest
    rw [readFunctionDec, reader_bind expectSymbol_cons, reader_bind expect_cons, reader_bind (h3 _), reader_bind (h1 _)]
    rfl
  rw [readDefineFun, reader_bind (h4 _)]
  change (parseSorted n Ed s >>= fun body => expect .closeParen >>= fun _ => pure (x, FunDef.mk [] body) : Reader (String × FunDef)) _ = _
  rw [reader_bind (h2 _), reader_bind expect_cons]
  rfl

theorem linesTokens_declare {x : String} {s : Srt} {ls : List ProblemLine} : linesTokens (.declare x s :: ls) =
    .openParen :: .reserved .declareConst :: .symbol x :: (s.tokens ++ .closeParen :: linesTokens ls) := by
  simp [linesTokens, ProblemLine.tokens, parens]

theorem linesTokens_define {x : String} {s : Srt} {t : Term} {ls : List ProblemLine} : linesTokens (.define x s t :: ls) =
    .openParen :: .reserved .defineFun :: .symbol x :: .openParen :: .closeParen :: (s.tokens ++ (t.tokens false [] ++ .closeParen :: linesTokens ls)) := by
  simp [linesTokens, ProblemLine.tokens, definitionTokens, parens]

theorem linesTokens_assert {t : Term} {ls : List ProblemLine} : linesTokens (.assert t :: ls) =
    .openParen :: .reserved .assert :: (t.tokens false [] ++ .closeParen :: linesTokens ls) := by
  simp [linesTokens, ProblemLine.tokens, parens]

theorem definitionTokens_length {x : String} {s : Srt} {t : Term} :
    (definitionTokens x s t).length = s.tokens.length + (t.tokens false []).length + 6 := by
  simp [definitionTokens, parens]
  omega

/-- Without expansion, the text says what SMT-LIB says. -/
theorem readLines_plain : ∀ (ls : List ProblemLine) {E : PEnv} (Q : Problem), PlainEnv E → LinesOK E ls → ∀ {n : Nat}, 2 * (linesTokens ls).length + 1 ≤ n →
    ∃ E' Q', readProblemCommands false n E Q ⟨linesTokens ls, []⟩ = .ok ((E', Q'), ⟨[], []⟩) ∧
      ∀ u, u ∈ Q'.premises ↔ u ∈ Q.premises ∨ u ∈ ls.flatMap ProblemLine.formulas
  | [], E, Q, _, _, n, hn => ⟨E, Q, readCommands63_nil (by omega), by simp⟩
  | .declare x s :: ls, E, Q, hE, h, n, hn => by
    obtain ⟨h1, -, h3⟩ := h
    rw [linesTokens_declare] at hn ⊢
    simp only [List.length_cons, List.length_append] at hn
    obtain ⟨n, rfl⟩ := Nat.exists_eq_add_of_le (show 1 ≤ n by omega)
    rw [Nat.add_comm 1 n, readCommands63_cons (readDeclare63 hE h1 (by omega))]
    obtain ⟨E', Q', e, hq⟩ := readLines_plain ls (Q.declare x s) (hE.bind _) h3 (n := n) (by omega)
    exact ⟨E', Q', e, fun u => by simpa [ProblemLine.formulas, Problem.declare] using hq u⟩
  | .define x s t :: ls, E, Q, hE, h, n, hn => by
    obtain ⟨h1, -, -, h4, h5, -, -, h8⟩ := h
    rw [linesTokens_define] at hn ⊢
    simp only [List.length_cons, List.length_append] at hn
    obtain ⟨n, rfl⟩ := Nat.exists_eq_add_of_le (show 1 ≤ n by omega)
    have h6 := readDefineFun_tokens (F := []) hE (x := x) h1 h5 h4 (n := n) (rest := linesTokens ls) (by rw [definitionTokens_length]; omega)
    have h7 : definingPremise x ⟨[], t⟩ = .ok ((x, s), .op .equals [.var x s, t]) := by
      rw [definingPremise]
      simp only [List.isEmpty_nil, if_true]
      rw [poolSort_ok t h4 h5.small]
      rfl
    have hc : readProblemCommand n false E Q ⟨.reserved .defineFun :: .symbol x :: .openParen :: .closeParen :: (s.tokens ++ (t.tokens false [] ++
        .closeParen :: linesTokens ls)), []⟩ = .ok ((E.bind [(x, s)], Q.assert (.op .equals [.var x s, t])), ⟨linesTokens ls, []⟩) := by
      rw [readProblemCommand, reader_bind next_cons]
      simp only
      rw [reader_bind h6]
      simp only [Bool.false_eq_true, if_false]
      rw [reader_bind (reader_lift h7)]
      rfl
    rw [Nat.add_comm 1 n, readCommands63_cons hc]
    obtain ⟨E', Q', e, hq⟩ := readLines_plain ls (Q.assert (.op .equals [.var x s, t])) (hE.bind _) h8 (n := n) (by omega)
    refine ⟨E', Q', e, fun u => ?_⟩
    rw [hq u, mem_assert, List.flatMap_cons, List.mem_append, ProblemLine.formulas, List.mem_singleton, or_assoc]
  | .assert t :: ls, E, Q, hE, h, n, hn => by
    obtain ⟨h1, -, -, h4⟩ := h
    rw [linesTokens_assert] at hn ⊢
    simp only [List.length_cons, List.length_append] at hn
    obtain ⟨n, rfl⟩ := Nat.exists_eq_add_of_le (show 1 ≤ n by omega)
    have ht := readsTerm (D := []) (F := []) t E hE h1 n (.closeParen :: linesTokens ls) (by omega)
    rw [Nat.add_comm 1 n, readCommands63_cons (readAssert63 ht)]
    obtain ⟨E', Q', e, hq⟩ := readLines_plain ls (Q.assert t) hE h4 (n := n) (by omega)
    refine ⟨E', Q', e, fun u => ?_⟩
    rw [hq u, mem_assert, List.flatMap_cons, List.mem_append, ProblemLine.formulas, List.mem_singleton, or_assoc]

/-- With expansion, the formulas are expanded. -/
theorem readLines_expanded : ∀ (ls : List ProblemLine) {F : List (String × FunDef)} {Ed Ef : PEnv} (Q : Problem), Defining Ef.Knows F Ed Ef →
    LinesOK Ef ls → ∀ {n : Nat}, 2 * (linesTokens ls).length + 1 ≤ n →
    ∃ E' Q' F', readProblemCommands true n Ed Q ⟨linesTokens ls, F⟩ = .ok ((E', Q'), ⟨[], F'⟩) ∧
      ∀ u, u ∈ Q'.premises ↔ u ∈ Q.premises ∨ u ∈ expandedFormulas F ls
  | [], F, Ed, Ef, Q, _, _, n, hn => ⟨Ed, Q, F, readCommands63_nil (by omega), by simp [expandedFormulas]⟩
  | .declare x s :: ls, F, Ed, Ef, Q, hD, h, n, hn => by
    obtain ⟨h1, h2, h3⟩ := h
    rw [linesTokens_declare] at hn ⊢
    simp only [List.length_cons, List.length_append] at hn
    obtain ⟨n, rfl⟩ := Nat.exists_eq_add_of_le (show 1 ≤ n by omega)
    rw [Nat.add_comm 1 n, readCommands63_cons (readDeclare63 hD.plain (h1.congr hD.decls hD.sdefs) (by omega))]
    obtain ⟨E', Q', F', e, hq⟩ := readLines_expanded ls (Q.declare x s) (hD.declare h2) h3 (n := n) (by omega)
    exact ⟨E', Q', F', e, fun u => by simpa [expandedFormulas, Problem.declare] using hq u⟩
  | .define x s t :: ls, F, Ed, Ef, Q, hD, h, n, hn => by
    obtain ⟨h1, h2, h3, h4, h5, h6, h7, h8⟩ := h
    rw [linesTokens_define] at hn ⊢
    simp only [List.length_cons, List.length_append] at hn
    obtain ⟨n, rfl⟩ := Nat.exists_eq_add_of_le (show 1 ≤ n by omega)
    have ht := expandsTo t hD h5 h6 h7.not_knows
    have hr := readDefineFun_expanded hD.plain (x := x) (h1.congr hD.decls hD.sdefs) ht h4 (n := n) (rest := linesTokens ls)
      (by rw [definitionTokens_length]; omega)
    have hc : readProblemCommand n true Ed Q ⟨.reserved .defineFun :: .symbol x :: .openParen :: .closeParen :: (s.tokens ++ (t.tokens false [] ++
        .closeParen :: linesTokens ls)), F⟩ = .ok ((Ed, Q), ⟨linesTokens ls, mapInsert F x ⟨[], t.expanded F⟩⟩) := by
      rw [readProblemCommand, reader_bind next_cons]
      simp only
      rw [reader_bind hr]
      rfl
    rw [Nat.add_comm 1 n, readCommands63_cons hc]
    obtain ⟨E', Q', F', e, hq⟩ := readLines_expanded ls Q (hD.define h1 h2 h3 h4 ht) h8 (n := n) (by omega)
    exact ⟨E', Q', F', e, hq⟩
  | .assert t :: ls, F, Ed, Ef, Q, hD, h, n, hn => by
    obtain ⟨h1, h2, h3, h4⟩ := h
    rw [linesTokens_assert] at hn ⊢
    simp only [List.length_cons, List.length_append] at hn
    obtain ⟨n, rfl⟩ := Nat.exists_eq_add_of_le (show 1 ≤ n by omega)
    have ht := (expandsTo t hD h1 h2 h3.not_knows).reads n (.closeParen :: linesTokens ls) (by omega)
    rw [Nat.add_comm 1 n, readCommands63_cons (readAssert63 ht)]
    obtain ⟨E', Q', F', e, hq⟩ := readLines_expanded ls (Q.assert (t.expanded F)) hD h4 (n := n) (by omega)
    refine ⟨E', Q', F', e, fun u => ?_⟩
    rw [hq u, mem_assert, expandedFormulas, List.mem_cons, or_assoc]

/-! ## Meaning -/

/-- A model of the problem is a model of the expanded problem. -/
theorem expanded_of_lines (M : Model) : ∀ (ls : List ProblemLine) {F : List (String × FunDef)} {Ed Ef : PEnv}, Defining Ef.Knows F Ed Ef → LinesOK Ef ls →
    Consistent M.I F M.env → (∀ t ∈ ls.flatMap ProblemLine.formulas, M.Holds t) → ∀ t ∈ expandedFormulas F ls, M.Holds t
  | [], _, _, _, _, _, _, _ => by simp [expandedFormulas]
  | .declare x s :: ls, F, Ed, Ef, hD, h, hc, hm => by
    obtain ⟨-, h2, h3⟩ := h
    rw [expandedFormulas]
    exact expanded_of_lines M ls (hD.declare h2) h3 hc (by simpa [ProblemLine.formulas] using hm)
  | .define x s t :: ls, F, Ed, Ef, hD, h, hc, hm => by
    obtain ⟨h1, h2, h3, h4, h5, h6, h7, h8⟩ := h
    have ht := expandsTo t hD h5 h6 h7.not_knows
    rw [expandedFormulas]
    refine expanded_of_lines M ls (hD.define h1 h2 h3 h4 ht) h8 ?_ fun u hu => hm u (by rw [List.flatMap_cons, List.mem_append]; exact .inr hu)
    intro y d r hl hs
    rw [lookup_mapInsert63] at hl
    split at hl
    · next e =>
      subst e
      cases hl
      rw [ht.sort, h4] at hs
      cases hs
      rw [eval_expanded t hD h5 h6 h7.not_knows M.env_dom hc]
      exact (M.holds_eq _ _).1 (hm (.op .equals [.var y s, t]) (by simp [ProblemLine.formulas]))
    · exact hc y d r hl hs
  | .assert t :: ls, F, Ed, Ef, hD, h, hc, hm => by
    obtain ⟨h1, h2, h3, h4⟩ := h
    rw [expandedFormulas]
    intro u hu
    rcases List.mem_cons.1 hu with rfl | hu
    · have := hm t (by simp [ProblemLine.formulas])
      rw [Model.Holds, Model.val] at this ⊢
      rwa [eval_expanded t hD h1 h2 h3.not_knows M.env_dom hc]
    · exact expanded_of_lines M ls hD h4 hc (fun u hu => hm u (by rw [List.flatMap_cons, List.mem_append]; exact .inr hu)) u hu

/-- Defined names do not occur in expanded formulas. -/
theorem fv_expanded : ∀ (ls : List ProblemLine) {F : List (String × FunDef)} {Ed Ef : PEnv}, Defining Ef.Knows F Ed Ef → LinesOK Ef ls →
    ∀ t ∈ expandedFormulas F ls, (sortOf t).isSome = true ∧ ∀ v ∈ t.fv, F.lookup v.1 = none
  | [], _, _, _, _, _ => by simp [expandedFormulas]
  | .declare x s :: ls, F, Ed, Ef, hD, h => by
    obtain ⟨-, h2, h3⟩ := h
    rw [expandedFormulas]
    exact fv_expanded ls (hD.declare h2) h3
  | .define x s t :: ls, F, Ed, Ef, hD, h => by
    obtain ⟨h1, h2, h3, h4, h5, h6, h7, h8⟩ := h
    have ht := expandsTo t hD h5 h6 h7.not_knows
    rw [expandedFormulas]
    intro u hu
    obtain ⟨k1, k2⟩ := fv_expanded ls (hD.define h1 h2 h3 h4 ht) h8 u hu
    refine ⟨k1, fun v hv => ?_⟩
    have := k2 v hv
    rw [lookup_mapInsert63] at this
    split at this
    · cases this
    · exact this
  | .assert t :: ls, F, Ed, Ef, hD, h => by
    obtain ⟨h1, h2, h3, h4⟩ := h
    have ht := expandsTo t hD h1 h2 h3.not_knows
    rw [expandedFormulas]
    intro u hu
    rcases List.mem_cons.1 hu with rfl | hu
    · exact ⟨by rw [ht.sort]; exact h1.sorted, fun v hv => (hD.declared (ht.free v hv)).1⟩
    · exact fv_expanded ls hD h4 u hu

variable {I : Interp}

theorem eval_agree63 {d : Term} {ρ ρ' : Env I.U} (hs : (sortOf d).isSome = true) (hρ : I.EnvOK ρ) (h : ∀ v ∈ d.fv, ρ v.1 v.2 = ρ' v.1 v.2) :
    eval I d ρ = eval I d ρ' := eval_congr_fv d (d.choiceOK_of_sort hs) (.inr hρ) h

theorem Consistent.agree (hD : Defining Ef.Knows F Ed Ef) {ρ ρ' : Env I.U} (hρ : I.EnvOK ρ) (hc : Consistent I F ρ)
    (ha : ∀ x s, Ef.Knows x → ρ' x s = ρ x s) : Consistent I F ρ' := by
  intro x d s hF hs
  obtain ⟨h1, -, -, d', s', h4, -, -, -, -, h9⟩ := hD.defn x _ hF
  cases h4
  rw [ha x s h1, hc x d s hF hs]
  exact eval_agree63 (by rw [hs]; rfl) hρ fun v hv => (ha v.1 v.2 (h9 v hv).1).symm

theorem EnvOK_set63 {ρ : Env I.U} (h : I.EnvOK ρ) {x : String} {s : Srt} {v : Val I.U} (hv : I.dom s v) : I.EnvOK (ρ.set x s v) := by
  intro y r
  rw [Env.set]
  split
  · next e =>
    rw [e.2]
    exact hv
  · exact h y r

/-- A model of the expanded problem gives a model of the problem: the constants get the values of their bodies. -/
theorem lines_of_expanded : ∀ (ls : List ProblemLine) {F : List (String × FunDef)} {Ed Ef : PEnv}, Defining Ef.Knows F Ed Ef → LinesOK Ef ls →
    ∀ {ρ : Env I.U}, I.EnvOK ρ → Consistent I F ρ → (∀ t ∈ expandedFormulas F ls, (eval I t ρ).T) →
    ∃ ρ' : Env I.U, I.EnvOK ρ' ∧ (∀ x s, Ef.Knows x → ρ' x s = ρ x s) ∧ ∀ t ∈ ls.flatMap ProblemLine.formulas, (eval I t ρ').T
  | [], _, _, _, _, _, ρ, hρ, _, _ => ⟨ρ, hρ, fun _ _ _ => rfl, by simp⟩
  | .declare x s :: ls, F, Ed, Ef, hD, h, ρ, hρ, hc, hm => by
    obtain ⟨-, h2, h3⟩ := h
    obtain ⟨ρ', k1, k2, k3⟩ := lines_of_expanded ls (hD.declare h2) h3 hρ hc hm
    refine ⟨ρ', k1, fun y r hy => k2 y r ?_, by simpa [ProblemLine.formulas] using k3⟩
    rw [PEnv.Knows, lookup_bind_one]
    split
    · simp
    · exact hy
  | .define x s t :: ls, F, Ed, Ef, hD, h, ρ, hρ, hc, hm => by
    obtain ⟨h1, h2, h3, h4, h5, h6, h7, h8⟩ := h
    have ht := expandsTo t hD h5 h6 h7.not_knows
    have hD' := hD.define h1 h2 h3 h4 ht
    have hsort : sortOf (t.expanded F) = some s := ht.sort.trans h4
    have hx : Ed.vars.lookup x = none := by rw [hD.vars x (hD.undefined h2), h2]
    have hρ1 : I.EnvOK (ρ.set x s (eval I (t.expanded F) ρ)) := EnvOK_set63 hρ (eval_dom _ hsort hρ)
    have ne : ∀ {y r}, y ≠ x → ρ.set x s (eval I (t.expanded F) ρ) y r = ρ y r := fun {y r} hy => if_neg fun e => hy e.1
    have hxx : ρ.set x s (eval I (t.expanded F) ρ) x s = eval I (t.expanded F) ρ := if_pos ⟨rfl, rfl⟩
    have hfv : ∀ v ∈ (t.expanded F).fv, v.1 ≠ x := fun v hv e => by
      have := ht.free v hv
      rw [e, hx] at this
      cases this
    have hd : eval I (t.expanded F) ρ = eval I (t.expanded F) (ρ.set x s (eval I (t.expanded F) ρ)) :=
      eval_agree63 (by rw [hsort]; rfl) hρ fun v hv => (ne (hfv v hv)).symm
    have hkx : ∀ {y}, Ef.Knows y → y ≠ x := fun {y} hy e => hy (e ▸ h2)
    have hc1 : Consistent I F (ρ.set x s (eval I (t.expanded F) ρ)) := hc.agree hD hρ fun y r hy => ne (hkx hy)
    have hc' : Consistent I (mapInsert F x ⟨[], t.expanded F⟩) (ρ.set x s (eval I (t.expanded F) ρ)) := by
      intro y d r hl hs
      rw [lookup_mapInsert63] at hl
      split at hl
      · next e =>
        subst e
        cases hl
        rw [hsort] at hs
        cases hs
        rw [hxx]
        exact hd
      · exact hc1 y d r hl hs
    obtain ⟨ρ', k1, k2, k3⟩ := lines_of_expanded ls hD' h8 hρ1 hc' fun u hu => by
      obtain ⟨j1, j2⟩ := fv_expanded ls hD' h8 u hu
      rw [← eval_agree63 j1 hρ fun v hv => ?_]
      · exact hm u hu
      · refine (ne fun e => ?_).symm
        have := j2 v hv
        rw [lookup_mapInsert63, if_pos e] at this
        cases this
    have k4 : ∀ y r, Ef.Knows y → ρ' y r = ρ y r := fun y r hy => by
      rw [k2 y r ?_, ne (hkx hy)]
      rw [PEnv.Knows, lookup_bind_one, if_neg (hkx hy)]
      exact hy
    refine ⟨ρ', k1, k4, fun u hu => ?_⟩
    rw [List.flatMap_cons, List.mem_append, ProblemLine.formulas, List.mem_singleton] at hu
    rcases hu with rfl | hu
    · have e1 : ρ' x s = eval I (t.expanded F) ρ := by
        rw [k2 x s (by simp [PEnv.Knows, lookup_bind_one]), hxx]
      have e2 : eval I t ρ' = eval I (t.expanded F) ρ := by
        rw [← eval_expanded t hD h5 h6 h7.not_knows k1 (hc.agree hD hρ k4)]
        refine (eval_agree63 (by rw [hsort]; rfl) hρ fun v hv => (k4 v.1 v.2 ?_).symm).symm
        rw [PEnv.Knows, (hD.declared (ht.free v hv)).2]
        simp
      exact (Model.holds_eq ⟨I, ρ', k1⟩ (.var x s) t).2 (e1.trans e2.symm)
    · exact k3 u hu
  | .assert t :: ls, F, Ed, Ef, hD, h, ρ, hρ, hc, hm => by
    obtain ⟨h1, h2, h3, h4⟩ := h
    have ht := expandsTo t hD h1 h2 h3.not_knows
    rw [expandedFormulas] at hm
    obtain ⟨ρ', k1, k2, k3⟩ := lines_of_expanded ls hD h4 hρ hc fun u hu => hm u (List.mem_cons_of_mem _ hu)
    refine ⟨ρ', k1, k2, fun u hu => ?_⟩
    rw [List.flatMap_cons, List.mem_append, ProblemLine.formulas, List.mem_singleton] at hu
    rcases hu with rfl | hu
    · rw [← eval_expanded u hD h1 h2 h3.not_knows k1 (hc.agree hD hρ k2), ← eval_agree63 (by rw [ht.sort]; exact h1.sorted) hρ fun v hv => (k2 v.1 v.2 ?_).symm]
      · exact hm _ List.mem_cons_self
      · rw [PEnv.Knows, (hD.declared (ht.free v hv)).2]
        simp
    · exact k3 u hu

end

end Carcara
