import Verif.Lemmas.TermParserMake
import Verif.Lemmas.Lexer

/-!
# The tokens of a term are read as that term
-/

namespace Carcara
open PRes Reader

/-! ## Evaluation of readers -/

section Readers
variable {α β : Type} {F : List (String × FunDef)} {ts : List Token} {st : ReadState}

theorem reader_bind {r : Reader α} {f : α → Reader β} {a : α} {st st' : ReadState} (h : r st = .ok (a, st')) : (r >>= f) st = f a st' := by
  change (match r st with | .ok (a, st) => f a st | .error e => .error e) = _
  rw [h]

theorem reader_pure {a : α} : (pure a : Reader α) st = .ok (a, st) := rfl

theorem reader_lift {x : PRes α} {a : α} (h : x = .ok a) : lift x st = .ok (a, st) := by
  unfold lift
  rw [h]

theorem current_cons {t : Token} : current ⟨t :: ts, F⟩ = .ok (t, ⟨t :: ts, F⟩) := rfl

theorem next_cons {t : Token} : next ⟨t :: ts, F⟩ = .ok (t, ⟨ts, F⟩) := rfl

theorem expect_cons {t : Token} : expect t ⟨t :: ts, F⟩ = .ok ((), ⟨ts, F⟩) := by
  unfold expect
  rw [reader_bind next_cons, if_pos rfl]
  rfl

theorem expectSymbol_cons {s : String} : expectSymbol ⟨.symbol s :: ts, F⟩ = .ok (s, ⟨ts, F⟩) := by
  unfold expectSymbol
  rw [reader_bind next_cons]
  rfl

theorem definition_eq {s : String} : definition s ⟨ts, F⟩ = .ok (F.lookup s, ⟨ts, F⟩) := rfl

theorem nonEmpty_ok {as : List α} (h : as ≠ []) : nonEmpty as st = .ok (as, st) := by
  cases as with
  | nil => exact absurd rfl h
  | cons a as => rfl

end Readers

/-! ## Sorts -/

section
variable {E : PEnv} {F : List (String × FunDef)}

theorem parseTerm_numeral (hi : E.intsAsReals = false) (n : Nat) (z : Int) (rest : List Token) :
    parseTerm (n + 1) E ⟨.numeral z :: rest, F⟩ = .ok (.const (.int z), ⟨rest, F⟩) := by
  rw [parseTerm, reader_bind next_cons]
  simp only [hi]
  rfl

theorem parseTerms_close (n : Nat) (rest : List Token) : parseTerms (n + 1) E ⟨.closeParen :: rest, F⟩ = .ok ([], ⟨rest, F⟩) := by
  rw [parseTerms, reader_bind current_cons, if_pos rfl, reader_bind next_cons]
  rfl

theorem parseTerms_cons {n : Nat} {h : Token} {ts ts' rest : List Token} {t : Term} {us : List Term} (hc : h ≠ .closeParen)
    (e : parseTerm n E ⟨h :: ts, F⟩ = .ok (t, ⟨ts', F⟩)) (e' : parseTerms n E ⟨ts', F⟩ = .ok (us, ⟨rest, F⟩)) :
    parseTerms (n + 1) E ⟨h :: ts, F⟩ = .ok (t :: us, ⟨rest, F⟩) := by
  rw [parseTerms, reader_bind current_cons, if_neg hc, reader_bind e, reader_bind e']
  rfl

theorem parseSorts_close (n : Nat) (rest : List Token) : parseSorts (n + 1) E ⟨.closeParen :: rest, F⟩ = .ok ([], ⟨rest, F⟩) := by
  rw [parseSorts, reader_bind current_cons, if_pos rfl, reader_bind next_cons]
  rfl

theorem parseSorts_cons {n : Nat} {h : Token} {ts ts' rest : List Token} {t : Srt} {us : List Srt} (hc : h ≠ .closeParen)
    (e : parseSort n E ⟨h :: ts, F⟩ = .ok (t, ⟨ts', F⟩)) (e' : parseSorts n E ⟨ts', F⟩ = .ok (us, ⟨rest, F⟩)) :
    parseSorts (n + 1) E ⟨h :: ts, F⟩ = .ok (t :: us, ⟨rest, F⟩) := by
  rw [parseSorts, reader_bind current_cons, if_neg hc, reader_bind e, reader_bind e']
  rfl

theorem parens_append (tss : List (List Token)) (rest : List Token) : parens tss ++ rest = .openParen :: (tss.flatten ++ .closeParen :: rest) := by
  simp [parens]

theorem parens_length (tss : List (List Token)) : (parens tss).length = tss.flatten.length + 2 := by simp [parens]

theorem Srt.tokens_head (s : Srt) : ∃ h ts, s.tokens = h :: ts ∧ h ≠ .closeParen := by
  cases s
  case atom n as => cases as <;> simp [Srt.tokens, parens]
  all_goals simp [Srt.tokens, parens]

theorem parseSort_symbol {n : Nat} {x : String} {s : Srt} {rest : List Token} (h : makeSort E x [] = .ok s) :
    parseSort (n + 1) E ⟨.symbol x :: rest, F⟩ = .ok (s, ⟨rest, F⟩) := by
  rw [parseSort, reader_bind next_cons]
  exact reader_lift h

theorem makeSort_atom {n : String} {as : List Srt} (h : (Srt.atom n as).Known E) : makeSort E n as = .ok (.atom n as) := by
  simp only [Srt.Known, builtinSorts, List.mem_cons, List.not_mem_nil, or_false, not_or] at h
  obtain ⟨⟨h1, h2, h3, h4, h5, h6, h7⟩, hd, hk, _⟩ := h
  simp [makeSort, h1, h2, h3, h4, h5, h6, h7, hd, hk, need, bind, Except.bind]

mutual
theorem parseSort_tokens (hi : E.intsAsReals = false) : ∀ {s : Srt}, s.Known E → ∀ {n : Nat} {rest : List Token}, 2 * s.tokens.length ≤ n →
    parseSort n E ⟨s.tokens ++ rest, F⟩ = .ok (s, ⟨rest, F⟩)
  | s, h, 0, _, hn => by
    obtain ⟨t, ts, e, _⟩ := s.tokens_head
    simp [e] at hn
  | .bool, _, n + 1, rest, _ => parseSort_symbol rfl
  | .int, _, n + 1, rest, _ => parseSort_symbol rfl
  | .real, _, n + 1, rest, _ => parseSort_symbol rfl
  | .string, _, n + 1, rest, _ => parseSort_symbol rfl
  | .regLan, _, n + 1, rest, _ => parseSort_symbol rfl
  | .rareList, h, n + 1, rest, _ => h.elim
  | .fn _ _, h, n + 1, rest, _ => h.elim
  | .bv w, h, n + 1, rest, hn => by
    simp only [Srt.tokens, parens_length, List.flatten_cons, List.flatten_nil, List.length_append, List.length_cons, List.length_nil] at hn
    obtain ⟨n, rfl⟩ := Nat.exists_eq_add_of_le (show 2 ≤ n by omega)
    rw [Nat.add_comm 2 n]
    simp only [Srt.tokens, parens_append, List.flatten_cons, List.flatten_nil, List.cons_append, List.nil_append]
    rw [parseSort, reader_bind next_cons]
    simp only
    rw [reader_bind current_cons, if_pos rfl, reader_bind next_cons, reader_bind expectSymbol_cons,
      reader_bind (parseTerms_cons (by simp) (parseTerm_numeral hi _ _ _) (parseTerms_close _ _)), reader_bind (nonEmpty_ok (by simp))]
    refine reader_lift ?_
    have : unwrapUsize (w : Int) = .ok w := unwrapUsize_ok.2 ⟨rfl, h⟩
    simp [makeIndexedSort, Term.asInteger, this]
  | .array i e, h, n + 1, rest, hn => by
    simp only [Srt.tokens, parens_length, List.flatten_cons, List.flatten_nil, List.length_append, List.length_cons, List.length_nil] at hn
    obtain ⟨n, rfl⟩ := Nat.exists_eq_add_of_le (show 3 ≤ n by omega)
    rw [Nat.add_comm 3 n]
    simp only [Srt.tokens, parens_append, List.flatten_cons, List.flatten_nil, List.cons_append, List.nil_append, List.append_assoc]
    rw [parseSort, reader_bind next_cons]
    simp only
    have hi' : ∀ rest, parseSort (n + 2) E ⟨i.tokens ++ rest, F⟩ = .ok (i, ⟨rest, F⟩) := fun rest => parseSort_tokens hi h.1 (by omega)
    have he' : ∀ rest, parseSort (n + 1) E ⟨e.tokens ++ rest, F⟩ = .ok (e, ⟨rest, F⟩) := fun rest => parseSort_tokens hi h.2 (by omega)
    obtain ⟨ti, tsi, ei, hti⟩ := i.tokens_head
    obtain ⟨te, tse, ee, hte⟩ := e.tokens_head
    rw [ei] at hi' ⊢
    rw [ee] at he' ⊢
    have : parseSorts (n + 3) E ⟨ti :: tsi ++ (te :: tse ++ .closeParen :: rest), F⟩ = .ok ([i, e], ⟨rest, F⟩) :=
      parseSorts_cons hti (hi' (te :: tse ++ .closeParen :: rest)) (parseSorts_cons hte (he' (.closeParen :: rest)) (parseSorts_close _ _))
    rw [reader_bind current_cons, if_neg (by simp), reader_bind expectSymbol_cons, reader_bind this, reader_bind (nonEmpty_ok (by simp))]
    exact reader_lift rfl
  | .atom x [], h, n + 1, rest, _ => parseSort_symbol (makeSort_atom h)
  | .atom x (a :: as), h, n + 1, rest, hn => by
    simp only [Srt.tokens, parens_length, List.flatten_cons, List.length_append, List.length_cons, List.length_nil] at hn
    simp only [Srt.tokens, parens_append, List.flatten_cons, List.cons_append, List.nil_append, List.append_assoc]
    rw [parseSort, reader_bind next_cons]
    simp only
    have := parseSorts_tokens hi (ss := a :: as) h.2.2.2 (n := n) (rest := rest) (by
      simp only [Srt.tokensL, List.flatten_cons, List.length_append]
      omega)
    simp only [Srt.tokensL, List.flatten_cons, List.append_assoc] at this
    rw [reader_bind current_cons, if_neg (by simp), reader_bind expectSymbol_cons, reader_bind this, reader_bind (nonEmpty_ok (by simp))]
    exact reader_lift (makeSort_atom h)
theorem parseSorts_tokens (hi : E.intsAsReals = false) : ∀ {ss : List Srt}, Srt.KnownL E ss → ∀ {n : Nat} {rest : List Token},
    2 * (Srt.tokensL ss).flatten.length + 1 ≤ n →
    parseSorts n E ⟨(Srt.tokensL ss).flatten ++ .closeParen :: rest, F⟩ = .ok (ss, ⟨rest, F⟩)
  | _, _, 0, _, hn => by omega
  | [], _, n + 1, rest, _ => parseSorts_close _ _
  | s :: ss, h, n + 1, rest, hn => by
    simp only [Srt.tokensL, List.flatten_cons, List.length_append] at hn
    obtain ⟨t, ts, e, ht⟩ := s.tokens_head
    have h1 : parseSort n E ⟨s.tokens ++ ((Srt.tokensL ss).flatten ++ .closeParen :: rest), F⟩ = .ok (s, ⟨_, F⟩) := parseSort_tokens hi h.1 (by omega)
    have h2 := parseSorts_tokens hi h.2 (n := n) (rest := rest) (by
      rw [e, List.length_cons] at hn
      omega)
    simp only [Srt.tokensL, List.flatten_cons, List.append_assoc]
    rw [e] at h1 ⊢
    exact parseSorts_cons ht h1 h2
end

end

/-! ## Terms -/

/-- The configuration in which the tokens of a term are read as that term. -/
structure PlainEnv (E : PEnv) : Prop where
  strict : E.strict = false
  ints : E.intsAsReals = false

theorem PlainEnv.bind {E : PEnv} (h : PlainEnv E) (bs : List (String × Srt)) : PlainEnv (E.bind bs) := ⟨h.strict, h.ints⟩

section Terms
variable {D : List (Term × String)} {F : List (String × FunDef)} {E : PEnv}

/-- The terms that are read back. -/
structure Writable (D : List (Term × String)) (F : List (String × FunDef)) (E : PEnv) (t : Term) : Prop where
  sorted : (sortOf t).isSome = true
  small : t.smallWidths
  known : t.Known D F E

theorem Term.knownL_iff {as : List Term} : Term.KnownL D F E as ↔ ∀ a ∈ as, a.Known D F E := by
  induction as with
  | nil => simp [Term.KnownL]
  | cons a as ih => simp [Term.KnownL, ih]

theorem Term.knownB_iff {bs : List (String × Term)} : Term.KnownB D F E bs ↔ ∀ b ∈ bs, b.2.Known D F E := by
  induction bs with
  | nil => simp [Term.KnownB]
  | cons b bs ih => obtain ⟨x, t⟩ := b; simp [Term.KnownB, ih]

theorem named_none {t : Term} {ts : List Token} (h : D.lookup t = none) : named D t ts = ts := by rw [named, h]

theorem named_some {t : Term} {m : String} {ts : List Token} (h : D.lookup t = some m) : named D t ts = [.symbol m] := by rw [named, h]

theorem knownName_none {t : Term} {p : Prop} (h : D.lookup t = none) (hk : knownName D F t p) : p := by rwa [knownName, h] at hk

theorem knownName_some {t : Term} {p : Prop} {m : String} (h : D.lookup t = some m) (hk : knownName D F t p) : F.lookup m = some ⟨[], t⟩ := by
  rwa [knownName, h] at hk

theorem Term.tokens_named {t : Term} {m : String} (h : D.lookup t = some m) : t.tokens false D = [.symbol m] := by
  cases t <;> rw [Term.tokens, named_some h]

theorem Term.Known.named {t : Term} {m : String} (h : D.lookup t = some m) (hk : t.Known D F E) : F.lookup m = some ⟨[], t⟩ := by
  cases t <;> (rw [Term.Known] at hk; exact knownName_some h hk)

theorem Op.token_ne (o : Op) : o.token ≠ .closeParen ∧ o.token ≠ .reserved .underscore ∧ o.token ≠ .reserved .as := by
  cases o <;> simp [Op.token]

/-- The first token of a term is not a closing parenthesis. -/
theorem Term.tokens_head (t : Term) : ∃ h ts, t.tokens false D = h :: ts ∧ h ≠ .closeParen ∧ h ≠ .reserved .underscore ∧ h ≠ .reserved .as := by
  cases hD : D.lookup t with
  | some m => exact ⟨_, _, Term.tokens_named hD, by simp, by simp, by simp⟩
  | none =>
    cases t with
    | const c => cases c <;> simp [Term.tokens, named_none hD, Const.tokens, parens]
    | op o as =>
      rw [Term.tokens, named_none hD]
      split
      · exact ⟨_, _, rfl, o.token_ne⟩
      · exact ⟨_, _, rfl, by simp, by simp, by simp⟩
    | paramOp o ps as =>
      rw [Term.tokens, named_none hD]
      simp only
      split
      · exact ⟨_, _, rfl, by simp, by simp, by simp⟩
      · exact ⟨_, _, rfl, by simp, by simp, by simp⟩
    | _ => simp [Term.tokens, named_none hD, parens]

/-- A term is read back. -/
def ReadsTerm (D : List (Term × String)) (F : List (String × FunDef)) (t : Term) : Prop :=
  ∀ E : PEnv, PlainEnv E → Writable D F E t → ∀ (n : Nat) (rest : List Token), 2 * (t.tokens false D).length ≤ n →
    parseTerm n E ⟨t.tokens false D ++ rest, F⟩ = .ok (t, ⟨rest, F⟩)

/-- Terms in parentheses that can be of any sort. -/
def Term.compound : Term → Prop
  | .app _ _ | .binder _ _ _ | .let_ _ _ => True
  | .op _ as => as ≠ []
  | _ => False

/-- A compound term is read back from after the parenthesis. -/
def ReadsApp (D : List (Term × String)) (F : List (String × FunDef)) (t : Term) : Prop :=
  ∀ E : PEnv, PlainEnv E → Writable D F E t → D.lookup t = none → t.compound → ∃ h ts, t.tokens false D = .openParen :: h :: ts ∧
    h ≠ .reserved .underscore ∧ h ≠ .reserved .as ∧ ∀ (n : Nat) (rest : List Token), 2 * (t.tokens false D).length ≤ n + 1 →
    parseApplication n E ⟨h :: (ts ++ rest), F⟩ = .ok (t, ⟨rest, F⟩)

theorem tokens_pos (t : Term) : 1 ≤ (t.tokens false D).length := by
  obtain ⟨h, ts, e, _⟩ := t.tokens_head (D := D)
  rw [e]
  simp

theorem readsTerm_named {t : Term} {m : String} (h : D.lookup t = some m) : ReadsTerm D F t := by
  intro E _ hw n rest hn
  obtain ⟨n, rfl⟩ := Nat.exists_eq_add_of_le (show 1 ≤ n by have := tokens_pos (D := D) t; omega)
  rw [Term.tokens_named h, List.cons_append, List.nil_append, Nat.add_comm 1 n, parseTerm, reader_bind next_cons]
  simp only
  rw [reader_bind definition_eq, hw.known.named h]
  exact reader_lift rfl

theorem ReadsApp.term {t : Term} (h : ReadsApp D F t) (hc : t.compound) : ReadsTerm D F t := by
  cases hD : D.lookup t with
  | some m => exact readsTerm_named hD
  | none =>
    intro E hE hw n rest hn
    obtain ⟨n, rfl⟩ := Nat.exists_eq_add_of_le (show 1 ≤ n by have := tokens_pos (D := D) t; omega)
    obtain ⟨a, ts, e, _, _, hp⟩ := h E hE hw hD hc
    have := hp n rest (by omega)
    rw [e, List.cons_append, Nat.add_comm 1 n, parseTerm, reader_bind next_cons]
    exact this

theorem parseTerms_tokens (hE : PlainEnv E) : ∀ {as : List Term}, (∀ a ∈ as, ReadsTerm D F a) → (∀ a ∈ as, Writable D F E a) →
    ∀ {n : Nat} {rest : List Token}, 2 * (Term.tokensL false D as).flatten.length + 1 ≤ n →
    parseTerms n E ⟨(Term.tokensL false D as).flatten ++ .closeParen :: rest, F⟩ = .ok (as, ⟨rest, F⟩)
  | _, _, _, 0, _, hn => by omega
  | [], _, _, n + 1, rest, _ => parseTerms_close _ _
  | a :: as, h, hw, n + 1, rest, hn => by
    simp only [Term.tokensL, List.flatten_cons, List.length_append] at hn
    obtain ⟨t, ts, e, ht, _⟩ := a.tokens_head (D := D)
    have h1 := h a (by simp) E hE (hw a (by simp)) n ((Term.tokensL false D as).flatten ++ .closeParen :: rest) (by omega)
    have h2 := parseTerms_tokens hE (as := as) (fun b hb => h b (by simp [hb])) (fun b hb => hw b (by simp [hb])) (n := n) (rest := rest) (by
      rw [e, List.length_cons] at hn
      omega)
    simp only [Term.tokensL, List.flatten_cons, List.append_assoc]
    rw [e] at h1 ⊢
    exact parseTerms_cons ht h1 h2

theorem readsTerm_var (x : String) (s : Srt) : ReadsTerm D F (.var x s) := by
  cases hD : D.lookup (.var x s) with
  | some m => exact readsTerm_named hD
  | none =>
    intro E hE hw n rest hn
    have hk := hw.known
    rw [Term.Known] at hk
    obtain ⟨h1, h2, h3⟩ := knownName_none hD hk
    obtain ⟨n, rfl⟩ := Nat.exists_eq_add_of_le (show 1 ≤ n by have := tokens_pos (D := D) (.var x s); omega)
    rw [Term.tokens, named_none hD, List.cons_append, List.nil_append, Nat.add_comm 1 n, parseTerm, reader_bind next_cons]
    simp only
    rw [reader_bind definition_eq, h1]
    simp only [h2]
    exact reader_lift (by simp [makeVar, h3, getErr, bind, Except.bind])

theorem parseBvValue_nat (v : Int) (h : 0 ≤ v) : parseBvValue (intChars v) = .ok v := by
  rw [intChars, if_neg (by omega), parseBvValue, if_pos ⟨natChars_ne_nil _, List.all_eq_true.2 (natChars_digits _)⟩, ofDigits_natChars,
    Int.natAbs_of_nonneg h]

theorem indexedHead_bv (v : Int) (h : 0 ≤ v) :
    indexedHead (String.ofList ("bv".toList ++ intChars v)) = .ok (.bvConst, [.const (.int v)]) := by
  unfold indexedHead
  rw [String.toList_ofList]
  simp [parseBvValue_nat v h, bind, Except.bind]

theorem makeIndexedOp_bv {v : Int} {w : Nat} (hv : 0 ≤ v) (hw : 1 ≤ w) (hu : w < 2 ^ 64) :
    makeIndexedOp .bvConst [.const (.int v), .const (.int w)] [] = .ok (.const (.bv v w)) := by
  unfold makeIndexedOp
  simp only [pbind_ok, need_ok, unwrapUsize_ok, indexAt_zero, indexAt_one, Except.ok.injEq]
  exact ⟨[], rfl, (), rfl, (), rfl, v, rfl, w, rfl, w, ⟨rfl, hu⟩, (), hv, (), by omega, rfl⟩

theorem readsTerm_const (c : Const) : ReadsTerm D F (.const c) := by
  cases hD : D.lookup (.const c) with
  | some m => exact readsTerm_named hD
  | none =>
    intro E hE hw n rest hn
    have hk := hw.known
    rw [Term.Known] at hk
    have hk := knownName_none hD hk
    obtain ⟨n, rfl⟩ := Nat.exists_eq_add_of_le (show 1 ≤ n by have := tokens_pos (D := D) (.const c); omega)
    rw [Term.tokens, named_none hD] at hn ⊢
    simp only [Bool.false_eq_true, if_false] at hn ⊢
    rw [Nat.add_comm 1 n] at hn ⊢
    cases c with
    | int z => exact parseTerm_numeral hE.ints _ _ _
    | real q => rw [Const.tokens, List.cons_append, parseTerm, reader_bind next_cons]; rfl
    | str s => rw [Const.tokens, List.cons_append, parseTerm, reader_bind next_cons]; rfl
    | bv v w =>
      rw [Const.Known] at hk
      obtain ⟨hv, hw1, hw2⟩ := hk
      simp only [Const.tokens, parens_length, List.flatten_cons, List.flatten_nil, List.length_append, List.length_cons, List.length_nil] at hn
      obtain ⟨n, rfl⟩ := Nat.exists_eq_add_of_le (show 4 ≤ n by omega)
      rw [Nat.add_comm 4 n]
      simp only [Const.tokens, parens_append, List.flatten_cons, List.flatten_nil, List.cons_append, List.nil_append]
      rw [parseTerm, reader_bind next_cons]
      simp only
      rw [parseApplication, reader_bind current_cons]
      simp only
      rw [reader_bind next_cons]
      have : parseIndexed (n + 3) E ⟨.symbol (String.ofList ("bv".toList ++ intChars v)) :: .numeral w :: .closeParen :: rest, F⟩ =
          .ok ((.bvConst, [.const (.int v), .const (.int w)]), ⟨rest, F⟩) := by
        rw [parseIndexed, reader_bind expectSymbol_cons, reader_bind (reader_lift (indexedHead_bv v hv))]
        simp only
        rw [reader_bind (parseTerms_cons (by simp) (parseTerm_numeral hE.ints _ _ _) (parseTerms_close _ _)), reader_bind (nonEmpty_ok (by simp)),
          reader_bind (reader_lift (show constantArgs [.const (.int (w : Int))] = .ok [.const (.int (w : Int))] from rfl))]
        rfl
      rw [reader_bind this]
      refine reader_lift ?_
      exact makeIndexedOp_bv hv hw1 hw2

theorem readsApp_op {o : Op} {as : List Term} (has : ∀ a ∈ as, ReadsTerm D F a) : ReadsApp D F (.op o as) := by
  intro E hE hw hD hc
  have hk := hw.known
  rw [Term.Known] at hk
  obtain ⟨_, hk⟩ := knownName_none hD hk
  have hne : as.isEmpty = false := by cases as <;> first | rfl | exact absurd rfl hc
  have et : (Term.op o as).tokens false D = .openParen :: o.token :: ((Term.tokensL false D as).flatten ++ [.closeParen]) := by
    rw [Term.tokens, named_none hD, if_neg (by simp [hne])]
    simp [parens]
  refine ⟨_, _, et, o.token_ne.2.1, o.token_ne.2.2, fun n rest hn => ?_⟩
  rw [et] at hn
  simp only [List.length_cons, List.length_append, List.length_nil] at hn
  obtain ⟨n, rfl⟩ := Nat.exists_eq_add_of_le (show 1 ≤ n by omega)
  obtain ⟨s, hs⟩ := Option.isSome_iff_exists.1 hw.sorted
  have args := parseTerms_tokens hE has (fun a ha => ⟨sorted_op_mem hw.sorted ha, smallWidths_sub hw.small (subterms_op ha),
    Term.knownL_iff.1 hk a ha⟩) (n := n) (rest := rest) (by omega)
  have make := makeOp_ok hE.strict hE.ints hs hw.small
  simp only [List.append_assoc, List.cons_append, List.nil_append]
  rw [Nat.add_comm 1 n, parseApplication, reader_bind current_cons]
  by_cases ho : o = .cl
  · subst ho
    simp only [Op.token]
    rw [reader_bind next_cons, reader_bind args]
    exact reader_lift make
  · have : o.token = .symbol o.name := by cases o <;> first | rfl | exact absurd rfl ho
    rw [this]
    simp only [Op.ofName_name]
    rw [reader_bind next_cons, reader_bind args, reader_bind (nonEmpty_ok hc)]
    exact reader_lift make

theorem readsTerm_op {o : Op} {as : List Term} (has : ∀ a ∈ as, ReadsTerm D F a) : ReadsTerm D F (.op o as) := by
  by_cases hn : as = []
  · subst hn
    cases hD : D.lookup (.op o []) with
    | some m => exact readsTerm_named hD
    | none =>
      intro E hE hw n rest hn
      have hk := hw.known
      rw [Term.Known] at hk
      obtain ⟨hk, _⟩ := knownName_none hD hk
      obtain ⟨ho, hl⟩ := hk rfl
      obtain ⟨n, rfl⟩ := Nat.exists_eq_add_of_le (show 1 ≤ n by have := tokens_pos (D := D) (.op o []); omega)
      have : o.token = .symbol o.name := by cases o <;> first | rfl | exact absurd rfl ho
      obtain ⟨s, hs⟩ := Option.isSome_iff_exists.1 hw.sorted
      rw [Term.tokens, named_none hD, if_pos (by rfl), this, List.cons_append, List.nil_append, Nat.add_comm 1 n, parseTerm,
        reader_bind next_cons]
      simp only
      rw [reader_bind definition_eq, hl]
      simp only [Op.ofName_name]
      exact reader_lift (makeOp_ok hE.strict hE.ints hs hw.small)
  · exact (readsApp_op has).term hn

/-! ### Applications -/

theorem fn_head {f : Term} {ss : List Srt} {r : Srt} (h : sortOf f = some (.fn ss r)) : (∃ x s, f = .var x s) ∨ f.compound := by
  cases f with
  | const c => cases c <;> simp [sortOf, Const.sort] at h
  | var x s => exact .inl ⟨x, s, rfl⟩
  | app f as => exact .inr trivial
  | op o as =>
    cases as with
    | nil => cases o <;> simp [sortOf, sortOfL, opSort, allSort] at h
    | cons a as => exact .inr (by simp [Term.compound])
  | binder b bs t => exact .inr trivial
  | let_ bs t => exact .inr trivial
  | paramOp o ps as =>
    simp only [sortOf] at h
    split at h
    · unfold popSort at h
      split at h <;> simp at h
    · cases h

theorem readsApp_app {f : Term} {as : List Term} (hf : ReadsTerm D F f) (hf' : ReadsApp D F f) (has : ∀ a ∈ as, ReadsTerm D F a) :
    ReadsApp D F (.app f as) := by
  intro E hE hw hD _
  have hk := hw.known
  rw [Term.Known] at hk
  obtain ⟨⟨hf0, heo⟩, hfk, hne, hak⟩ := knownName_none hD hk
  obtain ⟨s, hs⟩ := Option.isSome_iff_exists.1 hw.sorted
  have ⟨hfs, hss⟩ := sorted_app hw.sorted
  have hfw : Writable D F E f := ⟨hfs, smallWidths_sub hw.small (subterms_app (.inl rfl)), hfk⟩
  have args : ∀ n rest, 2 * (Term.tokensL false D as).flatten.length + 1 ≤ n →
      parseTerms n E ⟨(Term.tokensL false D as).flatten ++ .closeParen :: rest, F⟩ = .ok (as, ⟨rest, F⟩) := fun n rest hn =>
    parseTerms_tokens hE has (fun a ha => ⟨hss a ha, smallWidths_sub hw.small (subterms_app (.inr ha)), Term.knownL_iff.1 hak a ha⟩) hn
  have make := makeApp_ok hs hw.small
  have hfn : ∃ ss r, sortOf f = some (.fn ss r) := by
    simp only [sortOf] at hs
    split at hs
    · exact ⟨_, _, by assumption⟩
    · cases hs
  obtain ⟨ss, r, hfn⟩ := hfn
  rcases fn_head hfn with ⟨x, s', rfl⟩ | hc
  · have et : (Term.app (.var x s') as).tokens false D = .openParen :: .symbol x :: ((Term.tokensL false D as).flatten ++ [.closeParen]) := by
      rw [Term.tokens, named_none hD, Term.tokens, named_none hf0]
      simp [parens]
    refine ⟨_, _, et, by simp, by simp, fun n rest hn => ?_⟩
    rw [et] at hn
    simp only [List.length_cons, List.length_append, List.length_nil] at hn
    obtain ⟨n, rfl⟩ := Nat.exists_eq_add_of_le (show 3 ≤ n by omega)
    have h1 := hf E hE hfw (n + 2) ((Term.tokensL false D as).flatten ++ .closeParen :: rest) (by
      rw [Term.tokens, named_none hf0]
      simp)
    rw [Term.tokens, named_none hf0] at h1
    rw [Term.Known] at hfk
    obtain ⟨k1, k2, k3⟩ := knownName_none hf0 hfk
    simp only [List.append_assoc, List.cons_append, List.nil_append] at h1 ⊢
    rw [Nat.add_comm 3 n, parseApplication, reader_bind current_cons]
    simp only [k2]
    rw [if_neg (fun e => heo s' (by rw [e])), reader_bind definition_eq, k1]
    simp only
    rw [reader_bind h1, reader_bind (args _ _ (by omega)), reader_bind (nonEmpty_ok hne)]
    exact reader_lift make
  · obtain ⟨h, ts, ef, hu, ha, hp⟩ := hf' E hE hfw hf0 hc
    have et : (Term.app f as).tokens false D = .openParen :: .openParen :: (h :: ts ++ ((Term.tokensL false D as).flatten ++ [.closeParen])) := by
      rw [Term.tokens, named_none hD, ef]
      simp [parens]
    refine ⟨_, _, et, by simp, by simp, fun n rest hn => ?_⟩
    rw [et] at hn
    simp only [List.length_cons, List.length_append, List.length_nil] at hn
    obtain ⟨n, rfl⟩ := Nat.exists_eq_add_of_le (show 3 ≤ n by omega)
    have h1 := hp (n + 2) ((Term.tokensL false D as).flatten ++ .closeParen :: rest) (by
      rw [ef]
      simp only [List.length_cons]
      omega)
    simp only [List.append_assoc, List.cons_append, List.nil_append]
    rw [Nat.add_comm 3 n, parseApplication, reader_bind current_cons]
    simp only
    rw [reader_bind next_cons, reader_bind current_cons]
    split
    · exact absurd rfl hu
    · exact absurd rfl ha
    · rw [reader_bind h1, reader_bind (args _ _ (by omega)), reader_bind (nonEmpty_ok hne)]
      exact reader_lift make

/-! ### Indexed operators -/

theorem ParamOp.name_head {o : ParamOp} (ho : o ≠ .bvConst) : indexedHead o.name = .ok (o, []) := by
  cases o <;> first | exact absurd rfl ho | (unfold indexedHead; decide +kernel)

theorem constantArgs_ints : ∀ {ps : List Term}, (∀ p ∈ ps, ∃ z, p = .const (.int z)) → constantArgs ps = .ok ps
  | [], _ => rfl
  | p :: ps, h => by
    obtain ⟨z, rfl⟩ := h p (by simp)
    simp only [constantArgs, pbind_ok]
    exact ⟨z, rfl, ps, constantArgs_ints fun q hq => h q (by simp [hq]), rfl⟩

theorem popSort_shape {o : ParamOp} {ps : List Term} {ss : List Srt} {s : Srt} (h : popSort o ps ss = some s) :
    o ≠ .bvConst ∧ ps ≠ [] ∧ ss ≠ [] ∧ ∀ p ∈ ps, ∃ z, p = .const (.int z) := by
  unfold popSort at h
  split at h <;> simp at h ⊢

theorem readsTerm_paramOp {o : ParamOp} {ps as : List Term} (hps : ∀ a ∈ ps, ReadsTerm D F a) (has : ∀ a ∈ as, ReadsTerm D F a) :
    ReadsTerm D F (.paramOp o ps as) := by
  cases hD : D.lookup (.paramOp o ps as) with
  | some m => exact readsTerm_named hD
  | none =>
    intro E hE hw n rest hn
    have hk := hw.known
    rw [Term.Known] at hk
    obtain ⟨hpk, hak⟩ := knownName_none hD hk
    obtain ⟨s, hs⟩ := Option.isSome_iff_exists.1 hw.sorted
    have make := makeIndexedOp_ok hs hw.small
    have hss := sorted_paramOp hw.sorted
    have shape : o ≠ .bvConst ∧ ps ≠ [] ∧ as ≠ [] ∧ ∀ p ∈ ps, ∃ z, p = .const (.int z) := by
      simp only [sortOf] at hs
      split at hs
      · next ss hl =>
        obtain ⟨h1, h2, h3, h4⟩ := popSort_shape hs
        exact ⟨h1, h2, fun e => h3 (by subst e; simpa [sortOfL] using hl.symm), h4⟩
      · cases hs
    obtain ⟨ho, hpn, han, hint⟩ := shape
    have args : ∀ n rest, 2 * (Term.tokensL false D as).flatten.length + 1 ≤ n →
        parseTerms n E ⟨(Term.tokensL false D as).flatten ++ .closeParen :: rest, F⟩ = .ok (as, ⟨rest, F⟩) := fun n rest hn =>
      parseTerms_tokens hE has (fun a ha => ⟨hss a ha, smallWidths_sub hw.small (subterms_paramOp ha), Term.knownL_iff.1 hak a ha⟩) hn
    have params : ∀ n rest, 2 * (Term.tokensL false D ps).flatten.length + 1 ≤ n →
        parseTerms n E ⟨(Term.tokensL false D ps).flatten ++ .closeParen :: rest, F⟩ = .ok (ps, ⟨rest, F⟩) := fun n rest hn =>
      parseTerms_tokens hE hps (fun a ha => by
        refine ⟨?_, ?_, Term.knownL_iff.1 hpk a ha⟩
        · obtain ⟨z, rfl⟩ := hint a ha
          rfl
        · obtain ⟨z, rfl⟩ := hint a ha
          intro u hu w e
          simp only [Term.subterms, List.mem_singleton] at hu
          subst hu
          simp [sortOf, Const.sort] at e) hn
    have et : (Term.paramOp o ps as).tokens false D = .openParen :: .openParen :: .reserved .underscore :: .symbol o.name ::
        ((Term.tokensL false D ps).flatten ++ .closeParen :: ((Term.tokensL false D as).flatten ++ [.closeParen])) := by
      rw [Term.tokens, named_none hD, if_neg (by simpa using han)]
      simp [parens]
    rw [et] at hn ⊢
    simp only [List.length_cons, List.length_append, List.length_nil] at hn
    obtain ⟨n, rfl⟩ := Nat.exists_eq_add_of_le (show 4 ≤ n by omega)
    simp only [List.append_assoc, List.cons_append, List.nil_append]
    rw [Nat.add_comm 4 n, parseTerm, reader_bind next_cons]
    simp only
    rw [parseApplication, reader_bind current_cons]
    simp only
    rw [reader_bind next_cons, reader_bind current_cons]
    simp only
    rw [reader_bind next_cons]
    have : ∀ rest, parseIndexed (n + 2) E ⟨.symbol o.name :: ((Term.tokensL false D ps).flatten ++ .closeParen :: rest), F⟩ =
        .ok ((o, ps), ⟨rest, F⟩) := fun rest => by
      rw [parseIndexed, reader_bind expectSymbol_cons, reader_bind (reader_lift (ParamOp.name_head ho))]
      simp only
      rw [reader_bind (params _ _ (by omega)), reader_bind (nonEmpty_ok hpn), reader_bind (reader_lift (constantArgs_ints hint))]
      rfl
    rw [reader_bind (this _)]
    simp only
    rw [reader_bind (args _ _ (by omega)), reader_bind (nonEmpty_ok han)]
    exact reader_lift make

/-! ### Binders -/

mutual
theorem Srt.Known.bind {bs : List (String × Srt)} : ∀ {s : Srt}, s.Known E → s.Known (E.bind bs)
  | .bool, _ | .int, _ | .real, _ | .string, _ | .regLan, _ => trivial
  | .rareList, h | .fn _ _, h => h.elim
  | .bv _, h => by
    rw [Srt.Known] at h ⊢
    exact h
  | .array i e, h => by
    rw [Srt.Known] at h ⊢
    exact ⟨h.1.bind, h.2.bind⟩
  | .atom n as, h => by
    rw [Srt.Known] at h ⊢
    exact ⟨h.1, h.2.1, h.2.2.1, Srt.knownL_bind h.2.2.2⟩
theorem Srt.knownL_bind {bs : List (String × Srt)} : ∀ {ss : List Srt}, Srt.KnownL E ss → Srt.KnownL (E.bind bs) ss
  | [], _ => trivial
  | s :: ss, h => ⟨h.1.bind, Srt.knownL_bind h.2⟩
end

/-- The tokens of a variable with its sort. -/
def varTokens (p : String × Srt) : List Token := parens [[.symbol p.1], p.2.tokens]

theorem parseSortedVar_tokens (hE : PlainEnv E) {p : String × Srt} (h : p.2.Known E) {n : Nat} {rest : List Token}
    (hn : 2 * (varTokens p).length ≤ n + 1) : parseSortedVar n E ⟨varTokens p ++ rest, F⟩ = .ok (p, ⟨rest, F⟩) := by
  obtain ⟨x, s⟩ := p
  simp only [varTokens, parens_append, parens_length, List.flatten_cons, List.flatten_nil, List.cons_append, List.nil_append, List.append_nil,
    List.length_cons] at hn ⊢
  obtain ⟨n, rfl⟩ := Nat.exists_eq_add_of_le (show 1 ≤ n by omega)
  have : ∀ rest, parseSort n E ⟨s.tokens ++ rest, F⟩ = .ok (s, ⟨rest, F⟩) := fun rest => parseSort_tokens hE.ints h (by simp only; omega)
  rw [Nat.add_comm 1 n, parseSortedVar, reader_bind expect_cons, reader_bind expectSymbol_cons, reader_bind (this _), reader_bind expect_cons]
  rfl

theorem varTokens_cons (p : String × Srt) : ∃ ts, varTokens p = .openParen :: ts := ⟨_, rfl⟩

theorem parseSortedVars_tokens : ∀ {bs : List (String × Srt)} {E : PEnv}, PlainEnv E → (∀ v ∈ bs, v.2.Known E) → ∀ {n : Nat} {rest : List Token},
    2 * (bs.map varTokens).flatten.length + 1 ≤ n →
    parseSortedVars n E ⟨(bs.map varTokens).flatten ++ .closeParen :: rest, F⟩ = .ok (bs, ⟨rest, F⟩)
  | _, _, _, _, 0, _, hn => by omega
  | [], E, _, _, n + 1, rest, _ => by
    simp only [List.map_nil, List.flatten_nil, List.nil_append]
    rw [parseSortedVars, reader_bind current_cons, if_pos rfl, reader_bind next_cons]
    rfl
  | v :: bs, E, hE, h, n + 1, rest, hn => by
    simp only [List.map_cons, List.flatten_cons, List.length_append] at hn
    have h1 := parseSortedVar_tokens (F := F) hE (h v (by simp)) (n := n) (rest := (bs.map varTokens).flatten ++ .closeParen :: rest) (by omega)
    obtain ⟨ts, e⟩ := varTokens_cons v
    have h2 := parseSortedVars_tokens (bs := bs) (hE.bind [v]) (fun w hw => (h w (by simp [hw])).bind) (n := n) (rest := rest) (by
      rw [e, List.length_cons] at hn
      omega)
    simp only [List.map_cons, List.flatten_cons, List.append_assoc]
    rw [e] at h1 ⊢
    simp only [List.cons_append] at h1 ⊢
    rw [parseSortedVars, reader_bind current_cons, if_neg (by simp), reader_bind h1, reader_bind h2]
    rfl

theorem parseBinder_tokens {b : Binder} {bs : List (String × Srt)} {t : Term} (ht : ReadsTerm D F t) (hE : PlainEnv E)
    (hs : (sortOf (.binder b bs t)).isSome = true) (hw : t.smallWidths) (hbs : ∀ v ∈ bs, v.2.Known E) (hk : t.Known D F (E.bind bs)) {n : Nat}
    {rest : List Token} (hn : 2 * (bs.map varTokens).flatten.length + 2 * (t.tokens false D).length + 4 ≤ n) :
    parseBinder n E b ⟨.openParen :: ((bs.map varTokens).flatten ++ .closeParen :: (t.tokens false D ++ .closeParen :: rest)), F⟩ =
      .ok (.binder b bs t, ⟨rest, F⟩) := by
  obtain ⟨n, rfl⟩ := Nat.exists_eq_add_of_le (show 2 ≤ n by omega)
  have hts := sorted_binder hs
  have body : ∀ k rest, 2 * (t.tokens false D).length ≤ k → parseTerm k (E.bind bs) ⟨t.tokens false D ++ rest, F⟩ = .ok (t, ⟨rest, F⟩) :=
    fun k rest hk' => ht _ (hE.bind bs) ⟨hts, hw, hk⟩ k rest hk'
  have sorted : sortOf t = some .bool → ∀ rest, parseSorted (n + 1) (E.bind bs) .bool ⟨t.tokens false D ++ rest, F⟩ = .ok (t, ⟨rest, F⟩) :=
    fun e rest => by
      have : (do assertSort (.known .bool) (← poolSort t)) = (.ok () : PRes Unit) := by rw [poolSort_ok t e hw]; rfl
      rw [parseSorted, reader_bind (body n rest (by omega)), reader_bind (reader_lift this)]
      rfl
  have vars : parseSortedVars (n + 1) E ⟨(bs.map varTokens).flatten ++ .closeParen :: (t.tokens false D ++ .closeParen :: rest), F⟩ =
      .ok (bs, ⟨t.tokens false D ++ .closeParen :: rest, F⟩) := parseSortedVars_tokens hE hbs (by omega)
  rw [Nat.add_comm 2 n, parseBinder, reader_bind expect_cons]
  have several : bs ≠ [] → (do
      let bs ← parseSortedVars (n + 1) E
      nonEmpty bs : Reader _) (ReadState.mk ((bs.map varTokens).flatten ++ .closeParen :: (t.tokens false D ++ .closeParen :: rest)) F) =
      .ok (bs, ⟨t.tokens false D ++ .closeParen :: rest, F⟩) := fun hne => by rw [reader_bind vars, nonEmpty_ok hne]
  simp only [sortOf] at hs
  split at hs
  · next hb =>
    rw [if_neg (by simp), reader_bind (several (by simp)), if_neg (by simp), reader_bind (sorted hb _), reader_bind expect_cons]
    rfl
  · next hb =>
    rw [if_neg (by simp), reader_bind (several (by simp)), if_neg (by simp), reader_bind (sorted hb _), reader_bind expect_cons]
    rfl
  · next x s hb =>
    have one : (do
        let v ← parseSortedVar (n + 1) E
        expect .closeParen
        pure [v] : Reader _) (ReadState.mk (([(x, s)].map varTokens).flatten ++ .closeParen :: (t.tokens false D ++ .closeParen :: rest)) F) =
        .ok ([(x, s)], ⟨t.tokens false D ++ .closeParen :: rest, F⟩) := by
      simp only [List.map_cons, List.map_nil, List.flatten_cons, List.flatten_nil, List.append_nil] at hn ⊢
      rw [reader_bind (parseSortedVar_tokens hE (hbs (x, s) (by simp)) (by omega)), reader_bind expect_cons]
      rfl
    rw [if_pos rfl, reader_bind one, if_neg (by simp), reader_bind (sorted hb _), reader_bind expect_cons]
    rfl
  · rw [if_neg (by simp), reader_bind (several (by simp)), if_pos rfl, reader_bind (body _ _ (by omega)), reader_bind expect_cons]
    rfl
  · cases hs

theorem readsApp_binder {b : Binder} {bs : List (String × Srt)} {t : Term} (ht : ReadsTerm D F t) : ReadsApp D F (.binder b bs t) := by
  intro E hE hw hD _
  have hk := hw.known
  rw [Term.Known] at hk
  obtain ⟨hbs, hk⟩ := knownName_none hD hk
  have et : (Term.binder b bs t).tokens false D =
      .openParen :: b.token :: .openParen :: ((bs.map varTokens).flatten ++ .closeParen :: (t.tokens false D ++ [.closeParen])) := by
    rw [Term.tokens, named_none hD]
    have : varTokens = fun p => parens [[.symbol p.1], p.2.tokens] := rfl
    simp [parens, this]
  refine ⟨_, _, et, by cases b <;> simp [Binder.token], by cases b <;> simp [Binder.token], fun n rest hn => ?_⟩
  rw [et] at hn
  simp only [List.length_cons, List.length_append, List.length_nil] at hn
  obtain ⟨n, rfl⟩ := Nat.exists_eq_add_of_le (show 1 ≤ n by omega)
  have := parseBinder_tokens ht hE hw.sorted (smallWidths_sub hw.small subterms_binder) hbs hk (n := n) (rest := rest) (by omega)
  simp only [List.append_assoc, List.cons_append, List.nil_append]
  rw [Nat.add_comm 1 n, parseApplication, reader_bind current_cons]
  cases b <;> (simp only [Binder.token]; rw [reader_bind next_cons]; exact this)

/-! ### Lets -/

theorem parseBindings_tokens (hE : PlainEnv E) : ∀ {bs : List (String × Term)}, (∀ b ∈ bs, ReadsTerm D F b.2) →
    (∀ b ∈ bs, Writable D F E b.2) → ∀ {n : Nat} {rest : List Token}, 2 * (Term.tokensB false D bs).flatten.length + 1 ≤ n →
    parseBindings n E ⟨(Term.tokensB false D bs).flatten ++ .closeParen :: rest, F⟩ = .ok (bs, ⟨rest, F⟩)
  | _, _, _, 0, _, hn => by omega
  | [], _, _, n + 1, rest, _ => by
    simp only [Term.tokensB, List.flatten_nil, List.nil_append]
    rw [parseBindings, reader_bind current_cons, if_pos rfl, reader_bind next_cons]
    rfl
  | (x, a) :: bs, h, hw, n + 1, rest, hn => by
    simp only [Term.tokensB, List.flatten_cons, List.flatten_nil, List.append_nil, List.length_append, List.length_cons, List.length_nil,
      parens_length] at hn
    have h1 : ∀ rest, parseTerm n E ⟨a.tokens false D ++ rest, F⟩ = .ok (a, ⟨rest, F⟩) := fun rest =>
      h (x, a) (by simp) E hE (hw (x, a) (by simp)) n rest (by simp only; omega)
    have h2 := parseBindings_tokens hE (bs := bs) (fun b hb => h b (by simp [hb])) (fun b hb => hw b (by simp [hb])) (n := n) (rest := rest) (by
      omega)
    simp only [Term.tokensB, List.flatten_cons, List.append_assoc, parens_append, List.flatten_nil, List.append_nil, List.cons_append,
      List.nil_append]
    rw [parseBindings, reader_bind current_cons, if_neg (by simp), reader_bind expect_cons, reader_bind expectSymbol_cons, reader_bind (h1 _),
      reader_bind expect_cons, reader_bind h2]
    rfl

theorem readsApp_let {bs : List (String × Term)} {t : Term} (hbs : ∀ b ∈ bs, ReadsTerm D F b.2) (ht : ReadsTerm D F t) :
    ReadsApp D F (.let_ bs t) := by
  intro E hE hw hD _
  have hk := hw.known
  rw [Term.Known] at hk
  obtain ⟨hexp, hne, hbk, hk⟩ := knownName_none hD hk
  have ⟨hb, hts⟩ := sorted_let hw.sorted
  have hB : sortOfB bs = true := by
    have := hw.sorted
    simp only [sortOf] at this
    split at this
    · assumption
    · cases this
  have small : ∀ b ∈ bs, b.2.smallWidths := fun b hb => smallWidths_sub hw.small (subterms_let (.inr ⟨b, hb, rfl⟩))
  have et : (Term.let_ bs t).tokens false D =
      .openParen :: .reserved .let :: .openParen :: ((Term.tokensB false D bs).flatten ++ .closeParen :: (t.tokens false D ++ [.closeParen])) := by
    rw [Term.tokens, named_none hD]
    simp [parens]
  refine ⟨_, _, et, by simp, by simp, fun n rest hn => ?_⟩
  rw [et] at hn
  simp only [List.length_cons, List.length_append, List.length_nil] at hn
  obtain ⟨n, rfl⟩ := Nat.exists_eq_add_of_le (show 2 ≤ n by omega)
  have h1 : ∀ rest, parseBindings n E ⟨(Term.tokensB false D bs).flatten ++ .closeParen :: rest, F⟩ = .ok (bs, ⟨rest, F⟩) := fun rest =>
    parseBindings_tokens hE hbs (fun b hb' => ⟨hb b hb', small b hb', Term.knownB_iff.1 hbk b hb'⟩) (by omega)
  have h2 : ∀ rest, parseTerm n (E.bind (letSorts bs)) ⟨t.tokens false D ++ rest, F⟩ = .ok (t, ⟨rest, F⟩) := fun rest =>
    ht _ (hE.bind _) ⟨hts, smallWidths_sub hw.small (subterms_let (.inl rfl)), hk⟩ n rest (by omega)
  simp only [List.append_assoc, List.cons_append, List.nil_append]
  rw [Nat.add_comm 2 n, parseApplication, reader_bind current_cons]
  simp only
  rw [reader_bind next_cons]
  simp only [hexp]
  rw [parseLet, reader_bind expect_cons, reader_bind (h1 _), reader_bind (nonEmpty_ok hne), reader_bind (reader_lift (letVars_ok hB small)),
    reader_bind (h2 _), reader_bind expect_cons]
  rfl

/-! ### All terms -/

/-- **The tokens of a term are read as that term.** -/
theorem readsTerm (t : Term) : ReadsTerm D F t := by
  suffices ReadsTerm D F t ∧ ReadsApp D F t from this.1
  have none : ∀ {t : Term}, ¬ t.compound → ReadsApp D F t := fun h _ _ _ _ hc => absurd hc h
  induction t using Term.ind with
  | const c => exact ⟨readsTerm_const c, none id⟩
  | var x s => exact ⟨readsTerm_var x s, none id⟩
  | app f as hf has =>
    have := readsApp_app hf.1 hf.2 fun a ha => (has a ha).1
    exact ⟨this.term trivial, this⟩
  | op o as has => exact ⟨readsTerm_op fun a ha => (has a ha).1, readsApp_op fun a ha => (has a ha).1⟩
  | binder b bs t ht =>
    have := readsApp_binder (b := b) (bs := bs) ht.1
    exact ⟨this.term trivial, this⟩
  | let_ bs t hbs ht =>
    have := readsApp_let (fun b hb => (hbs b hb).1) ht.1
    exact ⟨this.term trivial, this⟩
  | paramOp o ps as hps has => exact ⟨readsTerm_paramOp (fun a ha => (hps a ha).1) fun a ha => (has a ha).1, none id⟩

/-- The literals of a clause. -/
theorem parseLiterals_tokens (hE : PlainEnv E) : ∀ {as : List Term}, (∀ a ∈ as, Writable D F E a ∧ sortOf a = some .bool) →
    ∀ {n : Nat} {rest : List Token}, 2 * (Term.tokensL false D as).flatten.length + 2 ≤ n →
    parseLiterals n E ⟨(Term.tokensL false D as).flatten ++ .closeParen :: rest, F⟩ = .ok (as, ⟨rest, F⟩)
  | _, _, 0, _, hn => by omega
  | [], _, n + 1, rest, _ => by
    simp only [Term.tokensL, List.flatten_nil, List.nil_append]
    rw [parseLiterals, reader_bind current_cons, if_pos rfl, reader_bind next_cons]
    rfl
  | a :: as, h, n + 1, rest, hn => by
    simp only [Term.tokensL, List.flatten_cons, List.length_append] at hn
    obtain ⟨n, rfl⟩ := Nat.exists_eq_add_of_le (show 1 ≤ n by omega)
    rw [Nat.add_comm 1 n] at hn ⊢
    obtain ⟨ha, hs⟩ := h a (by simp)
    obtain ⟨t, ts, e, ht, _⟩ := a.tokens_head (D := D)
    have h1 := readsTerm a E hE ha n ((Term.tokensL false D as).flatten ++ .closeParen :: rest) (by omega)
    have h2 := parseLiterals_tokens hE (as := as) (fun b hb => h b (by simp [hb])) (n := n + 1) (rest := rest) (by
      rw [e, List.length_cons] at hn
      omega)
    have h3 : (do assertSort (.known .bool) (← poolSort a)) = (.ok () : PRes Unit) := by rw [poolSort_ok a hs ha.small]; rfl
    have h4 : parseSorted (n + 1) E .bool ⟨a.tokens false D ++ ((Term.tokensL false D as).flatten ++ .closeParen :: rest), F⟩ =
        .ok (a, ⟨(Term.tokensL false D as).flatten ++ .closeParen :: rest, F⟩) := by
      rw [parseSorted, reader_bind h1, reader_bind (reader_lift h3)]
      rfl
    simp only [Term.tokensL, List.flatten_cons, List.append_assoc]
    rw [e] at h4 ⊢
    simp only [List.cons_append] at h4 ⊢
    rw [parseLiterals, reader_bind current_cons, if_neg ht, reader_bind h4, reader_bind h2]
    rfl

end Terms

end Carcara
