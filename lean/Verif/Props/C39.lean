import Verif.Lemmas.Printer

/-!
# C39: printed symbols, strings and numbers read back
-/

namespace Carcara

/-- The property as stated: whatever is printed for a symbol, a string or a number is read as the same token. -/
def C39Full : Prop :=
  (∀ (s : String) (rest : List Char), Ends rest → ∃ out, quoteSymbol s = .ok out ∧ nextToken (out ++ rest) = .ok (.symbol s, rest)) ∧
  (∀ (s : String) (rest : List Char), Ends rest → nextToken (constChars (.str s) ++ rest) = .ok (.str s, rest)) ∧
  (∀ (z : Int) (rest : List Char), Ends rest → nextToken (constChars (.int z) ++ rest) = .ok (.numeral z, rest)) ∧
  ∀ (q : Rat) (rest : List Char), Ends rest → nextToken (constChars (.real q) ++ rest) = .ok (.decimal q, rest)

/-- Numbers read back. -/
theorem c39_int (z : Int) (rest : List Char) (h : Ends rest) : nextToken (constChars (.int z) ++ rest) = .ok (.numeral z, rest) :=
  nextToken_int z h.numberChar

example : constChars (.int (-120)) = "-120".toList ∧ Ends ") ".toList := ⟨by decide +kernel, ends_close _⟩

theorem c39_real (q : Rat) (rest : List Char) (h : Ends rest) : nextToken (constChars (.real q) ++ rest) = .ok (.decimal q, rest) :=
  nextToken_real q h.numberChar

example : constChars (.real (-7 / 2)) = "-7/2".toList ∧ constChars (.real 3) = "3.0".toList ∧ constChars (.real (-3)) = "-3/1".toList := by
  decide +kernel

/-- A symbol reads back exactly if it has no bars or backslashes and does not look like a negative number. -/
theorem c39_symbol_partial (s : String) (rest : List Char) (h : Ends rest) :
    (∃ out, quoteSymbol s = .ok out ∧ nextToken (out ++ rest) = .ok (.symbol s, rest)) ↔ Readable s := by
  constructor
  · rintro ⟨out, ho, hn⟩
    have := (nextToken_quote ho h.symbolChar).1 hn
    exact ⟨fun c hc => ⟨(quoteSymbol_ok ho).1 c hc, this.1 c hc⟩, this.2⟩
  · intro hs
    obtain ⟨out, ho, -⟩ := reads_name hs
    exact ⟨out, ho, (nextToken_quote ho h.symbolChar).2 ⟨fun c hc => (hs.1 c hc).2, hs.2⟩⟩

example : Readable "" ∧ Readable "0" ∧ Readable "let" ∧ Readable "a b" ∧ Readable "-" ∧ Readable "-x" ∧ Readable "- 5" :=
  ⟨readable_of (by decide +kernel), readable_of (by decide +kernel), readable_of (by decide +kernel), readable_of (by decide +kernel),
    readable_of (by decide +kernel), readable_of (by decide +kernel), readable_of (by decide +kernel)⟩

/-- All symbols that come from the lexer are free of bars and backslashes. -/
theorem c39_symbol_range {cs rest : List Char} {s : String} (h : nextToken cs = .ok (.symbol s, rest)) :
    ∀ c ∈ s.toList, c ≠ '|' ∧ c ≠ '\\' := nextToken_symbol_range h

/-- So such a symbol fails to read back only if it looks like a negative number. -/
theorem c39_symbol_reread_partial {cs rest rest' : List Char} {s : String} (h : nextToken cs = .ok (.symbol s, rest)) (hr : Ends rest') :
    (∃ out, quoteSymbol s = .ok out ∧ nextToken (out ++ rest') = .ok (.symbol s, rest')) ↔ ¬ LooksNegative s.toList := by
  rw [c39_symbol_partial s rest' hr]
  exact ⟨fun h => h.2, fun h' => ⟨nextToken_symbol_range h, h'⟩⟩

example : nextToken "|x y|)".toList = .ok (.symbol "x y", [')']) ∧ ¬ LooksNegative "x y".toList := by
  rw [looksNegative_iff]
  decide +kernel

/-- Such symbols can be written with bars, and come back as numbers: the property fails. -/
theorem c39_symbol_fails : nextToken "|-5|".toList = .ok (.symbol "-5", []) ∧ quoteSymbol "-5" = .ok "-5".toList ∧
    nextToken "-5".toList = .ok (.numeral (-5), []) := by decide +kernel

/-- A symbol with a bar makes the printer panic. -/
theorem c39_symbol_panics {s : String} (h : '|' ∈ s.toList) : quoteSymbol s = panic := by
  rw [quoteSymbol, if_pos]
  simpa using h

example : '|' ∈ "a|b".toList := by decide

/-- A string reads back exactly if no escape sequence occurs in it. -/
theorem c39_string_partial (s : String) (rest : List Char) (h : Ends rest) :
    nextToken (constChars (.str s) ++ rest) = .ok (.str s, rest) ↔ ¬ HasEscape s.toList := by
  constructor
  · intro hn he
    rw [constChars, List.append_assoc, List.cons_append, nextToken_start _ (by decide) (by decide)] at hn
    change (readString (escapeString s.toList ++ '"' :: rest) >>= fun p => Except.ok (Token.str (String.ofList p.1), p.2)) = _ at hn
    obtain ⟨⟨r, rest'⟩, hr, hn⟩ := bind_ok.1 hn
    have := ((readString_print rest h.noQuote _).2 r rest' hr).2 he
    simp only [ok_inj, Prod.mk.injEq, Token.str.injEq] at hn
    rw [← hn.1, String.toList_ofList] at this
    exact lt_irrefl _ this
  · intro he
    cases (text_str he).2 rest h with
    | cons e _ h => cases h; exact e

example : nextToken ("\"say \"\"hi\"\" \\u{} \\u12\"".toList) = .ok (.str "say \"hi\" \\u{} \\u12", []) := by decide +kernel

/-- Strings with escape sequences do occur: `"\u{5c}u0041"` is the string `\u0041`, which is printed as it is and comes back as `A`. -/
theorem c39_string_fails : nextToken "\"\\u{5c}u0041\"".toList = .ok (.str "\\u0041", []) ∧
    constChars (.str "\\u0041") = "\"\\u0041\"".toList ∧ nextToken "\"\\u0041\"".toList = .ok (.str "A", []) := by decide +kernel

/-- A string that cannot be read at all: `\ud800` is an escape sequence, but no character. -/
theorem c39_string_error_fails : nextToken "\"\\u{5c}ud800\"".toList = .ok (.str "\\ud800", []) ∧
    nextToken (constChars (.str "\\ud800")) = err := by decide +kernel

theorem c39_fails : ¬ C39Full := by
  rintro ⟨h, -⟩
  obtain ⟨out, ho, hn⟩ := h "-5" [] (by simp [Ends])
  have : out = "-5".toList := ok_inj.1 (ho.symm.trans c39_symbol_fails.2.1)
  subst this
  rw [List.append_nil, c39_symbol_fails.2.2] at hn
  cases hn

/-- Whole terms: if all names and strings in a term can be written, the printed term consists of the tokens of the term. -/
theorem c39_term_partial (strict : Bool) (defs : List (Term × String)) (t : Term) (h : t.Readable defs) :
    ∃ out, printTerm strict defs t = .ok out ∧ ∀ rest, Ends rest → LexesTo (out ++ rest) (t.tokens strict defs) rest := by
  obtain ⟨out, ho, ht⟩ := reads_term strict defs h
  exact ⟨out, ho, ht.2⟩

/-- A term with a quoted variable, a binder, a string and a negative real. -/
def c39Term : Term :=
  .binder .all [("x y", .bv 8)] (.op .or [.op .equals [.var "x y" (.bv 8), .const (.bv 3 8)], .op .lt [.const (.real (-1 / 2)), .var "r" .real],
    .app (.var "f" (.fn [.string] .bool)) [.const (.str "\"")]])

example : c39Term.Readable [] ∧
    printTerm false [] c39Term = .ok "(forall ((|x y| (_ BitVec 8))) (or (= |x y| (_ bv3 8)) (< -1/2 r) (f \"\"\"\")))".toList ∧
    printTerm true [] c39Term = .ok "(forall ((|x y| (_ BitVec 8))) (or (= |x y| (_ bv3 8)) (< (- (/ 1.0 2.0)) r) (f \"\"\"\")))".toList := by
  have hq : ¬ HasEscape "\"".toList := by
    rintro ⟨h, ⟨ds, -, ⟨rfl, -⟩ | ⟨rfl, -⟩⟩, hi⟩
    · have := hi.length_le
      simp at this
    · have := hi.length_le
      simp at this
  refine ⟨?_, by decide +kernel, by decide +kernel⟩
  have h1 : Readable "x y" ∧ Readable "r" ∧ Readable "f" :=
    ⟨readable_of (by decide +kernel), readable_of (by decide +kernel), readable_of (by decide +kernel)⟩
  have h2 : (Srt.bv 8).Readable := by rw [Srt.Readable] <;> simp
  simp only [c39Term, Term.Readable, Term.ReadableL, unnamed, List.lookup, Const.Readable]
  simp [h1, h2]
  simpa using hq

/-- Steps: if moreover the name of the rule and the first discharged assumption need no bars, the printed step consists of the tokens of
the step. -/
theorem c39_step_partial (strict : Bool) (defs : List (Term × String)) (id : String) (clause : List Term) (rule : String)
    (premises : List String) (args : List Term) (discharge : List String) (hi : Readable id) (hc : Term.ReadableL defs clause)
    (hr : PlainName rule) (hp : ∀ p ∈ premises, Readable p) (ha : Term.ReadableL defs args) (hd : ∀ p ∈ discharge, Readable p)
    (hd' : ∀ p ∈ discharge.head?, PlainName p) :
    ∃ out, printStep strict defs id clause rule premises args discharge = .ok out ∧
      ∀ rest, Ends rest → LexesTo (out ++ rest) (stepTokens strict defs id clause rule premises args discharge) rest := by
  obtain ⟨out, ho, ht⟩ := reads_step strict defs hi hc hr hp ha hd hd'
  exact ⟨out, ho, ht.2⟩

example : PlainName "resolution" ∧ Readable "t 1" ∧ PlainName "h1" := by
  refine ⟨⟨by decide, by decide +kernel, by decide +kernel, by rw [looksNegative_iff]; decide +kernel, ?_⟩, readable_of (by decide +kernel),
    by decide, by decide +kernel, by decide +kernel, by rw [looksNegative_iff]; decide +kernel, ?_⟩
  all_goals intro r; cases r <;> decide

/-- The name of a rule is written as it is, so one that needs bars falls apart. The parser accepts such names. -/
theorem c39_rule_fails : ∃ out, printStep false [] "t1" [] "a b" [] [] [] = .ok out ∧
    LexesTo out [.openParen, .reserved .step, .symbol "t1", .openParen, .reserved .cl, .closeParen, .keyword "rule", .symbol "a", .symbol "b",
      .closeParen] [] ∧
    stepTokens false [] "t1" [] "a b" [] [] [] =
      [.openParen, .reserved .step, .symbol "t1", .openParen, .reserved .cl, .closeParen, .keyword "rule", .symbol "a b", .closeParen] := by
  refine ⟨"(step t1 (cl) :rule a b)".toList, by decide +kernel, lexN_sound (n := 10) (by decide +kernel), by decide +kernel⟩

/-- The first discharged assumption is written as it is as well. -/
theorem c39_discharge_fails : ∃ out, printStep false [] "t1" [] "subproof" [] [] ["h 1"] = .ok out ∧
    LexesTo out [.openParen, .reserved .step, .symbol "t1", .openParen, .reserved .cl, .closeParen, .keyword "rule", .symbol "subproof",
      .keyword "discharge", .openParen, .symbol "h", .numeral 1, .closeParen, .closeParen] [] ∧
    stepTokens false [] "t1" [] "subproof" [] [] ["h 1"] =
      [.openParen, .reserved .step, .symbol "t1", .openParen, .reserved .cl, .closeParen, .keyword "rule", .symbol "subproof",
      .keyword "discharge", .openParen, .symbol "h 1", .closeParen, .closeParen] := by
  refine ⟨"(step t1 (cl) :rule subproof :discharge (h 1))".toList, by decide +kernel, lexN_sound (n := 14) (by decide +kernel), by decide +kernel⟩

/-- The lexer panics on a fraction without denominator. -/
theorem c39_fraction_panics_fails : nextToken "1/".toList = panic := by decide +kernel

/-! ## The other tokens -/

/-- Hexadecimal digits after `#x` are a bit vector of four times their number, up to the first character that is no such digit. -/
theorem c39_hexadecimal (ds : List (Bool × Fin 16)) (hd : ds ≠ []) (rest : List Char) (hr : NotHex rest) :
    nextToken ("#x".toList ++ ds.map (fun d => hexDigit d.1 d.2) ++ rest) =
      .ok (.bitvector (numberOf 16 (ds.map fun d => d.2.val)) (4 * ds.length), rest) := nextToken_hex ds hd hr

example : (([(true, 15), (false, 10), (false, 0)] : List (Bool × Fin 16)).map fun d => hexDigit d.1 d.2) = "Fa0".toList ∧ NotHex "gh".toList ∧
    numberOf 16 [15, 10, 0] = 4000 := ⟨by decide, by intro c hc; cases hc; decide, by decide⟩

/-- Binary digits after `#b` are a bit vector of their number. -/
theorem c39_binary (ds : List (Fin 2)) (hd : ds ≠ []) (rest : List Char) (hr : ∀ c ∈ rest.head?, c ≠ '0' ∧ c ≠ '1') :
    nextToken ("#b".toList ++ ds.map (fun d => if d = 0 then '0' else '1') ++ rest) =
      .ok (.bitvector (numberOf 2 (ds.map fun d => d.val)) ds.length, rest) := nextToken_bin ds hd hr

example : (([1, 0, 1] : List (Fin 2)).map fun d => if d = 0 then '0' else '1') = "101".toList ∧ numberOf 2 [1, 0, 1] = 5 := by decide

/-- All reserved words are recognised, and not taken for symbols. -/
theorem c39_reserved (r : Reserved) (rest : List Char) (hr : Ends rest) : nextToken (r.name.toList ++ rest) = .ok (.reserved r, rest) :=
  nextToken_reserved r hr.symbolChar

/-- A comment is skipped up to the end of its line, whatever it consists of. -/
theorem c39_comment (text rest : List Char) (h : '\n' ∉ text) : nextToken (';' :: text ++ '\n' :: rest) = nextToken rest := by
  rw [nextToken, nextToken, List.cons_append, skip_comment text rest h]

example : nextToken "; (not a token) ; |\n x".toList = .ok (.symbol "x", []) := by decide +kernel

/-- So is a comment at the end of the input. -/
theorem c39_last_comment (text : List Char) (h : '\n' ∉ text) : nextToken (';' :: text) = .ok (.eof, []) := by
  rw [nextToken, skip_last_comment text h]
  rfl

/-- Spaces, tabs and line ends are skipped. -/
theorem c39_white_space (ws rest : List Char) (h : ∀ c ∈ ws, c = ' ' ∨ c = '\t' ∨ c = '\n' ∨ c = '\r') : nextToken (ws ++ rest) = nextToken rest := by
  induction ws with
  | nil => rfl
  | cons c ws ih =>
    rw [← ih fun d hd => h d (List.mem_cons_of_mem _ hd)]
    rcases h c (by simp) with rfl | rfl | rfl | rfl <;> rfl

example : nextToken " \t\r\n)".toList = .ok (.closeParen, []) := by decide +kernel

end Carcara
