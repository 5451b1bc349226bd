import Verif.Model.Base

/-!
# The lexer

Model of `parser/lexer.rs`. The input is the list of its characters; the first one is `current_char`. The code reads it line by line, and
counts positions for error messages; both are left out, as are errors of the input itself. All errors are one.
-/

namespace Carcara

/-- `utils.rs:12-24 is_symbol_character`. -/
def isSymbolChar (c : Char) : Bool :=
  c.isAlphanum || "+-/*=%?!.$_~&^<>@'".toList.contains c

/-- `char::is_whitespace`, the property `White_Space` of Unicode. -/
def isWhiteSpace (c : Char) : Bool :=
  (9 ≤ c.toNat && c.toNat ≤ 13) || c.toNat == 0x20 || c.toNat == 0x85 || c.toNat == 0xA0 || c.toNat == 0x1680 ||
    (0x2000 ≤ c.toNat && c.toNat ≤ 0x200A) || c.toNat == 0x2028 || c.toNat == 0x2029 || c.toNat == 0x202F || c.toNat == 0x205F ||
    c.toNat == 0x3000

/-- `char::is_ascii_hexdigit`. -/
def isHexDigit (c : Char) : Bool := c.isDigit || ('a' ≤ c && c ≤ 'f') || ('A' ≤ c && c ≤ 'F')

/-- `char::to_digit`, for digits of the base. -/
def digitValue (c : Char) : Nat :=
  if c.isDigit then c.toNat - 48 else if 'a' ≤ c then c.toNat - 87 else c.toNat - 55

/-- `from_str_radix`, for lists of digits. -/
def ofDigits (base : Nat) (ds : List Char) : Nat := ds.foldl (fun n c => base * n + digitValue c) 0

/-- `parser/lexer.rs:50-122 enum Reserved`. -/
inductive Reserved where
  | underscore | bang | as | «let» | «exists» | «forall» | «match» | choice | lambda | cl | assume | step | anchor | declareFun | declareConst
  | declareSort | defineFun | defineFunRec | defineFunsRec | defineSort | assert | checkSatAssuming | setLogic | declareRareRule
deriving DecidableEq, Repr

namespace Reserved

/-- `parser/lexer.rs:124-149`. -/
def name : Reserved → String
  | underscore => "_" | bang => "!" | as => "as" | «let» => "let" | «exists» => "exists" | «forall» => "forall" | «match» => "match"
  | choice => "choice" | lambda => "lambda" | cl => "cl" | assume => "assume" | step => "step" | anchor => "anchor"
  | declareFun => "declare-fun" | declareConst => "declare-const" | declareSort => "declare-sort" | defineFun => "define-fun"
  | defineFunRec => "define-fun-rec" | defineFunsRec => "define-funs-rec" | defineSort => "define-sort" | assert => "assert"
  | checkSatAssuming => "check-sat-assuming" | setLogic => "set-logic" | declareRareRule => "declare-rare-rule"

def all : List Reserved := [underscore, bang, as, «let», «exists», «forall», «match», choice, lambda, cl, assume, step, anchor, declareFun, declareConst,
  declareSort, defineFun, defineFunRec, defineFunsRec, defineSort, assert, checkSatAssuming, setLogic, declareRareRule]

/-- `Reserved::from_str`. -/
def ofChars (cs : List Char) : Option Reserved := all.find? fun r => r.name.toList == cs

end Reserved

/-- `parser/lexer.rs:12-46 enum Token`. -/
inductive Token where
  | openParen | closeParen
  | symbol (s : String)
  | keyword (s : String)
  | numeral (z : Int)
  | decimal (q : Rat)
  | bitvector (v : Nat) (w : Nat)
  | str (s : String)
  | reserved (r : Reserved)
  | eof
deriving DecidableEq

/-- `parser/lexer.rs:242-261 drop_while_whitespace`, `consume_whitespace`; the flag tells that we are in a comment. -/
def consumeWhitespace : Bool → List Char → List Char
  | _, [] => []
  | false, c :: cs => if isWhiteSpace c then consumeWhitespace false cs else if c = ';' then consumeWhitespace true cs else c :: cs
  | true, c :: cs => consumeWhitespace (c != '\n') cs

/-- `parser/lexer.rs:226-236 read_chars_while`. -/
def readWhile (p : Char → Bool) : List Char → List Char × List Char
  | [] => ([], [])
  | c :: cs => if p c then (c :: (readWhile p cs).1, (readWhile p cs).2) else ([], c :: cs)

/-- `parser/lexer.rs:306-313 read_simple_symbol`. -/
def readSimpleSymbol (cs : List Char) : Token × List Char :=
  let (s, cs) := readWhile isSymbolChar cs
  match Reserved.ofChars s with
  | some r => (.reserved r, cs)
  | none => (.symbol (String.ofList s), cs)

/-- `parser/lexer.rs:316-331 read_quoted_symbol`, after the bar. -/
def readQuotedSymbol (cs : List Char) : Res (Token × List Char) :=
  let (s, cs) := readWhile (fun c => c != '|' && c != '\\') cs
  match cs with
  | '|' :: cs => .ok (.symbol (String.ofList s), cs)
  | _ => err

/-- `parser/lexer.rs:334-338 read_keyword`, after the colon. -/
def readKeyword (cs : List Char) : Token × List Char :=
  let (s, cs) := readWhile isSymbolChar cs
  (.keyword (String.ofList s), cs)

/-- `parser/lexer.rs:344-365 read_bitvector`, after the hash. -/
def readBitvector (cs : List Char) : Res (Token × List Char) :=
  match cs with
  | 'b' :: cs =>
    let (s, cs) := readWhile (fun c => c == '0' || c == '1') cs
    if s = [] then err else .ok (.bitvector (ofDigits 2 s) s.length, cs)
  | 'x' :: cs =>
    let (s, cs) := readWhile isHexDigit cs
    if s = [] then err else .ok (.bitvector (ofDigits 16 s) (s.length * 4), cs)
  | _ => err

/-- `-r` or `r`. -/
def signed {α : Type} [Neg α] (negated : Bool) (a : α) : α := if negated then -a else a

/-- `parser/lexer.rs:380-405`, after the delimiter. Parsing the empty string as a denominator panics. -/
def readFraction (negated slash : Bool) (first cs : List Char) : Res (Token × List Char) :=
  let (second, cs) := readWhile (·.isDigit) cs
  match cs with
  | '/' :: _ => err
  | '.' :: _ => err
  | _ =>
    if slash then
      if second = [] then panic
      else if ofDigits 10 second = 0 then err
      else .ok (.decimal (signed negated ((ofDigits 10 first : Rat) / (ofDigits 10 second : Rat))), cs)
    else .ok (.decimal (signed negated ((ofDigits 10 (first ++ second) : Rat) / ((10 ^ second.length : Nat) : Rat))), cs)

/-- `parser/lexer.rs:368-408 read_number`. -/
def readNumber (negated : Bool) (cs : List Char) : Res (Token × List Char) :=
  let (first, cs) := readWhile (·.isDigit) cs
  if 1 < first.length ∧ first.head? = some '0' then err
  else match cs with
    | '/' :: cs => readFraction negated true first cs
    | '.' :: cs => readFraction negated false first cs
    | cs => .ok (.numeral (signed negated (ofDigits 10 first : Int)), cs)

/-- The loops of `parser/lexer.rs:449-458` and `497-506`: up to `n` hexadecimal digits; running out of input is an error. -/
def takeHex : Nat → List Char → Res (List Char × List Char)
  | 0, cs => .ok ([], cs)
  | _ + 1, [] => err
  | n + 1, c :: cs =>
    if isHexDigit c then
      match takeHex n cs with
      | .ok (ds, cs) => .ok (c :: ds, cs)
      | .error e => .error e
    else .ok ([], c :: cs)

/-- `char::from_u32`. -/
def charOf (n : Nat) : Res Char := if n.isValidChar then .ok (Char.ofNat n) else err

/-- `parser/lexer.rs:442-523 read_unicode_escape_sequence`, after `\u`: what is added to the string, and the rest of the input. -/
def readEscape (cs : List Char) : Res (List Char × List Char) :=
  match cs with
  | '{' :: cs =>
    match takeHex 5 cs with
    | .error e => .error e
    | .ok (ds, cs) =>
      match cs with
      | '}' :: cs =>
        if ds = [] then .ok ("\\u{}".toList, cs)
        else if 0x2FFFF < ofDigits 16 ds then .ok ("\\u{".toList ++ ds ++ ['}'], cs)
        else match charOf (ofDigits 16 ds) with
          | .ok c => .ok ([c], cs)
          | .error e => .error e
      | cs => .ok ("\\u{".toList ++ ds, cs)
  | [] => err
  | cs =>
    match takeHex 4 cs with
    | .error e => .error e
    | .ok (ds, cs) =>
      if ds.length ≠ 4 then .ok ("\\u".toList ++ ds, cs)
      else match charOf (ofDigits 16 ds) with
        | .ok c => .ok ([c], cs)
        | .error e => .error e

theorem takeHex_length : ∀ {n : Nat} {cs ds r : List Char}, takeHex n cs = .ok (ds, r) → r.length ≤ cs.length
  | 0, cs, ds, r, h => by cases h; exact Nat.le_refl _
  | n + 1, [], ds, r, h => by cases h
  | n + 1, c :: cs, ds, r, h => by
    rw [takeHex] at h
    split at h
    · split at h
      · rename_i h'
        cases h
        exact Nat.le_succ_of_le (takeHex_length h')
      · cases h
    · cases h
      exact Nat.le_refl _

theorem readEscape_length {cs out r : List Char} (h : readEscape cs = .ok (out, r)) : r.length ≤ cs.length := by
  unfold readEscape at h
  repeat' split at h
  all_goals
    cases h <;>
    · have := takeHex_length ‹takeHex _ _ = _›
      try simp only [List.length_cons] at *
      omega

/-- `parser/lexer.rs:411-440 read_string`, after the opening quote: the string, and the rest of the input. -/
def readString (cs : List Char) : Res (List Char × List Char) :=
  match cs with
  | [] => err
  | c :: cs =>
    if c = '"' then
      match cs with
      | '"' :: cs => do
        let (s, r) ← readString cs
        .ok ('"' :: s, r)
      | cs => .ok ([], cs)
    else if c = '\\' then
      match cs with
      | 'u' :: cs =>
        match h : readEscape cs with
        | .error e => .error e
        | .ok (out, cs') =>
          have := readEscape_length h
          do
          let (s, r) ← readString cs'
          .ok (out ++ s, r)
      | cs => do
        let (s, r) ← readString cs
        .ok ('\\' :: s, r)
    else do
      let (s, r) ← readString cs
      .ok (c :: s, r)
termination_by cs.length
decreasing_by all_goals simp_all; try omega

/-- `parser/lexer.rs:264-303 next_token`, after `consume_whitespace`. -/
def readToken (cs : List Char) : Res (Token × List Char) :=
  match cs with
  | [] => .ok (.eof, [])
  | c :: cs =>
    if c = '(' then .ok (.openParen, cs)
    else if c = ')' then .ok (.closeParen, cs)
    else if c = '"' then do
      let (s, r) ← readString cs
      .ok (.str (String.ofList s), r)
    else if c = '|' then readQuotedSymbol cs
    else if c = ':' then .ok (readKeyword cs)
    else if c = '#' then readBitvector cs
    else if c = '-' then
      if cs.head?.any (·.isDigit) then readNumber true cs
      else
        let (s, cs) := readWhile isSymbolChar cs
        .ok (.symbol (String.ofList ('-' :: s)), cs)
    else if c.isDigit then readNumber false (c :: cs)
    else if isSymbolChar c then .ok (readSimpleSymbol (c :: cs))
    else err

/-- `parser/lexer.rs:264-303 next_token`. -/
def nextToken (cs : List Char) : Res (Token × List Char) := readToken (consumeWhitespace false cs)

end Carcara
