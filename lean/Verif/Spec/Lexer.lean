import Verif.Model.Lexer

/-!
# What may follow a token, and escape sequences
-/

namespace Carcara

/-- The input does not go on with a character of this kind. -/
def NotNext (p : Char → Bool) (rest : List Char) : Prop := ∀ c ∈ rest.head?, p c = false

/-- What the printer writes after a token: nothing, a space, a newline, or a closing parenthesis. -/
def Ends (rest : List Char) : Prop := ∀ c ∈ rest.head?, c = ' ' ∨ c = '\n' ∨ c = ')'

/-- A symbol that is not quoted by the printer and looks like a negative number. -/
def LooksNegative (s : List Char) : Prop := (∀ c ∈ s, isSymbolChar c = true) ∧ ∃ d ∈ s[1]?, s.head? = some '-' ∧ d.isDigit = true

/-- A Unicode escape sequence of SMT-LIB: up to five hexadecimal digits in braces, at most `2FFFF`, or exactly four digits. -/
def IsEscape (h : List Char) : Prop :=
  ∃ ds : List Char, (∀ d ∈ ds, isHexDigit d = true) ∧
    ((h = "\\u{".toList ++ ds ++ ['}'] ∧ 1 ≤ ds.length ∧ ds.length ≤ 5 ∧ ofDigits 16 ds ≤ 0x2FFFF) ∨ (h = "\\u".toList ++ ds ∧ ds.length = 4))

/-- An escape sequence occurs in a string. -/
def HasEscape (s : List Char) : Prop := ∃ h, IsEscape h ∧ h <:+: s

/-- The hexadecimal digits, in small or capital letters. -/
def hexDigit (capital : Bool) (d : Fin 16) : Char :=
  (if capital then "0123456789ABCDEF" else "0123456789abcdef").toList[d]'(by cases capital <;> exact d.2)

/-- The input does not go on with a hexadecimal digit. -/
def NotHex (rest : List Char) : Prop := ∀ c ∈ rest.head?, ∀ b d, c ≠ hexDigit b d

/-- The number that a list of digits in base `b` stands for, the first of which is the most significant one. -/
def numberOf (b : Nat) : List Nat → Nat
  | [] => 0
  | d :: ds => d * b ^ ds.length + numberOf b ds

/-- The tokens of a part of the input. -/
inductive LexesTo : List Char → List Token → List Char → Prop
  | nil {cs} : LexesTo cs [] cs
  | cons {cs cs' rest t ts} : nextToken cs = .ok (t, cs') → t ≠ .eof → LexesTo cs' ts rest → LexesTo cs (t :: ts) rest

end Carcara
