import Verif.Spec.TermParser

/-!
# Specification: input on which the parser of terms is claimed not to panic
-/

namespace Carcara

/-- A term whose sort can be computed, and which is well sorted. -/
def Calm (t : Term) : Prop := t.plainWidths ∧ ∃ s, sortOf t = some s ∧ poolSort t = .ok (.known s)

/-- What follows `_`: the name of an operator or of a sort other than `repeat`, and some numbers that fit into 64 bits. What follows `bv` in the
name is a number. -/
def CalmIndex (ts : List Token) : Prop :=
  ∃ (s : String) (zs : List Int) (rest : List Token), ts = .symbol s :: (zs.map Token.numeral ++ .closeParen :: rest) ∧ s ≠ "repeat" ∧
    (∀ z ∈ zs, 0 ≤ z ∧ z < 2 ^ 64) ∧ ∀ cs, s.toList = 'b' :: 'v' :: cs → cs ≠ [] ∧ cs.all Char.isDigit = true

/-- Tokens among which there is no `@d`, `@bv` or `eo`, and in which every `_` is followed as above. -/
def CalmTokens (ts : List Token) : Prop :=
  (∀ t ∈ ts, t ≠ .symbol "@d" ∧ t ≠ .symbol "@bv" ∧ t ≠ .symbol "eo") ∧ ∀ rest, (.reserved .underscore :: rest) <:+ ts → CalmIndex rest

/-- Definitions of constants by calm terms. -/
def CalmDefs (ds : List (String × FunDef)) : Prop := ∀ p ∈ ds, p.2.params = [] ∧ Calm p.2.body

end Carcara
