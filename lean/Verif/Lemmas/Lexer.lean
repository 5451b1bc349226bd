import Verif.Spec.Lexer
import Verif.Model.Printer
import Mathlib.Data.List.Basic
import Mathlib.Tactic.IntervalCases
import Mathlib.Algebra.Order.Ring.Rat
import Mathlib.Tactic.FieldSimp

/-!
# Lemmas: reading what was printed
-/

namespace Carcara

/-! ## Characters -/

theorem symbolChar_ascii {c : Char} (h : isSymbolChar c = true) : 33 ≤ c.toNat ∧ c.toNat ≤ 126 := by
  simp only [isSymbolChar, Bool.or_eq_true, List.contains_eq_mem, decide_eq_true_eq] at h
  rcases h with h | h
  · simp only [Char.isAlphanum, Char.isAlpha, Char.isUpper, Char.isLower, Char.isDigit, Bool.or_eq_true, Bool.and_eq_true, decide_eq_true_eq] at h
    simp only [UInt32.le_iff_toNat_le] at h
    change 33 ≤ c.val.toNat ∧ c.val.toNat ≤ 126
    simp only [UInt32.reduceToNat, Char.reduceVal] at h
    omega
  · revert c
    decide +kernel

theorem symbolChar_not_white {c : Char} (h : isSymbolChar c = true) : isWhiteSpace c = false := by
  have := symbolChar_ascii h
  simp only [isWhiteSpace, Bool.or_eq_false_iff, Bool.and_eq_false_iff, decide_eq_false_iff_not, beq_eq_false_iff_ne]
  omega

theorem digit_symbolChar {c : Char} (h : c.isDigit = true) : isSymbolChar c = true := by
  simp [isSymbolChar, Char.isAlphanum, h]

theorem ne_of_symbolChar {c d : Char} (h : isSymbolChar c = true) (hd : isSymbolChar d = false) : c ≠ d := by
  rintro rfl
  rw [h] at hd
  cases hd

theorem readWhile_append {p : Char → Bool} {rest : List Char} (hr : NotNext p rest) : ∀ {s : List Char}, (∀ c ∈ s, p c = true) →
    readWhile p (s ++ rest) = (s, rest)
  | [], _ => by
    cases rest with
    | nil => rfl
    | cons c r => rw [List.nil_append, readWhile, hr c (by simp)]; rfl
  | c :: s, hs => by
    rw [List.cons_append, readWhile, if_pos (hs c (by simp)), readWhile_append hr fun d hd => hs d (List.mem_cons_of_mem _ hd)]

/-! ## White space -/

theorem skip_start {c : Char} (cs : List Char) (h : isWhiteSpace c = false) (h' : c ≠ ';') :
    consumeWhitespace false (c :: cs) = c :: cs := by
  rw [consumeWhitespace, h, if_neg (by simp), if_neg h']

theorem nextToken_start {c : Char} (cs : List Char) (h : isWhiteSpace c = false) (h' : c ≠ ';') :
    nextToken (c :: cs) = readToken (c :: cs) := by
  rw [nextToken, skip_start cs h h']

theorem nextToken_symbolChar {c : Char} (cs : List Char) (h : isSymbolChar c = true) : nextToken (c :: cs) = readToken (c :: cs) :=
  nextToken_start cs (symbolChar_not_white h) (ne_of_symbolChar h (by decide +kernel))

theorem nextToken_space (cs : List Char) : nextToken (' ' :: cs) = nextToken cs := rfl

theorem nextToken_newline (cs : List Char) : nextToken ('\n' :: cs) = nextToken cs := rfl

/-! ## Symbols -/

theorem readToken_symbolChar {c : Char} (cs : List Char) (h : isSymbolChar c = true) (h1 : c ≠ '-') (h2 : c.isDigit = false) :
    readToken (c :: cs) = .ok (readSimpleSymbol (c :: cs)) := by
  rw [readToken]
  simp only
  rw [if_neg (ne_of_symbolChar h (by decide +kernel)), if_neg (ne_of_symbolChar h (by decide +kernel)),
    if_neg (ne_of_symbolChar h (by decide +kernel)), if_neg (ne_of_symbolChar h (by decide +kernel)),
    if_neg (ne_of_symbolChar h (by decide +kernel)), if_neg (ne_of_symbolChar h (by decide +kernel)), if_neg h1, h2, h]
  simp

theorem readToken_minus (cs : List Char) : readToken ('-' :: cs) =
    if cs.head?.any (·.isDigit) then readNumber true cs
    else .ok (.symbol (String.ofList ('-' :: (readWhile isSymbolChar cs).1)), (readWhile isSymbolChar cs).2) := rfl

/-- A word that is written as it is. -/
theorem nextToken_word {s rest : List Char} (hs : ∀ c ∈ s, isSymbolChar c = true) (hne : s ≠ []) (hd : ∀ c ∈ s.head?, c.isDigit = false)
    (hr : NotNext isSymbolChar rest) (hm : s.head? = some '-' → Reserved.ofChars s = none ∧ ∀ d ∈ (s ++ rest)[1]?, d.isDigit = false) :
    nextToken (s ++ rest) = .ok ((match Reserved.ofChars s with | some r => .reserved r | none => .symbol (String.ofList s)), rest) := by
  cases s with
  | nil => exact absurd rfl hne
  | cons c s =>
    have hc := hs c (by simp)
    rw [List.cons_append, nextToken_symbolChar _ hc]
    by_cases e : c = '-'
    · subst e
      obtain ⟨h1, h2⟩ := hm rfl
      have h3 : (s ++ rest).head?.any (·.isDigit) = false := by
        cases e : s ++ rest with
        | nil => rfl
        | cons d r => simpa using h2 d (by simp [e])
      rw [readToken_minus, h3, readWhile_append hr fun d hd => hs d (List.mem_cons_of_mem _ hd), h1]
      rfl
    · rw [readToken_symbolChar _ hc e (hd c (by simp)), readSimpleSymbol, ← List.cons_append, readWhile_append hr hs]
      simp only
      cases Reserved.ofChars (c :: s) <;> rfl

theorem readNumber_not_symbol {n : Bool} {cs r : List Char} {s : String} : readNumber n cs ≠ .ok (.symbol s, r) := by
  intro h
  unfold readNumber readFraction at h
  repeat' split at h
  all_goals first | cases h | skip

theorem nextToken_quoted {s : List Char} (rest : List Char) (h1 : ∀ c ∈ s, c ≠ '|') (h2 : ∀ c ∈ s, c ≠ '\\') :
    nextToken ('|' :: s ++ '|' :: rest) = .ok (.symbol (String.ofList s), rest) := by
  rw [List.cons_append, nextToken_start _ (by decide) (by decide)]
  show readQuotedSymbol (s ++ '|' :: rest) = _
  rw [readQuotedSymbol, readWhile_append (by simp [NotNext]) fun c hc => by simp [h1 c hc, h2 c hc]]
  rfl

theorem readWhile_fst {p : Char → Bool} : ∀ {cs : List Char}, ∀ c ∈ (readWhile p cs).1, p c = true
  | [] => by simp [readWhile]
  | c :: cs => by
    intro d hd
    rw [readWhile] at hd
    split at hd
    · rcases List.mem_cons.1 hd with rfl | hd
      · assumption
      · exact readWhile_fst d hd
    · cases hd

theorem readWhile_eq {p : Char → Bool} : ∀ {cs : List Char}, (readWhile p cs).1 ++ (readWhile p cs).2 = cs
  | [] => rfl
  | c :: cs => by
    rw [readWhile]
    split
    · rw [List.cons_append, readWhile_eq]
    · rfl

theorem nextToken_backslash {s : List Char} (rest : List Char) (h1 : ∀ c ∈ s, c ≠ '|') (h2 : '\\' ∈ s) :
    nextToken ('|' :: s ++ '|' :: rest) = err := by
  rw [List.cons_append, nextToken_start _ (by decide) (by decide)]
  show readQuotedSymbol (s ++ '|' :: rest) = _
  obtain ⟨a, b, rfl⟩ := List.append_of_mem h2
  have : ∃ a' b', a ++ '\\' :: b ++ '|' :: rest = a' ++ '\\' :: b' ∧ (∀ c ∈ a', c ≠ '|' ∧ c ≠ '\\') := by
    clear h2
    induction a with
    | nil => exact ⟨[], _, rfl, by simp⟩
    | cons c a ih =>
      by_cases hc : c = '\\'
      · exact ⟨[], a ++ '\\' :: b ++ '|' :: rest, by simp [hc], by simp⟩
      · obtain ⟨a', b', e, h⟩ := ih fun d hd => h1 d (List.mem_cons_of_mem _ hd)
        exact ⟨c :: a', b', by rw [List.cons_append, List.cons_append, e]; rfl,
          List.forall_mem_cons.2 ⟨⟨h1 c (by simp), hc⟩, h⟩⟩
  obtain ⟨a', b', e, h⟩ := this
  rw [e, readQuotedSymbol, readWhile_append (by simp [NotNext]) fun c hc => by simp [h c hc]]
  rfl

theorem reserved_minus {s : List Char} (h : s.head? = some '-') : Reserved.ofChars s = none := by
  cases e : Reserved.ofChars s with
  | none => rfl
  | some r =>
    have := List.find?_some e
    rw [beq_iff_eq] at this
    rw [← this] at h
    revert h
    cases r <;> decide +kernel

theorem quoteSymbol_ok {s : String} {out : List Char} (h : quoteSymbol s = .ok out) : (∀ c ∈ s.toList, c ≠ '|') ∧
    ((out = '|' :: s.toList ++ ['|'] ∧ ¬ LooksNegative s.toList) ∨ (out = s.toList ∧ s.toList ≠ [] ∧ (∀ c ∈ s.toList.head?, c.isDigit = false) ∧
      Reserved.ofChars s.toList = none ∧ ∀ c ∈ s.toList, isSymbolChar c = true)) := by
  unfold quoteSymbol at h
  split at h
  · cases h
  rename_i h1
  refine ⟨fun c hc e => h1 (List.any_eq_true.2 ⟨c, hc, by simp [e]⟩), ?_⟩
  split at h
  · rename_i h2
    refine .inl ⟨(ok_inj.1 h).symm, ?_⟩
    rintro ⟨ha, d, hd, hh, hd'⟩
    rw [reserved_minus hh, hh] at h2
    simp only [Bool.or_eq_true, List.isEmpty_iff] at h2
    rcases h2 with ((h2 | h2) | h2) | h2
    · rw [h2] at hh
      cases hh
    · revert h2
      decide
    · cases h2
    · obtain ⟨c, hc, h2⟩ := List.any_eq_true.1 h2
      rw [ha c hc] at h2
      cases h2
  · rename_i h2
    simp only [Bool.or_eq_true, not_or, Bool.not_eq_true] at h2
    refine .inr ⟨(ok_inj.1 h).symm, ?_, ?_, ?_, ?_⟩
    · simpa using h2.1.1.1
    · intro c hc
      have := h2.1.1.2
      rw [Option.mem_def.1 hc] at this
      simpa using this
    · simpa using h2.1.2
    · simpa using h2.2

/-- Printed symbols read back, except for backslashes and symbols that look like negative numbers. -/
theorem nextToken_quote {s : String} {out rest : List Char} (h : quoteSymbol s = .ok out) (hr : NotNext isSymbolChar rest) :
    nextToken (out ++ rest) = .ok (.symbol s, rest) ↔ (∀ c ∈ s.toList, c ≠ '\\') ∧ ¬ LooksNegative s.toList := by
  obtain ⟨h1, ⟨rfl, hq⟩ | ⟨rfl, h2, h3, h4, h5⟩⟩ := quoteSymbol_ok h
  · rw [List.append_assoc, List.singleton_append]
    by_cases hb : ∀ c ∈ s.toList, c ≠ '\\'
    · rw [nextToken_quoted rest h1 hb, String.ofList_toList]
      exact ⟨fun _ => ⟨hb, hq⟩, fun _ => rfl⟩
    · have : '\\' ∈ s.toList := by simpa using hb
      rw [nextToken_backslash rest h1 this]
      exact ⟨fun h => (by cases h), fun h => absurd h.1 hb⟩
  · have hb : ∀ c ∈ s.toList, c ≠ '\\' := fun c hc => ne_of_symbolChar (h5 c hc) (by decide +kernel)
    by_cases hn : LooksNegative s.toList
    · refine ⟨fun h => ?_, fun h => absurd hn h.2⟩
      obtain ⟨ha, d, hd, hh, hd'⟩ := hn
      match e : s.toList, hh, hd with
      | c :: d :: r, hh, hd =>
        cases hh
        cases hd
        rw [e, List.cons_append, nextToken_symbolChar _ (by decide +kernel), readToken_minus] at h
        rw [if_pos (by simpa using hd')] at h
        exact absurd h readNumber_not_symbol
    · refine ⟨fun _ => ⟨hb, hn⟩, fun _ => ?_⟩
      rw [nextToken_word h5 h2 h3 hr]
      · rw [h4, String.ofList_toList]
      · intro hm
        refine ⟨h4, fun d hd => ?_⟩
        by_contra hd'
        rw [Bool.not_eq_false] at hd'
        match e : s.toList, hm with
        | [c], hm =>
          rw [e] at hd
          have := hr d (by cases rest <;> simpa using hd)
          rw [digit_symbolChar hd'] at this
          cases this
        | c :: d' :: r, hm =>
          rw [e] at hd
          cases hd
          exact hn ⟨h5, d, by rw [e]; rfl, by rw [e]; exact hm, hd'⟩

/-- Symbols that are read contain neither bars nor backslashes. -/
theorem nextToken_symbol_range {cs r : List Char} {s : String} (h : nextToken cs = .ok (.symbol s, r)) :
    ∀ c ∈ s.toList, c ≠ '|' ∧ c ≠ '\\' := by
  have hs : ∀ {c}, isSymbolChar c = true → c ≠ '|' ∧ c ≠ '\\' := fun h =>
    ⟨ne_of_symbolChar h (by decide +kernel), ne_of_symbolChar h (by decide +kernel)⟩
  unfold nextToken at h
  generalize consumeWhitespace false cs = cs at h
  cases cs with
  | nil => cases h
  | cons c cs =>
    unfold readToken at h
    simp only at h
    split at h
    · cases h
    split at h
    · cases h
    split at h
    · obtain ⟨_, _, h⟩ := bind_ok.1 h
      cases h
    split at h
    · unfold readQuotedSymbol at h
      simp only at h
      split at h
      · cases h
        intro c hc
        rw [String.toList_ofList] at hc
        simpa using readWhile_fst c hc
      · cases h
    split at h
    · cases h
    split at h
    · unfold readBitvector at h
      simp only at h
      repeat' split at h
      all_goals cases h
    split at h
    · split at h
      · exact absurd h readNumber_not_symbol
      · cases h
        intro c hc
        rw [String.toList_ofList] at hc
        rcases List.mem_cons.1 hc with rfl | hc
        · decide
        · exact hs (readWhile_fst c hc)
    split at h
    · exact absurd h readNumber_not_symbol
    split at h
    · unfold readSimpleSymbol at h
      simp only at h
      split at h
      · cases h
      · cases h
        intro c hc
        rw [String.toList_ofList] at hc
        exact hs (readWhile_fst c hc)
    · cases h

/-! ## Numbers -/

theorem digitValue_digitChar {k : ℕ} (h : k < 16) : digitValue k.digitChar = k := by
  interval_cases k <;> decide

theorem ofDigits_snoc (b : ℕ) (ds : List Char) (c : Char) : ofDigits b (ds ++ [c]) = b * ofDigits b ds + digitValue c := by
  simp [ofDigits]

theorem ofDigits_toDigits {b : ℕ} (hb : 1 < b) (hb' : b ≤ 16) (n : ℕ) : ofDigits b (Nat.toDigits b n) = n := by
  induction n using Nat.strongRecOn with
  | _ n ih =>
    rw [Nat.toDigits_eq_if hb]
    split
    · simp [ofDigits, digitValue_digitChar (show n < 16 by omega)]
    · rw [ofDigits_snoc, ih _ (Nat.div_lt_self (by omega) hb), digitValue_digitChar (lt_of_lt_of_le (Nat.mod_lt _ (by omega)) hb')]
      exact Nat.div_add_mod n b

theorem toDigits_head {n : ℕ} (hn : 0 < n) : (Nat.toDigits 10 n).head? ≠ some '0' := by
  induction n using Nat.strongRecOn with
  | _ n ih =>
    rw [Nat.toDigits_eq_if (by decide)]
    split
    · have : n < 10 := by assumption
      interval_cases n <;> decide
    · rw [List.head?_append_of_ne_nil _ Nat.toDigits_ne_nil]
      exact ih _ (Nat.div_lt_self hn (by decide)) (Nat.div_pos (by omega) (by decide))

theorem natChars_digits (n : ℕ) : ∀ c ∈ natChars n, c.isDigit = true := fun _ h => Nat.isDigit_of_mem_toDigits (by decide) (by decide) h

theorem natChars_ne_nil (n : ℕ) : natChars n ≠ [] := Nat.toDigits_ne_nil

theorem natChars_leading (n : ℕ) : ¬ (1 < (natChars n).length ∧ (natChars n).head? = some '0') := by
  rintro ⟨h1, h2⟩
  rcases Nat.eq_zero_or_pos n with rfl | hn
  · simp [natChars] at h1
  · exact toDigits_head hn h2

theorem ofDigits_natChars (n : ℕ) : ofDigits 10 (natChars n) = n := ofDigits_toDigits (by decide) (by decide) n

/-- What may not follow a number. -/
def numberChar (c : Char) : Bool := c.isDigit || c == '/' || c == '.'

theorem NotNext.mono {p q : Char → Bool} {rest : List Char} (h : NotNext p rest) (hq : ∀ c, q c = true → p c = true) : NotNext q rest :=
  fun c hc => by
    cases e : q c with
    | false => rfl
    | true => rw [← hq c e, h c hc]

theorem NotNext.digit {rest : List Char} (h : NotNext numberChar rest) : NotNext (·.isDigit) rest :=
  h.mono fun c hc => by simp [numberChar, show c.isDigit = true from hc]

theorem readNumber_nat (neg : Bool) (n : ℕ) {rest : List Char} (hr : NotNext numberChar rest) :
    readNumber neg (natChars n ++ rest) = .ok (.numeral (signed neg n), rest) := by
  unfold readNumber
  rw [readWhile_append hr.digit (natChars_digits n)]
  simp only
  rw [if_neg (natChars_leading n), ofDigits_natChars]
  split
  · exact absurd (hr '/' (by simp)) (by decide)
  · exact absurd (hr '.' (by simp)) (by decide)
  · rfl

theorem readNumber_slash (neg : Bool) (n d : ℕ) (hd : 0 < d) {rest : List Char} (hr : NotNext numberChar rest) :
    readNumber neg (natChars n ++ '/' :: (natChars d ++ rest)) = .ok (.decimal (signed neg ((n : ℚ) / d)), rest) := by
  unfold readNumber
  rw [readWhile_append (by simp [NotNext]) (natChars_digits n)]
  simp only
  rw [if_neg (natChars_leading n)]
  unfold readFraction
  rw [readWhile_append hr.digit (natChars_digits d)]
  simp only
  rw [if_neg (natChars_ne_nil d), ofDigits_natChars, ofDigits_natChars, if_neg (Nat.pos_iff_ne_zero.1 hd)]
  split
  · exact absurd (hr '/' (by simp)) (by decide)
  · exact absurd (hr '.' (by simp)) (by decide)
  · rfl

theorem readNumber_dot (neg : Bool) (n : ℕ) {rest : List Char} (hr : NotNext numberChar rest) :
    readNumber neg (natChars n ++ '.' :: '0' :: rest) = .ok (.decimal (signed neg (n : ℚ)), rest) := by
  unfold readNumber
  rw [readWhile_append (by simp [NotNext]) (natChars_digits n)]
  simp only
  rw [if_neg (natChars_leading n)]
  unfold readFraction
  rw [show '0' :: rest = ['0'] ++ rest from rfl, readWhile_append hr.digit (by decide)]
  simp only
  rw [ofDigits_snoc, ofDigits_natChars]
  have : ((10 * n + digitValue '0' : ℕ) : ℚ) / ((10 ^ ['0'].length : ℕ) : ℚ) = n := by
    simp [digitValue]
  split
  · exact absurd (hr '/' (by simp)) (by decide)
  · exact absurd (hr '.' (by simp)) (by decide)
  · rw [if_neg (by decide), this]

theorem nextToken_digit {c : Char} (cs : List Char) (h : c.isDigit = true) : nextToken (c :: cs) = readNumber false (c :: cs) := by
  have hs := digit_symbolChar h
  rw [nextToken_symbolChar _ hs, readToken]
  simp only
  rw [if_neg (ne_of_symbolChar hs (by decide +kernel)), if_neg (ne_of_symbolChar hs (by decide +kernel)),
    if_neg (ne_of_symbolChar hs (by decide +kernel)), if_neg (ne_of_symbolChar hs (by decide +kernel)),
    if_neg (ne_of_symbolChar hs (by decide +kernel)), if_neg (ne_of_symbolChar hs (by decide +kernel)),
    if_neg (by rintro rfl; revert h; decide), if_pos h]

theorem nextToken_nat (n : ℕ) (cs : List Char) : nextToken (natChars n ++ cs) = readNumber false (natChars n ++ cs) := by
  cases e : natChars n with
  | nil => exact absurd e (natChars_ne_nil n)
  | cons c r => exact nextToken_digit _ (natChars_digits n c (by rw [e]; simp))

theorem nextToken_neg (n : ℕ) (cs : List Char) : nextToken ('-' :: natChars n ++ cs) = readNumber true (natChars n ++ cs) := by
  rw [List.cons_append, nextToken_symbolChar _ (by decide +kernel), readToken_minus, if_pos]
  cases e : natChars n with
  | nil => exact absurd e (natChars_ne_nil n)
  | cons c r => simpa using natChars_digits n c (by rw [e]; simp)

theorem nextToken_int (z : ℤ) {rest : List Char} (hr : NotNext numberChar rest) :
    nextToken (intChars z ++ rest) = .ok (.numeral z, rest) := by
  unfold intChars
  split
  · rw [nextToken_neg, readNumber_nat _ _ hr]
    rw [signed, if_pos rfl, show -((z.natAbs : ℕ) : ℤ) = z by omega]
  · rw [nextToken_nat, readNumber_nat _ _ hr]
    rw [signed, if_neg (by decide), show ((z.natAbs : ℕ) : ℤ) = z by omega]

theorem nextToken_real (q : ℚ) {rest : List Char} (hr : NotNext numberChar rest) :
    nextToken (constChars (.real q) ++ rest) = .ok (.decimal q, rest) := by
  have hq : q = (q.num : ℚ) / (q.den : ℚ) := (Rat.num_div_den q).symm
  rw [constChars]
  split
  · rename_i h
    rw [intChars, if_neg (by omega), List.append_assoc]
    rw [nextToken_nat]
    show readNumber false (natChars _ ++ '.' :: '0' :: rest) = _
    rw [readNumber_dot _ _ hr, signed, if_neg (by decide), ← Int.cast_natCast, show ((q.num.natAbs : ℕ) : ℤ) = q.num by omega]
    rw [h.1, Nat.cast_one, div_one] at hq
    rw [← hq]
  · unfold intChars
    split
    · rw [List.append_assoc, nextToken_neg, List.cons_append, readNumber_slash _ _ _ q.den_pos hr, signed, if_pos rfl, ← neg_div,
        ← Int.cast_natCast, ← Int.cast_neg, show -((q.num.natAbs : ℕ) : ℤ) = q.num by omega, ← hq]
    · rw [List.append_assoc, nextToken_nat, List.cons_append, readNumber_slash _ _ _ q.den_pos hr, signed, if_neg (by decide),
        ← Int.cast_natCast, show ((q.num.natAbs : ℕ) : ℤ) = q.num by omega, ← hq]

/-! ## Bit vectors -/

theorem hexDigit_isHex (b : Bool) (d : Fin 16) : isHexDigit (hexDigit b d) = true := by
  revert b d
  decide

theorem hexDigit_value (b : Bool) (d : Fin 16) : digitValue (hexDigit b d) = d := by
  revert b d
  decide

theorem isHexDigit_iff {c : Char} (h : isHexDigit c = true) : ∃ b d, c = hexDigit b d := by
  have key : ∀ n < 103, isHexDigit (Char.ofNat n) = true → ∃ b d, Char.ofNat n = hexDigit b d := by decide +kernel
  have hc : c.toNat < 103 := by
    simp only [isHexDigit, Char.isDigit, Bool.or_eq_true, Bool.and_eq_true, decide_eq_true_eq, Char.le_def, UInt32.le_iff_toNat_le] at h
    have e : c.val.toNat = c.toNat := rfl
    have e1 : ('f' : Char).val.toNat = 102 := rfl
    have e2 : ('F' : Char).val.toNat = 70 := rfl
    have e3 : ('9' : Char).val.toNat = 57 := rfl
    rcases h with (h | h) | h
    · have : c.val.toNat ≤ 57 := h.2
      omega
    · omega
    · omega
  have e : c = Char.ofNat c.toNat := (Char.ofNat_toNat c).symm
  rw [e]
  exact key _ hc (e ▸ h)

theorem ofDigits_numberOf (b : ℕ) (ds : List Char) (n : ℕ) :
    ds.foldl (fun n c => b * n + digitValue c) n = n * b ^ ds.length + numberOf b (ds.map digitValue) := by
  induction ds generalizing n with
  | nil => simp [numberOf]
  | cons c ds ih =>
    rw [List.foldl_cons, ih, List.map_cons, numberOf, List.length_map, List.length_cons, Nat.pow_succ, Nat.add_mul, Nat.add_assoc,
      Nat.mul_comm b n, Nat.mul_assoc, Nat.mul_comm b]

theorem nextToken_hex (ds : List (Bool × Fin 16)) (hd : ds ≠ []) {rest : List Char} (hr : NotHex rest) :
    nextToken ("#x".toList ++ ds.map (fun d => hexDigit d.1 d.2) ++ rest) =
      .ok (.bitvector (numberOf 16 (ds.map fun d => d.2.val)) (4 * ds.length), rest) := by
  have h1 : NotNext isHexDigit rest := by
    intro c hc
    rw [Bool.eq_false_iff]
    intro e
    obtain ⟨b, d, e⟩ := isHexDigit_iff e
    exact hr c hc b d e
  have h2 : ∀ c ∈ ds.map (fun d => hexDigit d.1 d.2), isHexDigit c = true := by
    intro c hc
    obtain ⟨d, -, rfl⟩ := List.mem_map.1 hc
    exact hexDigit_isHex _ _
  change readBitvector ('x' :: (ds.map (fun d => hexDigit d.1 d.2) ++ rest)) = _
  rw [readBitvector]
  simp only [readWhile_append h1 h2]
  rw [if_neg (by simpa using hd), ofDigits, ofDigits_numberOf, List.map_map, List.length_map, Nat.zero_mul, Nat.zero_add, Nat.mul_comm]
  congr 4
  simp [Function.comp_def, hexDigit_value]

theorem nextToken_bin (ds : List (Fin 2)) (hd : ds ≠ []) {rest : List Char} (hr : ∀ c ∈ rest.head?, c ≠ '0' ∧ c ≠ '1') :
    nextToken ("#b".toList ++ ds.map (fun d => if d = 0 then '0' else '1') ++ rest) =
      .ok (.bitvector (numberOf 2 (ds.map fun d => d.val)) ds.length, rest) := by
  have h1 : NotNext (fun c => c == '0' || c == '1') rest := by
    intro c hc
    simpa using hr c hc
  have h2 : ∀ c ∈ ds.map (fun d => if d = 0 then '0' else '1'), (fun c => c == '0' || c == '1') c = true := by
    intro c hc
    obtain ⟨d, -, rfl⟩ := List.mem_map.1 hc
    split <;> rfl
  have h3 : ∀ d : Fin 2, digitValue (if d = 0 then '0' else '1') = d := by decide
  change readBitvector ('b' :: (ds.map (fun d => if d = 0 then '0' else '1') ++ rest)) = _
  rw [readBitvector]
  simp only [readWhile_append h1 h2]
  rw [if_neg (by simpa using hd), ofDigits, ofDigits_numberOf, List.map_map, List.length_map, Nat.zero_mul, Nat.zero_add]
  congr 4
  simp [Function.comp_def, h3]

/-! ## Reserved words, comments -/

theorem nextToken_reserved (r : Reserved) {rest : List Char} (hr : NotNext isSymbolChar rest) :
    nextToken (r.name.toList ++ rest) = .ok (.reserved r, rest) := by
  have h : (∀ c ∈ r.name.toList, isSymbolChar c = true) ∧ r.name.toList ≠ [] ∧ (∀ c ∈ r.name.toList.head?, c.isDigit = false) ∧
      r.name.toList.head? ≠ some '-' ∧ Reserved.ofChars r.name.toList = some r := by cases r <;> decide +kernel
  rw [nextToken_word h.1 h.2.1 h.2.2.1 hr fun e => absurd e h.2.2.2.1, h.2.2.2.2]

theorem skip_comment (text rest : List Char) (h : '\n' ∉ text) :
    consumeWhitespace false (';' :: (text ++ '\n' :: rest)) = consumeWhitespace false rest := by
  change consumeWhitespace true (text ++ '\n' :: rest) = _
  induction text with
  | nil => rfl
  | cons c text ih =>
    rw [List.mem_cons, not_or] at h
    rw [List.cons_append, consumeWhitespace, bne_iff_ne.2 (Ne.symm h.1), ih h.2]

theorem skip_last_comment (text : List Char) (h : '\n' ∉ text) : consumeWhitespace false (';' :: text) = [] := by
  change consumeWhitespace true text = _
  induction text with
  | nil => rfl
  | cons c text ih =>
    rw [List.mem_cons, not_or] at h
    rw [consumeWhitespace, bne_iff_ne.2 (Ne.symm h.1), ih h.2]

end Carcara
