import Verif.Spec.Printer
import Verif.Lemmas.LexerString
import Verif.Lemmas.MapRes

/-!
# Reading what was printed
-/

namespace Carcara

theorem Ends.symbolChar {rest : List Char} (h : Ends rest) : NotNext isSymbolChar rest := by
  intro c hc
  rcases h c hc with rfl | rfl | rfl <;> decide +kernel

theorem Ends.numberChar {rest : List Char} (h : Ends rest) : NotNext numberChar rest := by
  intro c hc
  rcases h c hc with rfl | rfl | rfl <;> decide

theorem Ends.noQuote {rest : List Char} (h : Ends rest) : rest.head? ≠ some '"' := by
  intro hc
  rcases h _ hc with h | h | h <;> revert h <;> decide

theorem ends_space (cs : List Char) : Ends (' ' :: cs) := by simp [Ends]
theorem ends_close (cs : List Char) : Ends (')' :: cs) := by simp [Ends]

theorem LexesTo.one {cs rest : List Char} {t : Token} (h : nextToken cs = .ok (t, rest)) (ht : t ≠ .eof) : LexesTo cs [t] rest :=
  .cons h ht .nil

theorem LexesTo.append {cs cs' rest : List Char} {ts us : List Token} (h : LexesTo cs ts cs') (h' : LexesTo cs' us rest) :
    LexesTo cs (ts ++ us) rest := by
  induction h with
  | nil => exact h'
  | cons e ht _ ih => exact .cons e ht (ih h')

theorem LexesTo.space {cs rest : List Char} {ts : List Token} (h : LexesTo cs ts rest) (hne : ts ≠ []) : LexesTo (' ' :: cs) ts rest := by
  cases h with
  | nil => exact absurd rfl hne
  | cons e ht h => exact .cons (by rw [nextToken_space]; exact e) ht h

theorem nextToken_open (cs : List Char) : nextToken ('(' :: cs) = .ok (.openParen, cs) := by
  rw [nextToken_start _ (by decide) (by decide)]; rfl

theorem nextToken_close (cs : List Char) : nextToken (')' :: cs) = .ok (.closeParen, cs) := by
  rw [nextToken_start _ (by decide) (by decide)]; rfl

/-- A text that is read as these tokens, whatever comes next. -/
def Text (out : List Char) (ts : List Token) : Prop := ts ≠ [] ∧ ∀ rest, Ends rest → LexesTo (out ++ rest) ts rest

/-- What is printed is read as these tokens. -/
def Reads (p : Res (List Char)) (ts : List Token) : Prop := ∃ out, p = .ok out ∧ Text out ts

def ReadsL (p : Res (List (List Char))) (tss : List (List Token)) : Prop := ∃ outs, p = .ok outs ∧ List.Forall₂ Text outs tss

theorem text_token {out : List Char} {t : Token} (ht : t ≠ .eof) (h : ∀ rest, Ends rest → nextToken (out ++ rest) = .ok (t, rest)) :
    Text out [t] := ⟨by simp, fun rest hr => .one (h rest hr) ht⟩

theorem ends_tail (outs : List (List Char)) (rest : List Char) : Ends (tailChars outs ++ rest) := by
  cases outs with
  | nil => exact ends_close _
  | cons => exact ends_space _

theorem lexes_tail {outs : List (List Char)} {tss : List (List Token)} (h : List.Forall₂ Text outs tss) (rest : List Char) :
    LexesTo (tailChars outs ++ rest) (tss.flatten ++ [.closeParen]) rest := by
  induction h with
  | nil => exact .one (nextToken_close _) (by simp)
  | @cons out ts outs tss h _ ih =>
    rw [tailChars, List.append_assoc, List.cons_append, List.flatten_cons, List.append_assoc]
    exact ((h.2 _ (ends_tail _ _)).space h.1).append ih

theorem text_parens {out : List Char} {ts : List Token} {outs : List (List Char)} {tss : List (List Token)} (h : Text out ts)
    (hs : List.Forall₂ Text outs tss) : Text ('(' :: out ++ tailChars outs) (parens (ts :: tss)) := by
  refine ⟨by simp [parens], fun rest hr => ?_⟩
  rw [List.append_assoc, List.cons_append]
  refine .cons (nextToken_open _) (by simp) ?_
  show LexesTo _ (ts ++ tss.flatten ++ [Token.closeParen]) _
  rw [List.append_assoc]
  exact (h.2 _ (ends_tail _ _)).append (lexes_tail hs rest)

theorem text_empty : Text "()".toList (parens []) :=
  ⟨by simp [parens], fun _ _ => .cons (nextToken_open _) (by simp) (.one (nextToken_close _) (by simp))⟩

theorem text_list {outs : List (List Char)} {tss : List (List Token)} (h : List.Forall₂ Text outs tss) : Text (listChars outs) (parens tss) := by
  cases h with
  | nil => exact text_empty
  | cons h hs => exact text_parens h hs

theorem bindingList_eq (outs : List (List Char)) : bindingListChars outs = listChars outs := by cases outs <;> rfl

/-! ## Words -/

/-- A word that is read as a token. -/
def wordCheck (s : List Char) (t : Token) : Bool :=
  s.all isSymbolChar && !s.isEmpty && s.head?.all (fun c => !c.isDigit) &&
    decide (s.head? = some '-' → s[1]?.all (fun c => !c.isDigit) = true) &&
    decide ((match Reserved.ofChars s with | some r => Token.reserved r | none => .symbol (String.ofList s)) = t)

theorem text_word {s : List Char} {t : Token} (h : wordCheck s t = true) : Text s [t] := by
  simp only [wordCheck, Bool.and_eq_true, decide_eq_true_eq, List.all_eq_true, Bool.not_eq_true', List.isEmpty_eq_false_iff] at h
  obtain ⟨⟨⟨⟨h1, h2⟩, h3⟩, h4⟩, h5⟩ := h
  have ht : t ≠ .eof := by
    rw [← h5]
    split <;> simp
  refine text_token ht fun rest hr => ?_
  subst h5
  refine nextToken_word h1 h2 ?_ hr.symbolChar ?_
  · intro c hc
    rw [hc] at h3
    simpa using h3
  · intro hm
    refine ⟨reserved_minus hm, fun d hd => ?_⟩
    have h4 := h4 hm
    rw [List.getElem?_append] at hd
    split at hd
    · rw [hd] at h4
      simpa using h4
    · cases e : d.isDigit with
      | false => rfl
      | true =>
        have hl : s.length = 1 := by
          cases s with
          | nil => exact absurd rfl h2
          | cons => simp_all
        rw [hl, Nat.sub_self] at hd
        have := hr.symbolChar d (by rw [List.head?_eq_getElem?]; exact hd)
        rw [digit_symbolChar e] at this
        cases this

theorem text_op (o : Op) : Text o.name.toList [o.token] := text_word (by cases o <;> decide +kernel)
theorem text_paramOp (o : ParamOp) : Text o.name.toList [.symbol o.name] := text_word (by cases o <;> decide +kernel)
theorem text_binder (b : Binder) : Text b.name.toList [b.token] := text_word (by cases b <;> decide +kernel)

theorem text_name {s : String} {out : List Char} (h : Readable s) (ho : quoteSymbol s = .ok out) : Text out [.symbol s] :=
  text_token (by simp) fun rest hr => (nextToken_quote ho hr.symbolChar).2 ⟨fun c hc => (h.1 c hc).2, h.2⟩

theorem reads_name {s : String} (h : Readable s) : Reads (quoteSymbol s) [.symbol s] := by
  have : ∃ out, quoteSymbol s = .ok out := by
    unfold quoteSymbol
    rw [if_neg (by simpa using fun hc => (h.1 _ hc).1 rfl)]
    split <;> exact ⟨_, rfl⟩
  obtain ⟨out, ho⟩ := this
  exact ⟨out, ho, text_name h ho⟩

/-! ## Constants -/

theorem text_int (z : ℤ) : Text (intChars z) [.numeral z] := text_token (by simp) fun _ hr => nextToken_int z hr.numberChar

theorem text_nat (n : ℕ) : Text (natChars n) [.numeral n] := text_int n

theorem text_decimal (n : ℕ) : Text (natChars n ++ ".0".toList) [.decimal n] :=
  text_token (by simp) fun rest hr => by
    rw [List.append_assoc, nextToken_nat]
    exact readNumber_dot false n hr.numberChar

theorem text_real (q : ℚ) : Text (constChars (.real q)) [.decimal q] := text_token (by simp) fun _ hr => nextToken_real q hr.numberChar

theorem text_str {s : String} (h : ¬ HasEscape s.toList) : Text (constChars (.str s)) [.str s] :=
  text_token (by simp) fun rest hr => by
    rw [constChars, List.append_assoc, List.cons_append, nextToken_start _ (by decide) (by decide)]
    show (readString (escapeString s.toList ++ '"' :: rest) >>= fun p => Except.ok (Token.str (String.ofList p.1), p.2)) = _
    rw [(readString_print rest hr.noQuote _).1 h]
    show Except.ok (Token.str (String.ofList s.toList), rest) = _
    rw [String.ofList_toList]

theorem reserved_bv {s : List Char} (h : s.head? = some 'b') : Reserved.ofChars s = none := by
  cases e : Reserved.ofChars s with
  | none => rfl
  | some r =>
    have := List.find?_some e
    rw [beq_iff_eq] at this
    rw [← this] at h
    revert h
    cases r <;> decide

theorem intChars_symbol (z : ℤ) : ∀ c ∈ intChars z, isSymbolChar c = true := by
  intro c hc
  rw [intChars] at hc
  split at hc
  · rcases List.mem_cons.1 hc with rfl | hc
    · decide +kernel
    · exact digit_symbolChar (natChars_digits _ c hc)
  · exact digit_symbolChar (natChars_digits _ c hc)

theorem text_bvWord (v : ℤ) : Text ("bv".toList ++ intChars v) [.symbol (String.ofList ("bv".toList ++ intChars v))] :=
  text_token (by simp) fun rest hr => by
    rw [nextToken_word (fun c hc => ?_) (by simp) (by simp) hr.symbolChar (by simp), reserved_bv (by simp)]
    rcases List.mem_append.1 hc with hc | hc
    · rcases List.mem_pair.1 (show c ∈ ['b', 'v'] from hc) with rfl | rfl <;> decide +kernel
    · exact intChars_symbol v c hc

theorem text_underscore : Text ['_'] [.reserved .underscore] := text_word (by decide +kernel)

theorem text_bv (v : ℤ) (w : ℕ) : Text (constChars (.bv v w)) (Const.tokens (.bv v w)) := by
  have := text_parens text_underscore (.cons (text_bvWord v) (.cons (text_nat w) .nil))
  simpa [tailChars, constChars, Const.tokens] using this

theorem text_const {c : Const} (h : c.Readable) : Text (constChars c) c.tokens := by
  cases c with
  | int z => exact text_int z
  | real q => exact text_real q
  | str s => exact text_str h
  | bv v w => exact text_bv v w

theorem text_two {a b c : List Char} {s t u : List Token} (ha : Text a s) (hb : Text b t) (hc : Text c u) :
    Text ('(' :: a ++ ' ' :: b ++ ' ' :: c ++ [')']) (parens [s, t, u]) := by
  simpa [tailChars] using text_parens ha (.cons hb (.cons hc .nil))

theorem text_pair {a b : List Char} {s t : List Token} (ha : Text a s) (hb : Text b t) :
    Text ('(' :: a ++ ' ' :: b ++ [')']) (parens [s, t]) := by
  simpa [tailChars] using text_parens ha (.cons hb .nil)

theorem text_minus : Text ['-'] [.symbol "-"] := text_word (by decide +kernel)
theorem text_slash : Text ['/'] [.symbol "/"] := text_word (by decide +kernel)

theorem text_strict {c : Const} (h : c.Readable) : Text (strictConstChars c) c.strictTokens := by
  cases c with
  | int z =>
    rw [strictConstChars, Const.strictTokens]
    split
    · have := text_pair text_minus (text_nat z.natAbs)
      rwa [show ((z.natAbs : ℕ) : ℤ) = -z by omega] at this
    · exact text_int z
  | real q =>
    rw [strictConstChars, Const.strictTokens]
    have hpos : Text (if q.den = 1 then natChars q.num.natAbs ++ ".0".toList
        else "(/ ".toList ++ natChars q.num.natAbs ++ ".0 ".toList ++ natChars q.den ++ ".0)".toList)
        (if q.den = 1 then [Token.decimal |q|] else parens [[.symbol "/"], [.decimal |q.num|], [.decimal q.den]]) := by
      split
      · rename_i hd
        have := text_decimal q.num.natAbs
        rwa [show ((q.num.natAbs : ℕ) : ℚ) = |q| by
          rw [← Rat.num_div_den q, hd]
          simp] at this
      · have := text_two text_slash (text_decimal q.num.natAbs) (text_decimal q.den)
        rw [show ((q.num.natAbs : ℕ) : ℚ) = |(q.num : ℚ)| by simp] at this
        simpa using this
    show Text (if q < 0 then _ else _) (if q < 0 then _ else _)
    split
    · exact text_pair text_minus hpos
    · exact hpos
  | str s => exact text_const h
  | bv v w => exact text_const h

/-! ## Sorts -/

mutual
theorem reads_sort : ∀ {s : Srt}, s.Readable → Reads s.chars s.tokens
  | .bool, _ => ⟨_, rfl, text_word (by decide +kernel)⟩
  | .int, _ => ⟨_, rfl, text_word (by decide +kernel)⟩
  | .real, _ => ⟨_, rfl, text_word (by decide +kernel)⟩
  | .string, _ => ⟨_, rfl, text_word (by decide +kernel)⟩
  | .regLan, _ => ⟨_, rfl, text_word (by decide +kernel)⟩
  | .rareList, _ => ⟨_, rfl, text_word (by decide +kernel)⟩
  | .bv w, _ => by
    refine ⟨_, by rw [Srt.chars], ?_⟩
    rw [Srt.tokens]
    exact text_two (b := "BitVec".toList) text_underscore (text_word (by decide +kernel)) (text_nat w)
  | .array i e, h => by
    rw [Srt.Readable] at h
    obtain ⟨oi, hi, ti⟩ := reads_sort h.1
    obtain ⟨oe, he, te⟩ := reads_sort h.2
    refine ⟨_, by rw [Srt.chars, hi, he]; rfl, ?_⟩
    rw [Srt.tokens]
    exact text_parens (out := "Array".toList) (text_word (by decide +kernel)) (.cons ti (.cons te .nil))
  | .fn as r, h => by
    rw [Srt.Readable] at h
    obtain ⟨oa, ha, ta⟩ := reads_sorts h.1
    obtain ⟨or, hr, tr⟩ := reads_sort h.2
    refine ⟨_, by rw [Srt.chars, ha, hr]; rfl, ?_⟩
    rw [Srt.tokens]
    exact text_parens (out := "Func".toList) (text_word (by decide +kernel)) (List.rel_append ta (.cons tr .nil))
  | .atom n [], h => by
    rw [Srt.Readable] at h
    rw [Srt.chars, Srt.tokens]
    exact reads_name h.1
  | .atom n (a :: as), h => by
    rw [Srt.Readable, Srt.ReadableL] at h
    obtain ⟨on, hn, tn⟩ := reads_name h.1
    obtain ⟨oa, ha, ta⟩ := reads_sort h.2.1
    obtain ⟨os, hs, ts⟩ := reads_sorts h.2.2
    refine ⟨_, by rw [Srt.chars, hn, ha, hs]; rfl, ?_⟩
    rw [Srt.tokens]
    exact text_parens tn (.cons ta ts)
theorem reads_sorts : ∀ {ss : List Srt}, Srt.ReadableL ss → ReadsL (Srt.charsL ss) (Srt.tokensL ss)
  | [], _ => ⟨[], by rw [Srt.charsL], by rw [Srt.tokensL]; exact .nil⟩
  | s :: ss, h => by
    rw [Srt.ReadableL] at h
    obtain ⟨oa, ha, ta⟩ := reads_sort h.1
    obtain ⟨os, hs, ts⟩ := reads_sorts h.2
    exact ⟨_, by rw [Srt.charsL, ha, hs]; rfl, by rw [Srt.tokensL]; exact .cons ta ts⟩
end

/-! ## Terms -/

theorem reads_binding {x : String} {v : List Char} {ts : List Token} (hx : Readable x) (hv : Text v ts) :
    Reads (bindingChars x v) (parens [[.symbol x], ts]) := by
  obtain ⟨on, hn, tn⟩ := reads_name hx
  exact ⟨_, by rw [bindingChars, hn]; rfl, text_pair tn hv⟩

theorem reads_sortBindings : ∀ {bs : List (String × Srt)}, (∀ p ∈ bs, Readable p.1 ∧ p.2.Readable) →
    ReadsL (sortBindings bs) (bs.map fun p => parens [[.symbol p.1], p.2.tokens])
  | [], _ => ⟨[], rfl, .nil⟩
  | (x, s) :: bs, h => by
    have h0 : Readable x ∧ s.Readable := h (x, s) (by simp)
    obtain ⟨os, hs, ts⟩ := reads_sort h0.2
    obtain ⟨ob, hb, tb⟩ := reads_binding h0.1 ts
    obtain ⟨or, hr, tr⟩ := reads_sortBindings fun p hp => h p (List.mem_cons_of_mem _ hp)
    exact ⟨_, by rw [sortBindings]; exact bind_ok.2 ⟨os, hs, bind_ok.2 ⟨ob, hb, bind_ok.2 ⟨or, hr, rfl⟩⟩⟩, .cons tb tr⟩

theorem reads_defined {defs : List (Term × String)} {t : Term} {raw : Res (List Char)} {ts : List Token} {p : Prop}
    (h : unnamed defs t p) (hr : p → Reads raw ts) : Reads (orDefined defs t raw) (named defs t ts) := by
  rw [unnamed] at h
  rw [orDefined, named]
  split at h
  · rename_i e
    rw [e]
    exact reads_name h
  · rename_i e
    rw [e]
    exact hr h

theorem tokensL_isEmpty {strict : Bool} {defs : List (Term × String)} {as : List Term} {outs : List (List Char)}
    (h : List.Forall₂ Text outs (Term.tokensL strict defs as)) : outs = [] ↔ as.isEmpty = true := by
  cases as with
  | nil => rw [Term.tokensL] at h; cases h; simp
  | cons a as => rw [Term.tokensL] at h; cases h; simp

mutual
theorem reads_term (strict : Bool) (defs : List (Term × String)) : ∀ {t : Term}, t.Readable defs →
    Reads (printTerm strict defs t) (t.tokens strict defs)
  | .const c, h => by
    rw [Term.Readable] at h
    rw [printTerm, Term.tokens]
    refine reads_defined h fun h => ⟨_, rfl, ?_⟩
    split
    · exact text_strict h
    · exact text_const h
  | .var n s, h => by
    rw [Term.Readable] at h
    rw [printTerm, Term.tokens]
    exact reads_defined h reads_name
  | .app f as, h => by
    rw [Term.Readable] at h
    rw [printTerm, Term.tokens]
    refine reads_defined h fun h => ?_
    obtain ⟨of, hf, tf⟩ := reads_term strict defs h.1
    obtain ⟨oa, ha, ta⟩ := reads_terms strict defs h.2
    exact ⟨_, by rw [hf, ha]; rfl, text_parens tf ta⟩
  | .op o as, h => by
    rw [Term.Readable] at h
    rw [printTerm, Term.tokens]
    refine reads_defined h fun h => ?_
    obtain ⟨oa, ha, ta⟩ := reads_terms strict defs h
    rw [ha]
    show Reads (if oa = [] then _ else _) _
    by_cases he : oa = []
    · rw [if_pos he, if_pos ((tokensL_isEmpty ta).1 he)]
      exact ⟨_, rfl, text_op o⟩
    · rw [if_neg he, if_neg (mt (tokensL_isEmpty ta).2 he)]
      exact ⟨_, rfl, text_parens (text_op o) ta⟩
  | .binder b bs t, h => by
    rw [Term.Readable] at h
    rw [printTerm, Term.tokens]
    refine reads_defined h fun h => ?_
    obtain ⟨ob, hb, tb⟩ := reads_sortBindings h.1
    obtain ⟨ot, ht, tt⟩ := reads_term strict defs h.2
    refine ⟨_, by rw [hb, ht]; rfl, ?_⟩
    rw [bindingList_eq]
    exact text_two (text_binder b) (text_list tb) tt
  | .let_ bs t, h => by
    rw [Term.Readable] at h
    rw [printTerm, Term.tokens]
    refine reads_defined h fun h => ?_
    obtain ⟨ob, hb, tb⟩ := reads_bindings strict defs h.1
    obtain ⟨ot, ht, tt⟩ := reads_term strict defs h.2
    refine ⟨_, by rw [hb, ht]; rfl, ?_⟩
    rw [bindingList_eq]
    exact text_two (a := "let".toList) (text_word (by decide +kernel)) (text_list tb) tt
  | .paramOp o ps as, h => by
    rw [Term.Readable] at h
    rw [printTerm, Term.tokens]
    refine reads_defined h fun h => ?_
    obtain ⟨op, hp, tp⟩ := reads_terms strict defs h.1
    obtain ⟨oa, ha, ta⟩ := reads_terms strict defs h.2
    have hh : Text ("(_ ".toList ++ o.name.toList ++ tailChars op) (parens ([.reserved .underscore] :: [.symbol o.name] :: Term.tokensL strict defs ps)) := by
      simpa [tailChars] using text_parens text_underscore (.cons (text_paramOp o) tp)
    rw [hp, ha]
    show Reads (if oa = [] then _ else _) _
    by_cases he : oa = []
    · rw [if_pos he]
      simp only [if_pos ((tokensL_isEmpty ta).1 he)]
      exact ⟨_, rfl, hh⟩
    · rw [if_neg he]
      simp only [if_neg (mt (tokensL_isEmpty ta).2 he)]
      exact ⟨_, rfl, text_parens hh ta⟩
theorem reads_terms (strict : Bool) (defs : List (Term × String)) : ∀ {ts : List Term}, Term.ReadableL defs ts →
    ReadsL (printTerms strict defs ts) (Term.tokensL strict defs ts)
  | [], _ => ⟨[], by rw [printTerms], by rw [Term.tokensL]; exact .nil⟩
  | t :: ts, h => by
    rw [Term.ReadableL] at h
    obtain ⟨oa, ha, ta⟩ := reads_term strict defs h.1
    obtain ⟨os, hs, hts⟩ := reads_terms strict defs h.2
    exact ⟨_, by rw [printTerms, ha, hs]; rfl, by rw [Term.tokensL]; exact .cons ta hts⟩
theorem reads_bindings (strict : Bool) (defs : List (Term × String)) : ∀ {bs : List (String × Term)}, Term.ReadableB defs bs →
    ReadsL (printBindings strict defs bs) (Term.tokensB strict defs bs)
  | [], _ => ⟨[], by rw [printBindings], by rw [Term.tokensB]; exact .nil⟩
  | (x, v) :: bs, h => by
    rw [Term.ReadableB] at h
    obtain ⟨ov, hv, tv⟩ := reads_term strict defs h.2.1
    obtain ⟨ob, hb, tb⟩ := reads_binding h.1 tv
    obtain ⟨os, hs, hts⟩ := reads_bindings strict defs h.2.2
    exact ⟨_, by rw [printBindings]; exact bind_ok.2 ⟨ov, hv, bind_ok.2 ⟨ob, hb, bind_ok.2 ⟨os, hs, rfl⟩⟩⟩, by rw [Term.tokensB]; exact .cons tb hts⟩
end

/-! ## Steps -/

theorem text_plain {s : String} (h : PlainName s) : Text s.toList [.symbol s] := by
  obtain ⟨h1, h2, h3, h4, h5⟩ := h
  have hne : s.toList ≠ [] := by simpa using h1
  have hres : Reserved.ofChars s.toList = none := by
    cases e : Reserved.ofChars s.toList with
    | none => rfl
    | some r =>
      have := List.find?_some e
      rw [beq_iff_eq] at this
      exact absurd (String.toList_injective this).symm (h5 r)
  refine text_token (by simp) fun rest hr => ?_
  have := text_word (s := s.toList) (t := .symbol s) ?_
  · cases this.2 rest hr with
    | cons e _ h => cases h; exact e
  · rw [wordCheck, hres, String.ofList_toList]
    simp only [Bool.and_eq_true, decide_eq_true_eq, List.all_eq_true, Bool.not_eq_true', List.isEmpty_eq_false_iff, and_true]
    refine ⟨⟨⟨h2, hne⟩, ?_⟩, fun hm => ?_⟩
    · cases e : s.toList.head? with
      | none => rfl
      | some c => simpa using h3 c e
    · cases e : s.toList[1]? with
      | none => rfl
      | some c =>
        simp only [Option.all_some, Bool.not_eq_true']
        cases e' : c.isDigit with
        | false => rfl
        | true => exact absurd ⟨h2, c, e, hm, e'⟩ h4

theorem reads_names : ∀ {is : List String}, (∀ i ∈ is, Readable i) → ReadsL (mapRes quoteSymbol is) (is.map fun i => [.symbol i])
  | [], _ => ⟨[], rfl, .nil⟩
  | i :: is, h => by
    obtain ⟨oi, hi, ti⟩ := reads_name (h i (by simp))
    obtain ⟨os, hs, ts⟩ := reads_names fun j hj => h j (List.mem_cons_of_mem _ hj)
    exact ⟨_, by rw [mapRes]; exact bind_ok.2 ⟨oi, hi, bind_ok.2 ⟨os, hs, rfl⟩⟩, .cons ti ts⟩

theorem reads_discharge : ∀ {is : List String}, (∀ i ∈ is, Readable i) → (∀ i ∈ is.head?, PlainName i) →
    ReadsL (dischargeChars is) (is.map fun i => [.symbol i])
  | [], _, _ => ⟨[], rfl, .nil⟩
  | i :: is, h, h' => by
    obtain ⟨os, hs, ts⟩ := reads_names fun j hj => h j (List.mem_cons_of_mem _ hj)
    exact ⟨_, by rw [dischargeChars]; exact bind_ok.2 ⟨os, hs, rfl⟩, .cons (text_plain (h' i rfl)) ts⟩

theorem nextToken_keyword {s rest : List Char} (hs : ∀ c ∈ s, isSymbolChar c = true) (hr : Ends rest) :
    nextToken (':' :: s ++ rest) = .ok (.keyword (String.ofList s), rest) := by
  rw [List.cons_append, nextToken_start _ (by decide) (by decide)]
  show Except.ok (readKeyword (s ++ rest)) = _
  rw [readKeyword, readWhile_append hr.symbolChar hs]

theorem text_keyword (s : String) (hs : s.toList.all isSymbolChar = true) : Text (':' :: s.toList) [.keyword s] :=
  text_token (by simp) fun rest hr => by
    rw [nextToken_keyword (List.all_eq_true.1 hs) hr, String.ofList_toList]

/-- What follows in an S-expression. -/
theorem tail_append (as bs : List (List Char)) : (as.flatMap fun a => ' ' :: a) ++ tailChars bs = tailChars (as ++ bs) := by
  induction as with
  | nil => rfl
  | cons a as ih => rw [List.flatMap_cons, List.append_assoc, ih]; simp [tailChars]

/-- An attribute as a list of texts. -/
def attributeTexts (key : String) (ts : List (List Char)) : List (List Char) := if ts = [] then [] else [':' :: key.toList, listChars ts]

theorem stepAttribute_eq (key : String) (ts : List (List Char)) : stepAttribute key ts = (attributeTexts key ts).flatMap fun a => ' ' :: a := by
  rw [stepAttribute, attributeTexts]
  split <;> simp

theorem text_attribute {key : String} (hk : key.toList.all isSymbolChar = true) {outs : List (List Char)} {tss : List (List Token)}
    (h : List.Forall₂ Text outs tss) : List.Forall₂ Text (attributeTexts key outs) (attributeTokens key tss) := by
  rw [attributeTexts, attributeTokens]
  cases h with
  | nil => exact .nil
  | cons h hs => exact .cons (text_keyword key hk) (.cons (text_list (.cons h hs)) .nil)

theorem reads_step (strict : Bool) (defs : List (Term × String)) {id : String} {clause : List Term} {rule : String} {premises : List String}
    {args : List Term} {discharge : List String} (hi : Readable id) (hc : Term.ReadableL defs clause) (hr : PlainName rule)
    (hp : ∀ p ∈ premises, Readable p) (ha : Term.ReadableL defs args) (hd : ∀ p ∈ discharge, Readable p)
    (hd' : ∀ p ∈ discharge.head?, PlainName p) :
    Reads (printStep strict defs id clause rule premises args discharge) (stepTokens strict defs id clause rule premises args discharge) := by
  obtain ⟨oi, ei, ti⟩ := reads_name hi
  obtain ⟨oc, ec, tc⟩ := reads_terms strict defs hc
  obtain ⟨op, ep, tp⟩ := reads_names hp
  obtain ⟨oa, ea, ta⟩ := reads_terms strict defs ha
  obtain ⟨od, ed, td⟩ := reads_discharge hd hd'
  refine ⟨_, by
    rw [printStep]
    exact bind_ok.2 ⟨oi, ei, bind_ok.2 ⟨oc, ec, bind_ok.2 ⟨op, ep, bind_ok.2 ⟨oa, ea, bind_ok.2 ⟨od, ed, rfl⟩⟩⟩⟩⟩, ?_⟩
  have hcl : Text ("(cl".toList ++ tailChars oc) (parens ([.reserved .cl] :: Term.tokensL strict defs clause)) :=
    text_parens (out := "cl".toList) (text_word (by decide +kernel)) tc
  have := text_parens (out := "step".toList) (ts := [.reserved .step]) (text_word (by decide +kernel))
    (List.rel_append (List.rel_append (List.rel_append (.cons ti (.cons hcl (.cons (text_keyword "rule" (by decide +kernel)) (.cons (text_plain hr) .nil))))
      (text_attribute (key := "premises") (by decide +kernel) tp)) (text_attribute (key := "args") (by decide +kernel) ta))
      (text_attribute (key := "discharge") (by decide +kernel) td))
  rw [stepTokens]
  have e := this
  beta_reduce at e
  rw [← List.append_nil (_ ++ attributeTexts "discharge" od), ← tail_append] at e
  simp only [List.flatMap_append, ← stepAttribute_eq] at e
  simpa [tailChars] using e

theorem reads_assume (strict : Bool) (defs : List (Term × String)) {id : String} {t : Term} (hi : Readable id) (ht : t.Readable defs) :
    Reads (printAssume strict defs id t) (parens [[.reserved .assume], [.symbol id], t.tokens strict defs]) := by
  obtain ⟨oi, ei, ti⟩ := reads_name hi
  obtain ⟨ot, et, tt⟩ := reads_term strict defs ht
  exact ⟨_, by rw [printAssume]; exact bind_ok.2 ⟨oi, ei, bind_ok.2 ⟨ot, et, rfl⟩⟩, text_two (a := "assume".toList) (text_word (by decide +kernel)) ti tt⟩

/-! ## Checks for examples -/

/-- The first tokens of an input. -/
def lexN : Nat → List Char → Option (List Token × List Char)
  | 0, cs => some ([], cs)
  | n + 1, cs =>
    match nextToken cs with
    | .ok (t, cs) => if t = .eof then none else (lexN n cs).map fun p => (t :: p.1, p.2)
    | .error _ => none

theorem lexN_sound : ∀ {n : Nat} {cs rest : List Char} {ts : List Token}, lexN n cs = some (ts, rest) → LexesTo cs ts rest
  | 0, _, _, _, h => by cases h; exact .nil
  | n + 1, cs, rest, ts, h => by
    rw [lexN] at h
    split at h
    · rename_i t cs' e
      split at h
      · cases h
      · rename_i ht
        obtain ⟨⟨ts', r⟩, h', h⟩ := Option.map_eq_some_iff.1 h
        cases h
        exact .cons e ht (lexN_sound h')
    · cases h

def negativeCheck (s : String) : Bool := s.toList.all isSymbolChar && s.toList.head? == some '-' && s.toList[1]?.any (·.isDigit)

theorem looksNegative_iff {s : String} : LooksNegative s.toList ↔ negativeCheck s = true := by
  simp only [LooksNegative, negativeCheck, Bool.and_eq_true, List.all_eq_true, beq_iff_eq, Option.any_eq_true, Option.mem_def]
  constructor
  · rintro ⟨h, d, h1, h2, h3⟩; exact ⟨⟨h, h2⟩, d, h1, h3⟩
  · rintro ⟨⟨h, h2⟩, d, h1, h3⟩; exact ⟨h, d, h1, h2, h3⟩

def readableCheck (s : String) : Bool := s.toList.all (fun c => c != '|' && c != '\\') && !negativeCheck s

theorem readable_of {s : String} (h : readableCheck s = true) : Readable s := by
  simp only [readableCheck, Bool.and_eq_true, List.all_eq_true, Bool.not_eq_true', bne_iff_ne, ne_eq] at h
  exact ⟨h.1, fun hn => by rw [looksNegative_iff, h.2] at hn; cases hn⟩

end Carcara
