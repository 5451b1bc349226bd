import Verif.Lemmas.SharedText
import Verif.Props.C52
import Verif.Props.C64

/-!
# C65: terms printed with sharing are read as themselves

With sharing, a term that is used more than once is printed as `(! t :named @p_0)` where it is printed first, and as `@p_0` afterwards
(`ast/printer.rs:103-142`). The reader defines the name when it has read the annotated term (`parser/mod.rs:1461-1478`). "What is printed with sharing, one
term after the other, is read as the same terms."
-/

namespace Carcara
open PRes Reader

/-- Texts are read one after the other; what is defined in one is known in the next. -/
def readSeq (n : Nat) (E : PEnv) : List (List Token) → List (String × FunDef) → PRes (List Term)
  | [], _ => .ok []
  | ts :: tss, F => do
    let (t, st) ← parseTerm n E ⟨ts, F⟩
    if st.toks = [] then do
      let us ← readSeq n E tss st.defs
      .ok (t :: us)
    else .error .err

/-- The terms are printed, and read again. -/
def ReadAgain (S : Sharing) (E : PEnv) (F : List (String × FunDef)) (us : List Term) : Prop :=
  ∃ texts L tss, printSharedL S false us [] = .ok (texts, L) ∧ List.Forall₂ AllTokens texts tss ∧
    ∀ n, (∀ ts ∈ tss, 2 * ts.length ≤ n) → readSeq n E tss F = .ok us

/-- The claim, for every choice of the terms that are shared: terms that are read again without sharing are read again with it. -/
def C65Full : Prop := ∀ (share : List Term → Term → Bool) (E : PEnv) (F : List (String × FunDef)) (us : List Term), PlainEnv E →
  ReadAgain ⟨"@p_", fun _ _ => false⟩ E F us → ReadAgain ⟨"@p_", share⟩ E F us

theorem readSeq_shared {S : Sharing} {strict : Bool} {F0 : List (String × FunDef)} {E : PEnv} {us : List Term} {n : Nat} {L : List Term} {F : List (String × FunDef)}
    (h : ∀ u ∈ us, ReadsShared S strict F0 E u) (hk : ∀ k, Knows65 S strict F0 k L F) (hn : ∀ ts ∈ (Term.sharedTokensL S strict us L).1, 2 * ts.length ≤ n) :
    readSeq n E (Term.sharedTokensL S strict us L).1 F = .ok (us.map (Term.asRead strict)) := by
  induction us generalizing L F with
  | nil => rw [Term.sharedTokensL]; rfl
  | cons u us ih =>
    rw [Term.sharedTokensL] at hn ⊢
    obtain ⟨F', e, g⟩ := h u (by simp) (sizeOf u + 1) L F (hk _) (by omega) n [] (hn _ (by simp))
    rw [List.append_nil] at e
    have := ih (fun v hv => h v (by simp [hv])) (fun k => (hk k).grow g) (fun ts hts => hn ts (by simp [hts]))
    rw [readSeq, e]
    show (if ([] : List Token) = [] then readSeq n E (Term.sharedTokensL S strict us (u.sharedTokens S strict L).2).1 F' >>= fun us => .ok (u.asRead strict :: us) else .error .err) = _
    rw [if_pos rfl, this]
    rfl

theorem readableL_of {us : List Term} (h : ∀ u ∈ us, u.Readable []) : Term.ReadableL [] us := by
  induction us with
  | nil => rw [Term.ReadableL]; trivial
  | cons u us ih => rw [Term.ReadableL]; exact ⟨h u (by simp), ih fun v hv => h v (by simp [hv])⟩

theorem allTokens_of_text {out : List Char} {ts : List Token} (h : Text out ts) : AllTokens out ts := by
  refine ⟨[], ?_, by decide +kernel⟩
  have := h.2 [] (by simp [Ends])
  rwa [List.append_nil] at this

/-- The names are never mistaken for something else if their prefix is no prefix of a word of the language. -/
theorem sharing_ok {S : Sharing} {c : Char} {cs : List Char} (hp : S.pre.toList = c :: cs) (h1 : ∀ d ∈ S.pre.toList, isSymbolChar d = true)
    (h2 : c.isDigit = false) (h3 : c ≠ '-') (h4 : ∀ r : Reserved, ¬ S.pre.toList <+: r.name.toList) (h5 : ∀ o : Op, ¬ S.pre.toList <+: o.name.toList) :
    S.OK := by
  have hl : ∀ i, (S.name i).toList = S.pre.toList ++ natChars i := fun i => by rw [Sharing.name, String.toList_ofList, Sharing.nameChars]
  refine ⟨fun i => ⟨?_, ?_, ?_, ?_, ?_⟩, ?_⟩
  · intro e
    have := hl i
    rw [e, hp] at this
    cases this
  · intro d hd
    rw [hl] at hd
    rcases List.mem_append.1 hd with hd | hd
    · exact h1 d hd
    · rw [isSymbolChar]
      have := natChars_digits i d hd
      simp [Char.isAlphanum, this]
  · rw [hl, hp]
    rintro d ⟨⟩
    exact h2
  · rw [hl, hp]
    rintro ⟨-, d, -, hd, -⟩
    exact h3 (by simpa using hd)
  · intro r e
    exact h4 r ⟨natChars i, by rw [← hl, e]⟩
  · intro o i e
    exact h5 o ⟨natChars i, by rw [← hl, e]⟩

/-- The prefix that is used for proofs, `printer.rs:273`. -/
theorem c65_proof_names (share : List Term → Term → Bool) : Sharing.OK ⟨"@p_", share⟩ :=
  sharing_ok (c := '@') (cs := ['p', '_']) (show "@p_".toList = _ by decide +kernel) (show ∀ d ∈ "@p_".toList, _ by decide +kernel) (by decide +kernel) (by decide)
    (fun r => show ¬ "@p_".toList <+: _ by cases r <;> decide +kernel) fun o => show ¬ "@p_".toList <+: _ by cases o <;> decide +kernel

/-- The prefix that is used for problems, `printer.rs:56`, `74`. -/
theorem c65_problem_names (share : List Term → Term → Bool) : Sharing.OK ⟨"p_", share⟩ :=
  sharing_ok (c := 'p') (cs := ['_']) (show "p_".toList = _ by decide +kernel) (show ∀ d ∈ "p_".toList, _ by decide +kernel) (by decide +kernel) (by decide)
    (fun r => show ¬ "p_".toList <+: _ by cases r <;> decide +kernel) fun o => show ¬ "p_".toList <+: _ by cases o <;> decide +kernel

/-- What is read, also in the strict mode, in which numbers are written with the operators of SMT-LIB (`Term.standard`). -/
theorem c65_printed_read (S : Sharing) (hS : S.OK) (strict : Bool) (E : PEnv) (F : List (String × FunDef)) (us : List Term) (hE : PlainEnv E)
    (hr : ∀ u ∈ us, u.Readable []) (hw : ∀ u ∈ us, Writable [] F E u ∧ u.varHeads = true) (ha : ∀ u ∈ us, S.Apart E u) :
    ∃ texts L tss, printSharedL S strict us [] = .ok (texts, L) ∧ List.Forall₂ AllTokens texts tss ∧
      ∀ n, (∀ ts ∈ tss, 2 * ts.length ≤ n) → readSeq n E tss F = .ok (us.map fun u => if strict then u.standard else u) := by
  obtain ⟨texts, e, ht⟩ := prints_sharedL (strict := strict) hS (readableL_of hr) []
  refine ⟨texts, _, _, e, ht.imp fun _ _ => allTokens_of_text, fun n hn => ?_⟩
  have := readSeq_shared (strict := strict) (fun u hu => readsShared hS u hE (hw u hu).1 (hw u hu).2 (ha u hu))
    (fun k => ⟨fun j u hj => by simp at hj, fun _ _ => rfl⟩) hn
  cases strict <;> exact this

/-- Partial: it is true of every choice of shared terms, with either prefix, if no variable is called like a shared term, for terms in which
only variables are applied. -/
theorem c65_read_again_partial (S : Sharing) (hS : S.OK) (E : PEnv) (F : List (String × FunDef)) (us : List Term) (hE : PlainEnv E)
    (hr : ∀ u ∈ us, u.Readable []) (hw : ∀ u ∈ us, Writable [] F E u ∧ u.varHeads = true) (ha : ∀ u ∈ us, S.Apart E u) : ReadAgain S E F us := by
  obtain ⟨texts, L, tss, e, ht, h⟩ := c65_printed_read S hS false E F us hE hr hw ha
  exact ⟨texts, L, tss, e, ht, fun n hn => by rw [h n hn]; simp⟩

private def tok65 : Nat → List Char → List Token
  | 0, _ => []
  | n + 1, cs =>
    match nextToken cs with
    | .ok (.eof, _) => []
    | .ok (t, cs) => t :: tok65 n cs
    | .error _ => []

private abbrev a : Term := .var "a" .bool
private abbrev b : Term := .var "b" .bool
private abbrev ab : Term := .op .or [a, b]

private theorem small65 (t : Term) (h : t.subterms.all (fun u => match sortOf u with | some (.bv _) => false | _ => true) = true) : t.smallWidths := by
  intro u hu w hw
  have := List.all_eq_true.1 h u hu
  rw [hw] at this
  cases this

/-- A disjunction and a quantified term are shared, and the one is in the other. -/
private abbrev q : Term := .binder .all [("x", .int)] (.op .and [ab, .op .equals [.var "x" .int, .const (.int 1)]])
private abbrev S1 : Sharing := ⟨"@p_", fun _ t => t == ab || t == q⟩
private abbrev E1 : PEnv := { vars := [("a", .bool), ("b", .bool)] }
private abbrev us1 : List Term := [q, .op .not [ab], .op .implies [q, ab], .let_ [("y", ab)] (.op .or [.var "y" .bool, ab])]

/-- The terms meet the conditions, and so they are printed and read. -/
example : (∀ u ∈ us1, u.Readable []) ∧ (∀ u ∈ us1, Writable [] [] E1 u ∧ u.varHeads = true) ∧ (∀ u ∈ us1, S1.Apart E1 u) ∧
    printSharedL S1 false us1 [] = .ok (["(! (forall ((x Int)) (and (! (or a b) :named @p_1) (= x 1))) :named @p_0)".toList, "(not @p_1)".toList,
      "(=> @p_0 @p_1)".toList, "(let ((y @p_1)) (or y @p_1))".toList], [q, ab]) := by
  have hr : ∀ u ∈ us1, u.Readable [] := by
    simp only [List.forall_mem_cons, List.not_mem_nil, false_implies, implies_true, and_true]
    have ha : Readable "a" := readable_of (by decide +kernel)
    have hb : Readable "b" := readable_of (by decide +kernel)
    have hx : Readable "x" := readable_of (by decide +kernel)
    have hy : Readable "y" := readable_of (by decide +kernel)
    simp [Term.Readable, Term.ReadableL, Term.ReadableB, unnamed, Const.Readable, Srt.Readable, ha, hb, hx, hy]
  have hn : ∀ (x : String) (i : Nat), x.toList.head? ≠ some '@' → x ≠ S1.name i := by
    rintro x i h rfl
    rw [Sharing.name, String.toList_ofList, Sharing.nameChars] at h
    exact h rfl
  refine ⟨hr, ?_, ?_, by decide +kernel⟩
  · intro u hu
    refine ⟨⟨?_, ?_, ?_⟩, ?_⟩
    all_goals simp only [List.mem_cons, List.not_mem_nil, or_false] at hu
    · rcases hu with rfl | rfl | rfl | rfl <;> decide +kernel
    · rcases hu with rfl | rfl | rfl | rfl <;> exact small65 _ (by decide +kernel)
    · rcases hu with rfl | rfl | rfl | rfl <;> simp [Term.Known, Term.KnownL, Term.KnownB, letSorts, sortOf, sortOfL, opSort, knownName, List.lookup, PEnv.bind, Const.Known, Srt.Known] <;> decide +kernel
    · rcases hu with rfl | rfl | rfl | rfl <;> decide +kernel
  · intro u hu
    refine ⟨fun i => ?_, fun x hx i => hn x i ?_⟩
    · have h1 := hn "a" i (by decide +kernel)
      have h2 := hn "b" i (by decide +kernel)
      simp only [List.lookup]
      rw [beq_false_of_ne h1.symm, beq_false_of_ne h2.symm]
    · have : x = "x" ∨ x = "y" := by
        simp only [List.mem_cons, List.not_mem_nil, or_false] at hu
        rcases hu with rfl | rfl | rfl | rfl <;> simp [Term.boundNames, Term.boundNamesL, Term.boundNamesB] at hx <;> simp [hx]
      rcases this with rfl | rfl <;> decide +kernel

/-! ## What fails -/

private abbrev p0 : Term := .var "@p_0" .bool
private abbrev E2 : PEnv := { vars := [("a", .bool), ("b", .bool), ("@p_0", .bool)] }
private abbrev S2 : Sharing := ⟨"@p_", fun _ t => t == ab⟩

/-- How the claim is refuted: the texts are not read as the terms. -/
private theorem not_readAgain {S : Sharing} {E : PEnv} {F : List (String × FunDef)} {us : List Term} {texts : List (List Char)} {L : List Term}
    {tss : List (List Token)} (h1 : printSharedL S false us [] = .ok (texts, L)) (h2 : List.Forall₂ AllTokens texts tss)
    (h3 : readSeq 100 E tss F ≠ .ok us) (hl : ∀ ts ∈ tss, 2 * ts.length ≤ 100) : ¬ ReadAgain S E F us := by
  rintro ⟨texts', L', tss', k1, k2, k3⟩
  cases h1.symm.trans k1
  have : tss = tss' := by
    clear k3 h3 hl k1 h1
    induction h2 generalizing tss' with
    | nil => cases k2; rfl
    | cons h _ ih => cases k2 with | cons h' hs => rw [h.unique h', ih _ hs]
  subst this
  exact h3 (k3 100 hl)

private theorem allTokens65 {text : List Char} {k : Nat} {ts : List Token} (h : lexN k text = some (ts, [])) : AllTokens text ts :=
  ⟨[], lexN_sound h, by decide +kernel⟩

/-- **C65 fails**: a symbol of the problem that is called `@p_0` is read as the term that got this name. -/
theorem c65_clash_fails : ¬ C65Full := by
  intro full
  refine not_readAgain (texts := ["(! (or a b) :named @p_0)".toList, "@p_0".toList]) (L := [ab])
    (tss := [tok65 20 "(! (or a b) :named @p_0)".toList, [.symbol "@p_0"]]) (by decide +kernel)
    (.cons (allTokens65 (k := 10) (by decide +kernel)) (.cons (allTokens65 (k := 1) (by decide +kernel)) .nil)) (by decide +kernel) (by decide +kernel)
    (full S2.share E2 [] [ab, p0] ⟨rfl, rfl⟩ ⟨["(or a b)".toList, "@p_0".toList], [],
      [ab.tokens false [], p0.tokens false []], by decide +kernel,
      .cons (allTokens65 (k := 5) (by decide +kernel)) (.cons (allTokens65 (k := 1) (by decide +kernel)) .nil), fun n hn => ?_⟩)
  have hw : ∀ u ∈ [ab, p0], Writable [] [] E2 u := by
    intro u hu
    simp only [List.mem_cons, List.not_mem_nil, or_false] at hu
    rcases hu with rfl | rfl
    all_goals
      refine ⟨by decide +kernel, small65 _ (by decide +kernel), ?_⟩
      simp [Term.Known, Term.KnownL, knownName, List.lookup]
      decide +kernel
  have hE : PlainEnv E2 := ⟨rfl, rfl⟩
  have e1 := readsTerm ab E2 hE (hw ab (by simp)) n [] (hn _ (by simp))
  have e2 := readsTerm p0 E2 hE (hw p0 (by simp)) n [] (hn _ (by simp))
  rw [List.append_nil] at e1 e2
  rw [readSeq, e1]
  show (readSeq n E2 [p0.tokens false []] [] >>= fun us => (.ok (ab :: us) : PRes (List Term))) = _
  rw [readSeq, e2]
  rfl

private abbrev identity : Term := .binder .lambda [("x", .int)] (.var "x" .int)
private abbrev applied (z : Int) : Term := .app identity [.const (.int z)]

/-- **C65 fails**: a shared term that is applied cannot be read, since the name of a shared term is a definition without parameters. -/
theorem c65_head_fails : ¬ C65Full := by
  intro full
  refine not_readAgain (texts := ["((! (lambda ((x Int)) x) :named @p_0) 1)".toList, "(@p_0 2)".toList]) (L := [identity])
    (tss := [tok65 30 "((! (lambda ((x Int)) x) :named @p_0) 1)".toList, tok65 20 "(@p_0 2)".toList]) (by decide +kernel)
    (.cons (allTokens65 (k := 18) (by decide +kernel)) (.cons (allTokens65 (k := 4) (by decide +kernel)) .nil)) (by decide +kernel) (by decide +kernel)
    (full (fun _ t => t == identity) {} [] [applied 1, applied 2] ⟨rfl, rfl⟩ ⟨["((lambda ((x Int)) x) 1)".toList, "((lambda ((x Int)) x) 2)".toList], [],
      [(applied 1).tokens false [], (applied 2).tokens false []], by decide +kernel,
      .cons (allTokens65 (k := 13) (by decide +kernel)) (.cons (allTokens65 (k := 13) (by decide +kernel)) .nil), fun n hn => ?_⟩)
  have hw : ∀ z, Writable [] [] {} (applied z) := by
    refine fun z => ⟨rfl, small65 _ rfl, ?_⟩
    simp [Term.Known, Term.KnownL, knownName, headKnown, List.lookup, PEnv.bind, Const.Known, Srt.Known]
    decide +kernel
  have hE : PlainEnv {} := ⟨rfl, rfl⟩
  have e1 := readsTerm (applied 1) {} hE (hw 1) n [] (hn _ (by simp))
  have e2 := readsTerm (applied 2) {} hE (hw 2) n [] (hn _ (by simp))
  rw [List.append_nil] at e1 e2
  rw [readSeq, e1]
  show (readSeq n {} [(applied 2).tokens false []] [] >>= fun us => (.ok (applied 1 :: us) : PRes (List Term))) = _
  rw [readSeq, e2]
  rfl

private abbrev u0 : Term := .var "p_0" .bool

/-- **C65 fails**, and the text for a solver can be unsound: with the prefix of `elaborator/lia_generic.rs:51` and a symbol `p_0` in the problem, the
literals of a clause that is not valid are read as a tautology. -/
theorem c65_problem_fails : ∃ (share : List Term → Term → Bool) (E : PEnv) (us vs : List Term) (texts : List (List Char)) (L : List Term)
    (tss : List (List Token)), PlainEnv E ∧ (∀ u ∈ us, Writable [] [] E u) ∧ printSharedL ⟨"p_", share⟩ true us [] = .ok (texts, L) ∧
    List.Forall₂ AllTokens texts tss ∧ readSeq 100 E tss [] = .ok vs ∧ ¬ ValidClause us ∧ ValidClause vs := by
  refine ⟨S2.share, { vars := [("a", .bool), ("b", .bool), ("p_0", .bool)] }, [ab, .op .not [u0]], [ab, .op .not [ab]],
    ["(! (or a b) :named p_0)".toList, "(not p_0)".toList], [ab], [tok65 20 "(! (or a b) :named p_0)".toList, tok65 20 "(not p_0)".toList],
    ⟨rfl, rfl⟩, ?_, by decide +kernel,
    .cons (allTokens65 (k := 10) (by decide +kernel)) (.cons (allTokens65 (k := 4) (by decide +kernel)) .nil), by decide +kernel, ?_, ?_⟩
  · intro u hu
    simp only [List.mem_cons, List.not_mem_nil, or_false] at hu
    rcases hu with rfl | rfl
    all_goals
      refine ⟨by decide +kernel, small65 _ (by decide +kernel), ?_⟩
      simp [Term.Known, Term.KnownL, knownName, List.lookup]
      decide +kernel
  · intro hv
    have k : ∀ x, (Witness.model fun x _ => .bool (x = "p_0")).Holds (.var x .bool) ↔ x = "p_0" := by
      intro x
      simp [Model.Holds, Model.val, eval, Witness.model, Witness.coerce, Witness.valSort]
      by_cases h : x = "p_0" <;> simp [h, Val.T]
    obtain ⟨l, hl, h⟩ := hv (Witness.model fun x _ => .bool (x = "p_0"))
    simp only [List.mem_cons, List.not_mem_nil, or_false] at hl
    rcases hl with rfl | rfl
    · obtain ⟨t, ht, h⟩ := (Model.holds_or _ _).1 h
      simp only [List.mem_cons, List.not_mem_nil, or_false] at ht
      rcases ht with rfl | rfl <;> simp [k] at h
    · simp [k] at h
  · intro M
    by_cases h : M.Holds ab
    · exact ⟨ab, by simp, h⟩
    · exact ⟨.op .not [ab], by simp, (M.holds_not _).2 h⟩

end Carcara
