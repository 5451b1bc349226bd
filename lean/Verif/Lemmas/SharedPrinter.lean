import Verif.Spec.SharedPrinter
import Verif.Lemmas.ExpansionProblem
import Verif.Lemmas.SolverProblem

/-!
# Reading terms that are printed with sharing
-/

namespace Carcara
open PRes Reader

section
variable {S : Sharing} {strict : Bool}

theorem Sharing.name_inj {i j : Nat} (h : S.name i = S.name j) : i = j := by
  have h1 : S.nameChars i = S.nameChars j := by simpa [Sharing.name] using congrArg String.toList h
  have h2 := List.append_cancel_left h1
  have h3 := ofDigits_natChars i
  rw [h2, ofDigits_natChars] at h3
  omega

/-! ### What is read -/

theorem asRead_op {o : Op} {as : List Term} : (Term.op o as).asRead strict = .op o (as.map (Term.asRead strict)) := by
  cases strict
  · have : Term.asRead false = id := rfl
    rw [this, List.map_id]
    rfl
  · show Term.standard _ = _
    rw [Term.standard, Term.standardL_eq]
    rfl

theorem asRead_app {x : String} {s : Srt} {as : List Term} : (Term.app (.var x s) as).asRead strict = .app (.var x s) (as.map (Term.asRead strict)) := by
  cases strict
  · have : Term.asRead false = id := rfl
    rw [this, List.map_id]
    rfl
  · show Term.standard _ = _
    rw [Term.standard, Term.standardL_eq]
    rfl

theorem asRead_var {x : String} {s : Srt} : (Term.var x s).asRead strict = .var x s := by cases strict <;> rfl

theorem asRead_binder {b : Binder} {bs : List (String × Srt)} {t : Term} : (Term.binder b bs t).asRead strict = .binder b bs (t.asRead strict) := by
  cases strict <;> rfl

theorem asRead_let {bs : List (String × Term)} {t : Term} :
    (Term.let_ bs t).asRead strict = .let_ (bs.map fun b => (b.1, b.2.asRead strict)) (t.asRead strict) := by
  cases strict
  · have : (fun b : String × Term => (b.1, b.2.asRead false)) = id := rfl
    rw [this, List.map_id]
    rfl
  · show Term.standard _ = _
    rw [Term.standard, Term.standardB_eq]
    rfl

theorem asRead_paramOp {o : ParamOp} {ps as : List Term} : (Term.paramOp o ps as).asRead strict = .paramOp o ps (as.map (Term.asRead strict)) := by
  cases strict
  · have : Term.asRead false = id := rfl
    rw [this, List.map_id]
    rfl
  · show Term.standard _ = _
    rw [Term.standard, Term.standardL_eq]
    rfl

theorem Writable.asRead {F : List (String × FunDef)} {E : PEnv} {t : Term} (h : Writable [] F E t) : Writable [] F E (t.asRead strict) := by
  cases strict
  · exact h
  · exact h.standard

theorem sortOf_asRead {t : Term} (h : (sortOf t).isSome = true) : sortOf (t.asRead strict) = sortOf t := by
  cases strict
  · rfl
  · exact sortOf_standard t h

theorem smallWidths_asRead {t : Term} (hs : (sortOf t).isSome = true) (h : t.smallWidths) : (t.asRead strict).smallWidths := by
  cases strict
  · exact h
  · exact smallWidths_standard t hs h

theorem asRead_indices {o : ParamOp} {ps as : List Term} (h : (sortOf (.paramOp o ps as)).isSome = true) : ps.map (Term.asRead strict) = ps := by
  cases strict
  · exact List.map_id ps
  · simp only [sortOf] at h
    split at h
    · obtain ⟨s, h⟩ := Option.isSome_iff_exists.1 h
      have := popSort_indices h
      refine (List.map_congr_left fun p hp => ?_).trans (List.map_id ps)
      obtain ⟨z, hz, rfl⟩ := this p hp
      show Term.standard _ = _
      rw [Term.standard, Const.standard, if_neg (by omega)]
      rfl
    · cases h

/-- The definitions `F` know the names of the terms in `L` that are smaller than `k`, and otherwise what `F0` knows. -/
structure Knows65 (S : Sharing) (strict : Bool) (F0 : List (String × FunDef)) (k : Nat) (L : List Term) (F : List (String × FunDef)) : Prop where
  named : ∀ j u, L[j]? = some u → sizeOf u < k → F.lookup (S.name j) = some ⟨[], u.asRead strict⟩
  others : ∀ x, (∀ i, x ≠ S.name i) → F.lookup x = F0.lookup x

/-- What reading changes: some terms, not larger than `m`, get names. -/
structure Grows (S : Sharing) (strict : Bool) (m : Nat) (L : List Term) (F : List (String × FunDef)) (L' : List Term) (F' : List (String × FunDef)) : Prop where
  terms : ∃ N, L' = L ++ N ∧ (∀ u ∈ N, sizeOf u ≤ m) ∧ ∀ j u, N[j]? = some u → F'.lookup (S.name (L.length + j)) = some ⟨[], u.asRead strict⟩
  old : ∀ j, j < L.length → F'.lookup (S.name j) = F.lookup (S.name j)
  others : ∀ x, (∀ i, x ≠ S.name i) → F'.lookup x = F.lookup x

theorem Grows.refl {m : Nat} {L : List Term} {F : List (String × FunDef)} : Grows S strict m L F L F :=
  ⟨⟨[], by simp, by simp, by simp⟩, fun _ _ => rfl, fun _ _ => rfl⟩

theorem Grows.mono {m m' : Nat} {L L' F F'} (h : Grows S strict m L F L' F') (hm : m ≤ m') : Grows S strict m' L F L' F' := by
  obtain ⟨N, h1, h2, h3⟩ := h.terms
  exact ⟨⟨N, h1, fun u hu => Nat.le_trans (h2 u hu) hm, h3⟩, h.old, h.others⟩

theorem Grows.trans {m : Nat} {L L' L'' F F' F''} (h : Grows S strict m L F L' F') (h' : Grows S strict m L' F' L'' F'') : Grows S strict m L F L'' F'' := by
  obtain ⟨N, rfl, h2, h3⟩ := h.terms
  obtain ⟨N', rfl, h2', h3'⟩ := h'.terms
  refine ⟨⟨N ++ N', by simp, fun u hu => (List.mem_append.1 hu).elim (h2 u) (h2' u), fun j u hj => ?_⟩, fun j hj => ?_, fun x hx => ?_⟩
  · by_cases hl : j < N.length
    · rw [List.getElem?_append_left hl] at hj
      rw [h'.old _ (by simp; omega)]
      exact h3 j u hj
    · rw [List.getElem?_append_right (by omega)] at hj
      have := h3' _ u hj
      rwa [List.length_append, show L.length + N.length + (j - N.length) = L.length + j by omega] at this
  · rw [h'.old j (by simp; omega), h.old j hj]
  · rw [h'.others x hx, h.others x hx]

theorem Knows65.grow {F0 : List (String × FunDef)} {k m : Nat} {L L' F F'} (h : Knows65 S strict F0 k L F) (h' : Grows S strict m L F L' F') : Knows65 S strict F0 k L' F' := by
  obtain ⟨N, rfl, -, h3⟩ := h'.terms
  refine ⟨fun j u hj hu => ?_, fun x hx => by rw [h'.others x hx, h.others x hx]⟩
  by_cases hl : j < L.length
  · rw [List.getElem?_append_left hl] at hj
    rw [h'.old j hl]
    exact h.named j u hj hu
  · rw [List.getElem?_append_right (by omega)] at hj
    have := h3 _ u hj
    rwa [show L.length + (j - L.length) = j by omega] at this

/-- Inside a term that gets a name. -/
theorem Knows65.inside {F0 : List (String × FunDef)} {k : Nat} {L F} {t : Term} (h : Knows65 S strict F0 k L F) (ht : sizeOf t < k) :
    Knows65 S strict F0 (sizeOf t) (L ++ [t]) F := by
  refine ⟨fun j u hj hu => ?_, h.others⟩
  by_cases hl : j < L.length
  · rw [List.getElem?_append_left hl] at hj
    exact h.named j u hj (by omega)
  · rw [List.getElem?_append_right (by omega)] at hj
    have : u = t := by
      cases hjj : j - L.length with
      | zero => rw [hjj] at hj; simpa using hj.symm
      | succ n => rw [hjj] at hj; simp at hj
    subst this
    omega

theorem Grows.define {m : Nat} {L L' F F'} {t : Term} (h : Grows S strict m (L ++ [t]) F L' F') (hm : m ≤ sizeOf t) :
    Grows S strict (sizeOf t) L F L' (mapInsert F' (S.name L.length) ⟨[], t.asRead strict⟩) := by
  obtain ⟨N, rfl, h2, h3⟩ := h.terms
  refine ⟨⟨t :: N, by simp, ?_, fun j u hj => ?_⟩, fun j hj => ?_, fun x hx => ?_⟩
  · intro u hu
    rcases List.mem_cons.1 hu with rfl | hu
    · exact Nat.le_refl _
    · exact Nat.le_trans (h2 u hu) hm
  · rw [lookup_mapInsert63]
    cases j with
    | zero =>
      rw [if_pos (by simp)]
      simp at hj
      rw [hj]
    | succ j =>
      rw [if_neg (fun e => by have := Sharing.name_inj e; omega)]
      have := h3 j u (by simpa using hj)
      rwa [List.length_append, List.length_singleton, show L.length + 1 + j = L.length + (j + 1) by omega] at this
  · rw [lookup_mapInsert63, if_neg (fun e => by have := Sharing.name_inj e; omega), h.old j (by simp; omega)]
  · rw [lookup_mapInsert63, if_neg (hx _), h.others x hx]

/-- A term is read after what is printed for it, whatever has names already. -/
def ReadsShared (S : Sharing) (strict : Bool) (F0 : List (String × FunDef)) (E : PEnv) (t : Term) : Prop :=
  ∀ (k : Nat) (L : List Term) (F : List (String × FunDef)), Knows65 S strict F0 k L F → sizeOf t < k → ∀ (n : Nat) (rest : List Token),
    2 * (t.sharedTokens S strict L).1.length ≤ n → ∃ F', parseTerm n E ⟨(t.sharedTokens S strict L).1 ++ rest, F⟩ = .ok (t.asRead strict, ⟨rest, F'⟩) ∧
      Grows S strict (sizeOf t) L F (t.sharedTokens S strict L).2 F'

/-- The same for what is in the parentheses of a term that has no name. -/
theorem parseShared_annotated {E : PEnv} {t : Term} {ts rest : List Token} {F F' : List (String × FunDef)} {n : Nat} {x : String}
    (h : parseTerm (n + 2) E ⟨ts ++ .keyword "named" :: .symbol x :: .closeParen :: rest, F⟩ =
      .ok (t, ⟨.keyword "named" :: .symbol x :: .closeParen :: rest, F'⟩)) :
    parseTerm (n + 5) E ⟨parens [[.reserved .bang], ts, [.keyword "named"], [.symbol x]] ++ rest, F⟩ = .ok (t, ⟨rest, mapInsert F' x ⟨[], t⟩⟩) := by
  have ea : parseAttribute t ⟨.keyword "named" :: .symbol x :: .closeParen :: rest, F'⟩ = .ok ((), ⟨.closeParen :: rest, mapInsert F' x ⟨[], t⟩⟩) := by
    have ek : expectKeyword ⟨.keyword "named" :: .symbol x :: .closeParen :: rest, F'⟩ = .ok ("named", ⟨.symbol x :: .closeParen :: rest, F'⟩) := by
      rw [expectKeyword, reader_bind next_cons]
      rfl
    rw [parseAttribute, reader_bind ek, if_pos rfl, reader_bind expectSymbol_cons]
    rfl
  have eb : parseAttributes t (n + 2) ⟨.keyword "named" :: .symbol x :: .closeParen :: rest, F'⟩ = .ok ([()], ⟨rest, mapInsert F' x ⟨[], t⟩⟩) := by
    have ec : parseAttributes t (n + 1) ⟨.closeParen :: rest, mapInsert F' x ⟨[], t⟩⟩ = .ok ([], ⟨rest, mapInsert F' x ⟨[], t⟩⟩) := by
      rw [parseAttributes, reader_bind current_cons, if_pos rfl, reader_bind next_cons]
      rfl
    rw [parseAttributes, reader_bind current_cons, if_neg (by simp), reader_bind ea, reader_bind ec]
    rfl
  have e : parens [[.reserved .bang], ts, [.keyword "named"], [.symbol x]] ++ rest =
      .openParen :: .reserved .bang :: (ts ++ .keyword "named" :: .symbol x :: .closeParen :: rest) := by simp [parens]
  rw [e, parseTerm, reader_bind next_cons]
  simp only
  rw [parseApplication, reader_bind current_cons]
  simp only
  rw [reader_bind next_cons, parseAnnotated, reader_bind h, reader_bind eb, reader_bind (nonEmpty_ok (by simp))]
  rfl

theorem readShared_wrap {F0 : List (String × FunDef)} {E : PEnv} {t : Term} {raw : List Term → List Token × List Term}
    (e : ∀ L, t.sharedTokens S strict L = S.tokens L t raw)
    (h : ∀ (k : Nat) (L : List Term) (F : List (String × FunDef)), Knows65 S strict F0 k L F → sizeOf t ≤ k → ∀ (n : Nat) (rest : List Token),
      2 * (raw L).1.length ≤ n → ∃ F', parseTerm n E ⟨(raw L).1 ++ rest, F⟩ = .ok (t.asRead strict, ⟨rest, F'⟩) ∧ Grows S strict (sizeOf t) L F (raw L).2 F') :
    ReadsShared S strict F0 E t := by
  intro k L F hk ht n rest hn
  rw [e] at hn ⊢
  rw [Sharing.tokens] at hn ⊢
  split at hn
  · next hs =>
    rw [if_pos hs]
    split at hn
    · next i hi =>
      have hL : L[i]? = some t := by
        have := List.idxOf?_eq_some_iff.1 hi
        obtain ⟨h1, h2, -⟩ := this
        rw [List.getElem?_eq_getElem h1, h2]
      refine ⟨F, ?_, .refl⟩
      simp only [List.length_singleton] at hn
      obtain ⟨n, rfl⟩ := Nat.exists_eq_add_of_le (show 1 ≤ n by omega)
      rw [List.cons_append, List.nil_append, Nat.add_comm 1 n, parseTerm, reader_bind next_cons]
      simp only
      rw [reader_bind definition_eq, hk.named i t hL ht]
      exact reader_lift rfl
    · next hi =>
      simp only [parens_length, List.flatten_cons, List.flatten_nil, List.length_append, List.length_cons, List.length_nil] at hn
      obtain ⟨n, rfl⟩ := Nat.exists_eq_add_of_le (show 5 ≤ n by omega)
      obtain ⟨F', h1, h2⟩ := h (sizeOf t) (L ++ [t]) F (hk.inside ht) (Nat.le_refl _) (n + 2)
        (.keyword "named" :: .symbol (S.name L.length) :: .closeParen :: rest) (by omega)
      exact ⟨_, by rw [Nat.add_comm 5 n]; exact parseShared_annotated h1, h2.define (Nat.le_refl _)⟩
  · next hs =>
    rw [if_neg hs]
    exact h k L F hk (Nat.le_of_lt ht) n rest hn

variable {F0 : List (String × FunDef)} {E : PEnv}

theorem Sharing.Apart.var (h : S.Apart E t) {x : String} {s : Srt} (hx : E.vars.lookup x = some s) (i : Nat) : x ≠ S.name i := by
  rintro rfl
  rw [h.free i] at hx
  cases hx

theorem tokens_asRead_const {c : Const} : ((Term.const c).asRead strict).tokens false [] = if strict then c.strictTokens else c.tokens := by
  cases strict
  · simp [Term.asRead, Term.tokens, named]
  · exact c.tokens_standard.symm

theorem readsShared_const {c : Const} (hE : PlainEnv E) (hw : Writable [] F0 E (.const c)) : ReadsShared S strict F0 E (.const c) := by
  intro k L F _ _ n rest hn
  refine ⟨F, ?_, by rw [Term.sharedTokens]; exact .refl⟩
  have hk := hw.known
  rw [Term.Known] at hk
  have e := tokens_asRead_const (c := c) (strict := strict)
  rw [Term.sharedTokens] at hn ⊢
  have hw' : Writable [] F E (.const c) := ⟨rfl, hw.small, by rw [Term.Known]; exact hk⟩
  have := readsTerm (D := []) (F := F) ((Term.const c).asRead strict) E hE hw'.asRead n rest (by rw [e]; exact hn)
  rwa [e] at this

theorem readsShared_var {x : String} {s : Srt} (hE : PlainEnv E) (ha : ∀ i, E.vars.lookup (S.name i) = none) (hw : Writable [] F0 E (.var x s)) :
    ReadsShared S strict F0 E (.var x s) := by
  intro k L F hF _ n rest hn
  refine ⟨F, ?_, by rw [Term.sharedTokens]; exact .refl⟩
  have hk := hw.known
  rw [Term.Known] at hk
  obtain ⟨h1, h2, h3⟩ := knownName_none rfl hk
  have hx : F.lookup x = none := by
    rw [hF.others x (fun i e => by rw [e, ha i] at h3; cases h3), h1]
  have e : (Term.var x s).tokens false [] = [.symbol x] := rfl
  rw [Term.sharedTokens] at hn ⊢
  have := readsTerm (D := []) (F := F) (.var x s) E hE ⟨rfl, hw.small, by rw [Term.Known]; exact ⟨hx, h2, h3⟩⟩ n rest (by rw [e]; exact hn)
  rwa [e, ← asRead_var (strict := strict)] at this

theorem Sharing.tokens_head {L : List Term} {t : Term} {raw : List Term → List Token × List Term} (h : ∀ L, ∃ a ts, (raw L).1 = a :: ts ∧ a ≠ .closeParen) :
    ∃ a ts, (S.tokens L t raw).1 = a :: ts ∧ a ≠ .closeParen := by
  rw [Sharing.tokens]
  split
  · split
    · exact ⟨_, _, rfl, by simp⟩
    · exact ⟨.openParen, _, by simp [parens]; rfl, by simp⟩
  · exact h L

theorem Term.shared_head (S : Sharing) (strict : Bool) (t : Term) (L : List Term) : ∃ h ts, (t.sharedTokens S strict L).1 = h :: ts ∧ h ≠ .closeParen := by
  cases t with
  | const c =>
    obtain ⟨h, ts, e, hc, _⟩ := ((Term.const c).asRead strict).tokens_head (D := [])
    rw [Term.sharedTokens]
    exact ⟨h, ts, by rw [← e, tokens_asRead_const], hc⟩
  | var x s =>
    rw [Term.sharedTokens]
    exact ⟨_, _, rfl, by simp⟩
  | app f as =>
    rw [Term.sharedTokens]
    exact Sharing.tokens_head fun L => ⟨.openParen, _, by simp [parens]; rfl, by simp⟩
  | op o as =>
    rw [Term.sharedTokens]
    refine Sharing.tokens_head fun L => ?_
    by_cases h : as.isEmpty = true
    · exact ⟨o.token, [], by simp [h], o.token_ne.1⟩
    · exact ⟨.openParen, _, by simp [h, parens]; rfl, by simp⟩
  | binder b bs t =>
    rw [Term.sharedTokens]
    exact Sharing.tokens_head fun L => ⟨.openParen, _, by simp [parens]; rfl, by simp⟩
  | let_ bs t =>
    rw [Term.sharedTokens]
    exact Sharing.tokens_head fun L => ⟨.openParen, _, by simp [parens]; rfl, by simp⟩
  | paramOp o ps as =>
    rw [Term.sharedTokens]
    refine Sharing.tokens_head fun L => ?_
    by_cases h : as.isEmpty = true
    · exact ⟨.openParen, _, by simp [h, parens]; rfl, by simp⟩
    · exact ⟨.openParen, _, by simp [h, parens]; rfl, by simp⟩

theorem parseTerms_shared {m : Nat} : ∀ {as : List Term}, (∀ a ∈ as, ReadsShared S strict F0 E a) → (∀ a ∈ as, sizeOf a ≤ m) →
    ∀ {k : Nat} {L : List Term} {F : List (String × FunDef)}, Knows65 S strict F0 k L F → m < k → ∀ {n : Nat} {rest : List Token},
    2 * (Term.sharedTokensL S strict as L).1.flatten.length + 1 ≤ n →
    ∃ F', parseTerms n E ⟨(Term.sharedTokensL S strict as L).1.flatten ++ .closeParen :: rest, F⟩ = .ok (as.map (Term.asRead strict), ⟨rest, F'⟩) ∧
      Grows S strict m L F (Term.sharedTokensL S strict as L).2 F'
  | _, _, _, _, _, _, _, _, 0, _, hn => by omega
  | [], _, _, _, L, F, _, _, n + 1, rest, _ => ⟨F, by rw [Term.sharedTokensL]; exact parseTerms_close _ _, by rw [Term.sharedTokensL]; exact .refl⟩
  | a :: as, h, hm, k, L, F, hF, hk, n + 1, rest, hn => by
    have e1 : (Term.sharedTokensL S strict (a :: as) L).1 = (a.sharedTokens S strict L).1 :: (Term.sharedTokensL S strict as (a.sharedTokens S strict L).2).1 := by
      rw [Term.sharedTokensL]
    have e2 : (Term.sharedTokensL S strict (a :: as) L).2 = (Term.sharedTokensL S strict as (a.sharedTokens S strict L).2).2 := by rw [Term.sharedTokensL]
    rw [e1] at hn ⊢
    rw [e2]
    simp only [List.flatten_cons, List.length_append] at hn
    obtain ⟨t, ts, e, ht⟩ := a.shared_head S strict L
    obtain ⟨F1, h1, g1⟩ := h a (by simp) k L F hF (Nat.lt_of_le_of_lt (hm a (by simp)) hk) n
      ((Term.sharedTokensL S strict as (a.sharedTokens S strict L).2).1.flatten ++ .closeParen :: rest) (by omega)
    obtain ⟨F2, h2, g2⟩ := parseTerms_shared (as := as) (fun b hb => h b (by simp [hb]))
      (fun b hb => hm b (by simp [hb])) (hF.grow g1) hk (n := n) (rest := rest) (by
        rw [e, List.length_cons] at hn
        omega)
    refine ⟨F2, ?_, (g1.mono (hm a (by simp))).trans g2⟩
    simp only [List.flatten_cons, List.append_assoc]
    rw [e] at h1 ⊢
    rw [List.cons_append, parseTerms, reader_bind current_cons, if_neg ht]
    rw [List.cons_append] at h1
    rw [reader_bind h1, reader_bind h2]
    rfl

theorem sizeOf_mem_op {o : Op} {as : List Term} {a : Term} (h : a ∈ as) : sizeOf a ≤ sizeOf (Term.op o as) - 1 := by
  have := List.sizeOf_lt_of_mem h
  simp only [Term.op.sizeOf_spec]
  omega

theorem sizeOf_mem_app {f : Term} {as : List Term} {a : Term} (h : a ∈ as) : sizeOf a ≤ sizeOf (Term.app f as) - 1 := by
  have := List.sizeOf_lt_of_mem h
  simp only [Term.app.sizeOf_spec]
  omega

theorem readsShared_op (hS : S.OK) (hE : PlainEnv E) {o : Op} {as : List Term} (hw : Writable [] F0 E (.op o as)) (has : ∀ a ∈ as, ReadsShared S strict F0 E a) : ReadsShared S strict F0 E (.op o as) := by
  have hk := hw.known
  rw [Term.Known] at hk
  obtain ⟨hk0, -⟩ := knownName_none rfl hk
  have hw' := hw.asRead (strict := strict)
  rw [asRead_op] at hw'
  obtain ⟨s, hso⟩ := Option.isSome_iff_exists.1 hw'.sorted
  have make := makeOp_ok hE.strict hE.ints hso hw'.small
  rw [← asRead_op] at make
  refine readShared_wrap (fun L => by rw [Term.sharedTokens]) fun k L F hF hk n rest hn => ?_
  by_cases hne : as = []
  · subst hne
    simp only [List.isEmpty_nil, if_true, Term.sharedTokensL, List.length_singleton] at hn ⊢
    refine ⟨F, ?_, .refl⟩
    obtain ⟨ho, hl⟩ := hk0 rfl
    have hl : F.lookup o.name = none := by rw [hF.others _ (hS.ops o), hl]
    obtain ⟨n, rfl⟩ := Nat.exists_eq_add_of_le (show 1 ≤ n by omega)
    have ht : o.token = .symbol o.name := by cases o <;> first | rfl | exact absurd rfl ho
    rw [ht, List.cons_append, List.nil_append, Nat.add_comm 1 n, parseTerm, reader_bind next_cons]
    simp only
    rw [reader_bind definition_eq, hl]
    simp only [Op.ofName_name]
    exact reader_lift make
  · have hne' : as.isEmpty = false := by cases as <;> first | rfl | exact absurd rfl hne
    simp only [hne', Bool.false_eq_true, if_false, parens_length, List.flatten_cons, List.length_append, List.length_singleton] at hn ⊢
    obtain ⟨n, rfl⟩ := Nat.exists_eq_add_of_le (show 2 ≤ n by omega)
    have h1 : 1 ≤ sizeOf (Term.op o as) := by simp only [Term.op.sizeOf_spec]; omega
    obtain ⟨F', args, g⟩ := parseTerms_shared (m := sizeOf (Term.op o as) - 1) has (fun a ha => sizeOf_mem_op ha) hF (by omega) (n := n) (rest := rest)
      (by omega)
    refine ⟨F', ?_, g.mono (by omega)⟩
    have et : parens ([o.token] :: (Term.sharedTokensL S strict as L).1) ++ rest =
        .openParen :: o.token :: ((Term.sharedTokensL S strict as L).1.flatten ++ .closeParen :: rest) := by simp [parens]
    rw [et, Nat.add_comm 2 n, parseTerm, reader_bind next_cons]
    simp only
    rw [parseApplication, reader_bind current_cons]
    by_cases ho : o = .cl
    · subst ho
      simp only [Op.token]
      rw [reader_bind next_cons, reader_bind args]
      exact reader_lift make
    · have : o.token = .symbol o.name := by cases o <;> first | rfl | exact absurd rfl ho
      rw [this]
      simp only [Op.ofName_name]
      rw [reader_bind next_cons, reader_bind args, reader_bind (nonEmpty_ok (by simpa using hne))]
      exact reader_lift make

theorem readsShared_app (hE : PlainEnv E) (ha : ∀ i, E.vars.lookup (S.name i) = none) {x : String} {s : Srt} {as : List Term}
    (hw : Writable [] F0 E (.app (.var x s) as)) (has : ∀ a ∈ as, ReadsShared S strict F0 E a) :
    ReadsShared S strict F0 E (.app (.var x s) as) := by
  have hk := hw.known
  rw [Term.Known] at hk
  obtain ⟨⟨hlf, heo⟩, hfk, hne, -⟩ := knownName_none rfl hk
  have hw' := hw.asRead (strict := strict)
  rw [asRead_app] at hw'
  obtain ⟨r, hso⟩ := Option.isSome_iff_exists.1 hw'.sorted
  have hfw : Writable [] F0 E (.var x s) := ⟨rfl, smallWidths_sub hw.small (subterms_app (.inl rfl)), hfk⟩
  rw [Term.Known] at hfk
  obtain ⟨k1, k2, k3⟩ := knownName_none rfl hfk
  have make := makeApp_ok hso hw'.small
  rw [← asRead_app] at make
  refine readShared_wrap (fun L => by rw [Term.sharedTokens]) fun k L F hF hk n rest hn => ?_
  have hx : F.lookup x = none := by rw [hF.others x (fun i e => by rw [e, ha i] at k3; cases k3), k1]
  have ev : (Term.var x s).sharedTokens S strict L = ([.symbol x], L) := by rw [Term.sharedTokens]
  simp only [ev, parens_length, List.flatten_cons, List.length_append, List.length_singleton] at hn ⊢
  obtain ⟨n, rfl⟩ := Nat.exists_eq_add_of_le (show 4 ≤ n by omega)
  have h1 : 1 ≤ sizeOf (Term.app (.var x s) as) := by simp only [Term.app.sizeOf_spec]; omega
  obtain ⟨F', args, g⟩ := parseTerms_shared (m := sizeOf (Term.app (.var x s) as) - 1) has (fun a ha => sizeOf_mem_app ha) hF (by omega)
    (n := n + 2) (rest := rest) (by omega)
  refine ⟨F', ?_, g.mono (by omega)⟩
  have h1 := readsTerm (D := []) (F := F) (.var x s) E hE ⟨rfl, hfw.small, by rw [Term.Known]; exact ⟨hx, k2, k3⟩⟩ (n + 2)
    ((Term.sharedTokensL S strict as L).1.flatten ++ .closeParen :: rest) (by simp [Term.tokens, named])
  rw [Term.tokens, named_none rfl] at h1
  have et : parens ([.symbol x] :: (Term.sharedTokensL S strict as L).1) ++ rest =
      .openParen :: .symbol x :: ((Term.sharedTokensL S strict as L).1.flatten ++ .closeParen :: rest) := by simp [parens]
  simp only [List.cons_append, List.nil_append] at h1
  rw [et, Nat.add_comm 4 n, parseTerm, reader_bind next_cons]
  simp only
  rw [parseApplication, reader_bind current_cons]
  simp only [k2]
  rw [if_neg (fun e => heo s (by rw [e])), reader_bind definition_eq, hx]
  simp only
  rw [reader_bind h1, reader_bind args, reader_bind (nonEmpty_ok (by simpa using hne))]
  exact reader_lift make

theorem parseSorted_shared {t : Term} {s : Srt} {ts rest : List Token} {F F' : List (String × FunDef)} {n : Nat}
    (h : parseTerm n E ⟨ts, F⟩ = .ok (t, ⟨rest, F'⟩)) (hs : sortOf t = some s) (hw : t.smallWidths) :
    parseSorted (n + 1) E s ⟨ts, F⟩ = .ok (t, ⟨rest, F'⟩) := by
  have : (do assertSort (.known s) (← poolSort t)) = (.ok () : PRes Unit) := by
    rw [poolSort_ok _ hs hw]
    change assertSort (.known s) (.known s) = _
    simp [assertSort, need]
  rw [parseSorted, reader_bind h, reader_bind (reader_lift this)]
  rfl

theorem parseBinder_shared (hE : PlainEnv E) {b : Binder} {bs : List (String × Srt)} {t : Term} {ts rest : List Token} {F F' : List (String × FunDef)} {n : Nat}
    (ht : parseTerm (if b = .lambda then n + 1 else n) (E.bind bs) ⟨ts ++ .closeParen :: rest, F⟩ = .ok (t, ⟨.closeParen :: rest, F'⟩)) (hw : t.smallWidths)
    (hs : (sortOf (.binder b bs t)).isSome = true) (hbs : ∀ v ∈ bs, v.2.Known E) (hn : 2 * (bs.map varTokens).flatten.length ≤ n) :
    parseBinder (n + 2) E b ⟨.openParen :: ((bs.map varTokens).flatten ++ .closeParen :: (ts ++ .closeParen :: rest)), F⟩ =
      .ok (.binder b bs t, ⟨rest, F'⟩) := by
  have vars : parseSortedVars (n + 1) E ⟨(bs.map varTokens).flatten ++ .closeParen :: (ts ++ .closeParen :: rest), F⟩ =
      .ok (bs, ⟨ts ++ .closeParen :: rest, F⟩) := parseSortedVars_tokens hE hbs (by omega)
  rw [parseBinder, reader_bind expect_cons]
  have several : bs ≠ [] → (do
      let bs ← parseSortedVars (n + 1) E
      nonEmpty bs : Reader _) (ReadState.mk ((bs.map varTokens).flatten ++ .closeParen :: (ts ++ .closeParen :: rest)) F) =
      .ok (bs, ⟨ts ++ .closeParen :: rest, F⟩) := fun hne => by rw [reader_bind vars, nonEmpty_ok hne]
  simp only [sortOf] at hs
  split at hs
  · next hb =>
    rw [if_neg (by simp)] at ht
    rw [if_neg (by simp), reader_bind (several (by simp)), if_neg (by simp), reader_bind (parseSorted_shared ht hb hw),
      reader_bind expect_cons]
    rfl
  · next hb =>
    rw [if_neg (by simp)] at ht
    rw [if_neg (by simp), reader_bind (several (by simp)), if_neg (by simp), reader_bind (parseSorted_shared ht hb hw),
      reader_bind expect_cons]
    rfl
  · next x s hb =>
    have one : (do
        let v ← parseSortedVar (n + 1) E
        expect .closeParen
        pure [v] : Reader _) (ReadState.mk (([(x, s)].map varTokens).flatten ++ .closeParen :: (ts ++ .closeParen :: rest)) F) =
        .ok ([(x, s)], ⟨ts ++ .closeParen :: rest, F⟩) := by
      simp only [List.map_cons, List.map_nil, List.flatten_cons, List.flatten_nil, List.append_nil] at hn ⊢
      rw [reader_bind (parseSortedVar_tokens hE (hbs (x, s) (by simp)) (by omega)), reader_bind expect_cons]
      rfl
    rw [if_neg (by simp)] at ht
    rw [if_pos rfl, reader_bind one, if_neg (by simp), reader_bind (parseSorted_shared ht hb hw), reader_bind expect_cons]
    rfl
  · rw [if_pos rfl] at ht
    rw [if_neg (by simp), reader_bind (several (by simp)), if_pos rfl, reader_bind ht, reader_bind expect_cons]
    rfl
  · cases hs

theorem readsShared_binder (hE : PlainEnv E) {b : Binder} {bs : List (String × Srt)} {t : Term} (hw : Writable [] F0 E (.binder b bs t))
    (ht : ReadsShared S strict F0 (E.bind bs) t) : ReadsShared S strict F0 E (.binder b bs t) := by
  have hk := hw.known
  rw [Term.Known] at hk
  obtain ⟨hbs, -⟩ := knownName_none rfl hk
  refine readShared_wrap (fun L => by rw [Term.sharedTokens]) fun k L F hF hk n rest hn => ?_
  have et : parens [[b.token], parens (bs.map fun p => parens [[.symbol p.1], p.2.tokens]), (t.sharedTokens S strict L).1] ++ rest =
      .openParen :: b.token :: .openParen :: ((bs.map varTokens).flatten ++ .closeParen :: ((t.sharedTokens S strict L).1 ++ .closeParen :: rest)) := by
    have : varTokens = fun p => parens [[.symbol p.1], p.2.tokens] := rfl
    simp [parens, this]
  have el : (parens [[b.token], parens (bs.map fun p => parens [[.symbol p.1], p.2.tokens]), (t.sharedTokens S strict L).1]).length =
      (bs.map varTokens).flatten.length + (t.sharedTokens S strict L).1.length + 5 := by
    have : varTokens = fun p => parens [[.symbol p.1], p.2.tokens] := rfl
    simp [parens, this]
    omega
  have hsz : sizeOf t < sizeOf (Term.binder b bs t) := by simp only [Term.binder.sizeOf_spec]; omega
  simp only [el] at hn
  simp only [et]
  obtain ⟨n, rfl⟩ := Nat.exists_eq_add_of_le (show 4 ≤ n by omega)
  obtain ⟨F', h2, g⟩ := ht k L F hF (by omega) (if b = .lambda then n + 1 else n) (.closeParen :: rest) (by split <;> omega)
  refine ⟨F', ?_, g.mono (by omega)⟩
  have hw' := hw.asRead (strict := strict)
  rw [asRead_binder] at hw' ⊢
  have := parseBinder_shared hE h2 (smallWidths_sub hw'.small subterms_binder) hw'.sorted hbs (by omega)
  rw [Nat.add_comm 4 n, parseTerm, reader_bind next_cons]
  simp only
  rw [parseApplication, reader_bind current_cons]
  cases b <;> (simp only [Binder.token]; rw [reader_bind next_cons]; exact this)

/-! ### Indexed operators -/

theorem sizeOf_mem_paramOp {o : ParamOp} {ps as : List Term} {a : Term} (h : a ∈ as) : sizeOf a ≤ sizeOf (Term.paramOp o ps as) - 1 := by
  have := List.sizeOf_lt_of_mem h
  simp only [Term.paramOp.sizeOf_spec]
  omega

theorem sizeOf_mem_param {o : ParamOp} {ps as : List Term} {a : Term} (h : a ∈ ps) : sizeOf a ≤ sizeOf (Term.paramOp o ps as) - 1 := by
  have := List.sizeOf_lt_of_mem h
  simp only [Term.paramOp.sizeOf_spec]
  omega

theorem shape_paramOp {o : ParamOp} {ps as : List Term} (hs : (sortOf (.paramOp o ps as)).isSome = true) :
    o ≠ .bvConst ∧ ps ≠ [] ∧ as ≠ [] ∧ ∀ p ∈ ps, ∃ z, p = .const (.int z) := by
  obtain ⟨s, hs⟩ := Option.isSome_iff_exists.1 hs
  simp only [sortOf] at hs
  split at hs
  · next ss hl =>
    obtain ⟨h1, h2, h3, h4⟩ := popSort_shape hs
    exact ⟨h1, h2, fun e => h3 (by subst e; simpa [sortOfL] using hl.symm), h4⟩
  · cases hs

theorem readsShared_paramOp {o : ParamOp} {ps as : List Term} (hw : Writable [] F0 E (.paramOp o ps as)) (hps : ∀ a ∈ ps, ReadsShared S strict F0 E a)
    (has : ∀ a ∈ as, ReadsShared S strict F0 E a) : ReadsShared S strict F0 E (.paramOp o ps as) := by
  have hw' := hw.asRead (strict := strict)
  rw [asRead_paramOp] at hw'
  obtain ⟨s, hs⟩ := Option.isSome_iff_exists.1 hw'.sorted
  have make := makeIndexedOp_ok hs hw'.small
  rw [← asRead_paramOp] at make
  obtain ⟨ho, hpn, han, hint⟩ := shape_paramOp hw.sorted
  refine readShared_wrap (fun L => by rw [Term.sharedTokens]) fun k L F hF hk n rest hn => ?_
  have hne' : as.isEmpty = false := by cases as <;> first | rfl | exact absurd rfl han
  simp only [hne', Bool.false_eq_true, if_false, parens_length, List.flatten_cons, List.length_append, List.length_singleton] at hn ⊢
  obtain ⟨n, rfl⟩ := Nat.exists_eq_add_of_le (show 4 ≤ n by omega)
  have h1 : 1 ≤ sizeOf (Term.paramOp o ps as) := by simp only [Term.paramOp.sizeOf_spec]; omega
  obtain ⟨F1, params, g1⟩ := parseTerms_shared (m := sizeOf (Term.paramOp o ps as) - 1) hps (fun a ha => sizeOf_mem_param ha) hF (by omega)
    (n := n + 1) (rest := (Term.sharedTokensL S strict as (Term.sharedTokensL S strict ps L).2).1.flatten ++ .closeParen :: rest) (by omega)
  obtain ⟨F2, args, g2⟩ := parseTerms_shared (m := sizeOf (Term.paramOp o ps as) - 1) has (fun a ha => sizeOf_mem_paramOp ha) (hF.grow g1) (by omega)
    (n := n + 2) (rest := rest) (by omega)
  refine ⟨F2, ?_, (g1.trans g2).mono (by omega)⟩
  have et : parens (parens ([.reserved .underscore] :: [.symbol o.name] :: (Term.sharedTokensL S strict ps L).1) ::
      (Term.sharedTokensL S strict as (Term.sharedTokensL S strict ps L).2).1) ++ rest = .openParen :: .openParen :: .reserved .underscore :: .symbol o.name ::
        ((Term.sharedTokensL S strict ps L).1.flatten ++ .closeParen :: ((Term.sharedTokensL S strict as (Term.sharedTokensL S strict ps L).2).1.flatten ++ .closeParen :: rest)) := by
    simp [parens]
  have : parseIndexed (n + 2) E ⟨.symbol o.name :: ((Term.sharedTokensL S strict ps L).1.flatten ++ .closeParen ::
      ((Term.sharedTokensL S strict as (Term.sharedTokensL S strict ps L).2).1.flatten ++ .closeParen :: rest)), F⟩ =
      .ok ((o, ps), ⟨(Term.sharedTokensL S strict as (Term.sharedTokensL S strict ps L).2).1.flatten ++ .closeParen :: rest, F1⟩) := by
    rw [parseIndexed, reader_bind expectSymbol_cons, reader_bind (reader_lift (ParamOp.name_head ho))]
    simp only
    rw [reader_bind params, asRead_indices hw.sorted, reader_bind (nonEmpty_ok hpn), reader_bind (reader_lift (constantArgs_ints hint))]
    rfl
  rw [et, Nat.add_comm 4 n, parseTerm, reader_bind next_cons]
  simp only
  rw [parseApplication, reader_bind current_cons]
  simp only
  rw [reader_bind next_cons, reader_bind current_cons]
  simp only
  rw [reader_bind next_cons, reader_bind this]
  simp only
  rw [reader_bind args, reader_bind (nonEmpty_ok (by simpa using han))]
  exact reader_lift make

/-! ### Lets -/

theorem parseBindings_shared {m : Nat} : ∀ {bs : List (String × Term)}, (∀ b ∈ bs, ReadsShared S strict F0 E b.2) → (∀ b ∈ bs, sizeOf b.2 ≤ m) →
    ∀ {k : Nat} {L : List Term} {F : List (String × FunDef)}, Knows65 S strict F0 k L F → m < k → ∀ {n : Nat} {rest : List Token},
    2 * (Term.sharedTokensB S strict bs L).1.flatten.length + 1 ≤ n →
    ∃ F', parseBindings n E ⟨(Term.sharedTokensB S strict bs L).1.flatten ++ .closeParen :: rest, F⟩ = .ok (bs.map fun b => (b.1, b.2.asRead strict), ⟨rest, F'⟩) ∧
      Grows S strict m L F (Term.sharedTokensB S strict bs L).2 F'
  | _, _, _, _, _, _, _, _, 0, _, hn => by omega
  | [], _, _, _, L, F, _, _, n + 1, rest, _ => ⟨F, by
      rw [Term.sharedTokensB]
      simp only [List.flatten_nil, List.nil_append]
      rw [parseBindings, reader_bind current_cons, if_pos rfl, reader_bind next_cons]
      rfl, by rw [Term.sharedTokensB]; exact .refl⟩
  | (x, a) :: bs, h, hm, k, L, F, hF, hk, n + 1, rest, hn => by
    have e1 : (Term.sharedTokensB S strict ((x, a) :: bs) L).1 = parens [[.symbol x], (a.sharedTokens S strict L).1] :: (Term.sharedTokensB S strict bs (a.sharedTokens S strict L).2).1 := by
      rw [Term.sharedTokensB]
    have e2 : (Term.sharedTokensB S strict ((x, a) :: bs) L).2 = (Term.sharedTokensB S strict bs (a.sharedTokens S strict L).2).2 := by rw [Term.sharedTokensB]
    rw [e1] at hn ⊢
    rw [e2]
    simp only [List.flatten_cons, List.flatten_nil, List.append_nil, List.length_append, List.length_cons, List.length_nil, parens_length] at hn
    obtain ⟨F1, h1, g1⟩ := h (x, a) (by simp) k L F hF (Nat.lt_of_le_of_lt (hm (x, a) (by simp)) hk) n
      (.closeParen :: ((Term.sharedTokensB S strict bs (a.sharedTokens S strict L).2).1.flatten ++ .closeParen :: rest)) (by simp only; omega)
    obtain ⟨F2, h2, g2⟩ := parseBindings_shared (bs := bs) (fun b hb => h b (by simp [hb])) (fun b hb => hm b (by simp [hb])) (hF.grow g1) hk
      (n := n) (rest := rest) (by simp only; omega)
    refine ⟨F2, ?_, (g1.mono (hm (x, a) (by simp))).trans g2⟩
    simp only [List.flatten_cons, List.append_assoc, parens_append, List.flatten_nil, List.append_nil, List.cons_append, List.nil_append]
    rw [parseBindings, reader_bind current_cons, if_neg (by simp), reader_bind expect_cons, reader_bind expectSymbol_cons, reader_bind h1,
      reader_bind expect_cons, reader_bind h2]
    rfl

theorem sizeOf_mem_let {bs : List (String × Term)} {t : Term} {b : String × Term} (h : b ∈ bs) : sizeOf b.2 ≤ sizeOf (Term.let_ bs t) - 1 := by
  have := List.sizeOf_lt_of_mem h
  obtain ⟨x, a⟩ := b
  simp only [Prod.mk.sizeOf_spec] at this
  simp only [Term.let_.sizeOf_spec]
  omega

theorem readsShared_let (hE : PlainEnv E) {bs : List (String × Term)} {t : Term} (hw : Writable [] F0 E (.let_ bs t))
    (hbs : ∀ b ∈ bs, ReadsShared S strict F0 E b.2) (ht : ReadsShared S strict F0 (E.bind (letSorts bs)) t) : ReadsShared S strict F0 E (.let_ bs t) := by
  have hk := hw.known
  rw [Term.Known] at hk
  obtain ⟨hexp, hne, -, -⟩ := knownName_none rfl hk
  have hw' := hw.asRead (strict := strict)
  rw [asRead_let] at hw'
  have hB : sortOfB (bs.map fun b => (b.1, b.2.asRead strict)) = true := by
    have := hw'.sorted
    simp only [sortOf] at this
    split at this
    · assumption
    · cases this
  have small : ∀ b ∈ bs.map fun b => (b.1, b.2.asRead strict), b.2.smallWidths := fun b hb => smallWidths_sub hw'.small (subterms_let (.inr ⟨b, hb, rfl⟩))
  have hL : letSorts (bs.map fun b => (b.1, b.2.asRead strict)) = letSorts bs := by
    rw [letSorts, letSorts, List.filterMap_map]
    exact List.filterMap_congr fun b hb => by simp [sortOf_asRead ((sorted_let hw.sorted).1 b hb)]
  refine readShared_wrap (fun L => by rw [Term.sharedTokens]) fun k L F hF hk n rest hn => ?_
  have et : parens [[.reserved .let], parens (Term.sharedTokensB S strict bs L).1, (t.sharedTokens S strict (Term.sharedTokensB S strict bs L).2).1] ++ rest =
      .openParen :: .reserved .let :: .openParen :: ((Term.sharedTokensB S strict bs L).1.flatten ++ .closeParen ::
        ((t.sharedTokens S strict (Term.sharedTokensB S strict bs L).2).1 ++ .closeParen :: rest)) := by simp [parens]
  simp only [parens_length, List.flatten_cons, List.flatten_nil, List.append_nil, List.length_append, List.length_cons, List.length_nil] at hn
  simp only [et]
  have hsz : sizeOf t < sizeOf (Term.let_ bs t) := by simp only [Term.let_.sizeOf_spec]; omega
  obtain ⟨n, rfl⟩ := Nat.exists_eq_add_of_le (show 3 ≤ n by omega)
  obtain ⟨F1, h1, g1⟩ := parseBindings_shared (m := sizeOf (Term.let_ bs t) - 1) hbs (fun b hb => sizeOf_mem_let hb) hF (by omega) (n := n)
    (rest := (t.sharedTokens S strict (Term.sharedTokensB S strict bs L).2).1 ++ .closeParen :: rest) (by omega)
  obtain ⟨F2, h2, g2⟩ := ht k _ F1 (hF.grow g1) (by omega) n (.closeParen :: rest) (by omega)
  refine ⟨F2, ?_, (g1.trans (g2.mono (by omega))).mono (by omega)⟩
  rw [Nat.add_comm 3 n, parseTerm, reader_bind next_cons]
  simp only
  rw [parseApplication, reader_bind current_cons]
  simp only
  rw [reader_bind next_cons]
  simp only [hexp]
  rw [← hL] at h2
  rw [parseLet, reader_bind expect_cons, reader_bind h1, reader_bind (nonEmpty_ok (by simpa using hne)), reader_bind (reader_lift (letVars_ok hB small)),
    reader_bind h2, reader_bind expect_cons, asRead_let]
  rfl

theorem Term.varHeadsL_iff {as : List Term} : Term.varHeadsL as = true ↔ ∀ a ∈ as, a.varHeads = true := by
  induction as with
  | nil => simp [Term.varHeadsL]
  | cons a as ih => simp [Term.varHeadsL, ih]

theorem Term.varHeadsB_iff {bs : List (String × Term)} : Term.varHeadsB bs = true ↔ ∀ b ∈ bs, b.2.varHeads = true := by
  induction bs with
  | nil => simp [Term.varHeadsB]
  | cons b bs ih => obtain ⟨x, a⟩ := b; simp [Term.varHeadsB, ih]

theorem Term.mem_boundNamesB65 {bs : List (String × Term)} {x : String} : x ∈ Term.boundNamesB bs ↔ ∃ b ∈ bs, x ∈ b.2.boundNames := by
  induction bs with
  | nil => simp [Term.boundNamesB]
  | cons b bs ih => obtain ⟨y, a⟩ := b; simp [Term.boundNamesB, ih]

/-- **A term that is printed with sharing is read as itself.** -/
theorem readsShared (hS : S.OK) (t : Term) : ∀ {E : PEnv}, PlainEnv E → Writable [] F0 E t → t.varHeads = true → S.Apart E t → ReadsShared S strict F0 E t := by
  induction t using Term.ind with
  | const c => exact fun hE hw _ _ => readsShared_const hE hw
  | var x s => exact fun hE hw _ ha => readsShared_var hE ha.free hw
  | app f as _ ih =>
    intro E hE hw hs ha
    cases f with
    | var x s =>
      have hk := hw.known
      rw [Term.Known] at hk
      obtain ⟨-, -, -, hak⟩ := knownName_none rfl hk
      have ⟨_, hss⟩ := sorted_app hw.sorted
      rw [Term.varHeads, Term.varHeadsL_iff] at hs
      exact readsShared_app hE ha.free hw fun a ha' => ih a ha' hE
        ⟨hss a ha', smallWidths_sub hw.small (subterms_app (.inr ha')), Term.knownL_iff.1 hak a ha'⟩ (hs a ha')
        ⟨ha.free, fun x hx => ha.bound x (by simp only [Term.boundNames, List.mem_append, Term.mem_boundNamesL]; exact .inr ⟨a, ha', hx⟩)⟩
    | _ => simp [Term.varHeads] at hs
  | op o as ih =>
    intro E hE hw hs ha
    have hk := hw.known
    rw [Term.Known] at hk
    obtain ⟨-, hak⟩ := knownName_none rfl hk
    rw [Term.varHeads, Term.varHeadsL_iff] at hs
    exact readsShared_op hS hE hw fun a ha' => ih a ha' hE ⟨sorted_op_mem hw.sorted ha', smallWidths_sub hw.small (subterms_op ha'),
      Term.knownL_iff.1 hak a ha'⟩ (hs a ha') ⟨ha.free, fun x hx => ha.bound x (by simp only [Term.boundNames, Term.mem_boundNamesL]; exact ⟨a, ha', hx⟩)⟩
  | binder b bs t ih =>
    intro E hE hw hs ha
    have hk := hw.known
    rw [Term.Known] at hk
    obtain ⟨-, hk⟩ := knownName_none rfl hk
    rw [Term.varHeads] at hs
    refine readsShared_binder hE hw (ih (hE.bind _) ⟨sorted_binder hw.sorted, smallWidths_sub hw.small subterms_binder, hk⟩ hs ⟨fun i => ?_, fun x hx => ha.bound x ?_⟩)
    · rw [lookup_bind_not_mem fun v hv => ha.bound v.1 (by
        simp only [Term.boundNames, List.mem_append, List.mem_map]
        exact .inl ⟨v, hv, rfl⟩) i, ha.free i]
    · simp only [Term.boundNames, List.mem_append]
      exact .inr hx
  | let_ bs t ihb ih =>
    intro E hE hw hs ha
    have hk := hw.known
    rw [Term.Known] at hk
    obtain ⟨-, -, hbk, hk⟩ := knownName_none rfl hk
    have ⟨hb, hts⟩ := sorted_let hw.sorted
    rw [Term.varHeads, Bool.and_eq_true, Term.varHeadsB_iff] at hs
    refine readsShared_let hE hw (fun b hb' => ihb b hb' hE ⟨hb b hb', smallWidths_sub hw.small (subterms_let (.inr ⟨b, hb', rfl⟩)), Term.knownB_iff.1 hbk b hb'⟩
      (hs.1 b hb') ⟨ha.free, fun x hx => ha.bound x ?_⟩) (ih (hE.bind _) ⟨hts, smallWidths_sub hw.small (subterms_let (.inl rfl)), hk⟩ hs.2
      ⟨fun i => ?_, fun x hx => ha.bound x ?_⟩)
    · simp only [Term.boundNames, List.mem_append, Term.mem_boundNamesB65]
      exact .inl (.inr ⟨b, hb', hx⟩)
    · rw [lookup_bind_not_mem fun v hv => ?_, ha.free i]
      obtain ⟨b, hb, e⟩ := List.mem_filterMap.1 hv
      obtain ⟨s, -, rfl⟩ := Option.map_eq_some_iff.1 e
      refine ha.bound b.1 ?_ i
      simp only [Term.boundNames, List.mem_append, List.mem_map]
      exact .inl (.inl ⟨b, hb, rfl⟩)
    · simp only [Term.boundNames, List.mem_append]
      exact .inr hx
  | paramOp o ps as ihp ih =>
    intro E hE hw hs ha
    have hk := hw.known
    rw [Term.Known] at hk
    obtain ⟨hpk, hak⟩ := knownName_none rfl hk
    rw [Term.varHeads, Bool.and_eq_true, Term.varHeadsL_iff, Term.varHeadsL_iff] at hs
    have hss := sorted_paramOp hw.sorted
    obtain ⟨-, -, -, hint⟩ := shape_paramOp hw.sorted
    refine readsShared_paramOp hw (fun a ha' => ?_) fun a ha' => ih a ha' hE ⟨hss a ha', smallWidths_sub hw.small (subterms_paramOp ha'),
      Term.knownL_iff.1 hak a ha'⟩ (hs.2 a ha') ⟨ha.free, fun x hx => ha.bound x (by
        simp only [Term.boundNames, List.mem_append, Term.mem_boundNamesL]; exact .inr ⟨a, ha', hx⟩)⟩
    obtain ⟨z, rfl⟩ := hint a ha'
    refine readsShared_const hE ⟨rfl, fun u hu w e => ?_, Term.knownL_iff.1 hpk _ ha'⟩
    simp only [Term.subterms, List.mem_singleton] at hu
    subst hu
    simp [sortOf, Const.sort] at e

end

end Carcara
