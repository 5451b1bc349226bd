import Verif.Spec.Expansion
import Verif.Lemmas.FreeVarsModel
import Verif.Lemmas.FileParserPrint
import Verif.Lemmas.Holds
import Verif.Lemmas.Substitution

/-!
# Expanding definitions while a problem is read
-/

namespace Carcara
open PRes Reader

theorem Term.expandedL_eq {F : List (String × FunDef)} {as : List Term} : Term.expandedL F as = as.map (Term.expanded F) := by
  induction as with
  | nil => rfl
  | cons a as ih => rw [Term.expandedL, ih, List.map_cons]

theorem Term.simpleL_iff {as : List Term} : Term.simpleL as = true ↔ ∀ a ∈ as, a.simple = true := by
  induction as with
  | nil => simp [Term.simpleL]
  | cons a as ih => simp [Term.simpleL, ih]

theorem lookup_bind {E : PEnv} {bs : List (String × Srt)} {x : String} : (E.bind bs).vars.lookup x = (bs.reverse.lookup x).or (E.vars.lookup x) := by
  rw [PEnv.bind, List.lookup_append]

theorem lookup_not_mem {bs : List (String × Srt)} {x : String} (h : ∀ b ∈ bs, b.1 ≠ x) : bs.lookup x = none := by
  rw [List.lookup_eq_none_iff]
  intro b hb
  simpa using fun e : x = b.1 => h b hb e.symm

theorem lookup_bind_not_mem {E : PEnv} {bs : List (String × Srt)} {x : String} (h : ∀ b ∈ bs, b.1 ≠ x) :
    (E.bind bs).vars.lookup x = E.vars.lookup x := by
  rw [lookup_bind, lookup_not_mem (fun b hb => h b (by simpa using hb)), Option.none_or]

theorem mem_of_lookup63 {bs : List (String × Srt)} {x : String} {s : Srt} (h : bs.lookup x = some s) : (x, s) ∈ bs := by
  obtain ⟨l1, l2, rfl, _⟩ := List.lookup_eq_some_iff.1 h
  simp

mutual
theorem Srt.Known.congr {E E' : PEnv} (h1 : E'.sortDecls = E.sortDecls) (h2 : E'.sortDefs = E.sortDefs) : ∀ {s : Srt}, s.Known E → s.Known E'
  | .bool, _ | .int, _ | .real, _ | .string, _ | .regLan, _ => trivial
  | .rareList, h | .fn _ _, h => h.elim
  | .bv _, h => by
    rw [Srt.Known] at h ⊢
    exact h
  | .array i e, h => by
    rw [Srt.Known] at h ⊢
    exact ⟨h.1.congr h1 h2, h.2.congr h1 h2⟩
  | .atom n as, h => by
    rw [Srt.Known] at h ⊢
    rw [h1, h2]
    exact ⟨h.1, h.2.1, h.2.2.1, Srt.knownL_congr h1 h2 h.2.2.2⟩
theorem Srt.knownL_congr {E E' : PEnv} (h1 : E'.sortDecls = E.sortDecls) (h2 : E'.sortDefs = E.sortDefs) : ∀ {ss : List Srt}, Srt.KnownL E ss →
    Srt.KnownL E' ss
  | [], _ => trivial
  | s :: ss, h => ⟨h.1.congr h1 h2, Srt.knownL_congr h1 h2 h.2⟩
end

/-- `Ed` and `F` know together what `Ef` knows: `Ef` has as variables the names that `F` defines. The names in `N` must not be bound. -/
structure Defining (N : String → Prop) (F : List (String × FunDef)) (Ed Ef : PEnv) : Prop where
  plain : PlainEnv Ed
  decls : Ed.sortDecls = Ef.sortDecls
  sdefs : Ed.sortDefs = Ef.sortDefs
  defn : ∀ x f, F.lookup x = some f → N x ∧ Op.ofName x = none ∧ Ed.vars.lookup x = none ∧ ∃ d s, f = ⟨[], d⟩ ∧ sortOf d = some s ∧
    (∀ ss r, s ≠ .fn ss r) ∧ d.smallWidths ∧ Ef.vars.lookup x = some s ∧ ∀ v ∈ d.fv, N v.1 ∧ Ed.vars.lookup v.1 = some v.2
  vars : ∀ x, F.lookup x = none → Ed.vars.lookup x = Ef.vars.lookup x

section
variable {N : String → Prop} {F : List (String × FunDef)} {Ed Ef : PEnv}

theorem Defining.bind (h : Defining N F Ed Ef) {bs : List (String × Srt)} (hb : ∀ b ∈ bs, ¬ N b.1) : Defining N F (Ed.bind bs) (Ef.bind bs) := by
  have hx : ∀ {E : PEnv} {x : String}, N x → (E.bind bs).vars.lookup x = E.vars.lookup x := fun {E x} hn =>
    lookup_bind_not_mem fun b hb' e => hb b hb' (e ▸ hn)
  refine ⟨h.plain.bind _, h.decls, h.sdefs, fun x f hf => ?_, fun x hx => ?_⟩
  · obtain ⟨h1, h2, h3, d, s, h4, h5, h6, h7, h8, h9⟩ := h.defn x f hf
    exact ⟨h1, h2, by rw [hx h1, h3], d, s, h4, h5, h6, h7, by rw [hx h1, h8], fun v hv => ⟨(h9 v hv).1, by rw [hx (h9 v hv).1, (h9 v hv).2]⟩⟩
  · rw [lookup_bind, lookup_bind, h.vars x hx]

theorem smallWidths_op {o : Op} {as : List Term} (h : ∀ a ∈ as, a.smallWidths) (hs : ∀ w, sortOf (.op o as) = some (.bv w) → w < 2 ^ 64) :
    (Term.op o as).smallWidths := by
  intro u hu w hw
  simp only [Term.subterms, List.mem_cons, Term.mem_subtermsL] at hu
  rcases hu with rfl | ⟨a, ha, hu⟩
  · exact hs w hw
  · exact h a ha u hu w hw

theorem smallWidths_app {f : Term} {as : List Term} (hf : f.smallWidths) (h : ∀ a ∈ as, a.smallWidths)
    (hs : ∀ w, sortOf (.app f as) = some (.bv w) → w < 2 ^ 64) : (Term.app f as).smallWidths := by
  intro u hu w hw
  simp only [Term.subterms, List.mem_cons, List.mem_append, Term.mem_subtermsL] at hu
  rcases hu with rfl | hu | ⟨a, ha, hu⟩
  · exact hs w hw
  · exact hf u hu w hw
  · exact h a ha u hu w hw

theorem smallWidths_binder {b : Binder} {bs : List (String × Srt)} {t : Term} (h : t.smallWidths)
    (hs : ∀ w, sortOf (.binder b bs t) = some (.bv w) → w < 2 ^ 64) : (Term.binder b bs t).smallWidths := by
  intro u hu w hw
  simp only [Term.subterms, List.mem_cons] at hu
  rcases hu with rfl | hu
  · exact hs w hw
  · exact h u hu w hw

theorem smallWidths_self {t : Term} (h : t.smallWidths) : ∀ w, sortOf t = some (.bv w) → w < 2 ^ 64 := by
  intro w hw
  refine h t ?_ w hw
  cases t <;> simp [Term.subterms]

theorem sortOf_op_congr {o : Op} {as as' : List Term} (h : sortOfL as' = sortOfL as)
    (hc : ∀ a w, as = [a, .const (.int w)] → ∃ a', as' = [a', .const (.int w)]) (hs : (sortOf (.op o as)).isSome = true) :
    sortOf (.op o as') = sortOf (.op o as) := by
  by_cases ho : o = .bvConst
  · subst ho
    simp only [sortOf] at hs ⊢
    split at hs
    · next a w e =>
      obtain ⟨a', rfl⟩ := hc a w rfl
      rw [h, e]
    · cases hs
  · rw [sortOf_op_eq ho, sortOf_op_eq ho, h]

/-- What is proved of a term. -/
structure ExpandsTo (F : List (String × FunDef)) (Ed : PEnv) (t : Term) : Prop where
  sort : sortOf (t.expanded F) = sortOf t
  small : (t.expanded F).smallWidths
  free : ∀ v ∈ (t.expanded F).fv, Ed.vars.lookup v.1 = some v.2
  reads : ∀ (n : Nat) (rest : List Token), 2 * (t.tokens false []).length ≤ n → parseTerm n Ed ⟨t.tokens false [] ++ rest, F⟩ = .ok (t.expanded F, ⟨rest, F⟩)

theorem parseTerms_expanded : ∀ {as : List Term}, (∀ a ∈ as, ExpandsTo F Ed a) →
    ∀ {n : Nat} {rest : List Token}, 2 * (Term.tokensL false [] as).flatten.length + 1 ≤ n →
    parseTerms n Ed ⟨(Term.tokensL false [] as).flatten ++ .closeParen :: rest, F⟩ = .ok (Term.expandedL F as, ⟨rest, F⟩)
  | _, _, 0, _, hn => by omega
  | [], _, n + 1, rest, _ => parseTerms_close _ _
  | a :: as, h, n + 1, rest, hn => by
    simp only [Term.tokensL, List.flatten_cons, List.length_append] at hn
    obtain ⟨t, ts, e, ht, _⟩ := a.tokens_head (D := [])
    have h1 := (h a (by simp)).reads n ((Term.tokensL false [] as).flatten ++ .closeParen :: rest) (by omega)
    have h2 := parseTerms_expanded (as := as) (fun b hb => h b (by simp [hb])) (n := n) (rest := rest) (by
      rw [e, List.length_cons] at hn
      omega)
    simp only [Term.tokensL, List.flatten_cons, List.append_assoc]
    rw [e] at h1 ⊢
    exact parseTerms_cons ht h1 h2

theorem sortOfL_expanded {as : List Term} (h : ∀ a ∈ as, ExpandsTo F Ed a) : sortOfL (Term.expandedL F as) = sortOfL as := by
  induction as with
  | nil => rfl
  | cons a as ih => rw [Term.expandedL, sortOfL, sortOfL, (h a (by simp)).sort, ih fun b hb => h b (by simp [hb])]

theorem mem_expandedL {as : List Term} {b : Term} (h : b ∈ Term.expandedL F as) : ∃ a ∈ as, b = a.expanded F := by
  rw [Term.expandedL_eq, List.mem_map] at h
  obtain ⟨a, ha, e⟩ := h
  exact ⟨a, ha, e.symm⟩

theorem expandsTo_const {c : Const} (hE : PlainEnv Ed) (hw : Writable [] [] Ef (.const c)) : ExpandsTo F Ed (.const c) := by
  refine ⟨rfl, hw.small, by simp [Term.expanded, Term.fv], fun n rest hn => ?_⟩
  have hk := hw.known
  rw [Term.Known] at hk
  exact readsTerm (D := []) (F := F) (.const c) Ed hE ⟨rfl, hw.small, by rw [Term.Known]; exact hk⟩ n rest hn

theorem expandsTo_var (h : Defining N F Ed Ef) {x : String} {s : Srt} (hw : Writable [] [] Ef (.var x s)) : ExpandsTo F Ed (.var x s) := by
  have hk := hw.known
  rw [Term.Known] at hk
  obtain ⟨-, h2, h3⟩ := hk
  cases hF : F.lookup x with
  | none =>
    have e : (Term.var x s).expanded F = .var x s := by rw [Term.expanded, hF]
    have hl : Ed.vars.lookup x = some s := by rw [h.vars x hF, h3]
    refine ⟨by rw [e], by rw [e]; exact hw.small, ?_, fun n rest hn => ?_⟩
    · rw [e]
      simp [Term.fv, hl]
    · rw [e]
      exact readsTerm (D := []) (F := F) (.var x s) Ed h.plain ⟨rfl, hw.small, by rw [Term.Known]; exact ⟨hF, h2, hl⟩⟩ n rest hn
  | some f =>
    obtain ⟨h4, h5, h6, d, s', rfl, h7, h8, h9, h10, h11⟩ := h.defn x f hF
    rw [h10] at h3
    cases h3
    have e : (Term.var x s).expanded F = d := by rw [Term.expanded, hF]
    refine ⟨by rw [e, h7]; rfl, by rw [e]; exact h9, ?_, fun n rest hn => ?_⟩
    · rw [e]
      exact fun v hv => (h11 v hv).2
    · rw [e]
      have : (Term.var x s).tokens false [] = [.symbol x] := rfl
      rw [this] at hn ⊢
      obtain ⟨n, rfl⟩ := Nat.exists_eq_add_of_le (show 1 ≤ n by simp only [List.length_cons] at hn; omega)
      rw [List.cons_append, List.nil_append, Nat.add_comm 1 n, parseTerm, reader_bind next_cons]
      simp only
      rw [reader_bind definition_eq, hF]
      exact reader_lift rfl

theorem expandsTo_op (h : Defining N F Ed Ef) {o : Op} {as : List Term} (hw : Writable [] [] Ef (.op o as)) (has : ∀ a ∈ as, ExpandsTo F Ed a) :
    ExpandsTo F Ed (.op o as) := by
  have e : (Term.op o as).expanded F = .op o (Term.expandedL F as) := by rw [Term.expanded]
  have hk := hw.known
  rw [Term.Known] at hk
  obtain ⟨hk0, -⟩ := knownName_none rfl hk
  obtain ⟨s, hs⟩ := Option.isSome_iff_exists.1 hw.sorted
  have hsort : sortOf (.op o (Term.expandedL F as)) = sortOf (.op o as) := by
    refine sortOf_op_congr (sortOfL_expanded has) (fun a w ea => ?_) hw.sorted
    subst ea
    exact ⟨a.expanded F, rfl⟩
  have hsmall : (Term.op o (Term.expandedL F as)).smallWidths := by
    refine smallWidths_op (fun b hb => ?_) ?_
    · obtain ⟨a, ha, rfl⟩ := mem_expandedL hb
      exact (has a ha).small
    · rw [hsort]
      exact smallWidths_self hw.small
  have make := makeOp_ok h.plain.strict h.plain.ints (hsort.trans hs) hsmall
  refine ⟨by rw [e, hsort], by rw [e]; exact hsmall, ?_, fun n rest hn => ?_⟩
  · rw [e]
    intro v hv
    simp only [Term.fv, Term.mem_fvL] at hv
    obtain ⟨b, hb, hv⟩ := hv
    obtain ⟨a, ha, rfl⟩ := mem_expandedL hb
    exact (has a ha).free v hv
  rw [e]
  by_cases hne : as = []
  · subst hne
    obtain ⟨ho, -⟩ := hk0 rfl
    have hl : F.lookup o.name = none := by
      cases hF : F.lookup o.name with
      | none => rfl
      | some f =>
        have := (h.defn _ f hF).2.1
        rw [Op.ofName_name] at this
        cases this
    obtain ⟨n, rfl⟩ := Nat.exists_eq_add_of_le (show 1 ≤ n by have := tokens_pos (D := []) (.op o []); omega)
    have ht : o.token = .symbol o.name := by cases o <;> first | rfl | exact absurd rfl ho
    rw [Term.tokens, named_none rfl, if_pos (by rfl), ht, List.cons_append, List.nil_append, Nat.add_comm 1 n, parseTerm, reader_bind next_cons]
    simp only
    rw [reader_bind definition_eq, hl]
    simp only [Op.ofName_name]
    exact reader_lift make
  · have hne' : as.isEmpty = false := by cases as <;> first | rfl | exact absurd rfl hne
    have et : (Term.op o as).tokens false [] = .openParen :: o.token :: ((Term.tokensL false [] as).flatten ++ [.closeParen]) := by
      rw [Term.tokens, named_none rfl, if_neg (by simp [hne'])]
      simp [parens]
    rw [et] at hn ⊢
    simp only [List.length_cons, List.length_append, List.length_nil] at hn
    obtain ⟨n, rfl⟩ := Nat.exists_eq_add_of_le (show 2 ≤ n by omega)
    have args := parseTerms_expanded has (n := n) (rest := rest) (by omega)
    simp only [List.append_assoc, List.cons_append, List.nil_append]
    rw [Nat.add_comm 2 n, parseTerm, reader_bind next_cons]
    simp only
    rw [parseApplication, reader_bind current_cons]
    by_cases ho : o = .cl
    · subst ho
      simp only [Op.token]
      rw [reader_bind next_cons, reader_bind args]
      exact reader_lift make
    · have : o.token = .symbol o.name := by cases o <;> first | rfl | exact absurd rfl ho
      rw [this]
      simp only [Op.ofName_name]
      rw [reader_bind next_cons, reader_bind args, reader_bind (nonEmpty_ok (by rw [Term.expandedL_eq]; simpa using hne))]
      exact reader_lift make

theorem expandsTo_app (h : Defining N F Ed Ef) {x : String} {s : Srt} {as : List Term} (hw : Writable [] [] Ef (.app (.var x s) as))
    (has : ∀ a ∈ as, ExpandsTo F Ed a) : ExpandsTo F Ed (.app (.var x s) as) := by
  have hk := hw.known
  rw [Term.Known] at hk
  obtain ⟨⟨-, heo⟩, hfk, hne, -⟩ := knownName_none rfl hk
  obtain ⟨r, hs⟩ := Option.isSome_iff_exists.1 hw.sorted
  have hfw : Writable [] [] Ef (.var x s) := ⟨rfl, smallWidths_sub hw.small (subterms_app (.inl rfl)), hfk⟩
  have hf := expandsTo_var h hfw
  rw [Term.Known] at hfk
  obtain ⟨-, k2, k3⟩ := knownName_none rfl hfk
  have hfn : ∃ ss r, s = .fn ss r := by
    simp only [sortOf] at hs
    split at hs
    · next ss r _ e _ =>
      cases e
      exact ⟨_, _, rfl⟩
    · cases hs
  have hF : F.lookup x = none := by
    cases hF : F.lookup x with
    | none => rfl
    | some f =>
      obtain ⟨-, -, -, d, s', -, -, h8, -, h10, -⟩ := h.defn x f hF
      rw [h10] at k3
      cases k3
      obtain ⟨ss, r, e⟩ := hfn
      exact absurd e (h8 ss r)
  have ev : (Term.var x s).expanded F = .var x s := by rw [Term.expanded, hF]
  have e : (Term.app (.var x s) as).expanded F = .app (.var x s) (Term.expandedL F as) := by rw [Term.expanded, ev]
  have hsort : sortOf (.app (.var x s) (Term.expandedL F as)) = sortOf (.app (.var x s) as) := by
    simp only [sortOf, sortOfL_expanded has]
  have hsmall : (Term.app (.var x s) (Term.expandedL F as)).smallWidths := by
    refine smallWidths_app hfw.small (fun b hb => ?_) ?_
    · obtain ⟨a, ha, rfl⟩ := mem_expandedL hb
      exact (has a ha).small
    · rw [hsort]
      exact smallWidths_self hw.small
  have make := makeApp_ok (hsort.trans hs) hsmall
  refine ⟨by rw [e, hsort], by rw [e]; exact hsmall, ?_, fun n rest hn => ?_⟩
  · rw [e]
    intro v hv
    simp only [Term.fv, List.mem_append, Term.mem_fvL] at hv
    rcases hv with hv | ⟨b, hb, hv⟩
    · exact hf.free v (by rw [ev]; exact hv)
    · obtain ⟨a, ha, rfl⟩ := mem_expandedL hb
      exact (has a ha).free v hv
  rw [e]
  have et : (Term.app (.var x s) as).tokens false [] = .openParen :: .symbol x :: ((Term.tokensL false [] as).flatten ++ [.closeParen]) := by
    rw [Term.tokens, named_none rfl, Term.tokens, named_none rfl]
    simp [parens]
  rw [et] at hn ⊢
  simp only [List.length_cons, List.length_append, List.length_nil] at hn
  obtain ⟨n, rfl⟩ := Nat.exists_eq_add_of_le (show 4 ≤ n by omega)
  have h1 := hf.reads (n + 2) ((Term.tokensL false [] as).flatten ++ .closeParen :: rest) (by simp [Term.tokens, named])
  rw [ev, Term.tokens, named_none rfl] at h1
  have args := parseTerms_expanded has (n := n + 2) (rest := rest) (by omega)
  simp only [List.append_assoc, List.cons_append, List.nil_append] at h1 ⊢
  rw [Nat.add_comm 4 n, parseTerm, reader_bind next_cons]
  simp only
  rw [parseApplication, reader_bind current_cons]
  simp only [k2]
  rw [if_neg (fun e => heo s (by rw [e])), reader_bind definition_eq, hF]
  simp only
  rw [reader_bind h1, reader_bind args, reader_bind (nonEmpty_ok (by rw [Term.expandedL_eq]; simpa using hne))]
  exact reader_lift make

theorem parseSorted_expanded {t : Term} {s : Srt} (ht : ExpandsTo F Ed t) (hs : sortOf t = some s) {n : Nat} {rest : List Token}
    (hn : 2 * (t.tokens false []).length + 1 ≤ n) : parseSorted n Ed s ⟨t.tokens false [] ++ rest, F⟩ = .ok (t.expanded F, ⟨rest, F⟩) := by
  obtain ⟨n, rfl⟩ := Nat.exists_eq_add_of_le (show 1 ≤ n by omega)
  have : (do assertSort (.known s) (← poolSort (t.expanded F))) = (.ok () : PRes Unit) := by
    rw [poolSort_ok _ (ht.sort.trans hs) ht.small]
    change assertSort (.known s) (.known s) = _
    simp [assertSort, need]
  rw [Nat.add_comm 1 n, parseSorted, reader_bind (ht.reads n rest (by omega)), reader_bind (reader_lift this)]
  rfl

theorem parseBinder_expanded (hE : PlainEnv Ed) {b : Binder} {bs : List (String × Srt)} {t : Term} (ht : ExpandsTo F (Ed.bind bs) t)
    (hs : (sortOf (.binder b bs t)).isSome = true) (hbs : ∀ v ∈ bs, v.2.Known Ed) {n : Nat}
    {rest : List Token} (hn : 2 * (bs.map varTokens).flatten.length + 2 * (t.tokens false []).length + 4 ≤ n) :
    parseBinder n Ed b ⟨.openParen :: ((bs.map varTokens).flatten ++ .closeParen :: (t.tokens false [] ++ .closeParen :: rest)), F⟩ =
      .ok (.binder b bs (t.expanded F), ⟨rest, F⟩) := by
  obtain ⟨n, rfl⟩ := Nat.exists_eq_add_of_le (show 2 ≤ n by omega)
  have vars : parseSortedVars (n + 1) Ed ⟨(bs.map varTokens).flatten ++ .closeParen :: (t.tokens false [] ++ .closeParen :: rest), F⟩ =
      .ok (bs, ⟨t.tokens false [] ++ .closeParen :: rest, F⟩) := parseSortedVars_tokens hE hbs (by omega)
  rw [Nat.add_comm 2 n, parseBinder, reader_bind expect_cons]
  have several : bs ≠ [] → (do
      let bs ← parseSortedVars (n + 1) Ed
      nonEmpty bs : Reader _) (ReadState.mk ((bs.map varTokens).flatten ++ .closeParen :: (t.tokens false [] ++ .closeParen :: rest)) F) =
      .ok (bs, ⟨t.tokens false [] ++ .closeParen :: rest, F⟩) := fun hne => by rw [reader_bind vars, nonEmpty_ok hne]
  simp only [sortOf] at hs
  split at hs
  · next hb =>
    rw [if_neg (by simp), reader_bind (several (by simp)), if_neg (by simp), reader_bind (parseSorted_expanded ht hb (by omega)), reader_bind expect_cons]
    rfl
  · next hb =>
    rw [if_neg (by simp), reader_bind (several (by simp)), if_neg (by simp), reader_bind (parseSorted_expanded ht hb (by omega)), reader_bind expect_cons]
    rfl
  · next x s hb =>
    have one : (do
        let v ← parseSortedVar (n + 1) Ed
        expect .closeParen
        pure [v] : Reader _) (ReadState.mk (([(x, s)].map varTokens).flatten ++ .closeParen :: (t.tokens false [] ++ .closeParen :: rest)) F) =
        .ok ([(x, s)], ⟨t.tokens false [] ++ .closeParen :: rest, F⟩) := by
      simp only [List.map_cons, List.map_nil, List.flatten_cons, List.flatten_nil, List.append_nil] at hn ⊢
      rw [reader_bind (parseSortedVar_tokens hE (hbs (x, s) (by simp)) (by omega)), reader_bind expect_cons]
      rfl
    rw [if_pos rfl, reader_bind one, if_neg (by simp), reader_bind (parseSorted_expanded ht hb (by omega)), reader_bind expect_cons]
    rfl
  · rw [if_neg (by simp), reader_bind (several (by simp)), if_pos rfl, reader_bind (ht.reads _ _ (by omega)), reader_bind expect_cons]
    rfl
  · cases hs

theorem expandsTo_binder (h : Defining N F Ed Ef) {b : Binder} {bs : List (String × Srt)} {t : Term} (hw : Writable [] [] Ef (.binder b bs t))
    (ht : ExpandsTo F (Ed.bind bs) t) : ExpandsTo F Ed (.binder b bs t) := by
  have hk := hw.known
  rw [Term.Known] at hk
  obtain ⟨hbs, -⟩ := knownName_none rfl hk
  have e : (Term.binder b bs t).expanded F = .binder b bs (t.expanded F) := by rw [Term.expanded]
  have hsort : sortOf (.binder b bs (t.expanded F)) = sortOf (.binder b bs t) := by simp only [sortOf, ht.sort]
  refine ⟨by rw [e, hsort], ?_, ?_, fun n rest hn => ?_⟩
  · rw [e]
    refine smallWidths_binder ht.small ?_
    rw [hsort]
    exact smallWidths_self hw.small
  · rw [e]
    rintro ⟨x, s⟩ hv
    obtain ⟨hv, hm⟩ := Term.mem_fv_binder.1 hv
    have := ht.free _ hv
    rw [lookup_bind] at this
    cases hl : bs.reverse.lookup x with
    | none =>
      rw [hl, Option.none_or] at this
      exact this
    | some s' =>
      rw [hl, Option.some_or] at this
      cases this
      exact absurd (by simpa using mem_of_lookup63 hl) hm
  have et : (Term.binder b bs t).tokens false [] =
      .openParen :: b.token :: .openParen :: ((bs.map varTokens).flatten ++ .closeParen :: (t.tokens false [] ++ [.closeParen])) := by
    rw [Term.tokens, named_none rfl]
    have : varTokens = fun p => parens [[.symbol p.1], p.2.tokens] := rfl
    simp [parens, this]
  rw [e]
  rw [et] at hn ⊢
  simp only [List.length_cons, List.length_append, List.length_nil] at hn
  obtain ⟨n, rfl⟩ := Nat.exists_eq_add_of_le (show 2 ≤ n by omega)
  have := parseBinder_expanded h.plain ht hw.sorted (fun v hv => (hbs v hv).congr h.decls h.sdefs) (n := n) (rest := rest) (by omega)
  simp only [List.append_assoc, List.cons_append, List.nil_append]
  rw [Nat.add_comm 2 n, parseTerm, reader_bind next_cons]
  simp only
  rw [parseApplication, reader_bind current_cons]
  cases b <;> (simp only [Binder.token]; rw [reader_bind next_cons]; exact this)

/-- **The text of a term is read as the term with definitions expanded.** -/
theorem expandsTo (t : Term) : ∀ {Ed Ef : PEnv}, Defining N F Ed Ef → Writable [] [] Ef t → t.simple = true → (∀ x ∈ t.boundNames, ¬ N x) →
    ExpandsTo F Ed t := by
  induction t using Term.ind with
  | const c => exact fun h hw _ _ => expandsTo_const h.plain hw
  | var x s => exact fun h hw _ _ => expandsTo_var h hw
  | app f as _ ih =>
    intro Ed Ef h hw hs hn
    cases f with
    | var x s =>
      have hk := hw.known
      rw [Term.Known] at hk
      obtain ⟨-, -, -, hak⟩ := knownName_none rfl hk
      have ⟨_, hss⟩ := sorted_app hw.sorted
      rw [Term.simple, Term.simpleL_iff] at hs
      exact expandsTo_app h hw fun a ha => ih a ha h ⟨hss a ha, smallWidths_sub hw.small (subterms_app (.inr ha)), Term.knownL_iff.1 hak a ha⟩ (hs a ha)
        fun x hx => hn x (by simp only [Term.boundNames, List.mem_append, Term.mem_boundNamesL]; exact .inr ⟨a, ha, hx⟩)
    | _ => simp [Term.simple] at hs
  | op o as ih =>
    intro Ed Ef h hw hs hn
    have hk := hw.known
    rw [Term.Known] at hk
    obtain ⟨-, hak⟩ := knownName_none rfl hk
    rw [Term.simple, Term.simpleL_iff] at hs
    exact expandsTo_op h hw fun a ha => ih a ha h ⟨sorted_op_mem hw.sorted ha, smallWidths_sub hw.small (subterms_op ha),
      Term.knownL_iff.1 hak a ha⟩ (hs a ha) fun x hx => hn x (by simp only [Term.boundNames, Term.mem_boundNamesL]; exact ⟨a, ha, hx⟩)
  | binder b bs t ih =>
    intro Ed Ef h hw hs hn
    have hk := hw.known
    rw [Term.Known] at hk
    obtain ⟨-, hk⟩ := knownName_none rfl hk
    rw [Term.simple] at hs
    refine expandsTo_binder h hw (ih (h.bind fun v hv => hn v.1 ?_) ⟨sorted_binder hw.sorted, smallWidths_sub hw.small subterms_binder, hk⟩ hs
      fun x hx => hn x ?_)
    · simp only [Term.boundNames, List.mem_append, List.mem_map]
      exact .inl ⟨v, hv, rfl⟩
    · simp only [Term.boundNames, List.mem_append]
      exact .inr hx
  | let_ => exact fun _ _ hs => absurd hs (by simp [Term.simple])
  | paramOp => exact fun _ _ hs => absurd hs (by simp [Term.simple])

/-! ## Meaning -/

/-- Every defined constant has the value of its body. -/
def Consistent (I : Interp) (F : List (String × FunDef)) (ρ : Env I.U) : Prop :=
  ∀ x d s, F.lookup x = some ⟨[], d⟩ → sortOf d = some s → ρ x s = eval I d ρ

variable {I : Interp}

theorem Consistent.setMany (h : Defining N F Ed Ef) {ρ : Env I.U} (hρ : I.EnvOK ρ) (hc : Consistent I F ρ) {bs : List (String × Srt)}
    (hb : ∀ b ∈ bs, ¬ N b.1) {vs : List (Val I.U)} (hv : I.Tuple bs vs) : Consistent I F (ρ.setMany bs vs) := by
  intro x d s hF hs
  obtain ⟨h1, -, -, d', s', h4, h5, -, -, -, h9⟩ := h.defn x _ hF
  cases h4
  rw [Env.setMany_of_not_mem fun hm => hb _ hm h1, hc x d s hF hs]
  refine eval_congr_fv d (d.choiceOK_of_sort (by rw [hs]; rfl)) (.inr hρ) fun v hv => ?_
  rw [Env.setMany_of_not_mem fun hm => hb _ hm (h9 v hv).1]

/-- **If constants have the values of their bodies, then expanding them changes nothing.** -/
theorem eval_expanded (t : Term) : ∀ {Ed Ef : PEnv}, Defining N F Ed Ef → Writable [] [] Ef t → t.simple = true → (∀ x ∈ t.boundNames, ¬ N x) →
    ∀ {ρ : Env I.U}, I.EnvOK ρ → Consistent I F ρ → eval I (t.expanded F) ρ = eval I t ρ := by
  induction t using Term.ind with
  | const c => exact fun _ _ _ _ _ _ _ => rfl
  | var x s =>
    intro Ed Ef h hw _ _ ρ _ hc
    cases hF : F.lookup x with
    | none => rw [Term.expanded, hF]
    | some f =>
      have hk := hw.known
      rw [Term.Known] at hk
      obtain ⟨-, -, h3⟩ := hk
      obtain ⟨-, -, -, d, s', rfl, h7, -, -, h10, -⟩ := h.defn x f hF
      rw [h10] at h3
      cases h3
      rw [Term.expanded, hF]
      exact (hc x d s hF h7).symm
  | app f as ihf ih =>
    intro Ed Ef h hw hs hn ρ hρ hc
    cases f with
    | var x s =>
      have hk := hw.known
      rw [Term.Known] at hk
      obtain ⟨-, hfk, -, hak⟩ := knownName_none rfl hk
      have ⟨_, hss⟩ := sorted_app hw.sorted
      rw [Term.simple, Term.simpleL_iff] at hs
      have hfw : Writable [] [] Ef (.var x s) := ⟨rfl, smallWidths_sub hw.small (subterms_app (.inl rfl)), hfk⟩
      have e1 := ihf h hfw rfl (by simp [Term.boundNames]) hρ hc
      rw [Term.expanded, eval, eval, e1, Term.expandedL_eq, evalL_eq_map, evalL_eq_map, List.map_map]
      congr 1
      exact List.map_congr_left fun a ha => ih a ha h ⟨hss a ha, smallWidths_sub hw.small (subterms_app (.inr ha)), Term.knownL_iff.1 hak a ha⟩ (hs a ha)
        (fun x hx => hn x (by simp only [Term.boundNames, List.mem_append, Term.mem_boundNamesL]; exact .inr ⟨a, ha, hx⟩)) hρ hc
    | _ => simp [Term.simple] at hs
  | op o as ih =>
    intro Ed Ef h hw hs hn ρ hρ hc
    have hk := hw.known
    rw [Term.Known] at hk
    obtain ⟨-, hak⟩ := knownName_none rfl hk
    rw [Term.simple, Term.simpleL_iff] at hs
    rw [Term.expanded, eval, eval, Term.expandedL_eq, evalL_eq_map, evalL_eq_map, List.map_map]
    congr 1
    exact List.map_congr_left fun a ha => ih a ha h ⟨sorted_op_mem hw.sorted ha, smallWidths_sub hw.small (subterms_op ha),
      Term.knownL_iff.1 hak a ha⟩ (hs a ha) (fun x hx => hn x (by simp only [Term.boundNames, Term.mem_boundNamesL]; exact ⟨a, ha, hx⟩)) hρ hc
  | binder b bs t ih =>
    intro Ed Ef h hw hs hn ρ hρ hc
    have hk := hw.known
    rw [Term.Known] at hk
    obtain ⟨-, hk⟩ := knownName_none rfl hk
    rw [Term.simple] at hs
    have hb : ∀ v ∈ bs, ¬ N v.1 := fun v hv => hn v.1 (by simp only [Term.boundNames, List.mem_append, List.mem_map]; exact .inl ⟨v, hv, rfl⟩)
    have hb' : ∀ x ∈ t.boundNames, ¬ N x := fun x hx => hn x (by simp only [Term.boundNames, List.mem_append]; exact .inr hx)
    have hch := Term.choiceOK_of_sort _ hw.sorted
    simp only [Term.choiceOK, Bool.and_eq_true, Bool.or_eq_true, decide_eq_true_eq] at hch
    rw [Term.expanded, eval, eval]
    refine evalBinder_congr_env' (fun e => hch.1.resolve_left (fun h => h e)) fun vs hv => ?_
    exact ih (h.bind hb) ⟨sorted_binder hw.sorted, smallWidths_sub hw.small subterms_binder, hk⟩ hs hb' (hρ.setMany hv) (hc.setMany h hρ hb hv)
  | let_ => exact fun _ _ hs => absurd hs (by simp [Term.simple])
  | paramOp => exact fun _ _ hs => absurd hs (by simp [Term.simple])

end

end Carcara
