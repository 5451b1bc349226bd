import Verif.Lemmas.TermParserDef
import Verif.Lemmas.TermParserFuel
import Verif.Spec.Witness

/-!
# C50: defined functions, named terms and expanded lets are read with their meaning

"The application of a defined function is read as a term that has the value of the body, with the values of the arguments for the parameters. A let
that is expanded is read as a term with the value of the let. A name that is given to a term with `:named` is read as this term; other attributes
make no difference."
-/

namespace Carcara
open PRes Reader

/-- The claim for defined functions. -/
def C50Full : Prop := ∀ (f : FunDef) (args : List Term) (t : Term), (sortOf f.body).isSome = true → f.apply args = .ok t →
  ∀ (I : Interp) (ρ : Env I.U), I.EnvOK ρ → eval I t ρ = eval I f.body (ρ.setMany f.params (args.map (eval I · ρ)))

/-- Partial: the body is safe for the way new names are made (`Term.quoteSafe`, as for C25) and the arguments contain no let. Missing: other bodies,
for which the claim is false (`c50_capture_fails`). -/
theorem c50_apply_partial (f : FunDef) (args : List Term) (t : Term) (hq : f.body.quoteSafe = true) (ha : ∀ a ∈ args, a.noLet = true)
    (h : f.apply args = .ok t) (I : Interp) (ρ : Env I.U) (hρ : I.EnvOK ρ) :
    eval I t ρ = eval I f.body (ρ.setMany f.params (args.map (eval I · ρ))) := by
  simp only [FunDef.apply, pbind_ok, need_ok, exists_unit] at h
  obtain ⟨hl, h⟩ := h
  split at h
  · next he =>
    cases h
    cases args with
    | nil =>
      rw [List.length_eq_zero_iff.1 hl.symm]
      rfl
    | cons => cases he
  · simp only [pbind_ok, exists_unit] at h
    have := substituted_ok hq (fun p hp => ha _ (List.of_mem_zip hp).2) h.2 I ρ hρ
    rw [this, substEnv_zip, substEnv_nil, evalL_eq_map]

/-- `(s …)`, where `s` is defined: what follows is read as a list of arguments, and the function is applied to them. If reading the arguments has
changed the definition, the new one counts. -/
theorem c50_application (n : Nat) (E : PEnv) (s : String) (ts : List Token) (F : List (String × FunDef)) (f : FunDef) (t : Term) (st' : ReadState)
    (ho : Op.ofName s = none) (he : s ≠ "eo") (hf : F.lookup s = some f)
    (h : parseTerm (n + 2) E ⟨.openParen :: .symbol s :: ts, F⟩ = .ok (t, st')) :
    ∃ args f', args ≠ [] ∧ parseTerms n E ⟨ts, F⟩ = .ok (args, st') ∧ st'.defs.lookup s = some f' ∧ f'.apply args = .ok t := by
  rw [parseTerm, reader_bind next_cons] at h
  simp only at h
  rw [parseApplication, reader_bind current_cons] at h
  simp only [ho, if_neg he] at h
  rw [reader_bind definition_eq, hf] at h
  simp only at h
  rw [reader_bind next_cons] at h
  obtain ⟨args, st1, h1, k1⟩ := reader_bind_ok.1 h
  obtain ⟨args', st2, h2, k2⟩ := reader_bind_ok.1 k1
  obtain ⟨g, st3, h3, k3⟩ := reader_bind_ok.1 k2
  obtain ⟨k4, rfl⟩ := reader_lift_ok.1 k3
  clear h k1 k2 k3
  obtain ⟨rfl, hne, rfl⟩ := nonEmpty_inv h2
  cases h3
  simp only [pbind_ok, getPanic_ok] at k4
  obtain ⟨g, hg, h⟩ := k4
  exact ⟨_, g, hne, h1, hg, h⟩

/-- A let that is expanded, and the let that is read if it is not. They have the same value if the body is safe for the way new names are made, the
values contain no let, and the variables of the let occur in the body with the sorts of their values only. Missing: the other terms. -/
theorem c50_let_partial (n : Nat) (E : PEnv) (st st' : ReadState) (t : Term) (h : parseLet n E true st = .ok (t, st')) :
    ∃ bs body, parseLet n E false st = .ok (.let_ bs body, st') ∧
      (body.quoteSafe = true → (∀ b ∈ bs, b.2.noLet = true) → (∀ v ∈ body.fv, ∀ b ∈ bs, b.1 = v.1 → sortOf b.2 = some v.2) → Same t (.let_ bs body)) := by
  cases n with
  | zero => cases h
  | succ n =>
    unfold parseLet at h ⊢
    obtain ⟨_, st1, h1, h⟩ := reader_bind_ok.1 h
    obtain ⟨bs, st2, h2, h⟩ := reader_bind_ok.1 h
    obtain ⟨bs', st3, h3, h⟩ := reader_bind_ok.1 h
    obtain ⟨vs, st4, h4, h⟩ := reader_bind_ok.1 h
    obtain ⟨body, st5, h5, h⟩ := reader_bind_ok.1 h
    obtain ⟨_, st6, h6, h⟩ := reader_bind_ok.1 h
    rw [if_pos rfl, reader_lift_ok] at h
    obtain ⟨h, rfl⟩ := h
    rename' h => h7
    obtain ⟨rfl, hne, rfl⟩ := nonEmpty_inv h3
    refine ⟨bs', body, ?_, fun hq hl hv I ρ hρ => ?_⟩
    · exact reader_bind_ok.2 ⟨_, _, h1, reader_bind_ok.2 ⟨_, _, h2, reader_bind_ok.2 ⟨_, _, h3, reader_bind_ok.2 ⟨_, _, h4,
        reader_bind_ok.2 ⟨_, _, h5, reader_bind_ok.2 ⟨_, _, h6, rfl⟩⟩⟩⟩⟩⟩
    · simp only [pbind_ok] at h7
      obtain ⟨m, hm, h⟩ := h7
      obtain ⟨vs', hvs, rfl⟩ := letMap_ok hm
      have hs := substituted_sorts h
      rw [substituted_ok hq (fun p hp => by
        obtain ⟨b, hb, e⟩ := List.mem_map.1 (List.of_mem_zip hp).2
        rw [← e]
        exact hl b hb) h I ρ hρ, substEnv_zip, substEnv_nil, eval]
      refine eval_congr_fv body (Term.choiceOK_of_sort _ hs.2) (.inl (Term.noLet_of_quoteSafe _ hq)) fun v hv' => ?_
      refine let_agree hvs (fun b hb => ?_) hρ (fun b hb => hv v hv' b hb) rfl
      obtain ⟨a, ha⟩ := exists_mem_zip (l₁ := vs'.map fun v => Term.var v.1 v.2) (by simp [letVars_length hvs]) (List.mem_map_of_mem (f := (·.2)) hb)
      exact hs.1 _ ha

/-- An annotated term is read as the term. Of the attributes, those with a name define this name as the term; the others change nothing. -/
theorem c50_annotation (n : Nat) (E : PEnv) (ts rest : List Token) (F F' : List (String × FunDef)) (t : Term) (as : List Attribute) (hne : as ≠ [])
    (hf : ∀ a ∈ as, a.Fine) (h : parseTerm n E ⟨ts, F⟩ = .ok (t, ⟨as.flatMap Attribute.tokens ++ .closeParen :: rest, F'⟩)) (m : Nat)
    (hn : n ≤ m) (hm : as.length < m) :
    ∃ G, parseTerm (m + 3) E ⟨.openParen :: .reserved .bang :: ts, F⟩ = .ok (t, ⟨rest, G⟩) ∧
      (∀ s, .named s ∈ as → G.lookup s = some ⟨[], t⟩) ∧ ∀ s, .named s ∉ as → G.lookup s = F'.lookup s := by
  refine ⟨Attribute.define t as F', ?_, fun s => (lookup_define t s as F').1, fun s => (lookup_define t s as F').2⟩
  have h' : parseTerm m E ⟨ts, F⟩ = .ok (t, ⟨as.flatMap Attribute.tokens ++ .closeParen :: rest, F'⟩) := by
    rw [refines_le hn E _ (by rw [h]; simp), h]
  obtain ⟨us, hl, e⟩ := parseAttributes_tokens t rest as hf m hm F'
  rw [parseTerm, reader_bind next_cons]
  simp only
  rw [parseApplication, reader_bind current_cons]
  simp only
  rw [reader_bind next_cons]
  change parseAnnotated _ E _ = _
  rw [parseAnnotated, reader_bind h', reader_bind e, reader_bind (nonEmpty_ok (fun hu => hne ?_))]
  · rfl
  · rw [hu] at hl
    exact List.length_eq_zero_iff.1 hl.symm

/-- A term without attributes is rejected. -/
theorem c50_no_attribute (n : Nat) (E : PEnv) (ts rest : List Token) (F F' : List (String × FunDef)) (t : Term)
    (h : parseTerm n E ⟨ts, F⟩ = .ok (t, ⟨.closeParen :: rest, F'⟩)) (m : Nat) (hn : n ≤ m) (hm : 0 < m) :
    parseTerm (m + 3) E ⟨.openParen :: .reserved .bang :: ts, F⟩ = .error .err := by
  have h' : parseTerm m E ⟨ts, F⟩ = .ok (t, ⟨.closeParen :: rest, F'⟩) := by
    rw [refines_le hn E _ (by rw [h]; simp), h]
  obtain ⟨us, hl, e⟩ := parseAttributes_tokens t rest [] (fun a ha => (by cases ha)) m hm F'
  simp only [List.flatMap_nil, List.nil_append] at e
  rw [parseTerm, reader_bind next_cons]
  simp only
  rw [parseApplication, reader_bind current_cons]
  simp only
  rw [reader_bind next_cons]
  change parseAnnotated _ E _ = _
  rw [parseAnnotated, reader_bind h', reader_bind e]
  cases List.length_eq_zero_iff.1 hl
  rfl

/-- A name that is defined as a term is read as this term. -/
theorem c50_name (n : Nat) (E : PEnv) (s : String) (t : Term) (rest : List Token) (F : List (String × FunDef)) (h : F.lookup s = some ⟨[], t⟩) :
    parseTerm (n + 1) E ⟨.symbol s :: rest, F⟩ = .ok (t, ⟨rest, F⟩) := by
  rw [parseTerm, reader_bind next_cons]
  simp only
  rw [reader_bind definition_eq, h]
  rfl

/-! ## Examples -/

private def X : Term := .var "x" .int
private def Y : Term := .var "y" .int
private def Y' : Term := .var "y'" .int

/-- `(f x) = (forall ((y Int)) (exists ((z Int)) (= x y)))` applied to `y`. -/
private def f1 : FunDef := ⟨[("x", .int)], .binder .all [("y", .int)] (.binder .ex [("z", .int)] (.op .equals [X, Y]))⟩

example : f1.body.quoteSafe = true ∧ Y.noLet = true ∧
    f1.apply [Y] = .ok (.binder .all [("y'", .int)] (.binder .ex [("z", .int)] (.op .equals [Y, Y']))) := by decide +kernel

/-- `(f y)` as it is read. -/
example : Op.ofName "f" = none ∧ parseTerm 10 { vars := [("y", .int)] } ⟨[.openParen, .symbol "f", .symbol "y", .closeParen], [("f", f1)]⟩ =
    .ok (.binder .all [("y'", .int)] (.binder .ex [("z", .int)] (.op .equals [Y, Y'])), ⟨[], [("f", f1)]⟩) := by decide +kernel

/-- `(let ((x y)) (forall ((y Int)) (= x y)))` when lets are expanded, after the word `let`. -/
example :
    let E : PEnv := { vars := [("y", .int)] }
    let ts : List Token := [.openParen, .openParen, .symbol "x", .symbol "y", .closeParen, .closeParen, .openParen, .reserved .forall, .openParen,
      .openParen, .symbol "y", .symbol "Int", .closeParen, .closeParen, .openParen, .symbol "=", .symbol "x", .symbol "y", .closeParen, .closeParen,
      .closeParen]
    let body : Term := .binder .all [("y", .int)] (.op .equals [X, Y])
    parseLet 20 E true ⟨ts, []⟩ = .ok (.binder .all [("y'", .int)] (.op .equals [Y, Y']), ⟨[], []⟩) ∧
      parseLet 20 E false ⟨ts, []⟩ = .ok (.let_ [("x", Y)] body, ⟨[], []⟩) ∧ body.quoteSafe = true ∧ body.fv = [("x", .int)] ∧
      sortOf Y = some .int := by decide +kernel

/-- `(! true :pattern ((f x) (g)) :named n)`, then `n`. -/
example :
    let as : List Attribute := [.list "pattern" [.openParen, .symbol "f", .symbol "x", .closeParen, .openParen, .symbol "g", .closeParen], .named "n"]
    (∀ a ∈ as, a.Fine) ∧ parseTerm 3 {} ⟨.symbol "true" :: (as.flatMap Attribute.tokens ++ [.closeParen, .symbol "n"]), []⟩ =
      .ok (.op .tru [], ⟨as.flatMap Attribute.tokens ++ [.closeParen, .symbol "n"], []⟩) ∧
    parseTerm 9 {} ⟨.openParen :: .reserved .bang :: .symbol "true" :: (as.flatMap Attribute.tokens ++ [.closeParen, .symbol "n"]), []⟩ =
      .ok (.op .tru [], ⟨[.symbol "n"], [("n", ⟨[], .op .tru []⟩)]⟩) := by
  refine ⟨?_, by decide +kernel, by decide +kernel⟩
  simp only [List.mem_cons, List.not_mem_nil, or_false, forall_eq_or_imp, forall_eq, Attribute.Fine, and_true]
  refine ⟨by decide, ?_⟩
  exact .parens [.symbol "f", .symbol "x"] _ (.token _ _ (by simp) (by simp) (by simp) (.token _ _ (by simp) (by simp) (by simp) .nil))
    (.parens [.symbol "g"] _ (.token _ _ (by simp) (by simp) (by simp) .nil) .nil)

open Classical in
/-- **C50 fails.** `(f x) = (forall ((y Int)) (= x y'))` applied to `y` is read as `(forall ((y' Int)) (= y y'))`: the bound variable is renamed to a
name that is used in the body. -/
theorem c50_capture_fails : ¬ C50Full := by
  intro h
  let t : Term := .binder .all [("y", .int)] (.op .equals [X, Y'])
  have hok := h ⟨[("x", .int)], t⟩ [Y] (.binder .all [("y'", .int)] (.op .equals [Y, Y'])) (by decide +kernel) (by decide +kernel)
  let M := Witness.model fun _ _ => .int 0
  have env : ∀ x, M.env x .int = .int 0 := by
    intro x; simp [M, Witness.model, Witness.coerce, Witness.valSort]; rfl
  have hev := hok M.I M.env M.env_dom
  have hr : eval M.I t (M.env.setMany [("x", .int)] ([Y].map (eval M.I · M.env))) = .bool true := by
    simp only [t, eval, evalBinder, Val.prop]
    simp only [Val.bool.injEq]
    refine decide_eq_true ?_
    intro vs hvs
    match vs, hvs with
    | [v], _ => simp [Env.setMany, Env.set, X, Y', eval, evalOp, stdOp, Y, env, Val.T, Val.prop, Sem.chain]
  have hl : eval M.I (.binder .all [("y'", .int)] (.op .equals [Y, Y'])) M.env = .bool false := by
    simp only [eval, evalBinder, Val.prop]
    simp only [Val.bool.injEq]
    refine decide_eq_false ?_
    intro hall
    have := hall [.int 1] (.cons ((M.I.dom_int _).2 ⟨1, rfl⟩) .nil)
    simp [Env.setMany, Env.set, Y, Y', eval, evalOp, stdOp, env, Val.T, Val.prop, Sem.chain] at this
  rw [hl, hr] at hev
  cases hev

end Carcara
