import Verif.Lemmas.TermParserPrint
import Verif.Lemmas.SubstitutionApply
import Verif.Lemmas.ContextRules

/-!
# The meaning of defined functions and of lets that are expanded
-/

namespace Carcara
open PRes Reader

theorem reader_bind_ok {α β : Type} {r : Reader α} {f : α → Reader β} {st : ReadState} {b : β} {st' : ReadState} :
    (r >>= f) st = .ok (b, st') ↔ ∃ a st1, r st = .ok (a, st1) ∧ f a st1 = .ok (b, st') := by
  change (match r st with | .ok (a, st) => f a st | .error e => .error e) = _ ↔ _
  constructor
  · intro h
    split at h
    · next a st1 e => exact ⟨a, st1, e, h⟩
    · cases h
  · rintro ⟨a, st1, h1, h2⟩
    rw [h1]
    exact h2

theorem reader_lift_ok {α : Type} {x : PRes α} {st : ReadState} {a : α} {st' : ReadState} : lift x st = .ok (a, st') ↔ x = .ok a ∧ st' = st := by
  cases x with
  | ok b =>
    change Except.ok (b, st) = _ ↔ _
    simp only [Except.ok.injEq, Prod.mk.injEq]
    exact ⟨fun h => ⟨h.1, h.2.symm⟩, fun h => ⟨h.1, h.2.symm⟩⟩
  | error e => exact ⟨fun h => (by cases h), fun h => (by cases h.1)⟩

theorem nonEmpty_inv {α : Type} {as bs : List α} {st st' : ReadState} (h : nonEmpty as st = .ok (bs, st')) : bs = as ∧ as ≠ [] ∧ st' = st := by
  cases as with
  | nil => cases h
  | cons a as =>
    cases h
    exact ⟨rfl, by simp, rfl⟩

variable {I : Interp}

theorem substEnv_insert (m : List (Term × Term)) (x : String) (s : Srt) (a : Term) (ρ : Env I.U) :
    I.substEnv (mapInsert m (.var x s) a) ρ = (I.substEnv m ρ).set x s (eval I a ρ) := by
  funext y r
  simp only [Interp.substEnv, Env.set, substOf_eq, mapGet_insert]
  by_cases e : Term.var x s = .var y r
  · cases e
    simp
  · rw [if_neg e, if_neg]
    rintro ⟨rfl, rfl⟩
    exact e rfl

/-- The environment of a substitution that is collected from parameters and arguments. -/
theorem substEnv_zip : ∀ (ps : List (String × Srt)) (as : List Term) (m : List (Term × Term)) (ρ : Env I.U),
    I.substEnv (((ps.map fun p => Term.var p.1 p.2).zip as).foldl (fun m p => mapInsert m p.1 p.2) m) ρ = (I.substEnv m ρ).setMany ps (evalL I as ρ)
  | [], _, _, _ => rfl
  | _ :: _, [], _, _ => rfl
  | (x, s) :: ps, a :: as, m, ρ => by
    simp only [List.map_cons, List.zip_cons_cons, List.foldl_cons, evalL, Env.setMany]
    rw [substEnv_zip ps as, substEnv_insert]

theorem substEnv_nil (ρ : Env I.U) : I.substEnv [] ρ = ρ := rfl

theorem values_mapInsert {m : List (Term × Term)} : ∀ {l : List (Term × Term)} {p : Term × Term},
    p ∈ l.foldl (fun m p => mapInsert m p.1 p.2) m → p ∈ m ∨ p ∈ l := by
  intro l
  induction l generalizing m with
  | nil => exact fun h => .inl h
  | cons q l ih =>
    intro p hp
    rcases ih hp with h | h
    · rcases mem_mapInsert_cases h with rfl | h
      · exact .inr (by simp)
      · exact .inl h
    · exact .inr (by simp [h])

theorem substituted_sorts {m : List (Term × Term)} {t t' : Term} (h : substituted m t = .ok t') :
    (∀ p ∈ m, (sortOf p.2).isSome = true) ∧ (sortOf t).isSome = true := by
  unfold substituted at h
  split at h
  · cases h
  · split at h
    · cases h
    · next hs =>
      simp only [Bool.or_eq_true, not_or, Bool.not_eq_true, Option.isNone_eq_false_iff, List.any_eq_false] at hs
      refine ⟨fun p hp => ?_, hs.2⟩
      have := hs.1 p hp
      cases e : sortOf p.2
      · simp [e] at this
      · rfl

theorem exists_mem_zip {α β : Type} {b : β} : ∀ {l₁ : List α} {l₂ : List β}, l₁.length = l₂.length → b ∈ l₂ → ∃ a, (a, b) ∈ l₁.zip l₂
  | [], [], _, h => (by cases h)
  | [], _ :: _, h, _ => (by cases h)
  | _ :: _, [], _, h => (by cases h)
  | x :: xs, y :: ys, hl, h => by
    rcases List.mem_cons.1 h with rfl | h
    · exact ⟨x, by simp⟩
    · obtain ⟨a, ha⟩ := exists_mem_zip (by simpa using hl) h
      exact ⟨a, by simp [ha]⟩

theorem letVars_length : ∀ {bs : List (String × Term)} {vs : List (String × Srt)}, letVars bs = .ok vs → vs.length = bs.length
  | [], vs, h => by
    cases h
    rfl
  | (x, t) :: bs, vs, h => by
    simp only [letVars, pbind_ok] at h
    obtain ⟨p, hp, h⟩ := h
    cases p with
    | param => cases h
    | known s =>
      simp only [pbind_ok, Except.ok.injEq] at h
      obtain ⟨vs', h', rfl⟩ := h
      simp [letVars_length h']

theorem substituted_ok {m : List (Term × Term)} {t t' : Term} (hq : t.quoteSafe = true) (hm : ∀ p ∈ m, p.2.noLet = true)
    (h : substituted m t = .ok t') : SubstOK (m.foldl (fun m p => mapInsert m p.1 p.2) []) t t' := by
  unfold substituted at h
  split at h
  · cases h
  · split at h
    · cases h
    · next hs =>
      simp only [Bool.or_eq_true, not_or, Bool.not_eq_true, Option.isNone_eq_false_iff, List.any_eq_false] at hs
      simp only [pbind_ok, getPanic_ok, ofRes_ok, Except.ok.injEq] at h
      obtain ⟨σ, hσ, ⟨u, σ'⟩, hu, rfl⟩ := h
      have hσ : Subst.new (m.foldl (fun m p => mapInsert m p.1 p.2) []) = .ok σ := by
        cases e : Subst.new (m.foldl (fun m p => mapInsert m p.1 p.2) []) with
        | error _ => simp [e, Except.toOption] at hσ
        | ok σ'' => simp only [e, Except.toOption, Option.some.injEq] at hσ; rw [← hσ]
      obtain ⟨hg, e⟩ := Subst.new_good (fun p hp => by
        rcases values_mapInsert hp with h | h
        · cases h
        · refine Term.closedParts_of_sort _ ?_ (hm p h)
          have := hs.1 p h
          cases e : sortOf p.2
          · simp [e] at this
          · rfl) hσ
      obtain ⟨t', σ'', h1, _, _, h4⟩ := applyGo_ok t.size False σ t (Nat.le_refl _) ⟨hs.2, hq⟩ hg
      rw [Subst.apply, h1] at hu
      cases hu
      rw [← e]
      exact h4.sem

theorem letMap_ok : ∀ {bs : List (String × Term)} {m : List (Term × Term)}, letMap bs = .ok m →
    ∃ vs, letVars bs = .ok vs ∧ m = (vs.map fun v => Term.var v.1 v.2).zip (bs.map (·.2))
  | [], m, h => by
    cases h
    exact ⟨[], rfl, rfl⟩
  | (x, t) :: bs, m, h => by
    simp only [letMap, pbind_ok] at h
    obtain ⟨p, hp, h⟩ := h
    cases p with
    | param => cases h
    | known s =>
      simp only [pbind_ok, Except.ok.injEq] at h
      obtain ⟨m', hm, rfl⟩ := h
      obtain ⟨vs, h1, h2⟩ := letMap_ok hm
      refine ⟨(x, s) :: vs, ?_, by rw [h2]; rfl⟩
      simp only [letVars, pbind_ok]
      exact ⟨_, hp, pbind_ok.2 ⟨vs, h1, rfl⟩⟩

/-- A let gives its variables the same values as a simultaneous update, at the sorts of the values. -/
theorem let_agree : ∀ {bs : List (String × Term)} {vs : List (String × Srt)}, letVars bs = .ok vs → (∀ b ∈ bs, (sortOf b.2).isSome = true) →
    ∀ {ρ : Env I.U}, I.EnvOK ρ → ∀ {ρ1 ρ2 : Env I.U} {x : String} {s : Srt}, (∀ b ∈ bs, b.1 = x → sortOf b.2 = some s) → ρ1 x s = ρ2 x s →
    ρ1.setMany vs (evalL I (bs.map (·.2)) ρ) x s = I.letMany ρ2 (evalB I bs ρ) x s
  | [], vs, h, _, ρ, _, ρ1, ρ2, x, s, _, e => by
    cases h
    exact e
  | (y, t) :: bs, vs, h, hs, ρ, hρ, ρ1, ρ2, x, s, hx, e => by
    simp only [letVars, pbind_ok] at h
    obtain ⟨p, hp, h⟩ := h
    cases p with
    | param => cases h
    | known r =>
      simp only [pbind_ok, Except.ok.injEq] at h
      obtain ⟨vs', h', rfl⟩ := h
      have ht : sortOf t = some r := by
        obtain ⟨r', hr⟩ := Option.isSome_iff_exists.1 (hs (y, t) (by simp))
        cases poolSort_yields t hr _ hp
        exact hr
      simp only [List.map_cons, evalL, Env.setMany, evalB, Interp.letMany]
      refine let_agree h' (fun b hb => hs b (by simp [hb])) hρ (fun b hb => hx b (by simp [hb])) ?_
      simp only [Env.set, Interp.letSet]
      by_cases hy : x = y
      · subst hy
        have hr := hx (x, t) (by simp) rfl
        simp only at hr
        rw [ht] at hr
        cases hr
        rw [if_pos ⟨rfl, rfl⟩, if_pos ⟨rfl, eval_dom t ht hρ⟩]
      · rw [if_neg fun h => hy h.1, if_neg fun h => hy h.1]
        exact e

/-! ## Attributes -/

/-- Tokens with matching parentheses. -/
inductive Balanced : List Token → Prop where
  | nil : Balanced []
  | token (t : Token) (ts : List Token) : t ≠ .openParen → t ≠ .closeParen → t ≠ .eof → Balanced ts → Balanced (t :: ts)
  | parens (us ts : List Token) : Balanced us → Balanced ts → Balanced (.openParen :: (us ++ .closeParen :: ts))

theorem skipClose_balanced {us : List Token} (h : Balanced us) : ∀ (d : Nat) (rest : List Token), skipClose d (us ++ rest) = skipClose d rest := by
  induction h with
  | nil => exact fun _ _ => rfl
  | token t ts h1 h2 h3 _ ih =>
    intro d rest
    rw [List.cons_append, ← ih d rest]
    cases t <;> first | exact absurd rfl h1 | exact absurd rfl h2 | exact absurd rfl h3 | skip
    all_goals (cases d <;> simp only [skipClose])
  | parens us ts _ _ ih1 ih2 =>
    intro d rest
    rw [List.cons_append, List.append_assoc, List.cons_append]
    have : skipClose d (.openParen :: (us ++ .closeParen :: (ts ++ rest))) = skipClose (d + 1) (us ++ .closeParen :: (ts ++ rest)) := by
      cases d <;> simp only [skipClose]
    rw [this, ih1 (d + 1), skipClose, ih2 d]

/-- An attribute of an annotated term: a name for it, or something else, which has no value, a single token as its value, or a list. -/
inductive Attribute where
  | named (s : String)
  | bare (k : String)
  | value (k : String) (v : Token)
  | list (k : String) (us : List Token)

/-- How an attribute is written. -/
def Attribute.tokens : Attribute → List Token
  | .named s => [.keyword "named", .symbol s]
  | .bare k => [.keyword k]
  | .value k v => [.keyword k, v]
  | .list k us => .keyword k :: .openParen :: (us ++ [.closeParen])

/-- An attribute that can be written in this way. -/
def Attribute.Fine : Attribute → Prop
  | .named _ => True
  | .bare k => k ≠ "named"
  | .value k v => k ≠ "named" ∧ v ≠ .openParen ∧ v ≠ .closeParen ∧ v ≠ .eof ∧ ∀ k', v ≠ .keyword k'
  | .list k us => k ≠ "named" ∧ Balanced us

/-- The definitions after the attributes of a term have been read. -/
def Attribute.define (t : Term) : List Attribute → List (String × FunDef) → List (String × FunDef)
  | [], F => F
  | .named s :: as, F => Attribute.define t as (mapInsert F s ⟨[], t⟩)
  | _ :: as, F => Attribute.define t as F

theorem expectKeyword_cons {k : String} {ts : List Token} {F : List (String × FunDef)} :
    expectKeyword ⟨.keyword k :: ts, F⟩ = .ok (k, ⟨ts, F⟩) := by
  unfold expectKeyword
  rw [reader_bind next_cons]
  rfl

/-- What follows an attribute. -/
theorem attributes_head (as : List Attribute) (rest : List Token) :
    ∃ h ts, (as.flatMap Attribute.tokens ++ .closeParen :: rest = h :: ts) ∧ (h = .closeParen ∨ ∃ k, h = .keyword k) := by
  cases as with
  | nil => exact ⟨_, _, rfl, .inl rfl⟩
  | cons a as => cases a <;> exact ⟨_, _, rfl, .inr ⟨_, rfl⟩⟩

theorem parseAttribute_tokens (t : Term) {a : Attribute} (ha : a.Fine) (as : List Attribute) (rest : List Token) (F : List (String × FunDef)) :
    parseAttribute t ⟨a.tokens ++ (as.flatMap Attribute.tokens ++ .closeParen :: rest), F⟩ =
      .ok ((), ⟨as.flatMap Attribute.tokens ++ .closeParen :: rest, Attribute.define t [a] F⟩) := by
  unfold parseAttribute
  cases a with
  | named s =>
    simp only [Attribute.tokens, List.cons_append, List.nil_append]
    rw [reader_bind expectKeyword_cons, if_pos rfl, reader_bind expectSymbol_cons]
    rfl
  | bare k =>
    simp only [Attribute.tokens, List.cons_append, List.nil_append]
    rw [reader_bind expectKeyword_cons, if_neg ha]
    obtain ⟨h, ts, e, hh⟩ := attributes_head as rest
    rw [e, reader_bind current_cons]
    rcases hh with rfl | ⟨k', rfl⟩ <;> rfl
  | value k v =>
    obtain ⟨hk, h1, h2, h3, h4⟩ := ha
    simp only [Attribute.tokens, List.cons_append, List.nil_append]
    rw [reader_bind expectKeyword_cons, if_neg hk, reader_bind current_cons]
    cases v <;> first | exact absurd rfl h1 | exact absurd rfl h2 | exact absurd rfl h3 | exact absurd rfl (h4 _) | rfl
  | list k us =>
    obtain ⟨hk, hb⟩ := ha
    simp only [Attribute.tokens, List.cons_append, List.append_assoc, List.nil_append]
    rw [reader_bind expectKeyword_cons, if_neg hk, reader_bind current_cons]
    simp only
    rw [reader_bind next_cons]
    unfold ignoreUntilClose
    simp only [skipClose_balanced hb, skipClose]
    rfl

theorem parseAttributes_tokens (t : Term) (rest : List Token) : ∀ (as : List Attribute), (∀ a ∈ as, a.Fine) → ∀ (n : Nat), as.length < n →
    ∀ (F : List (String × FunDef)), ∃ us, us.length = as.length ∧
      parseAttributes t n ⟨as.flatMap Attribute.tokens ++ .closeParen :: rest, F⟩ = .ok (us, ⟨rest, Attribute.define t as F⟩)
  | [], _, n, hn, F => by
    cases n with
    | zero => cases hn
    | succ n =>
      refine ⟨[], rfl, ?_⟩
      simp only [List.flatMap_nil, List.nil_append]
      rw [parseAttributes, reader_bind current_cons, if_pos rfl, reader_bind next_cons]
      rfl
  | a :: as, ha, n, hn, F => by
    cases n with
    | zero => cases hn
    | succ n =>
      obtain ⟨us, hl, e⟩ := parseAttributes_tokens t rest as (fun b hb => ha b (by simp [hb])) n (by simpa using hn) (Attribute.define t [a] F)
      refine ⟨() :: us, by simp [hl], ?_⟩
      have hd : Attribute.define t as (Attribute.define t [a] F) = Attribute.define t (a :: as) F := by cases a <;> rfl
      obtain ⟨h, ts, et, hh⟩ : ∃ h ts, (a.tokens ++ (as.flatMap Attribute.tokens ++ .closeParen :: rest) = h :: ts) ∧ ∃ k, h = .keyword k := by
        cases a <;> exact ⟨_, _, rfl, _, rfl⟩
      obtain ⟨k, rfl⟩ := hh
      have e1 := parseAttribute_tokens t (ha a (by simp)) as rest F
      rw [List.flatMap_cons, List.append_assoc]
      rw [et] at e1 ⊢
      rw [parseAttributes, reader_bind current_cons, if_neg (by simp), reader_bind e1, reader_bind e, hd]
      rfl

theorem lookup_mapInsert_self {β : Type} {s : String} {b : β} : ∀ {m : List (String × β)}, (mapInsert m s b).lookup s = some b
  | [] => by simp [mapInsert, List.lookup]
  | (k, v) :: m => by
    unfold mapInsert
    split
    · next e => simp [List.lookup_cons, e]
    · next e =>
      rw [List.lookup_cons]
      split
      · next e' => exact absurd (beq_iff_eq.1 e').symm e
      · exact lookup_mapInsert_self

theorem lookup_mapInsert_ne {β : Type} {s r : String} {b : β} (h : r ≠ s) : ∀ {m : List (String × β)}, (mapInsert m s b).lookup r = m.lookup r
  | [] => by
    simp only [mapInsert, List.lookup]
    split
    · next e => exact absurd (beq_iff_eq.1 e) h
    · rfl
  | (k, v) :: m => by
    unfold mapInsert
    split
    · next e =>
      subst e
      simp only [List.lookup_cons]
      split
      · next e => exact absurd (beq_iff_eq.1 e) h
      · rfl
    · simp only [List.lookup_cons, lookup_mapInsert_ne h]

/-- Names that a list of attributes gives to a term are defined, and the others are not changed. -/
theorem lookup_define (t : Term) (s : String) : ∀ (as : List Attribute) (F : List (String × FunDef)),
    (.named s ∈ as → (Attribute.define t as F).lookup s = some ⟨[], t⟩) ∧ (.named s ∉ as → (Attribute.define t as F).lookup s = F.lookup s)
  | [], F => ⟨fun h => (by cases h), fun _ => rfl⟩
  | a :: as, F => by
    cases a with
    | named r =>
      obtain ⟨h1, h2⟩ := lookup_define t s as (mapInsert F r ⟨[], t⟩)
      refine ⟨fun h => ?_, fun h => ?_⟩
      · by_cases hs : .named s ∈ as
        · exact h1 hs
        · rcases List.mem_cons.1 h with e | h
          · cases e
            rw [Attribute.define, h2 hs, lookup_mapInsert_self]
          · exact absurd h hs
      · simp only [List.mem_cons, Attribute.named.injEq, not_or] at h
        rw [Attribute.define, h2 h.2, lookup_mapInsert_ne h.1]
    | _ =>
      obtain ⟨h1, h2⟩ := lookup_define t s as F
      refine ⟨fun h => h1 ?_, fun h => h2 ?_⟩
      · simpa using h
      · simpa using h

end Carcara
