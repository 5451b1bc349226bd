import Verif.Lemmas.ElabPolyeqPass
import Verif.Lemmas.PolyeqPlain
import Verif.Lemmas.StringRules
import Verif.Props.C53

/-!
# C61: steps that use equality modulo reordering are elaborated into steps that do not

For the five rules that `elaborate_polyeq` rewrites (`subproof`, `ite_intro`, `bfun_elim`, `forall_inst`, `refl`): a step that the checker accepts is
elaborated without failure into a proof of the same clause at the same depth, all of whose steps are accepted. This holds for terms for which the
equality elaborator works (see C58) and whose literals are written in one way. It fails for a `subproof` step after an assumption or after another
subproof, for literals that are compared differently in the two directions, and the new steps can have the names of steps that are there already.
-/

namespace Carcara

open Spec

/-! ## `subproof` -/

/-- The step before the end of a subproof is followed, if its literal differs from the last literal of the conclusion, by accepted steps that derive
that literal; the rule then accepts the end of the subproof as before.

Missing: the terms left out in `c58_equality_partial`, literals that can be written in several ways (fails below), and subproofs that end after an
assumption or after a subproof (fails below). -/
theorem c61_subproof_partial (E : TableEnv) (el : Bool) {d e : NodeData} {ps ds qs es : List Node} {pv : Option Node} {a : RuleArgs} {last : Term}
    (ha : a.conclusion = d.clause) (hp : a.previous = some e.clause) (hok : subproof a = .ok ()) (he : e.depth = d.depth)
    (hl : d.clause.getLast? = some last) (hlast : elaborable true last) (hc : ∀ t ∈ e.clause, elaborable true t ∧ (el = true → t.separate last)) :
    ∃ n, elabSubproof d ps ds (some (.step e qs es pv)) = .ok (.step d ps ds (some n)) ∧ n.isStepAt d.depth = true ∧
      Accepted E el [.step e qs es pv] n ∧ (e.clause ≠ [] → n.clause = [last]) ∧ subproof { a with previous := some n.clause } = .ok () := by
  have unchanged : ∀ {r : Res Node}, r = .ok (.step d ps ds (some (.step e qs es pv))) → (e.clause ≠ [] → e.clause = [last]) →
      ∃ n, r = .ok (.step d ps ds (some n)) ∧ n.isStepAt d.depth = true ∧
        Accepted E el [.step e qs es pv] n ∧ (e.clause ≠ [] → n.clause = [last]) ∧ subproof { a with previous := some n.clause } = .ok () := by
    intro r hr hx
    refine ⟨_, hr, by simp [Node.isStepAt, he], .given (by simp), hx, ?_⟩
    rw [show ({ a with previous := some (Node.step e qs es pv).clause } : RuleArgs) = a by cases a; simp_all [Node.clause]]
    exact hok
  have hok' := hok
  simp only [subproof, hp, ha, hl, bind_ok, orErr, require_ok, orPanic] at hok
  obtain ⟨_, ⟨⟩, _, h1, _, h2, phi, h3, _, ⟨⟩, h4⟩ := hok
  simp only [assertPolyeq, bind_ok, require_ok] at h4
  obtain ⟨r, h4, rfl⟩ := h4
  unfold elabSubproof
  dsimp only
  cases hcl : e.clause with
  | nil => rw [hcl] at unchanged; exact unchanged rfl (by simp)
  | cons t ts =>
    cases ts with
    | cons t' ts => rw [hcl] at h3; cases h3
    | nil =>
      rw [hcl] at h3
      obtain rfl : t = phi := by simpa [subproofPhi] using h3
      rw [hl]
      dsimp only
      obtain ⟨ht, hs⟩ := hc t (by rw [hcl]; simp)
      by_cases hlt : last = t
      · rw [if_pos hlt, hlt]
        rw [hcl, hlt] at unchanged
        exact unchanged rfl (by simp)
      · rw [if_neg hlt]
        have hr : Reord t last := Reord.symm_of hlast.unamb ht.unamb (polyeq_reord h4 hlast ht)
        obtain ⟨n, p, e1, c1, d1, a1, i1⟩ := elaborateEq_at (E := E) (el := el) hr ht hlast hs (new_one d.id) d.depth
        obtain ⟨id1, ids1, e2, i2⟩ := nextId_one i1
        obtain ⟨id2, ids2, e3, _⟩ := nextId_one i2
        simp only [bind, Except.bind, e1, replaceStep, e2, e3]
        refine ⟨_, rfl, by simp [Node.isStepAt, Node.mk], ?_, fun _ => rfl, ?_⟩
        · refine through_accepted c1 d1 (a1.mono (by simp)) hcl he (.given (by simp)) fun h => ?_
          exact reord_not _ (Nat.le_refl _) ht.unamb (h ▸ hr)
        · simp only [subproof, ha, hl, bind_ok, orErr, require_ok, orPanic]
          refine ⟨_, rfl, (), h1, (), h2, last, rfl, last, rfl, ?_⟩
          simp [assertPolyeq, polyeq_refl, bind, Except.bind, require]

/-! ## `ite_intro` -/

/-- An accepted `ite_intro` step is left alone or replaced by accepted steps.

Missing: the terms left out in `c58_equality_partial` and literals that can be written in several ways. -/
theorem c61_ite_intro_partial (E : TableEnv) (el : Bool) (hE : E.other "ite_intro" = iteIntro.lift) {d : NodeData} {ps ds : List Node}
    {pv : Option Node} {prem : List (List Term)} {args : List Term} (hok : iteIntro d.clause prem args = .ok ())
    (hc : ∀ t ∈ d.clause, elaborable true t ∧ (el = true → t.separate t)) :
    ∃ n, elabIteIntro d ps ds pv = .ok n ∧ n.clause = d.clause ∧ n.depth = d.depth ∧ (n = .step d ps ds pv ∨ Accepted E el [] n) := by
  simp only [iteIntro, bind_ok, get1_ok, match2_ok, Prod.exists] at hok
  obtain ⟨_, hcl, root, right, rfl, b, hb, hok⟩ := hok
  obtain ⟨hel, hsep⟩ := hc (.op .equals [root, right]) (by rw [hcl]; simp)
  have hroot : elaborable true root := hel.sub (subterms_op (by simp))
  have hright : elaborable true right := hel.sub (subterms_op (by simp))
  unfold elabIteIntro
  rw [hcl]
  simp only [match2, bind, Except.bind, if_true]
  cases b with
  | true =>
    have hr := polyeq_reord hb hroot hright
    obtain ⟨n, p, e1, c1, d1, a1, _⟩ := elaborateEq_at (E := E) (el := el) hr hroot hright
      (fun h => separate_sub (hsep h) (subterms_op (by simp)) (subterms_op (by simp))) (new_one d.id) d.depth
    rw [ifRes_true hb, e1]
    exact ⟨n, rfl, c1, d1, .inr a1⟩
  | false =>
    rw [if_neg (by simp)] at hok
    rw [ifRes_false hb]
    split at hok
    case h_1 => cases hok
    case h_3 => cases hok
    next u us =>
    obtain ⟨_, h1, h2⟩ := bind_ok.1 hok
    simp only [assertPolyeq, bind_ok, require_ok] at h1
    obtain ⟨r, h1, rfl⟩ := h1
    have hu : elaborable true u := hright.sub (subterms_op (by simp))
    have hus : ∀ x ∈ us, elaborable true x := fun x hx => hright.sub (subterms_op (by simp [hx]))
    obtain ⟨vs, e1, r1, a1, s1, k1⟩ := expectedDefs_ok (t := .op .and (u :: us)) h2 hus
    simp only [e1, elabIteFixed]
    by_cases hfix : Term.op .and (u :: us) = .op .and (root :: vs)
    · rw [if_pos hfix]
      exact ⟨_, rfl, hcl, rfl, .inl rfl⟩
    · rw [if_neg hfix]
      have hfe : elaborable true (.op .and (root :: vs)) := elaborable_op rfl (fun _ => rfl) (by simpa using ⟨hroot, a1⟩)
      have hfr : Reord (.op .and (root :: vs)) (.op .and (u :: us)) :=
        .op (.cons (Reord.symm_of hu.unamb hroot.unamb (polyeq_reord h1 hu hroot)) r1)
      have hfs : el = true → (Term.op .and (root :: vs)).separate (.op .and (u :: us)) := by
        intro h
        have inr : ∀ x ∈ (Term.op .and (u :: us)).subterms, x ∈ (Term.op .equals [root, .op .and (u :: us)]).subterms := subterms_op (by simp)
        refine separate_op (by
          simp only [List.mem_cons, forall_eq_or_imp]
          refine ⟨separate_sub (hsep h) (subterms_op (by simp)) inr, s1 fun x hx => ?_⟩
          exact separate_sub (hsep h) (fun y hy => inr y (subterms_op (by simp [hx]) y hy)) inr)
      obtain ⟨id1, ids1, e2, i2⟩ := nextId_one (new_one d.id)
      obtain ⟨n, p, e3, c3, d3, a3, _⟩ := elaborateEq_at (E := E) (el := el) hfr hfe hright hfs i2 d.depth
      simp only [bind, Except.bind, e2, e3]
      rw [addTrans_eq rfl c3]
      refine ⟨_, rfl, rfl, rfl, .inr (.step ?_ ?_ (trans_from rfl c3))⟩
      · intro m hm
        simp only [List.mem_cons, List.not_mem_nil, or_false] at hm
        rcases hm with rfl | rfl
        · refine .step (by simp) (by simp) ⟨iteIntro, ?_, ?_⟩
          · exact (show getRule E el "ite_intro" = some (E.other "ite_intro") by cases el <;> rfl).trans (by rw [hE])
          · obtain ⟨x, ex, _⟩ := polyeq_decided hroot hfe
            simp only [iteIntro, get1, match2, bind, Except.bind, if_true, ex]
            cases x
            · simp [assertPolyeq, polyeq_refl, bind, Except.bind, require, k1]
            · rfl
        · exact a3
      · intro m hm
        simp only [List.mem_cons, List.not_mem_nil, or_false] at hm
        rcases hm with rfl | rfl
        · exact Nat.le_refl _
        · exact Nat.le_of_eq d3

/-! ## `bfun_elim` -/

/-- An accepted `bfun_elim` step is left alone or replaced by accepted steps, from the same premise.

Missing: the terms left out in `c58_equality_partial` and literals that can be written in several ways. -/
theorem c61_bfun_elim_partial (E : TableEnv) (el : Bool) (hE : E.other "bfun_elim" = bfunElim.lift) {d : NodeData} {q : Node} {ds : List Node}
    {pv : Option Node} {psi expected got : Term} {args : List Term} (hok : bfunElim d.clause [q.clause] args = .ok ()) (hq : q.clause = [psi])
    (hd : q.depth ≤ d.depth) (hx : bfunElimTerm psi = .ok expected) (hgot : d.clause = [got]) (h1 : elaborable true expected)
    (h2 : elaborable true got) (hs : el = true → expected.separate got) :
    ∃ n, elabBfunElim d [q] ds pv = .ok n ∧ n.clause = d.clause ∧ n.depth = d.depth ∧ (n = .step d [q] ds pv ∨ Accepted E el [q] n) := by
  rw [hq, hgot] at hok
  simp only [bfunElim, premiseTerm, get1, bind, Except.bind, hx, assertPolyeq] at hok
  unfold elabBfunElim
  rw [hgot]
  dsimp only
  rw [hq]
  simp only [bind, Except.bind, hx]
  by_cases hg : got = expected
  · rw [if_pos hg]
    exact ⟨_, rfl, hgot, rfl, .inl rfl⟩
  · rw [if_neg hg]
    have hp : polyeq got expected = .ok true := by
      obtain ⟨r, e, _⟩ := polyeq_decided h2 h1
      rw [e] at hok ⊢
      cases r
      · cases hok
      · rfl
    have hr : Reord expected got := Reord.symm_of h2.unamb h1.unamb (polyeq_reord hp h2 h1)
    obtain ⟨n, p, e1, c1, d1, a1, i1⟩ := elaborateEq_at (E := E) (el := el) hr h1 h2 hs (new_one d.id) d.depth
    obtain ⟨id1, ids1, e2, i2⟩ := nextId_one i1
    obtain ⟨id2, ids2, e3, _⟩ := nextId_one i2
    simp only [elabThrough, e1, bind, Except.bind, e2, e3]
    refine ⟨_, rfl, rfl, rfl, .inr (through_accepted c1 d1 (a1.mono (by simp)) rfl rfl ?_ fun h => ?_)⟩
    · refine .step (by simpa using .given (by simp)) (by simpa using hd) ⟨bfunElim, ?_, ?_⟩
      · exact (show getRule E el "bfun_elim" = some (E.other "bfun_elim") by cases el <;> rfl).trans (by rw [hE])
      · simp [bfunElim, premiseTerm, get1, bind, Except.bind, hx, assertPolyeq, polyeq_refl, require, hq]
    · exact reord_not _ (Nat.le_refl _) h1.unamb (h ▸ hr)

/-! ## `forall_inst` -/

theorem elabEquality_poly {E : TableEnv} {el : Bool} {alpha : ElabCall} {a b : Term} (h : polyeq a b = .ok true) (ha : elaborable true a)
    (hb : elaborable true b) (hs : el = true → a.separate b) {ids : IdHelper} (hi : ids.stack.length = 1) (depth : Nat) :
    ∃ n ids', elabEquality alpha a b ids depth = .ok (n, ids') ∧ n.clause = [.op .equals [a, b]] ∧ n.depth = depth ∧ Accepted E el [] n ∧
      ids'.stack.length = 1 := by
  obtain ⟨n, p, e, c, d, k, i⟩ := elaborateEq_at (E := E) (el := el) (polyeq_reord h ha hb) ha hb hs hi depth
  exact ⟨n, p.ids, by rw [elabEquality, ifRes_true h, e]; rfl, c, d, k, i⟩

/-- An accepted `forall_inst` step whose instance is the expected one modulo reordering is left alone or replaced by accepted steps.

Missing: instances that are the expected one only modulo the names of bound variables, and the terms left out in `c58_equality_partial`. -/
theorem c61_forall_inst_partial (E : TableEnv) (el : Bool) (alpha : ElabCall) {d : NodeData} {ps ds : List Node} {pv : Option Node}
    {prem : List (List Term)} (hok : forallInst d.clause prem d.args = .ok ())
    {bs : List (String × Srt)} {body got expected : Term} {m : List (Term × Term)} {σ σ' : Subst}
    (hc : d.clause = [.op .or [.op .not [.binder .all bs body], got]]) (hm : instMap bs d.args [] = .ok m) (hσ : Subst.new m = .ok σ)
    (hx : σ.apply body = .ok (expected, σ')) (hp : polyeq expected got = .ok true) (h1 : elaborable true expected) (h2 : elaborable true got)
    (hs : el = true → expected.separate got) :
    ∃ n, elabForallInst alpha d ps ds pv = .ok n ∧ n.clause = d.clause ∧ n.depth = d.depth ∧ (n = .step d ps ds pv ∨ Accepted E el [] n) := by
  have hlen : d.args.length = bs.length := by
    rw [hc] at hok
    simp only [forallInst, get1, match2, match1, matchBinder, bind_ok, require_ok] at hok
    obtain ⟨_, ⟨⟩, _, ⟨⟩, _, ⟨⟩, _, ⟨⟩, _, h, _⟩ := hok
    exact h
  unfold elabForallInst
  rw [hc]
  simp only [match2, match1, matchBinder, if_true, bind, Except.bind, assertOr, hlen, hm, hσ, hx]
  by_cases hg : got = expected
  · rw [if_pos hg]
    exact ⟨_, rfl, hc, rfl, .inl rfl⟩
  · rw [if_neg hg]
    obtain ⟨n, ids0, e1, c1, d1, a1, i1⟩ := elabEquality_poly (E := E) (el := el) (alpha := alpha) hp h1 h2 hs (new_one d.id) d.depth
    obtain ⟨id1, ids1, e2, i2⟩ := nextId_one i1
    obtain ⟨id2, ids2, e3, i3⟩ := nextId_one i2
    obtain ⟨id3, ids3, e4, _⟩ := nextId_one i3
    simp only [elabInst, elabThrough, e1, bind, Except.bind, e2, e3, e4]
    refine ⟨_, rfl, rfl, rfl, .inr (through_accepted rfl rfl ?_ rfl rfl ?_ (by simp))⟩
    · refine .step (by simpa using a1) (by simp [d1]) ⟨cong, rfl, ?_⟩
      rw [List.map_cons, List.map_nil, c1]
      have hdp : diffPairs [.op .not [.binder .all bs body], expected] [.op .not [.binder .all bs body], got] = [(expected, got)] := by
        simp only [diffPairs, if_true]
        rw [if_neg fun h => hg h.symm]
      refine cong_intro (es := [(expected, got)]) (as := [.op .not [.binder .all bs body], expected]) (bs := [.op .not [.binder .all bs body], got])
        (by simp [congArgs, sameHead]) rfl ?_ (by simp)
      rw [← hdp]
      exact checkCong_diffPairs rfl
    · refine .step (by simp) (by simp) ⟨forallInst, rfl, ?_⟩
      simp only [forallInst, get1, match2, match1, matchBinder, if_true, bind, Except.bind, require, hlen, hm, hσ, hx, alphaEquiv_self]

/-! ## `refl` -/

section
variable {E : TableEnv} {Γ : List (List AnchorArg)}

/-- Inside the anchors, `refl` derives that a term equals what the anchors make of it. -/
theorem refl_put (hΓ : PlainAnchors Γ) {t : Term} (ht : t.plain = true) {ok : List (List AnchorArg) → Term → Prop} {C : CtxStack}
    (hC : CtxHistory ok Γ C) : ∃ C', strictRefl C [.op .equals [t, t.put (anchorsValue Γ)]] = .ok C' := by
  obtain ⟨C', e⟩ := hC.ctxPlain.apply.2 hΓ ht
  by_cases h : t = t.put (anchorsValue Γ)
  · exact ⟨C, (c42_strict_refl_exact _ _ _).2 ⟨_, _, rfl, .inl ⟨h, rfl⟩⟩⟩
  · refine ⟨C', (c42_strict_refl_exact _ _ _).2 ⟨_, _, rfl, .inr ⟨h, fun hn => ?_, e⟩⟩⟩
    rw [CtxStack.apply, hn] at e
    exact h (by simpa using congrArg Prod.fst (Except.ok.inj e))

theorem reflStep_in (hΓ : PlainAnchors Γ) {t : Term} (ht : t.plain = true) (id : String) (depth : Nat) :
    AcceptedIn E Γ (reflStep t (t.put (anchorsValue Γ)) id depth) := .refl rfl fun _ _ hC => refl_put hΓ ht hC

theorem symmStep_in {a b : Term} {n : Node} (h : AcceptedIn E Γ n) (hc : n.clause = [.op .equals [a, b]]) (id : String) :
    AcceptedIn E Γ (.step { id, depth := n.depth, clause := [.op .equals [b, a]], rule := "symm" } [n] [] none) :=
  .step (by simpa using h) (by simp) (symm_from hc)

theorem transStep_in {a b c : Term} {m n : Node} (hm : AcceptedIn E Γ m) (hn : AcceptedIn E Γ n) (cm : m.clause = [.op .equals [a, b]])
    (cn : n.clause = [.op .equals [b, c]]) (hd : n.depth = m.depth) (id : String) :
    AcceptedIn E Γ (.step { id, depth := m.depth, clause := [.op .equals [a, c]], rule := "trans" } [m, n] [] none) :=
  .step (by simpa using ⟨hm, hn⟩) (by simp [hd]) (trans_from cm cn)

theorem transStep3_in {a b c e : Term} {m n o : Node} (hm : AcceptedIn E Γ m) (hn : AcceptedIn E Γ n) (ho : AcceptedIn E Γ o)
    (cm : m.clause = [.op .equals [a, b]]) (cn : n.clause = [.op .equals [b, c]]) (co : o.clause = [.op .equals [c, e]]) (hd : n.depth = m.depth)
    (hd' : o.depth = m.depth) (id : String) :
    AcceptedIn E Γ (.step { id, depth := m.depth, clause := [.op .equals [a, e]], rule := "trans" } [m, n, o] [] none) :=
  .step (by simpa using ⟨hm, hn, ho⟩) (by simp [hd, hd']) (trans_from3 cm cn co)

theorem reflSymm_in (hΓ : PlainAnchors Γ) {t : Term} (ht : t.plain = true) {ids : IdHelper} (hi : ids.stack.length = 1) (depth : Nat) :
    ∃ n ids', reflSymm t (t.put (anchorsValue Γ)) ids depth = .ok (n, ids') ∧ n.clause = [.op .equals [t.put (anchorsValue Γ), t]] ∧ n.depth = depth ∧
      AcceptedIn E Γ n := by
  obtain ⟨id1, ids1, e1, i1⟩ := nextId_one hi
  obtain ⟨id2, ids2, e2, _⟩ := nextId_one i1
  refine ⟨_, ids2, ?_, rfl, rfl, symmStep_in (reflStep_in (E := E) hΓ ht id1 depth) rfl id2⟩
  simp only [reflSymm, bind, Except.bind, e1, e2]
  rw [addSymm_eq rfl]

/-- An accepted `refl` step between terms without binders is left alone, if it is accepted in elaborated mode, or replaced by steps that are.
Here `σ` stands for what the anchors make of a term.

Missing: terms and anchors with binders, and the terms left out in `c58_equality_partial`. -/
theorem c61_refl_partial (E : TableEnv) (alpha : ElabCall) {ok : List (List AnchorArg) → Term → Prop} {C C' : CtxStack} (hC : CtxHistory ok Γ C)
    (hΓ : PlainAnchors Γ) {d : NodeData} {ps ds : List Node} {pv : Option Node} {l r : Term} (hc : d.clause = [.op .equals [l, r]])
    (hok : refl C d.clause = .ok C') (hl : l.plain = true) (hr : r.plain = true) {σ : Term → Term} (hσ : σ = Term.put (anchorsValue Γ))
    (hel : ∀ t ∈ [l, r, σ l, σ r], elaborable true t)
    (hs : ∀ a ∈ [l, σ l], ∀ b ∈ [r, σ r], a.separate b) :
    ∃ n, elabRefl alpha C d ps ds pv = .ok n ∧ n.clause = d.clause ∧ n.depth = d.depth ∧
      ((n = .step d ps ds pv ∧ ∀ ok C, CtxHistory ok Γ C → ∃ C', strictRefl C d.clause = .ok C') ∨ AcceptedIn E Γ n) := by
  subst hσ
  simp only [List.mem_cons, List.not_mem_nil, or_false, forall_eq_or_imp, forall_eq] at hel hs
  obtain ⟨⟨s1, s3⟩, s2, s4⟩ := hs
  have hl' := Term.put_plain (anchorsValue_plain hΓ) l hl
  have hr' := Term.put_plain (anchorsValue_plain hΓ) r hr
  have q1 := alphaEquiv_plain hl hr
  have q2 := alphaEquiv_plain hl' hr
  have q3 := alphaEquiv_plain hl hr'
  have q4 := alphaEquiv_plain hl' hr'
  obtain ⟨C1, e1⟩ := hC.ctxPlain.apply.2 hΓ hl
  have hC1 : CtxPlain Γ C1 := hC.ctxPlain.apply.1 _ _ e1
  obtain ⟨C2, e2⟩ := hC1.apply.2 hΓ hr
  unfold elabRefl
  rw [hc]
  simp only [match2, if_true, bind, Except.bind]
  by_cases h1 : l = r
  · rw [if_pos h1]
    exact ⟨_, rfl, hc, rfl, .inl ⟨rfl, fun _ C _ => ⟨C, (c42_strict_refl_exact _ _ _).2 ⟨_, _, rfl, .inl ⟨h1, rfl⟩⟩⟩⟩⟩
  rw [if_neg h1, e1]
  dsimp only
  by_cases h2 : l.put (anchorsValue Γ) = r
  · rw [if_pos h2]
    exact ⟨_, rfl, hc, rfl, .inl ⟨rfl, fun _ C hC => h2 ▸ refl_put hΓ hl hC⟩⟩
  rw [if_neg h2, e2]
  dsimp only
  have flip : ∀ id, AcceptedIn E Γ (reflStep r (r.put (anchorsValue Γ)) id d.depth) := fun id => reflStep_in hΓ hr id _
  by_cases h3 : l = r.put (anchorsValue Γ)
  · rw [if_pos h3]
    obtain ⟨id1, ids1, k1, _⟩ := nextId_one (new_one d.id)
    simp only [reflFlip, bind, Except.bind, k1]
    rw [addSymm_eq rfl]
    exact ⟨_, rfl, by rw [h3]; rfl, rfl, .inr (symmStep_in (flip id1) rfl d.id)⟩
  rw [if_neg h3]
  by_cases h4 : l.put (anchorsValue Γ) = r.put (anchorsValue Γ)
  · rw [if_pos h4]
    obtain ⟨id1, ids1, k1, i1⟩ := nextId_one (new_one d.id)
    obtain ⟨n, ids2, k2, c2, d2, a2⟩ := reflSymm_in (E := E) hΓ hr i1 d.depth
    simp only [reflBoth, bind, Except.bind, k1, k2]
    rw [addTrans_eq rfl c2]
    exact ⟨_, rfl, rfl, rfl, .inr (transStep_in (reflStep_in hΓ hl id1 d.depth) a2 rfl (by rw [h4]; exact c2) d2 d.id)⟩
  rw [if_neg h4]
  obtain ⟨p1, p2, p3, p4⟩ := hel
  obtain ⟨b1, f1, g1⟩ := polyeq_decided p1 p2
  obtain ⟨b2, f2, g2⟩ := polyeq_decided p3 p2
  obtain ⟨b3, f3, g3⟩ := polyeq_decided p1 p4
  obtain ⟨b4, f4, g4⟩ := polyeq_decided p3 p4
  unfold reflPoly
  cases b1 with
  | true =>
    obtain ⟨n, ids0, k1, c1, d1, a1, _⟩ := elabEquality_poly (E := E) (el := true) (alpha := alpha) f1 p1 p2 (fun _ => s1) (new_one d.id) d.depth
    rw [ifRes_true (q1.trans f1)]
    simp only [k1, bind, Except.bind]
    exact ⟨n, rfl, c1, d1, .inr (.anywhere a1)⟩
  | false =>
  rw [ifRes_false (q1.trans f1)]
  cases b2 with
  | true =>
    obtain ⟨id1, ids1, k1, i1⟩ := nextId_one (new_one d.id)
    obtain ⟨n, ids0, k2, c2, d2, a2, _⟩ := elabEquality_poly (E := E) (el := true) (alpha := alpha) f2 p3 p2 (fun _ => s2) i1 d.depth
    rw [ifRes_true (q2.trans f2)]
    simp only [reflLeft, k1, k2, bind, Except.bind]
    rw [addTrans_eq rfl c2]
    exact ⟨_, rfl, rfl, rfl, .inr (transStep_in (reflStep_in hΓ hl id1 d.depth) (.anywhere a2) rfl c2 d2 d.id)⟩
  | false =>
  rw [ifRes_false (q2.trans f2)]
  cases b3 with
  | true =>
    obtain ⟨n, ids0, k2, c2, d2, a2, i2⟩ := elabEquality_poly (E := E) (el := true) (alpha := alpha) f3 p1 p4 (fun _ => s3) (new_one d.id) d.depth
    obtain ⟨o, ids3, k3, c3, d3, a3⟩ := reflSymm_in (E := E) hΓ hr i2 d.depth
    rw [ifRes_true (q3.trans f3)]
    simp only [reflRight, k2, k3, bind, Except.bind]
    rw [addTrans_eq c2 c3]
    exact ⟨_, rfl, rfl, d2, .inr (transStep_in (.anywhere a2) a3 c2 c3 (d3.trans d2.symm) d.id)⟩
  | false =>
  rw [ifRes_false (q3.trans f3)]
  cases b4 with
  | true =>
    obtain ⟨id1, ids1, k1, i1⟩ := nextId_one (new_one d.id)
    obtain ⟨n, ids0, k2, c2, d2, a2, i2⟩ := elabEquality_poly (E := E) (el := true) (alpha := alpha) f4 p3 p4 (fun _ => s4) i1 d.depth
    obtain ⟨o, ids3, k3, c3, d3, a3⟩ := reflSymm_in (E := E) hΓ hr i2 d.depth
    rw [ifRes_true (q4.trans f4)]
    simp only [reflSides, k1, k2, k3, bind, Except.bind, addTrans3, c3]
    exact ⟨_, rfl, rfl, rfl, .inr (transStep3_in (reflStep_in hΓ hl id1 d.depth) (.anywhere a2) a3 rfl c2 c3 d2 d3 d.id)⟩
  | false =>
    exfalso
    rw [hc] at hok
    simp only [refl, get1, match2, if_true, bind, Except.bind, q1, f1, e1, q2, f2, e2, q3, f3, q4, f4, require, Bool.false_eq_true, if_false] at hok
    split at hok <;> cases hok

end

/-! ## Where it fails -/

namespace C61

abbrev a : Term := .var "a" .int
abbrev b : Term := .var "b" .int
abbrev c : Term := .var "c" .bool
abbrev x : Term := .var "x" .real
abbrev p : Term := .var "p" .bool
abbrev eq (s t : Term) : Term := .op .equals [s, t]
abbrev neg (t : Term) : Term := .op .not [t]

/-- The end of a subproof `t1` with the assumption `h`. -/
abbrev close (h t : Term) : NodeData := { id := "t1", depth := 1, clause := [neg h, t], rule := "subproof" }

/-- What the rule sees at the end of a subproof whose last step has the clause `prev`. -/
abbrev closeArgs (h t : Term) (prev : List Term) : RuleArgs := { conclusion := [neg h, t], previous := some prev, discharge := [.assume "t1.h" h] }

/-- The literals `0.0` and `(/ 0.0 1.0)`. -/
abbrev zero : Term := .const (.real 0)
abbrev zeroDiv : Term := .op .realDiv [.const (.real 0), .const (.real 1)]

end C61

open C61

/-- The elaborator panics at the end of a subproof if the command before it is not a step, though the rule `subproof` does not mind: the trivial proof of
`(cl (not p) p)`, and the same with a subproof around it. -/
theorem c61_subproof_fails :
    (∀ d ps ds id depth t, elabSubproof d ps ds (some (.assume id depth t)) = panic) ∧
    (∀ d ps ds last args extra, elabSubproof d ps ds (some (.subproof last args extra)) = panic) ∧
    (∀ t, subproof (closeArgs t t (Node.assume "t1.h" 1 t).clause) = .ok ()) ∧
    ∀ last args extra t, (Node.subproof last args extra).clause = [t] →
      subproof (closeArgs p t (Node.subproof last args extra).clause) = .ok () := by
  refine ⟨fun _ _ _ _ _ _ => rfl, fun _ _ _ _ _ _ => rfl, fun t => ?_, fun last args extra t h => ?_⟩
  · simp [subproof, orErr, bind, Except.bind, require, dischargeLoop, Term.removeNegErr, Term.removeNegation, assertPolyeq, polyeq_refl, Node.clause,
      subproofPhi, orPanic]
  · rw [h]
    simp [subproof, orErr, bind, Except.bind, require, dischargeLoop, Term.removeNegErr, Term.removeNegation, assertPolyeq, polyeq_refl,
      subproofPhi, orPanic]

/-- The rule compares the last literal with the one before it, the elaborator the other way round. For `0.0` and `(/ 0.0 1.0)` this makes a difference:
the rule accepts, the elaborator panics. All terms are well sorted. -/
theorem c61_literals_fails :
    (sortOf (eq x zero) = some .bool ∧ sortOf (eq x zeroDiv) = some .bool) ∧ subproof (closeArgs p (eq x zero) [eq x zeroDiv]) = .ok () ∧
    (∀ qs es pv ps ds, elabSubproof (close p (eq x zero)) ps ds
      (some (.step { id := "t1.t1", depth := 1, clause := [eq x zeroDiv], rule := "hole" } qs es pv)) = panic) := by
  refine ⟨by decide +kernel, by decide +kernel, fun qs es pv ps ds => ?_⟩
  have : (match elaborateEq (eq x zeroDiv) (eq x zero) (.new (.new "t1") 1) with | .error .panic => true | _ => false) = true := by decide +kernel
  simp only [elabSubproof, List.getLast?]
  rw [if_neg (by decide +kernel)]
  simp only [List.getLast, bind, Except.bind]
  split at this
  · next h => rw [h]; rfl
  · simp at this

/-- The new steps can have the name of a step that is there already, so that the elaborated proof is not read again: the usual names of the steps of the
subproof `t1` are `t1.t1`, `t1.t2`, …. -/
theorem c61_names_fails : subproof (closeArgs p (eq b a) [eq a b]) = .ok () ∧
    ∀ ps ds, ∃ d e f g, elabSubproof (close p (eq b a)) ps ds (some (.mk { id := "t1.t1", depth := 1, clause := [eq a b], rule := "hole" } [])) =
      .ok (.step (close p (eq b a)) ps ds (some (.mk d [.mk e [.mk f []], .mk g []]))) ∧ f.rule = "eq_symmetric" ∧ g.rule = "hole" ∧ f.id = g.id := by
  refine ⟨by decide +kernel, fun ps ds => ?_⟩
  refine ⟨{ id := "t1.t3", depth := 1, clause := [eq b a], rule := "resolution", args := [eq a b, .fls] },
    { id := "t1.t2", depth := 1, clause := [neg (eq a b), eq b a], rule := "equiv1" },
    { id := "t1.t1", depth := 1, clause := [eq (eq a b) (eq b a)], rule := "eq_symmetric" },
    { id := "t1.t1", depth := 1, clause := [eq a b], rule := "hole" }, ?_, rfl, rfl, rfl⟩
  have h : ∃ p', elaborateEq (eq a b) (eq b a) (.new (.new "t1") 1) =
      .ok (.mk { id := "t1.t1", depth := 1, clause := [eq (eq a b) (eq b a)], rule := "eq_symmetric" } [], p') ∧
      ∃ ids ids', p'.ids.nextId = .ok ("t1.t2", ids) ∧ ids.nextId = .ok ("t1.t3", ids') := by
    have : (match elaborateEq (eq a b) (eq b a) (.new (.new "t1") 1) with
      | .ok (n, p') => n.same (.mk { id := "t1.t1", depth := 1, clause := [eq (eq a b) (eq b a)], rule := "eq_symmetric" } []) &&
        (match p'.ids.nextId with | .ok (i, ids) => i = "t1.t2" && (match ids.nextId with | .ok (j, _) => decide (j = "t1.t3") | _ => false) | _ => false)
      | _ => false) = true := by decide +kernel
    split at this
    · next n p' e =>
      simp only [Bool.and_eq_true] at this
      obtain ⟨h1, h2⟩ := this
      obtain rfl := Node.same_eq h1
      split at h2
      · next i ids e2 =>
        simp only [Bool.and_eq_true, decide_eq_true_eq] at h2
        obtain ⟨rfl, h3⟩ := h2
        split at h3
        · next j ids' e3 =>
          obtain rfl := of_decide_eq_true h3
          exact ⟨p', e, ids, ids', e2, e3⟩
        · simp at h3
      · simp at h2
    · simp at this
  obtain ⟨p', e1, ids, ids', e2, e3⟩ := h
  simp only [elabSubproof, Node.mk, List.getLast?, List.getLast]
  rw [if_neg (by decide +kernel)]
  simp only [bind, Except.bind, e1, replaceStep, e2, e3]
  rfl

/-! ## Examples -/

/-- The hypotheses of `c61_subproof_partial`. -/
example : subproof (closeArgs p (eq b a) [eq a b]) = .ok () ∧ elaborable true (eq b a) ∧ elaborable true (eq a b) ∧ (eq a b).separate (eq b a) :=
  ⟨by decide +kernel, by decide +kernel, by decide +kernel, by decide +kernel⟩

private def rules61 : Node → List String
  | .assume .. => ["assume"]
  | .step d ps _ _ => d.rule :: rulesList61 ps
  | .subproof .. => ["subproof"]
where rulesList61 : List Node → List String
  | [] => []
  | n :: ns => rules61 n ++ rulesList61 ns

/-- A term with an `ite`, and its definition written in another order than the expected one. -/
abbrev C61.withIte : Term := eq a (.op .ite [c, a, b])
abbrev C61.iteClause : Term := eq withIte (.op .and [eq (.op .ite [c, a, b]) a, .op .ite [c, eq a (.op .ite [c, a, b]), eq (.op .ite [c, a, b]) b]])

/-- The hypotheses of `c61_ite_intro_partial`, and the steps for this case. -/
example : iteIntro [iteClause] [] [] = .ok () ∧ elaborable true iteClause ∧ iteClause.separate iteClause ∧
    (elabIteIntro { id := "t3", depth := 0, clause := [iteClause], rule := "ite_intro" } [] [] none).map rules61 =
      .ok ["trans", "ite_intro", "cong", "eq_symmetric", "cong", "eq_symmetric"] :=
  ⟨by decide +kernel, by decide +kernel, by decide +kernel, by decide +kernel⟩

/-- The hypotheses of `c61_bfun_elim_partial`. -/
example : ∃ psi expected got, bfunElim [got] [[psi]] [] = .ok () ∧ bfunElimTerm psi = .ok expected ∧ got ≠ expected ∧ elaborable true expected ∧
    elaborable true got ∧ expected.separate got :=
  ⟨.binder .all [("y", .bool)] (eq p (.var "y" .bool)), .op .and [eq p .fls, eq p .tru], .op .and [eq .fls p, eq p .tru], by decide +kernel, by decide +kernel,
    by decide +kernel, by decide +kernel, by decide +kernel, by decide +kernel⟩

/-- The hypotheses of `c61_forall_inst_partial`. -/
example : ∃ body got expected m σ, forallInst [.op .or [.op .not [.binder .all [("y", .int)] body], got]] [] [b] = .ok () ∧
    instMap [("y", .int)] [b] [] = .ok m ∧ Subst.new m = .ok σ ∧ (σ.apply body).map Prod.fst = .ok expected ∧ got ≠ expected ∧ polyeq expected got = .ok true ∧
    elaborable true expected ∧ elaborable true got ∧ expected.separate got :=
  ⟨eq a (.var "y" .int), eq b a, eq a b, [(.var "y" .int, b)], _, by decide +kernel, rfl, rfl, by decide +kernel, by decide +kernel, by decide +kernel,
    by decide +kernel, by decide +kernel, by decide +kernel⟩

/-- The hypotheses of `c61_refl_partial`: inside an anchor that assigns `a` to `y`, `(= y b)` is equal to `(= b a)` modulo reordering. -/
example : ∃ Γ C l r, CtxHistory (fun _ _ => True) Γ C ∧ PlainAnchors Γ ∧ (refl C [eq l r]).isOk = true ∧ l ≠ r ∧ l.plain = true ∧ r.plain = true ∧
    (∀ t ∈ [l, r, l.put (anchorsValue Γ), r.put (anchorsValue Γ)], elaborable true t) ∧
    ∀ s ∈ [l, l.put (anchorsValue Γ)], ∀ t ∈ [r, r.put (anchorsValue Γ)], s.separate t := by
  refine ⟨[[.assign "y" .int a]], CtxStack.empty.push [.assign "y" .int a], eq (.var "y" .int) b, eq b a, CtxHistory.empty.push _, ?_⟩
  refine ⟨by unfold PlainAnchors; decide +kernel, by decide +kernel, by decide +kernel, by decide +kernel, by decide +kernel, by decide +kernel,
    by decide +kernel⟩

end Carcara
