import Verif.Spec.Context
import Verif.Spec.ProofParser
import Verif.Props.C03
import Verif.Props.C04
import Verif.Lemmas.FreeVarsModel
import Verif.Lemmas.Quantifier

/-! # Accepted proofs are refutations, provided the steps are sound -/

namespace Carcara
variable {I : Interp}

theorem AnchorArg.enters_ok : ∀ {as : List AnchorArg} {ρ ρ' : Env I.U}, (∀ a ∈ as, a.ok = true) → I.EnvOK ρ →
    I.Enters as ρ ρ' → I.EnvOK ρ'
  | [], _, _, _, hρ, h => by cases h; exact hρ
  | .var x s :: as, _, _, ha, hρ, ⟨v, hv, h⟩ =>
    enters_ok (fun a h => ha a (List.mem_cons_of_mem _ h)) (hρ.set hv) h
  | .assign x s t :: as, ρ, _, ha, hρ, h => by
    have := ha _ (List.mem_cons_self ..)
    simp only [AnchorArg.ok, decide_eq_true_eq] at this
    exact enters_ok (fun a h => ha a (List.mem_cons_of_mem _ h)) (hρ.set (eval_dom t this hρ)) h

/-- Entering an anchor only changes its variables. -/
theorem AnchorArg.enters_eq : ∀ {as : List AnchorArg} {ρ ρ' : Env I.U}, I.Enters as ρ ρ' → ∀ x s,
    (∀ a ∈ as, a.key ≠ (x, s)) → ρ' x s = ρ x s
  | [], _, _, h, x, s, _ => by cases h; rfl
  | .var y r :: as, ρ, _, ⟨v, hv, h⟩, x, s, hk => by
    rw [enters_eq h x s fun a ha => hk a (List.mem_cons_of_mem _ ha)]
    have := hk _ (List.mem_cons_self ..)
    simp only [AnchorArg.key, ne_eq, Prod.mk.injEq] at this
    simp only [Env.set]
    rw [if_neg fun e => this ⟨e.1.symm, e.2.symm⟩]
  | .assign y r t :: as, ρ, _, h, x, s, hk => by
    rw [enters_eq (as := as) h x s fun a ha => hk a (List.mem_cons_of_mem _ ha)]
    have := hk _ (List.mem_cons_self ..)
    simp only [AnchorArg.key, ne_eq, Prod.mk.injEq] at this
    simp only [Env.set]
    rw [if_neg fun e => this ⟨e.1.symm, e.2.symm⟩]

/-- Every anchor can be entered. -/
theorem AnchorArg.enters_exists : ∀ (as : List AnchorArg) (ρ : Env I.U), ∃ ρ', I.Enters as ρ ρ'
  | [], ρ => ⟨ρ, rfl⟩
  | .var x s :: as, ρ => by
    obtain ⟨v, hv⟩ := I.dom_nonempty s
    obtain ⟨ρ', h⟩ := enters_exists as (ρ.set x s v)
    exact ⟨ρ', v, hv, h⟩
  | .assign x s t :: as, ρ => enters_exists as _

/-- The environments in which the commands at a position are expected to be true (anchors innermost first). -/
def ScopeR (I : Interp) (prem : List Term) : Frames → List (List AnchorArg) → Env I.U → Prop
  | [_], [], ρ => I.EnvOK ρ ∧ ∀ t ∈ prem, I.True ρ t
  | (_, cs) :: f :: F, as :: Γ, ρ => ∃ ρ0, ScopeR I prem (f :: F) Γ ρ0 ∧ I.Enters as ρ0 ρ ∧
      ∀ t ∈ assumptions cs, I.True ρ t
  | _, _, _ => False

theorem scopeR_index {prem : List Term} {i j : Nat} {cs : List Command} {F : Frames} {Γ} {ρ : Env I.U}
    (h : ScopeR I prem ((i, cs) :: F) Γ ρ) : ScopeR I prem ((j, cs) :: F) Γ ρ := by
  cases F with
  | nil => cases Γ with
    | nil => exact h
    | cons => exact h
  | cons f F => cases Γ with
    | nil => exact h
    | cons => exact h

theorem scopeR_reach {prem : List Term} : ∀ {F : Frames} {Γ} {ρ : Env I.U}, ScopeR I prem F Γ ρ → I.ReachR Γ ρ
  | [_], [], _, h => h.1
  | (_, _) :: _ :: _, _ :: _, _, ⟨ρ0, h, he, _⟩ => ⟨ρ0, scopeR_reach h, he⟩

theorem scopeR_ok {prem : List Term} : ∀ {F : Frames} {Γ} {ρ : Env I.U}, (∀ as ∈ Γ, ∀ a ∈ as, a.ok = true) →
    ScopeR I prem F Γ ρ → I.EnvOK ρ
  | [_], [], _, _, h => h.1
  | (_, _) :: _ :: _, as :: _, _, ha, ⟨_, h, he, _⟩ =>
    AnchorArg.enters_ok (ha as (List.mem_cons_self ..)) (scopeR_ok (fun as h => ha as (List.mem_cons_of_mem _ h)) h) he

/-- The environment of an enclosing scope, which differs only in the variables of the anchors in between. -/
theorem scopeR_outer {prem : List Term} : ∀ {A : Frames} {f : Nat × List Command} {B : Frames} {Γ} {ρ : Env I.U},
    ScopeR I prem (A ++ f :: B) Γ ρ → ∃ ρ', ScopeR I prem (f :: B) (Γ.drop A.length) ρ' ∧
      ∀ x s, (∀ as ∈ Γ.take A.length, ∀ a ∈ as, a.key ≠ (x, s)) → ρ x s = ρ' x s
  | [], f, B, Γ, ρ, h => ⟨ρ, by simpa using h, fun _ _ _ => rfl⟩
  | g :: A, f, B, Γ, ρ, h => by
    cases Γ with
    | nil =>
      obtain ⟨i, cs⟩ := g
      cases A <;> exact h.elim
    | cons as Γ =>
      have : ∃ ρ0, ScopeR I prem (A ++ f :: B) Γ ρ0 ∧ I.Enters as ρ0 ρ := by
        obtain ⟨i, cs⟩ := g
        cases A with
        | nil => obtain ⟨ρ0, h, he, _⟩ := h; exact ⟨ρ0, h, he⟩
        | cons => obtain ⟨ρ0, h, he, _⟩ := h; exact ⟨ρ0, h, he⟩
      obtain ⟨ρ0, h0, he⟩ := this
      obtain ⟨ρ', h', e⟩ := scopeR_outer h0
      refine ⟨ρ', by simpa using h', fun x s hk => ?_⟩
      rw [AnchorArg.enters_eq he x s (hk as (by simp))]
      exact e x s fun as' h => hk as' (by simp [h])

/-! ## Positions -/

theorem Occ.enclosing {proof : List Command} {A : Frames} {j : Nat} {cs : List Command} {B : Frames} {Γ c}
    (h : Occ proof (A ++ (j, cs) :: B) Γ c) {i : Nat} {c' : Command} (hi : cs[i]? = some c') :
    Occ proof ((i, cs) :: B) (Γ.take B.length) c' := by
  induction A generalizing Γ c with
  | nil =>
    have hl := h.ctx_length
    simp only [List.nil_append, List.length_cons, Nat.add_right_cancel_iff] at hl h
    rw [List.take_of_length_le (by omega)]
    cases h with
    | top h => exact .top hi
    | sub h _ => exact .sub h hi
  | cons f A ih =>
    have hl := h.ctx_length
    generalize hF : f :: A ++ (j, cs) :: B = F at h
    cases h with
    | top h => simp at hF
    | @sub F' Γ' cs' as n j' c h hj =>
      have e : F' = A ++ (j, cs) :: B := by
        simp only [List.cons_append, List.cons.injEq] at hF
        exact hF.2.symm
      subst e
      have := ih h
      have hl' := h.ctx_length
      rw [List.take_append_of_le_length (by simp at hl'; omega)]
      exact this

theorem pathLt_of_lt : ∀ (p : List Nat) {i j : Nat} {q r : List Nat}, i < j → pathLt (p ++ i :: q) (p ++ j :: r)
  | [], _, _, _, _, h => .inl h
  | _ :: p, _, _, _, _, h => .inr ⟨rfl, pathLt_of_lt p h⟩

theorem pathLt_asymm : ∀ {p q : List Nat}, pathLt p q → ¬ pathLt q p
  | [], [], h, _ => h
  | [], _ :: _, _, h => h
  | _ :: _, [], h, _ => h
  | a :: p, b :: q, h, h' => by
    rcases h with h | ⟨rfl, h⟩ <;> rcases h' with h' | ⟨e, h'⟩
    · omega
    · omega
    · omega
    · exact pathLt_asymm h h'

/-- Induction along the order of the document. -/
theorem Occ.induction {proof : List Command} {Q : Frames → List (List AnchorArg) → Command → Prop}
    (step : ∀ F Γ c, Occ proof F Γ c → (∀ F' Γ' c', Occ proof F' Γ' c' → pathLt F'.path F.path → Q F' Γ' c') → Q F Γ c) :
    ∀ {F Γ c}, Occ proof F Γ c → Q F Γ c := by
  have key : ∀ n : Nat, ∀ o : Pos, (allPositions proof)[n]? = some o → Q o.frames o.ctx o.cmd := by
    intro n
    induction n using Nat.strongRecOn with
    | _ n ih =>
      intro o ho
      refine step _ _ _ (allPositions_iff.1 (List.mem_of_getElem? ho)) fun F' Γ' c' h' hlt => ?_
      obtain ⟨m, hm⟩ := List.mem_iff_getElem?.1 ((allPositions_iff (o := ⟨F', Γ', c'⟩)).2 h')
      obtain ⟨hn', hn⟩ := List.getElem?_eq_some_iff.1 ho
      obtain ⟨hm', hm2⟩ := List.getElem?_eq_some_iff.1 hm
      by_cases hmn : m < n
      · exact ih m hmn ⟨F', Γ', c'⟩ hm
      · exfalso
        rcases Nat.lt_or_eq_of_le (Nat.not_lt.1 hmn) with h | rfl
        · have := List.pairwise_iff_getElem.1 (allPositions_sorted proof) n m hn' hm' h
          rw [hn, hm2] at this
          exact pathLt_asymm this hlt
        · rw [hn] at hm2
          subst hm2
          exact pathLt_asymm hlt hlt
  intro F Γ c h
  obtain ⟨n, hn⟩ := List.mem_iff_getElem?.1 ((allPositions_iff (o := ⟨F, Γ, c⟩)).2 h)
  exact key n _ hn

theorem clauseLast_eq : ∀ {cs : List Command} {c : Command}, cs.getLast? = some c → Command.clauseLast cs = c.clause
  | [c'], c, h => by simp at h; subst h; rfl
  | a :: b :: cs, c, h => by
    rw [Command.clauseLast]
    · exact clauseLast_eq (by simpa using h)
    · simp

/-- What an accepted command at a position means. -/
def Means (I : Interp) (prem : List Term) (F : Frames) (Γ : List (List AnchorArg)) (c : Command) : Prop :=
  ∀ cl, c.clause = .ok cl → c.isAssume = true ∨ c.isStep = true → ∀ ρ,
    (F.isEnd → ScopeR I prem F.tail Γ.reverse.tail ρ) → (¬ F.isEnd → ScopeR I prem F Γ.reverse ρ) → I.SatC ρ cl

theorem SatC.congr {c : List Term} {ρ ρ' : Env I.U} (hc : ClauseOK c) (hρ : I.EnvOK ρ)
    (h : ∀ t ∈ c, ∀ v ∈ t.fv, ρ v.1 v.2 = ρ' v.1 v.2) (hs : I.SatC ρ' c) : I.SatC ρ c := by
  obtain ⟨l, hl, hT⟩ := hs
  refine ⟨l, hl, ?_⟩
  unfold Interp.True at hT ⊢
  rwa [eval_congr_fv l (l.choiceOK_of_sort (by rw [hc l hl]; rfl)) (.inr hρ) (ρ' := ρ') fun v hv => h l hl v hv]

theorem Occ.lt {proof : List Command} {F : Frames} {Γ c} (h : Occ proof F Γ c) : ∀ f ∈ F, f.1 < f.2.length := by
  induction h with
  | top h =>
    intro f hf
    rw [List.mem_singleton] at hf
    subst hf
    exact (List.getElem?_eq_some_iff.1 h).1
  | sub _ h ih =>
    intro f hf
    rcases List.mem_cons.1 hf with rfl | hf
    · exact (List.getElem?_eq_some_iff.1 h).1
    · exact ih f hf

theorem reverse_split {α : Type} {l : List α} {n : Nat} {x : α} (h : l.reverse[n]? = some x) :
    ∃ A B, l = A ++ x :: B ∧ B.length = n := by
  obtain ⟨hn, e⟩ := List.getElem?_eq_some_iff.1 h
  have hn' : n < l.reverse.length := hn
  refine ⟨(l.reverse.drop (n + 1)).reverse, (l.reverse.take n).reverse, ?_, by simp at hn ⊢; omega⟩
  have := List.take_append_drop n l.reverse
  rw [List.drop_eq_getElem_cons hn, e] at this
  have := congrArg List.reverse this
  simp only [List.reverse_append, List.reverse_reverse, List.reverse_cons] at this
  rw [List.append_assoc] at this
  exact this.symm

/-- Whether the innermost level is a subproof and the position its last. -/
theorem not_isEnd {i : Nat} {cs : List Command} {B : Frames} (h : i + 1 < cs.length) : ¬ Frames.isEnd ((i, cs) :: B) := by
  cases B with
  | nil => exact id
  | cons => simp only [Frames.isEnd]; omega

/-- An earlier command of the same or an enclosing level is true in the scope of that level. -/
theorem Means.earlier {proof : List Command} {prem : List Term} {A : Frames} {j : Nat} {cs : List Command} {B : Frames}
    {Γ c} (hwf : Command.wfL proof = true) (ho : Occ proof (A ++ (j, cs) :: B) Γ c)
    (ih : ∀ F' Γ' c', Occ proof F' Γ' c' → pathLt F'.path (Frames.path (A ++ (j, cs) :: B)) → Means I prem F' Γ' c')
    {i : Nat} {c' : Command} (hi : cs[i]? = some c') (hij : i < j) {cl : List Term} (hcl : c'.clause = .ok cl)
    {ρ : Env I.U} (hρ : ScopeR I prem ((j, cs) :: B) (Γ.take B.length).reverse ρ) : I.SatC ρ cl := by
  have ho' := ho.enclosing hi
  have hj : j < cs.length := ho.lt (j, cs) (by simp)
  have hlt : ∀ q, pathLt ((Frames.path B) ++ i :: q) (Frames.path (A ++ (j, cs) :: B)) := by
    intro q
    have : Frames.path (A ++ (j, cs) :: B) = Frames.path B ++ j :: Frames.path A := by
      simp [Frames.path]
    rw [this]
    exact pathLt_of_lt _ hij
  have direct : c'.isAssume = true ∨ c'.isStep = true → I.SatC ρ cl := by
    intro hk
    refine ih _ _ _ ho' ?_ cl hcl hk ρ (fun he => absurd he (not_isEnd (by omega))) fun _ => scopeR_index hρ
    have : Frames.path ((i, cs) :: B) = Frames.path B ++ i :: [] := by simp [Frames.path]
    rw [this]
    exact hlt _
  cases c' with
  | assume => exact direct (.inl rfl)
  | step => exact direct (.inr rfl)
  | subproof cs' as n =>
    have hw := ho'.wf hwf
    simp only [Command.wf, Bool.and_eq_true, decide_eq_true_eq, beq_iff_eq] at hw
    obtain ⟨⟨h2, hlast⟩, _⟩ := hw
    cases hl : cs'.getLast? with
    | none => rw [hl] at hlast; cases hlast
    | some e =>
      rw [hl] at hlast
      simp only [Option.map_some, Option.some.injEq] at hlast
      rw [Command.clause, clauseLast_eq hl] at hcl
      have hk : cs'[cs'.length - 1]? = some e := by rw [← hl, List.getLast?_eq_getElem?]
      have hocc := Occ.sub ho' hk
      refine ih _ _ _ hocc ?_ cl hcl (.inr hlast) ρ (fun _ => ?_) fun hn => absurd ?_ hn
      · have : Frames.path ((cs'.length - 1, cs') :: (i, cs) :: B) = Frames.path B ++ i :: [cs'.length - 1] := by
          simp [Frames.path]
        rw [this]
        exact hlt _
      · simp only [List.tail_cons, List.reverse_append, List.reverse_cons, List.reverse_nil, List.nil_append,
          List.cons_append]
        exact scopeR_index hρ
      · simp only [Frames.isEnd]; omega

theorem ScopeR.length {prem : List Term} : ∀ {F : Frames} {Γ} {ρ : Env I.U}, ScopeR I prem F Γ ρ → Γ.length + 1 = F.length
  | [_], [], _, _ => rfl
  | (_, _) :: f :: F, as :: Γ, _, ⟨_, h, _, _⟩ => by
    have := ScopeR.length h
    simp only [List.length_cons] at this ⊢
    omega

section Main
variable {P : Params} {cfg : Config} {prem : List Term} {proof : List Command}

/-- The conditions under which the commands of an accepted proof are true in their scopes. -/
structure SoundSteps (P : Params) (prem : List Term) (proof : List Command) : Prop where
  wf : Command.wfL proof = true
  inScope : ∀ F Γ s, Occ proof F Γ (.step s) → s.wellScoped F
  anchors : ∀ F Γ c, Occ proof F Γ c → ∀ as ∈ Γ, ∀ a ∈ as, a.ok = true
  sorts : ∀ F Γ c cl, Occ proof F Γ c → c.clause = .ok cl → ClauseOK cl
  fresh : ∀ F Γ s, Occ proof F Γ (.step s) → s.freshPremises F Γ
  assume : ∀ (i : Nat) id t, proof[i]? = some (.assume id t) → ∀ (I : Interp) (ρ : Env I.U), I.EnvOK ρ →
    (∀ u ∈ prem, I.True ρ u) → I.True ρ t
  step : ∀ F Γ s r a, Occ proof F Γ (.step s) → ¬ F.isEnd → P.rule s.rule = some r → F.argsFor Γ s a → r a = .ok () →
    LocalSound Γ a.premises s.clause
  close : ∀ j cs F Γ as s r a prev, Occ proof ((j, cs) :: F) (Γ ++ [as]) (.step s) → Frames.isEnd ((j, cs) :: F) →
    P.rule s.rule = some r → Frames.argsFor ((j, cs) :: F) (Γ ++ [as]) s a → r a = .ok () →
    Frames.discharged ((j, cs) :: F) s → a.previous = some prev →
    CloseSound Γ as (assumptions cs) prev a.premises s.clause

theorem SoundSteps.means (hs : SoundSteps P prem proof) (h : check P cfg prem proof = .ok false) {F Γ c}
    (ho : Occ proof F Γ c) : Means I prem F Γ c := by
  refine Occ.induction (fun F Γ c ho ih => ?_) ho
  clear * - hs h ho ih
  intro cl hcl hk ρ hend hnend
  -- the premises of a step at an enclosing scope
  have lookup : ∀ s : Step, c = .step s → ∀ p ∈ s.premises, ∃ A j cs B c', F = A ++ (j, cs) :: B ∧ B.length = p.1 ∧
      p.2 < j ∧ cs[p.2]? = some c' ∧ F.lookup p = some c' := by
    rintro s rfl p hp
    obtain ⟨j, cs, c', h1, h2, h3⟩ := hs.inScope F Γ s ho p (List.mem_append_left _ hp)
    obtain ⟨A, B, rfl, hB⟩ := reverse_split h1
    exact ⟨A, j, cs, B, c', rfl, hB, h2, h3, by simp only [Frames.lookup, h1]; exact h3⟩
  cases c with
  | subproof => rcases hk with hk | hk <;> cases hk
  | assume id t =>
    cases hcl
    have hne : ¬ F.isEnd := by
      intro he
      obtain ⟨i, cs, f, F', rfl, hi⟩ := ho.two_le hs.wf he
      cases ho with
      | @sub _ _ _ as n _ _ ho' hj =>
        have hw := ho'.wf hs.wf
        simp only [Command.wf, Bool.and_eq_true, beq_iff_eq] at hw
        have e : cs.getLast? = some (.assume id t) := by
          rw [List.getLast?_eq_getElem?, ← hj]
          congr 1
          omega
        rw [e] at hw
        cases hw.1.2
    have hρ := hnend hne
    refine ⟨t, List.mem_singleton_self _, ?_⟩
    generalize hc : Command.assume id t = c at ho
    cases ho with
    | top hi =>
      subst hc
      exact hs.assume _ _ _ hi I ρ hρ.1 hρ.2
    | @sub F Γ cs as n j _ ho' hj =>
      subst hc
      rw [List.reverse_append] at hρ
      have : F ≠ [] := by rintro rfl; cases ho'
      obtain ⟨f, F, rfl⟩ := List.exists_cons_of_ne_nil this
      obtain ⟨_, _, _, hρ⟩ := hρ
      exact hρ t (List.mem_filterMap.2 ⟨_, List.mem_of_getElem? hj, rfl⟩)
  | step s =>
    cases hcl
    obtain ⟨⟨r, a, hr, ha, hrun, _, hdis⟩, _⟩ := c02_not_holey_verified hs.wf h ho
    by_cases he : F.isEnd
    · -- a closing step
      have hρ := hend he
      obtain ⟨i, cs, f, F', rfl, hi⟩ := ho.two_le hs.wf he
      have ⟨Γ', as, hΓ⟩ : ∃ Γ' as, Γ = Γ' ++ [as] := by
        have := ho.ctx_length
        refine ⟨Γ.dropLast, Γ.getLast (by rintro rfl; simp at this), (List.dropLast_concat_getLast _).symm⟩
      subst hΓ
      have hlen := ho.ctx_length
      simp only [List.length_append, List.length_cons, List.length_nil] at hlen
      have hΓlen : Γ'.length = F'.length := by omega
      rw [List.reverse_append] at hρ
      simp only [List.tail_cons, List.reverse_cons, List.reverse_nil, List.nil_append, List.cons_append] at hρ
      have hanch := hs.anchors _ _ _ ho
      have hanch' : ∀ as ∈ Γ'.reverse, ∀ a ∈ as, a.ok = true := fun as h a => hanch as (by simp at h; simp [h]) a
      have hρok := scopeR_ok hanch' hρ
      -- entering the anchor leads to the inner scope
      have inner : ∀ ρ', I.Enters as ρ ρ' → (∀ t ∈ assumptions cs, I.True ρ' t) →
          ScopeR I prem ((i + 1, cs) :: f :: F') (Γ' ++ [as]).reverse ρ' := by
        intro ρ' h1 h2
        rw [List.reverse_append]
        exact ⟨ρ, hρ, h1, h2⟩
      obtain ⟨a1, a2, a3, a4, a5, a6⟩ := ha
      rcases a6 with ⟨_, i', cs', F'', c, pcl, e, hc, hpcl, hprev⟩ | ⟨hn, _⟩
      swap
      · exact absurd he hn
      cases e
      refine hs.close _ _ _ Γ' as s r a pcl ho he hr ⟨a1, a2, a3, a4, a5, .inl ⟨he, _, _, _, c, pcl, rfl, hc, hpcl, hprev⟩⟩
        hrun (hdis he) hprev I ρ hρok (scopeR_reach hρ) ?_ ?_
      · intro p hp
        obtain ⟨q, hq, c', hc', hcl'⟩ := forall₂_right a4 hp
        obtain ⟨A, j, cs'', B, c'', hF, hB, hlt, hcs, hlook⟩ := lookup s rfl q hq
        rw [hlook] at hc'
        cases hc'
        cases A with
        | nil =>
          right
          intro ρ' h1 h2
          simp only [List.nil_append, List.cons.injEq, Prod.mk.injEq] at hF
          obtain ⟨⟨rfl, rfl⟩, rfl⟩ := hF
          refine Means.earlier (A := []) hs.wf ho ih hcs hlt hcl' ?_
          rw [List.take_of_length_le (by simp; omega)]
          exact inner ρ' h1 h2
        | cons g A =>
          left
          simp only [List.cons_append, List.cons.injEq] at hF
          obtain ⟨rfl, hF⟩ := hF
          rw [hF] at hρ
          have hAB : A.length + B.length = F'.length := by
            have := congrArg List.length hF
            simp at this
            omega
          obtain ⟨ρ', h', e⟩ := scopeR_outer hρ
          have e1 : Γ'.reverse.drop A.length = (Γ'.take B.length).reverse := by
            rw [List.drop_reverse]
            congr 2
            omega
          have e2 : Γ'.reverse.take A.length = (Γ'.drop B.length).reverse := by
            rw [List.take_reverse]
            congr 2
            omega
          have e3 : (Γ' ++ [as]).take B.length = Γ'.take B.length := List.take_append_of_le_length (by omega)
          refine SatC.congr (ρ' := ρ') ?_ hρok ?_ (Means.earlier (A := (i + 1, cs) :: A) hs.wf (Γ := Γ' ++ [as]) (c := .step s)
            (by rw [List.cons_append, ← hF]; exact ho) (by rw [List.cons_append, ← hF]; exact ih) hcs hlt hcl' ?_)
          · exact hs.sorts _ _ _ _ (Occ.enclosing (A := (i + 1, cs) :: A) (by rw [List.cons_append, ← hF]; exact ho) hcs) hcl'
          · intro t ht v hv
            refine e v.1 v.2 fun as' has a' ha' hkey => ?_
            rw [e2, List.mem_reverse] at has
            refine hs.fresh _ _ _ ho q hq _ p hlook hcl' t ht as' ?_ a' ha' (hkey ▸ hv)
            rw [← hB, List.drop_append_of_le_length (by omega)]
            exact List.mem_append_left _ has
          · rw [e3, ← e1]
            exact h'
      · intro ρ' h1 h2
        refine Means.earlier (A := []) hs.wf ho ih hc (Nat.lt_succ_self _) hpcl ?_
        rw [List.take_of_length_le (by simp; omega)]
        exact inner ρ' h1 h2
    · -- an ordinary step
      have hρ := hnend he
      have hanch := hs.anchors _ _ _ ho
      have hρok := scopeR_ok (fun as h => hanch as (List.mem_reverse.1 h)) hρ
      refine hs.step F Γ s r a ho he hr ha hrun I ρ hρok (scopeR_reach hρ) ?_
      obtain ⟨a1, a2, a3, a4, a5, a6⟩ := ha
      intro p hp
      obtain ⟨q, hq, c', hc', hcl'⟩ := forall₂_right a4 hp
      obtain ⟨A, j, cs, B, c'', rfl, hB, hlt, hcs, hlook⟩ := lookup s rfl q hq
      rw [hlook] at hc'
      cases hc'
      have hlen := ho.ctx_length
      simp only [List.length_append, List.length_cons] at hlen
      obtain ⟨ρ', h', e⟩ := scopeR_outer hρ
      have e1 : Γ.reverse.drop A.length = (Γ.take B.length).reverse := by
        rw [List.drop_reverse]
        congr 2
        omega
      have e2 : Γ.reverse.take A.length = (Γ.drop B.length).reverse := by
        rw [List.take_reverse]
        congr 2
        omega
      refine SatC.congr (ρ' := ρ') ?_ hρok ?_ (Means.earlier hs.wf ho ih hcs hlt hcl' ?_)
      · exact hs.sorts _ _ _ _ (ho.enclosing hcs) hcl'
      · intro t ht v hv
        refine e v.1 v.2 fun as' has a' ha' hkey => ?_
        rw [e2, List.mem_reverse] at has
        exact hs.fresh _ _ _ ho q hq _ p hlook hcl' t ht as' (by rw [← hB]; exact has) a' ha' (hkey ▸ hv)
      · rw [← e1]
        exact h'

/-- Under these conditions, an accepted proof is a refutation. -/
theorem SoundSteps.refutes (hs : SoundSteps P prem proof) (h : check P cfg prem proof = .ok false) (M : Model) :
    ¬ ∀ t ∈ prem, M.Holds t := by
  intro hM
  obtain ⟨F, Γ, s, ho, hcl, hout⟩ := c06_empty_clause hs.wf h
  have hm := hs.means (I := M.I) h ho [] (by rw [Command.clause, hcl]) (.inr rfl) M.env
  have hlen := ho.ctx_length
  have top : ∀ f, ScopeR M.I prem [f] [] M.env := fun f => ⟨M.env_dom, hM⟩
  obtain ⟨l, hl, _⟩ := hm (fun he => by
    rcases hout with h1 | ⟨h2, _⟩
    · match F, h1 with
      | [_], _ => exact he.elim
    · match F, Γ, h2, hlen with
      | [_, f], [_], _, _ => exact top f) (fun he => by
    rcases hout with h1 | ⟨_, h2⟩
    · match F, Γ, h1, hlen with
      | [f], [], _, _ => exact top f
    · exact absurd h2 he)
  cases hl

end Main

end Carcara
