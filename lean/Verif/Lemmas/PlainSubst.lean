import Verif.Spec.PlainSubst
import Verif.Lemmas.CheckerContext
import Verif.Lemmas.SubstitutionSort

/-! # The memo tables of the context stack are harmless for terms without binders -/

namespace Carcara

theorem Term.plainL_iff {ts : List Term} : Term.plainL ts = true ↔ ∀ t ∈ ts, t.plain = true := by
  induction ts with
  | nil => simp [Term.plainL]
  | cons t ts ih => simp [Term.plainL, ih]

theorem Term.putL_eq {f : String × Srt → Term} : ∀ {ts : List Term}, Term.putL f ts = ts.map (Term.put f)
  | [] => rfl
  | t :: ts => by rw [Term.putL, Term.putL_eq, List.map_cons]

/-- Only the variables that the code finds in a term matter. -/
theorem Term.put_congr {t : Term} : ∀ {f g : String × Srt → Term}, t.plain = true → (∀ v ∈ freeVars t, f v = g v) → t.put f = t.put g := by
  induction t using Term.ind with
  | const c => intros; rfl
  | var x s => intro f g _ h; exact h (x, s) (by simp [freeVars])
  | app u as ihf ih =>
    intro f g hp h
    simp only [Term.plain, Bool.and_eq_true, Term.plainL_iff] at hp
    simp only [freeVars, mem_freeVarsL] at h
    simp only [Term.put, Term.putL_eq]
    rw [ihf hp.1 fun v hv => h v (.inl hv)]
    congr 1
    exact List.map_congr_left fun a ha => ih a ha (hp.2 a ha) fun v hv => h v (.inr ⟨a, ha, hv⟩)
  | op o as ih =>
    intro f g hp h
    simp only [Term.plain, Term.plainL_iff] at hp
    simp only [freeVars, mem_freeVarsL] at h
    simp only [Term.put, Term.putL_eq]
    congr 1
    exact List.map_congr_left fun a ha => ih a ha (hp a ha) fun v hv => h v (.inr ⟨a, ha, hv⟩)
  | binder b bs t _ => intro f g hp; cases hp
  | let_ bs t _ _ => intro f g hp; cases hp
  | paramOp o ps as _ ih =>
    intro f g hp h
    simp only [Term.plain, Term.plainL_iff] at hp
    simp only [freeVars, mem_freeVarsL] at h
    simp only [Term.put, Term.putL_eq]
    congr 1
    exact List.map_congr_left fun a ha => ih a ha (hp a ha) fun v hv => h v (.inr ⟨a, ha, hv⟩)

/-- The substitution replaces variables as `f` says, and what it remembers about terms without binders agrees. -/
structure PutOK (f : String × Srt → Term) (σ : Subst) : Prop where
  keys : ∀ p ∈ σ.map, p.1.isVar = true
  nodup : (σ.map.map (·.1)).Nodup
  value : ∀ v, substOf σ.map v = f v
  cache : ∀ k u, mapGet σ.cache k = some u → k.plain = true → u = k.put f

/-- A function in the place of `apply` replaces variables as the substitution says. -/
def PutApplier (g : Applier) : Prop :=
  ∀ f σ t u σ', PutOK f σ → g σ t = .ok (u, σ') → PutOK f σ' ∧ σ'.map = σ.map ∧ (t.plain = true → u = t.put f)

theorem PutOK.computeRen {f : String × Srt → Term} {σ : Subst} (h : PutOK f σ) : PutOK f σ.computeRen ∧ σ.computeRen.map = σ.map := by
  unfold Subst.computeRen
  split
  · exact ⟨h, rfl⟩
  · exact ⟨⟨h.keys, h.nodup, h.value, h.cache⟩, rfl⟩

theorem PutApplier.list {g : Applier} (hg : PutApplier g) {f : String × Srt → Term} : ∀ {as us : List Term} {σ σ' : Subst}, PutOK f σ →
    applyList g σ as = .ok (us, σ') → PutOK f σ' ∧ σ'.map = σ.map ∧ (Term.plainL as = true → us = Term.putL f as)
  | [], _, _, _, h, e => by cases e; exact ⟨h, rfl, fun _ => rfl⟩
  | a :: as, _, _, _, h, e => by
    simp only [applyList, bind_ok, Prod.exists] at e
    obtain ⟨a', σ1, e1, as', σ2, e2, e⟩ := e
    cases e
    obtain ⟨h1, m1, p1⟩ := hg _ _ _ _ _ h e1
    obtain ⟨h2, m2, p2⟩ := hg.list h1 e2
    refine ⟨h2, m2.trans m1, fun hp => ?_⟩
    simp only [Term.plainL, Bool.and_eq_true] at hp
    rw [p1 hp.1, p2 hp.2, Term.putL]

theorem PutApplier.body {g : Applier} (hg : PutApplier g) {f : String × Srt → Term} {σ ren σ' : Subst} {t u : Term} (h : PutOK f σ)
    (e : applyBody g σ ren t = .ok (u, σ')) : PutOK f σ' ∧ σ'.map = σ.map := by
  unfold applyBody at e
  split at e
  · obtain ⟨h1, h2, _⟩ := hg _ _ _ _ _ h e
    exact ⟨h1, h2⟩
  · simp only [bind_ok, Prod.exists] at e
    obtain ⟨_, _, _, e⟩ := e
    obtain ⟨h1, h2, _⟩ := hg _ _ _ _ _ h e
    exact ⟨h1, h2⟩

theorem PutOK.get {f : String × Srt → Term} {σ : Subst} (h : PutOK f σ) {t u : Term} (e : mapGet σ.map t = some u) : u = t.put f := by
  have hv := h.keys _ (mem_of_mapGet e)
  cases t with
  | var x s =>
    have := h.value (x, s)
    rw [substOf_eq, e] at this
    exact this
  | _ => cases hv

theorem PutApplier.node {g : Applier} (hg : PutApplier g) {f : String × Srt → Term} {σ σ' : Subst} {t u : Term} (h : PutOK f σ)
    (hn : mapGet σ.map t = none) (e : applyNode g σ t = .ok (u, σ')) : PutOK f σ' ∧ σ'.map = σ.map ∧ (t.plain = true → u = t.put f) := by
  cases t with
  | const c => cases e; exact ⟨h, rfl, fun _ => rfl⟩
  | var x s =>
    cases e
    refine ⟨h, rfl, fun _ => ?_⟩
    have := h.value (x, s)
    rw [substOf_eq, hn] at this
    exact this
  | app v as =>
    simp only [applyNode, bind_ok, Prod.exists] at e
    obtain ⟨as', σ1, e1, g', σ2, e2, e⟩ := e
    cases e
    obtain ⟨h1, m1, p1⟩ := hg.list h e1
    obtain ⟨h2, m2, p2⟩ := hg _ _ _ _ _ h1 e2
    refine ⟨h2, m2.trans m1, fun hp => ?_⟩
    simp only [Term.plain, Bool.and_eq_true] at hp
    rw [p1 hp.2, p2 hp.1, Term.put]
  | op o as =>
    simp only [applyNode, bind_ok, Prod.exists] at e
    obtain ⟨as', σ1, e1, e⟩ := e
    cases e
    obtain ⟨h1, m1, p1⟩ := hg.list h e1
    exact ⟨h1, m1, fun hp => by rw [p1 hp, Term.put]⟩
  | paramOp o ps as =>
    simp only [applyNode, bind_ok, Prod.exists] at e
    obtain ⟨as', σ1, e1, e⟩ := e
    cases e
    obtain ⟨h1, m1, p1⟩ := hg.list h e1
    exact ⟨h1, m1, fun hp => by rw [p1 hp, Term.put]⟩
  | let_ bs body =>
    cases bs with
    | nil =>
      simp only [applyNode, applyLet, bind_ok, Prod.exists] at e
      obtain ⟨body', σ1, e1, e⟩ := e
      cases e
      obtain ⟨h1, m1, _⟩ := hg _ _ _ _ _ h e1
      exact ⟨h1, m1, fun hp => by cases hp⟩
    | cons b bs =>
      simp only [applyNode, applyLet, bind_ok, Prod.exists] at e
      obtain ⟨l, _, bs', ren, e1, body', σ2, e2, e⟩ := e
      cases e
      obtain ⟨h1, m1⟩ := hg.body h e2
      exact ⟨h1, m1, fun hp => by cases hp⟩
  | binder b bs body =>
    obtain ⟨h0, m0⟩ := h.computeRen
    simp only [applyNode, applyBinder, bind_ok] at e
    obtain ⟨k, _, e⟩ := e
    split at e
    · cases e; exact ⟨h0, m0, fun hp => by cases hp⟩
    · simp only [bind_ok, Prod.exists] at e
      obtain ⟨l, _, bs', ren, e2, body', σ2, e3, e⟩ := e
      cases e
      obtain ⟨h1, m1⟩ := hg.body h0 e3
      exact ⟨h1, m1.trans m0, fun hp => by cases hp⟩

theorem applyGo_put : ∀ n, PutApplier (applyGo n)
  | 0 => fun _ _ _ _ _ _ e => (by cases e)
  | n + 1 => by
    intro f σ t u σ' h e
    unfold applyGo at e
    split at e
    · next u hu => cases e; exact ⟨h, rfl, h.cache _ _ hu⟩
    · split at e
      · next u hu => cases e; exact ⟨h, rfl, fun _ => h.get hu⟩
      · next hm =>
        simp only [bind_ok, Prod.exists] at e
        obtain ⟨u, σ1, e1, e⟩ := e
        cases e
        obtain ⟨h1, h2, h3⟩ := (applyGo_put n).node h hm e1
        refine ⟨⟨h1.keys, h1.nodup, h1.value, fun k v hk hp => ?_⟩, h2, h3⟩
        simp only [mapGet_insert] at hk
        split at hk
        · next he => cases hk; cases he; exact h3 hp
        · exact h1.cache k v hk hp

/-- On terms without binders the substitution always has a result. -/
theorem applyGo_total : ∀ (n : Nat) (σ : Subst) (t : Term), t.plain = true → t.size ≤ n → ∃ r, applyGo n σ t = .ok r := by
  intro n
  induction n with
  | zero => intro σ t _ hs; cases t <;> simp [Term.size] at hs
  | succ n ih =>
    have list : ∀ (as : List Term) (σ : Subst), Term.plainL as = true → Term.sizeL as ≤ n → ∃ r, applyList (applyGo n) σ as = .ok r := by
      intro as
      induction as with
      | nil => intro σ _ _; exact ⟨_, rfl⟩
      | cons a as iha =>
        intro σ hp hs
        simp only [Term.plainL, Bool.and_eq_true] at hp
        simp only [Term.sizeL] at hs
        obtain ⟨⟨a', σ1⟩, e1⟩ := ih σ a hp.1 (by omega)
        obtain ⟨⟨as', σ2⟩, e2⟩ := iha σ1 hp.2 (by omega)
        exact ⟨_, bind_ok.2 ⟨_, e1, bind_ok.2 ⟨_, e2, rfl⟩⟩⟩
    intro σ t hp hs
    unfold applyGo
    split
    · exact ⟨_, rfl⟩
    · split
      · exact ⟨_, rfl⟩
      · suffices ∃ r, applyNode (applyGo n) σ t = .ok r by
          obtain ⟨⟨u, σ'⟩, e⟩ := this
          exact ⟨_, bind_ok.2 ⟨_, e, rfl⟩⟩
        cases t with
        | const c => exact ⟨_, rfl⟩
        | var x s => exact ⟨_, rfl⟩
        | app v as =>
          simp only [Term.plain, Bool.and_eq_true] at hp
          simp only [Term.size] at hs
          obtain ⟨⟨as', σ1⟩, e1⟩ := list as σ hp.2 (by omega)
          obtain ⟨⟨v', σ2⟩, e2⟩ := ih σ1 v hp.1 (by omega)
          exact ⟨_, bind_ok.2 ⟨_, e1, bind_ok.2 ⟨_, e2, rfl⟩⟩⟩
        | op o as =>
          simp only [Term.size] at hs
          obtain ⟨⟨as', σ1⟩, e1⟩ := list as σ hp (by omega)
          exact ⟨_, bind_ok.2 ⟨_, e1, rfl⟩⟩
        | paramOp o ps as =>
          simp only [Term.size] at hs
          obtain ⟨⟨as', σ1⟩, e1⟩ := list as σ hp (by omega)
          exact ⟨_, bind_ok.2 ⟨_, e1, rfl⟩⟩
        | binder b bs t => cases hp
        | let_ bs t => cases hp

theorem PutOK.apply {f : String × Srt → Term} {σ : Subst} (h : PutOK f σ) {t : Term} (hp : t.plain = true) :
    ∃ σ', σ.apply t = .ok (t.put f, σ') ∧ PutOK f σ' := by
  obtain ⟨⟨u, σ'⟩, e⟩ := applyGo_total t.size σ t hp (Nat.le_refl _)
  obtain ⟨h1, _, h2⟩ := applyGo_put _ _ _ _ _ _ h e
  rw [h2 hp] at e
  exact ⟨σ', e, h1⟩

theorem PutOK.empty : PutOK (fun v => .var v.1 v.2) .empty where
  keys := fun p h => (by cases h)
  nodup := List.nodup_nil
  value := fun _ => rfl
  cache := fun _ _ h => (by cases h)

/-- What a variable stands for, as a function of the arguments read so far. -/
abbrev valueAfter (A : List AnchorArg) : String × Srt → Term := anchorValue (fun v => .var v.1 v.2) A

theorem anchorValue_append : ∀ {as bs : List AnchorArg} {f : String × Srt → Term}, anchorValue f (as ++ bs) = anchorValue (anchorValue f as) bs
  | [], _, _ => rfl
  | .var _ _ :: as, _, _ => by simp only [List.cons_append, anchorValue]; exact anchorValue_append
  | .assign _ _ _ :: as, _, _ => by simp only [List.cons_append, anchorValue]; exact anchorValue_append

theorem keptVar_append {A B : List AnchorArg} {k : String × Srt} : keptVar (A ++ B) k = (keptVar A k && keptVar B k) := by
  simp [keptVar, List.all_append]

theorem anchorValue_kept : ∀ {as : List AnchorArg} {f : String × Srt → Term} {k : String × Srt}, keptVar as k = true → f k = .var k.1 k.2 →
    anchorValue f as k = .var k.1 k.2
  | [], _, _, _, h => h
  | .var x s :: as, f, k, hk, h => by
    refine anchorValue_kept (as := as) (by simpa [keptVar] using hk) ?_
    split
    · next e => rw [e]
    · exact h
  | .assign x s t :: as, f, k, hk, h => by
    simp only [keptVar, List.all_cons, Bool.and_eq_true, decide_eq_true_eq] at hk
    refine anchorValue_kept (as := as) hk.2 ?_
    split
    · next e =>
      rw [hk.1 e.symm, Term.put]
      rw [← e]
      exact h
    · exact h

theorem PutOK.congr {f g : String × Srt → Term} {σ : Subst} (h : PutOK f σ) (e : f = g) : PutOK g σ := e ▸ h

theorem PutOK.var {A : List AnchorArg} {σ : Subst} (h : PutOK (valueAfter A) σ) {x : String} {s : Srt} (hk : keptVar A (x, s) = true) :
    PutOK (valueAfter (A ++ [.var x s])) (σ.remove (.var x s)) := by
  have hv : valueAfter A (x, s) = .var x s := anchorValue_kept hk rfl
  have he : valueAfter (A ++ [.var x s]) = valueAfter A := by
    unfold valueAfter
    rw [anchorValue_append]
    funext v
    simp only [anchorValue]
    split
    · next e => rw [e]; exact hv.symm
    · rfl
  rw [he]
  unfold Subst.remove
  split
  · refine ⟨fun p hp => h.keys p (MultiSet.mem_mapRemove hp), nodup_keys_remove h.nodup, fun v => ?_, h.cache⟩
    simp only [substOf_eq, mapGet_remove h.nodup]
    by_cases e : v = (x, s)
    · subst e; simp [hv]
    · rw [if_neg fun e' => e (var_inj (v := (x, s)) e').symm, ← substOf_eq]
      exact h.value v
  · exact h

theorem PutOK.assign {A : List AnchorArg} {σ : Subst} (h : PutOK (valueAfter A) σ) (hs : σ.Sorted) {x : String} {s : Srt} {t : Term}
    (ht : sortOf t = some s) (hp : t.plain = true) :
    ∃ t' σ1 σ2, σ.apply t = .ok (t', σ1) ∧ σ1.insert (.var x s) t' = .ok σ2 ∧ PutOK (valueAfter (A ++ [.assign x s t])) σ2 ∧ σ2.Sorted := by
  obtain ⟨σ1, e1, h1⟩ := h.apply hp
  obtain ⟨hp1, hs1⟩ := applyGo_sort _ _ _ _ _ hs e1
  have hso : sortOf (t.put (valueAfter A)) = some s := (hp1.sort (by rw [ht]; rfl)).trans ht
  have hins : ∃ σ2, σ1.insert (.var x s) (t.put (valueAfter A)) = .ok σ2 := by
    unfold Subst.insert
    simp only
    rw [if_pos (by rw [hso]; rfl)]
    exact ⟨_, rfl⟩
  obtain ⟨σ2, hins⟩ := hins
  have he : valueAfter (A ++ [.assign x s t]) = fun v => if v = (x, s) then t.put (valueAfter A) else valueAfter A v := by
    unfold valueAfter
    rw [anchorValue_append]
    rfl
  refine ⟨_, σ1, σ2, e1, hins, ?_, hs1.insert hins⟩
  rw [he]
  refine ⟨?_, ?_, ?_, ?_⟩
  · have := hins
    simp only [Subst.insert] at this
    rw [if_pos (by rw [hso]; rfl)] at this
    cases this
    intro p hp
    rcases mem_mapInsert_cases hp with rfl | hp
    · rfl
    · exact h1.keys p hp
  · have := hins
    simp only [Subst.insert] at this
    rw [if_pos (by rw [hso]; rfl)] at this
    cases this
    exact nodup_keys_insert h1.nodup
  · intro v
    rw [Subst.insert_spec hins]
    by_cases e : v = (x, s)
    · subst e; simp
    · rw [if_neg fun e' => e (var_inj (v := (x, s)) e').symm]
      simp only [e, if_false]
      exact h1.value v
  · have := hins
    simp only [Subst.insert] at this
    rw [if_pos (by rw [hso]; rfl)] at this
    cases this
    intro k u hk hkp
    simp only at hk
    obtain ⟨hfree, hk⟩ := mapGet_filter (p := fun k => decide ((x, s) ∉ freeVars k)) hk
    simp only [decide_eq_true_eq] at hfree
    rw [h1.cache k u hk hkp]
    refine Term.put_congr hkp fun v hv => ?_
    rw [if_neg]
    rintro rfl
    exact hfree hv

theorem Subst.Sorted.remove {σ : Subst} {x : Term} (h : σ.Sorted) : (σ.remove x).Sorted := by
  unfold Subst.remove
  split
  · exact ⟨fun p hp => h.map p (MultiSet.mem_mapRemove hp), h.cache⟩
  · exact h

theorem extend_sorted : ∀ {as : List AnchorArg} {σ σ' : Subst}, σ.Sorted → CtxStack.extend σ as = .ok σ' → σ'.Sorted
  | [], _, _, h, e => by cases e; exact h
  | .var _ _ :: as, _, _, h, e => extend_sorted h.remove e
  | .assign x s t :: as, σ, _, h, e => by
    simp only [CtxStack.extend, bind_ok, Prod.exists] at e
    obtain ⟨t', σ1, e1, σ2, e2, e⟩ := e
    refine extend_sorted (as := as) ?_ e
    split at e2
    · next h2 =>
      cases e2
      exact (applyGo_sort _ _ _ _ _ h e1).2.insert h2
    · cases e2

theorem PutOK.extend : ∀ {as A : List AnchorArg} {σ : Subst}, PutOK (valueAfter A) σ → σ.Sorted → plainArgs A as = true →
    ∃ σ', CtxStack.extend σ as = .ok σ' ∧ PutOK (valueAfter (A ++ as)) σ' ∧ σ'.Sorted
  | [], A, σ, h, hs, _ => ⟨σ, rfl, by simpa using h, hs⟩
  | .var x s :: as, A, σ, h, hs, hf => by
    simp only [plainArgs, AnchorArg.plainAfter, Bool.and_eq_true] at hf
    obtain ⟨σ', e, h'⟩ := (h.var hf.1).extend hs.remove hf.2
    exact ⟨σ', e, by simpa using h'⟩
  | .assign x s t :: as, A, σ, h, hs, hf => by
    simp only [plainArgs, AnchorArg.plainAfter, Bool.and_eq_true, decide_eq_true_eq] at hf
    obtain ⟨t', σ1, σ2, e1, e2, h2, hs2⟩ := h.assign hs (x := x) hf.1.1 hf.1.2
    obtain ⟨σ', e, h'⟩ := h2.extend hs2 hf.2
    refine ⟨σ', bind_ok.2 ⟨(t', σ1), e1, ?_⟩, by simpa using h'⟩
    simp only [e2]
    exact e

theorem plainArgs_append : ∀ {as bs A : List AnchorArg}, plainArgs A (as ++ bs) = true ↔ plainArgs A as = true ∧ plainArgs (A ++ as) bs = true
  | [], bs, A => by simp [plainArgs]
  | a :: as, bs, A => by
    simp only [List.cons_append, plainArgs, Bool.and_eq_true, plainArgs_append, and_assoc, List.append_assoc, List.nil_append]

theorem PlainAnchors.take {Γ : List (List AnchorArg)} (h : PlainAnchors Γ) (i : Nat) : PlainAnchors (Γ.take i) := by
  unfold PlainAnchors at h ⊢
  rw [← List.take_append_drop i Γ, List.flatten_append, plainArgs_append] at h
  exact h.1

theorem PlainAnchors.dropLast {Γ : List (List AnchorArg)} (h : PlainAnchors Γ) : PlainAnchors Γ.dropLast := by
  rw [List.dropLast_eq_take]
  exact h.take _

/-- The substitution of the anchors `Γ`, as far as it matters for terms without binders. -/
structure PlainCum (Γ : List (List AnchorArg)) (σ : Subst) : Prop where
  sorted : σ.Sorted
  put : PlainAnchors Γ → PutOK (anchorsValue Γ) σ

/-- What holds of the context stack inside the anchors `Γ`. -/
structure CtxPlain (Γ : List (List AnchorArg)) (C : CtxStack) : Prop where
  args : C.stack.map (·.1) = Γ
  num : C.num ≤ C.stack.length
  cum : ∀ i, i < C.num → ∃ as σ, C.stack[i]? = some (as, some σ) ∧ PlainCum (Γ.take (i + 1)) σ

theorem CtxPlain.length {Γ : List (List AnchorArg)} {C : CtxStack} (h : CtxPlain Γ C) : C.stack.length = Γ.length := by
  rw [← h.args, List.length_map]

theorem CtxPlain.empty : CtxPlain [] .empty := ⟨rfl, Nat.le_refl _, fun _ h => absurd h (Nat.not_lt_zero _)⟩

theorem CtxPlain.push {Γ : List (List AnchorArg)} {C : CtxStack} (h : CtxPlain Γ C) (as : List AnchorArg) :
    CtxPlain (Γ ++ [as]) (C.push as) := by
  refine ⟨by simp [CtxStack.push, h.args], ?_, fun i hi => ?_⟩
  · have := h.num
    simp only [CtxStack.push, List.length_append, List.length_singleton]
    omega
  · have hi' : i < C.num := hi
    obtain ⟨as', σ, e, hc⟩ := h.cum i hi'
    have hlt : i < C.stack.length := Nat.lt_of_lt_of_le hi' h.num
    refine ⟨as', σ, ?_, ?_⟩
    · simp only [CtxStack.push]
      rw [List.getElem?_append_left hlt, e]
    · rw [List.take_append_of_le_length (by rw [← h.length]; omega)]
      exact hc

theorem CtxPlain.pop {Γ : List (List AnchorArg)} {C : CtxStack} (h : CtxPlain Γ C) : CtxPlain Γ.dropLast C.pop := by
  refine ⟨by simp [CtxStack.pop, ← h.args], ?_, fun i hi => ?_⟩
  · simp only [CtxStack.pop]; omega
  · simp only [CtxStack.pop] at hi ⊢
    obtain ⟨as', σ, e, hc⟩ := h.cum i (by omega)
    have hlt : i < C.stack.dropLast.length := by omega
    refine ⟨as', σ, ?_, ?_⟩
    · rw [List.length_dropLast] at hlt
      rw [List.getElem?_dropLast, if_pos hlt, e]
    · rw [List.length_dropLast, h.length] at hlt
      rw [List.dropLast_eq_take, List.take_take, Nat.min_eq_left (by omega)]
      exact hc

/-- Computing the next substitution keeps the invariant, and it does not fail inside anchors without binders. -/
theorem CtxPlain.compute {Γ : List (List AnchorArg)} {C : CtxStack} (h : CtxPlain Γ C) (hlt : C.num < C.stack.length) :
    (∀ C', C.compute C.num = .ok C' → CtxPlain Γ C' ∧ C'.num = C.num + 1) ∧ (PlainAnchors Γ → ∃ C', C.compute C.num = .ok C') := by
  obtain ⟨e, he⟩ : ∃ e, C.stack[C.num]? = some e := ⟨_, List.getElem?_eq_getElem hlt⟩
  have hΓ : Γ[C.num]? = some e.1 := by rw [← h.args, List.getElem?_map, he]; rfl
  have hΓl : C.num < Γ.length := by rw [← h.length]; exact hlt
  have htake : Γ.take (C.num + 1) = Γ.take C.num ++ [e.1] := by
    rw [List.take_succ, hΓ]; rfl
  have hpl : PlainAnchors (Γ.take (C.num + 1)) → PlainAnchors (Γ.take C.num) ∧ plainArgs (Γ.take C.num).flatten e.1 = true := by
    intro hp
    unfold PlainAnchors at hp ⊢
    rw [htake, List.flatten_append, plainArgs_append] at hp
    exact ⟨hp.1, by simpa using hp.2⟩
  obtain ⟨base, hb, hbase⟩ : ∃ base, (if C.num = 0 then .ok .empty else do
      let p ← orPanic C.stack[C.num - 1]?
      orPanic p.2 : Res Subst) = .ok base ∧ PlainCum (Γ.take C.num) base := by
    split
    · next e0 => exact ⟨_, rfl, .empty, fun _ => by rw [e0]; exact .empty⟩
    · next e0 =>
      obtain ⟨as', σ, e1, hc⟩ := h.cum (C.num - 1) (by omega)
      rw [Nat.sub_add_cancel (by omega)] at hc
      exact ⟨σ, bind_ok.2 ⟨_, by rw [e1]; rfl, rfl⟩, hc⟩
  have hext : PlainAnchors (Γ.take (C.num + 1)) → ∃ σ', CtxStack.extend base e.1 = .ok σ' ∧ PutOK (anchorsValue (Γ.take (C.num + 1))) σ' := by
    intro hp
    obtain ⟨h1, h2⟩ := hpl hp
    obtain ⟨σ', e', h', _⟩ := (hbase.put h1).extend hbase.sorted h2
    refine ⟨σ', e', ?_⟩
    unfold anchorsValue
    rw [htake, List.flatten_append]
    simpa using h'
  constructor
  · intro C' hC'
    simp only [CtxStack.compute, bind_ok, orPanic_ok] at hC'
    obtain ⟨e', he', base', hb', σ, hσ, hC'⟩ := hC'
    cases hC'
    rw [he] at he'
    cases he'
    rw [hb] at hb'
    cases hb'
    refine ⟨⟨?_, ?_, ?_⟩, rfl⟩
    · rw [List.map_set, h.args]
      exact set_of_getElem? hΓ
    · simp only [List.length_set]; exact hlt
    · intro i hi
      simp only at hi ⊢
      by_cases hic : i = C.num
      · subst hic
        refine ⟨e.1, σ, by rw [List.getElem?_set_self hlt], extend_sorted hbase.sorted hσ, fun hp => ?_⟩
        obtain ⟨σ', e', h'⟩ := hext hp
        rw [hσ] at e'
        cases e'
        exact h'
      · obtain ⟨as', σ', e1, hc⟩ := h.cum i (by omega)
        exact ⟨as', σ', by rw [List.getElem?_set_ne (fun e => hic e.symm), e1], hc⟩
  · intro hp
    obtain ⟨σ', e', _⟩ := hext (hp.take _)
    exact ⟨_, bind_ok.2 ⟨e, by rw [he]; rfl, bind_ok.2 ⟨base, hb, bind_ok.2 ⟨σ', e', rfl⟩⟩⟩⟩

theorem CtxPlain.computeFrom {Γ : List (List AnchorArg)} : ∀ (n : Nat) {C : CtxStack}, CtxPlain Γ C → C.num + n ≤ C.stack.length →
    (∀ C', CtxStack.computeFrom n C.num C = .ok C' → CtxPlain Γ C' ∧ C'.num = C.num + n) ∧
      (PlainAnchors Γ → ∃ C', CtxStack.computeFrom n C.num C = .ok C')
  | 0, C, h, _ => ⟨fun C' e => by cases e; exact ⟨h, rfl⟩, fun _ => ⟨C, rfl⟩⟩
  | n + 1, C, h, hn => by
    obtain ⟨h1, h2⟩ := h.compute (by omega)
    have next : ∀ C1, CtxPlain Γ C1 → C1.num = C.num + 1 → C1.num + n ≤ C1.stack.length := by
      intro C1 hC1 hn1
      rw [hC1.length, ← h.length]; omega
    constructor
    · intro C' e
      obtain ⟨C1, e1, e2⟩ := bind_ok.1 e
      obtain ⟨g1, n1⟩ := h1 C1 e1
      rw [← n1] at e2
      obtain ⟨g2, n2⟩ := (CtxPlain.computeFrom n g1 (next _ g1 n1)).1 C' e2
      exact ⟨g2, by omega⟩
    · intro hp
      obtain ⟨C1, e1⟩ := h2 hp
      obtain ⟨g1, n1⟩ := h1 C1 e1
      obtain ⟨C2, e2⟩ := (CtxPlain.computeFrom n g1 (next _ g1 n1)).2 hp
      rw [n1] at e2
      exact ⟨C2, bind_ok.2 ⟨C1, e1, e2⟩⟩

theorem CtxPlain.applyAt {Γ : List (List AnchorArg)} {C : CtxStack} (h : CtxPlain Γ C) {i : Nat} (hi : i < Γ.length) {t : Term} :
    (∀ u C', C.applyAt i t = .ok (u, C') → CtxPlain Γ C') ∧
      (PlainAnchors Γ → t.plain = true → ∃ C', C.applyAt i t = .ok (t.put (anchorsValue (Γ.take (i + 1))), C')) := by
  have hmax : max (i + 1) C.stack.length = C.stack.length := by
    have := h.length
    omega
  obtain ⟨h1, h2⟩ := CtxPlain.computeFrom (C.stack.length - C.num) h (by have := h.num; omega)
  have hn1 : C.num + (C.stack.length - C.num) = Γ.length := by have := h.num; have := h.length; omega
  constructor
  · intro u C' e
    simp only [CtxStack.applyAt, CtxStack.catchUp, hmax, bind_ok] at e
    obtain ⟨C1, e1, en, hen, σ, hσ, ⟨t', σ'⟩, e2, e⟩ := e
    cases e
    obtain ⟨g1, n1⟩ := h1 C1 e1
    obtain ⟨as, σ0, e0, hc⟩ := g1.cum i (by omega)
    rw [e0] at hen
    cases hen
    cases hσ
    have hs := (applyGo_sort _ _ _ _ _ hc.sorted e2).2
    refine ⟨?_, ?_, ?_⟩
    · rw [List.map_set, g1.args]
      refine set_of_getElem? ?_
      rw [← g1.args, List.getElem?_map, e0]; rfl
    · simp only [List.length_set]; exact g1.num
    · intro j hj
      simp only at hj ⊢
      by_cases hji : j = i
      · subst hji
        refine ⟨as, σ', by rw [List.getElem?_set_self (by rw [g1.length]; omega)], hs, fun hp => ?_⟩
        exact (applyGo_put _ _ _ _ _ _ (hc.put hp) e2).1
      · obtain ⟨as', σ'', e1, hc⟩ := g1.cum j hj
        exact ⟨as', σ'', by rw [List.getElem?_set_ne (fun e => hji e.symm), e1], hc⟩
  · intro hp ht
    obtain ⟨C1, e1⟩ := h2 hp
    obtain ⟨g1, n1⟩ := h1 C1 e1
    obtain ⟨as, σ, e, hc⟩ := g1.cum i (by omega)
    obtain ⟨σ', e2, _⟩ := (hc.put (hp.take _)).apply ht
    have hcu : C.catchUp i = .ok C1 := by rw [CtxStack.catchUp, hmax]; exact e1
    exact ⟨_, bind_ok.2 ⟨C1, hcu, bind_ok.2 ⟨_, by rw [e]; rfl, bind_ok.2 ⟨σ, rfl, bind_ok.2 ⟨_, e2, rfl⟩⟩⟩⟩⟩

theorem Term.put_var {t : Term} : t.put (fun v => .var v.1 v.2) = t := by
  have list : ∀ ts : List Term, (∀ t ∈ ts, t.put (fun v => .var v.1 v.2) = t) → Term.putL (fun v => .var v.1 v.2) ts = ts := by
    intro ts h
    rw [Term.putL_eq]
    exact (List.map_congr_left h).trans (List.map_id' ts)
  induction t using Term.ind with
  | const c => rfl
  | var x s => rfl
  | app u as ihf ih => rw [Term.put, ihf, list as ih]
  | op o as ih => rw [Term.put, list as ih]
  | binder b bs t _ => rfl
  | let_ bs t _ _ => rfl
  | paramOp o ps as _ ih => rw [Term.put, list as ih]

theorem CtxPlain.apply {Γ : List (List AnchorArg)} {C : CtxStack} (h : CtxPlain Γ C) {t : Term} :
    (∀ u C', C.apply t = .ok (u, C') → CtxPlain Γ C') ∧
      (PlainAnchors Γ → t.plain = true → ∃ C', C.apply t = .ok (t.put (anchorsValue Γ), C')) := by
  unfold CtxStack.apply
  split
  · next e0 =>
    refine ⟨fun u C' e => by cases e; exact h, fun _ _ => ⟨C, ?_⟩⟩
    have : Γ = [] := by rw [h.length] at e0; exact List.length_eq_zero_iff.1 e0
    subst this
    rw [show anchorsValue [] = fun v => .var v.1 v.2 from rfl, Term.put_var]
  · next e0 =>
    rw [h.length] at e0 ⊢
    have := h.applyAt (i := Γ.length - 1) (by omega) (t := t)
    rw [Nat.sub_add_cancel (by omega), List.take_length] at this
    exact this

theorem CtxPlain.applyPrevious {Γ : List (List AnchorArg)} {C : CtxStack} (h : CtxPlain Γ C) {t : Term} :
    (∀ u C', C.applyPrevious t = .ok (u, C') → CtxPlain Γ C') ∧
      (PlainAnchors Γ → t.plain = true → ∃ C', C.applyPrevious t = .ok (t.put (anchorsValue Γ.dropLast), C')) := by
  unfold CtxStack.applyPrevious
  split
  · next e0 =>
    refine ⟨fun u C' e => by cases e; exact h, fun _ _ => ⟨C, ?_⟩⟩
    have : Γ.dropLast = [] := by
      rw [h.length] at e0
      refine List.length_eq_zero_iff.1 ?_
      rw [List.length_dropLast]; omega
    rw [this, show anchorsValue [] = fun v => .var v.1 v.2 from rfl, Term.put_var]
  · next e0 =>
    rw [h.length] at e0 ⊢
    have := h.applyAt (i := Γ.length - 2) (by omega) (t := t)
    rw [show Γ.length - 2 + 1 = Γ.length - 1 by omega, ← List.dropLast_eq_take] at this
    exact this

/-- Whatever happened before, the stack inside the anchors `Γ` is as it should be. -/
theorem CtxHistory.ctxPlain {ok : List (List AnchorArg) → Term → Prop} {Γ : List (List AnchorArg)} {C : CtxStack} (h : CtxHistory ok Γ C) :
    CtxPlain Γ C := by
  induction h with
  | empty => exact .empty
  | push _ as ih => exact ih.push as
  | pop _ ih => exact ih.pop
  | apply _ _ e ih => exact ih.apply.1 _ _ e
  | applyPrevious _ _ e ih => exact ih.applyPrevious.1 _ _ e

end Carcara
