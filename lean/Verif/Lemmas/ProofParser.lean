import Verif.Spec.ProofParser
import Verif.Props.C28
import Verif.Lemmas.Checker

/-! # The proof parser implements the grammar -/

namespace Carcara

/-- Entries of a stack of scopes, outermost first. -/
def IdEntry (S : List (List (String × Nat))) (k : String) (p : Nat × Nat) : Prop :=
  ∃ s, S[p.1]? = some s ∧ mapGet s k = some p.2

/-- `Denotes` with the outermost level first. -/
def DenotesR (R : List (List Command)) (k : String) (p : Nat × Nat) : Prop :=
  ∃ L c, R[p.1]? = some L ∧ L[p.2]? = some c ∧ c.id = .ok k

/-- The symbol table describes the visible commands and no identifier occurs twice among them. -/
structure IdsOK (R : List (List Command)) (S : List (List (String × Nat))) : Prop where
  len : S.length = R.length
  iff : ∀ k p, IdEntry S k p ↔ DenotesR R k p
  uniq : ∀ k p q, DenotesR R k p → DenotesR R k q → p = q

theorem getElem?_concat {α : Type} {l : List α} {a b : α} {d : Nat} :
    (l ++ [a])[d]? = some b ↔ l[d]? = some b ∨ (d = l.length ∧ a = b) := by
  rcases Nat.lt_trichotomy d l.length with h | h | h
  · rw [List.getElem?_append_left h]
    constructor
    · exact Or.inl
    · rintro (h' | ⟨h', -⟩)
      · exact h'
      · omega
  · subst h; simp
  · rw [List.getElem?_eq_none (by simp; omega), List.getElem?_eq_none (by omega)]
    simp; omega

theorem denotesR_concat {R : List (List Command)} {L : List Command} {k : String} {p : Nat × Nat} :
    DenotesR (R ++ [L]) k p ↔ DenotesR R k p ∨ (p.1 = R.length ∧ ∃ c, L[p.2]? = some c ∧ c.id = .ok k) := by
  simp only [DenotesR, getElem?_concat]
  constructor
  · rintro ⟨L', c, h | ⟨h, rfl⟩, hc⟩
    · exact Or.inl ⟨L', c, h, hc⟩
    · exact Or.inr ⟨h, c, hc⟩
  · rintro (⟨L', c, h, hc⟩ | ⟨h, c, hc⟩)
    · exact ⟨L', c, Or.inl h, hc⟩
    · exact ⟨L, c, Or.inr ⟨h, rfl⟩, hc⟩

theorem entry_concat {S : List (List (String × Nat))} {s k} {p : Nat × Nat} :
    IdEntry (S ++ [s]) k p ↔ IdEntry S k p ∨ (p.1 = S.length ∧ mapGet s k = some p.2) := by
  simp only [IdEntry, getElem?_concat]
  constructor
  · rintro ⟨L', h | ⟨h, rfl⟩, hc⟩
    · exact Or.inl ⟨L', h, hc⟩
    · exact Or.inr ⟨h, hc⟩
  · rintro (⟨L', h, hc⟩ | ⟨h, hc⟩)
    · exact ⟨L', Or.inl h, hc⟩
    · exact ⟨s, Or.inr ⟨h, rfl⟩, hc⟩

theorem DenotesR.lt {R : List (List Command)} {k p} (h : DenotesR R k p) : p.1 < R.length := by
  obtain ⟨L, c, h, -⟩ := h
  exact (List.getElem?_eq_some_iff.1 h).1

theorem IdEntry.lt {S : List (List (String × Nat))} {k p} (h : IdEntry S k p) : p.1 < S.length := by
  obtain ⟨L, h, -⟩ := h
  exact (List.getElem?_eq_some_iff.1 h).1

theorem IdsOK.push {R S} (h : IdsOK R S) : IdsOK (R ++ [[]]) (S ++ [[]]) where
  len := by simp [h.len]
  iff k p := by rw [entry_concat, denotesR_concat, h.iff]; simp [mapGet]
  uniq k p q h1 h2 := by
    rw [denotesR_concat] at h1 h2
    simp only [List.getElem?_nil, reduceCtorEq, false_and, exists_false, and_false, or_false] at h1 h2
    exact h.uniq k p q h1 h2

theorem IdsOK.pop {R L S s} (h : IdsOK (R ++ [L]) (S ++ [s])) : IdsOK R S where
  len := by have := h.len; simp at this; exact this
  iff k p := by
    have hl : S.length = R.length := by have := h.len; simp at this; exact this
    have := h.iff k p
    rw [entry_concat, denotesR_concat] at this
    constructor
    · intro he
      rcases this.1 (Or.inl he) with h | h
      · exact h
      · have := he.lt; omega
    · intro he
      rcases this.2 (Or.inl he) with h | h
      · exact h
      · have := he.lt; omega
  uniq k p q h1 h2 := h.uniq k p q (denotesR_concat.2 (Or.inl h1)) (denotesR_concat.2 (Or.inl h2))

theorem IdsOK.add {R L S s} (h : IdsOK (R ++ [L]) (S ++ [s])) {k : String} {c : Command} (hc : c.id = .ok k)
    (hf : ∀ p, ¬ DenotesR (R ++ [L]) k p) : IdsOK (R ++ [L ++ [c]]) (S ++ [mapInsert s k L.length]) := by
  have hl : S.length = R.length := by have := h.len; simp at this; exact this
  have hD : ∀ k' p, DenotesR (R ++ [L ++ [c]]) k' p ↔
      DenotesR (R ++ [L]) k' p ∨ (k' = k ∧ p = (R.length, L.length)) := by
    rintro k' ⟨d, i⟩
    simp only [denotesR_concat, getElem?_concat, Prod.mk.injEq]
    constructor
    · rintro (h | ⟨rfl, c', h | ⟨h, rfl⟩, hid⟩)
      · exact Or.inl (Or.inl h)
      · exact Or.inl (Or.inr ⟨rfl, c', h, hid⟩)
      · rw [hc] at hid; cases hid; exact Or.inr ⟨rfl, rfl, h⟩
    · rintro ((h | ⟨h, c', h', hid⟩) | ⟨rfl, rfl, rfl⟩)
      · exact Or.inl h
      · exact Or.inr ⟨h, c', Or.inl h', hid⟩
      · exact Or.inr ⟨rfl, c, Or.inr ⟨rfl, rfl⟩, hc⟩
  refine ⟨by simp [hl], fun k' p => ?_, fun k' p q h1 h2 => ?_⟩
  · rw [hD, ← h.iff, entry_concat, entry_concat, mapGet_insert]
    obtain ⟨d, i⟩ := p
    by_cases e : k = k'
    · subst e
      have hno : ∀ p, ¬ IdEntry (S ++ [s]) k p := fun p hp => hf p ((h.iff k p).1 hp)
      simp only [if_true, Option.some.injEq, Prod.mk.injEq, true_and]
      constructor
      · rintro (h | ⟨h, h'⟩)
        · exact absurd (entry_concat.2 (Or.inl h)) (hno _)
        · exact Or.inr ⟨by omega, h'.symm⟩
      · rintro (h | ⟨h, h'⟩)
        · exact absurd (entry_concat.2 h) (hno _)
        · exact Or.inr ⟨by omega, h'.symm⟩
    · simp [e, Ne.symm e]
  · rcases (hD _ _).1 h1 with g1 | ⟨rfl, rfl⟩ <;> rcases (hD _ _).1 h2 with g2 | ⟨e, rfl⟩
    · exact h.uniq _ _ _ g1 g2
    · subst e; exact absurd g1 (hf _)
    · exact absurd g2 (hf _)
    · rfl

theorem IdsOK.getWithDepth {R : List (List Command)} {m : HashMapStack String Nat} (h : IdsOK R m.scopes)
    {k : String} {p : Nat × Nat} : m.getWithDepth k = some p ↔ DenotesR R k p := by
  have hfwd : ∀ p, m.getWithDepth k = some p → DenotesR R k p := by
    rintro ⟨d, i⟩ hp
    obtain ⟨s, h1, h2, -⟩ := (c28_get_with_depth m k).2 d i hp
    exact (h.iff k (d, i)).1 ⟨s, h1, h2⟩
  refine ⟨hfwd p, fun hp => ?_⟩
  cases hg : m.getWithDepth k with
  | some q => rw [h.uniq k p q hp (hfwd q hg)]
  | none =>
    have h0 := (c28_get_with_depth m k).1
    rw [hg] at h0
    have hnone : m.get k = none := h0.symm
    obtain ⟨s, h1, h2⟩ := (h.iff k p).2 hp
    rw [HashMapStack.get, List.findSome?_eq_none_iff] at hnone
    have := hnone s (by simpa using List.mem_of_getElem? h1)
    rw [this] at h2
    cases h2

theorem IdsOK.get_none {R : List (List Command)} {m : HashMapStack String Nat} (h : IdsOK R m.scopes)
    {k : String} : (m.get k).isSome = false ↔ ∀ p, ¬ DenotesR R k p := by
  rw [← (c28_get_with_depth m k).1]
  cases hg : m.getWithDepth k with
  | none =>
    simp only [Option.map_none, Option.isSome_none, true_iff]
    intro p hp
    rw [h.getWithDepth.2 hp] at hg
    cases hg
  | some q =>
    simp only [Option.map_some, Option.isSome_some, Bool.true_eq_false, false_iff, not_forall, not_not]
    exact ⟨q, h.getWithDepth.1 hg⟩

/-- `parse_step_command` resolves the references. -/
theorem parseStep_ok {V : List (List Command)} {m : HashMapStack String Nat} (h : IdsOK V.reverse m.scopes)
    {r : RawStep} {s : Step} : parseStep m r = .ok s ↔ Resolves V r s := by
  have h1 : (fun k p => parsePremise m k = .ok p) = Denotes V := by
    funext k p
    simp only [parsePremise, orErr_ok, h.getWithDepth]
    rfl
  have h2 : (fun k p => parseDischarge m r.id k = .ok p) = (fun k p => Denotes V (r.id ++ "." ++ k) p ∨
      (FreshId V (r.id ++ "." ++ k) ∧ Denotes V k p)) := by
    funext k p
    apply propext
    unfold parseDischarge
    cases hg : m.getWithDepth (r.id ++ "." ++ k) with
    | some q =>
      have hq : Denotes V (r.id ++ "." ++ k) q := h.getWithDepth.1 hg
      simp only [ok_inj]
      constructor
      · rintro rfl; exact Or.inl hq
      · rintro (hp | ⟨hf, -⟩)
        · exact h.uniq _ _ _ hq hp
        · exact absurd hq (hf q)
    | none =>
      have hf : FreshId V (r.id ++ "." ++ k) := by
        intro q hq
        rw [h.getWithDepth.2 hq] at hg
        cases hg
      simp only [orErr_ok, h.getWithDepth]
      exact ⟨fun hp => Or.inr ⟨hf, hp⟩, fun hp => hp.elim (fun h => absurd h (hf p)) (·.2)⟩
  simp only [parseStep, bind_ok, mapRes_ok, h1, h2, ok_inj, Resolves]
  constructor
  · rintro ⟨ps, hp, ds, hd, rfl⟩
    exact ⟨rfl, rfl, rfl, rfl, hp, hd⟩
  · rintro ⟨e1, e2, e3, e4, hp, hd⟩
    refine ⟨_, hp, _, hd, ?_⟩
    obtain ⟨_, _, _, _, _, _⟩ := s
    simp only at e1 e2 e3 e4
    subst e1 e2 e3 e4
    rfl

/-- The commands of the frames, innermost first. -/
def levels (st : List PFrame) : List (List Command) := st.map (·.commands)

/-- The flag of a frame says whether the frame has a step. -/
def SawOK (f : PFrame) : Prop := f.sawStep = true ↔ ∃ c ∈ f.commands, c.isStep = true

/-- What holds between two iterations of the loop. -/
structure StOK (stack : List PFrame) (ids : HashMapStack String Nat) : Prop where
  ids : IdsOK (levels stack).reverse ids.scopes
  saw : ∀ f ∈ stack, SawOK f

theorem scopes_concat {S : List (List (String × Nat))} {n : Nat} (h : S.length = n + 1) :
    ∃ S' s, S = S' ++ [s] := by
  rcases List.eq_nil_or_concat S with rfl | ⟨S', s, rfl⟩
  · simp at h
  · exact ⟨S', s, by simp⟩

/-- Adding a command that does not close a subproof. -/
theorem addCommand_normal {f : PFrame} {outer : List PFrame} {ids : HashMapStack String Nat} {n : Nat}
    {id : String} {c : Command} (h : IdsOK (levels (f :: outer)).reverse ids.scopes) (hc : c.id = .ok id)
    (hf : FreshId (levels (f :: outer)) id) (hne : id ≠ f.endStep) :
    ∃ ids', addCommand ⟨f :: outer, ids, n⟩ id c =
        .ok ⟨{ f with commands := f.commands ++ [c] } :: outer, ids', n⟩ ∧
      IdsOK (levels ({ f with commands := f.commands ++ [c] } :: outer)).reverse ids'.scopes := by
  have hget := h.get_none.2 hf
  simp only [levels, List.map_cons, List.reverse_cons] at h hf ⊢
  obtain ⟨S, s, hS⟩ := scopes_concat (n := outer.length) (by simpa using h.len)
  refine ⟨⟨S ++ [mapInsert s id f.commands.length]⟩, ?_, ?_⟩
  · unfold addCommand
    simp only [hget, require, if_true, Ne.symm hne, if_false]
    simp [HashMapStack.insert, hS, bind, Except.bind]
  · rw [hS] at h
    refine h.add hc ?_
    intro p hp
    exact hf p (by simpa [Denotes, DenotesR] using hp)

theorem addCommand_repeated {f : PFrame} {outer : List PFrame} {ids : HashMapStack String Nat} {n : Nat}
    {id : String} {c : Command} (h : IdsOK (levels (f :: outer)).reverse ids.scopes)
    (hf : ¬ FreshId (levels (f :: outer)) id) : addCommand ⟨f :: outer, ids, n⟩ id c = err := by
  have hget : ¬ (ids.get id).isSome = false := fun hh => hf (h.get_none.1 hh)
  unfold addCommand
  simp only [require, if_neg hget]
  rfl

/-- Adding the step that closes a subproof. -/
theorem addCommand_close {f o : PFrame} {outer : List PFrame} {ids : HashMapStack String Nat} {n : Nat}
    {s : Step} (h : IdsOK (levels (f :: o :: outer)).reverse ids.scopes)
    (hf : FreshId (levels (f :: o :: outer)) s.id) (he : s.id = f.endStep) (hne : f.commands ≠ []) :
    ∃ ids', addCommand ⟨f :: o :: outer, ids, n⟩ s.id (.step s) =
        .ok ⟨{ o with commands := o.commands ++ [.subproof (f.commands ++ [.step s]) f.args f.contextId] } :: outer,
          ids', n⟩ ∧
      IdsOK (levels ({ o with commands := o.commands ++
        [.subproof (f.commands ++ [.step s]) f.args f.contextId] } :: outer)).reverse ids'.scopes := by
  have hget := h.get_none.2 hf
  simp only [levels, List.map_cons, List.reverse_cons] at h hf ⊢
  obtain ⟨S, t, hS⟩ := scopes_concat (n := outer.length + 1) (by simpa using h.len)
  obtain ⟨S', t', hS'⟩ := scopes_concat (S := S) (n := outer.length) (by
    have := h.len; rw [hS] at this; simpa using this)
  subst hS'
  refine ⟨⟨S' ++ [mapInsert t' s.id o.commands.length]⟩, ?_, ?_⟩
  · unfold addCommand
    have hlen : 1 ≤ f.commands.length := List.length_pos_iff.2 hne
    have hpop : ids.popScope = .ok ⟨S' ++ [t']⟩ := by
      unfold HashMapStack.popScope
      rw [if_neg (by rw [hS]; simp), hS]
      simp
    rw [he] at hget
    simp only [hget, require, if_true, he, closeSubproof, hpop]
    have h2 : 2 ≤ (f.commands ++ [Command.step s]).length := by simp; omega
    simp [HashMapStack.insert, bind, Except.bind, Command.isStep, hlen]
  · rw [hS] at h
    refine h.pop.add ?_ ?_
    · have : ∀ l : List Command, Command.idLast (l ++ [.step s]) = .ok s.id := by
        intro l
        induction l with
        | nil => rfl
        | cons a l ih =>
          cases l with
          | nil => simp [Command.idLast, Command.id]
          | cons b l => rw [List.cons_append, List.cons_append, Command.idLast]; exact ih; simp
      simp [Command.id, this]
    · intro p hp
      refine hf p ?_
      have : DenotesR (((levels outer).reverse ++ [o.commands]) ++ [f.commands]) s.id p :=
        denotesR_concat.2 (Or.inl hp)
      simpa [Denotes, DenotesR, levels] using this

theorem SawOK.add {f : PFrame} (h : SawOK f) {c : Command} (hc : c.isStep = false) :
    SawOK { f with commands := f.commands ++ [c] } := by
  simp only [SawOK, List.mem_append, List.mem_singleton] at h ⊢
  rw [h]
  constructor
  · rintro ⟨c', h1, h2⟩; exact ⟨c', Or.inl h1, h2⟩
  · rintro ⟨c', h1 | rfl, h2⟩
    · exact ⟨c', h1, h2⟩
    · rw [hc] at h2; cases h2

/-- The premise of the rules of the grammar about assumptions. -/
theorem assume_cond {f : PFrame} {outer : List PFrame} (h : SawOK f) :
    (f.sawStep && decide (outer ≠ [])) = false ↔ levels outer = [] ∨ ∀ c ∈ f.commands, c.isStep = false := by
  have : levels outer = [] ↔ outer = [] := by simp [levels]
  rw [this]
  unfold SawOK at h
  by_cases ho : outer = []
  · simp [ho]
  · simp only [ho, ne_eq, not_false_eq_true, decide_true, Bool.and_true, false_or]
    rw [← Bool.not_eq_true, h]
    simp

/-- The parser follows the grammar. -/
theorem parseLoop_sound (m : Nat) : ∀ (rs : List RawCommand), rs.length ≤ m →
    ∀ (f : PFrame) (outer : List PFrame) (ids : HashMapStack String Nat) (n : Nat) (proof : List Command),
    StOK (f :: outer) ids → parseLoop ⟨f :: outer, ids, n⟩ rs = .ok proof →
    (outer = [] → ∃ cs n', proof = f.commands ++ cs ∧ Parses [] f.endStep f.commands n rs cs n') ∧
    (∀ o os, outer = o :: os → ∃ inner sub r s rest n' ids',
      rs = inner ++ .step r :: rest ∧ r.id = f.endStep ∧
      Parses (levels outer) f.endStep f.commands n inner sub n' ∧ f.commands ++ sub ≠ [] ∧
      FreshId ((f.commands ++ sub) :: levels outer) r.id ∧ Resolves ((f.commands ++ sub) :: levels outer) r s ∧
      StOK ({ o with commands := o.commands ++
        [.subproof (f.commands ++ sub ++ [.step s]) f.args f.contextId] } :: os) ids' ∧
      parseLoop ⟨{ o with commands := o.commands ++
        [.subproof (f.commands ++ sub ++ [.step s]) f.args f.contextId] } :: os, ids', n'⟩ rest = .ok proof) := by
  induction m with
  | zero =>
    intro rs hrs f outer ids n proof hst h
    obtain rfl : rs = [] := List.length_eq_zero_iff.1 (by omega)
    rw [parseLoop] at h
    constructor
    · rintro rfl
      simp only [ok_inj] at h
      exact ⟨[], n, by simp [h], .nil⟩
    · rintro o os rfl
      simp at h
  | succ m ih =>
    intro rs hrs f outer ids n proof hst h
    cases rs with
    | nil =>
      rw [parseLoop] at h
      constructor
      · rintro rfl
        simp only [ok_inj] at h
        exact ⟨[], n, by simp [h], .nil⟩
      · rintro o os rfl
        simp at h
    | cons c rs =>
      have hlen : rs.length ≤ m := by simp at hrs; omega
      rw [parseLoop, bind_ok] at h
      obtain ⟨st, hc, h⟩ := h
      cases c with
      | assume id t =>
        simp only [parseCommand] at hc
        split at hc
        · simp at hc
        next hcond =>
        rw [Bool.not_eq_true, assume_cond (hst.saw f (by simp))] at hcond
        by_cases hf : FreshId (levels (f :: outer)) id
        swap
        · rw [addCommand_repeated hst.ids hf] at hc; simp at hc
        by_cases he : id = f.endStep
        · exfalso
          unfold addCommand at hc
          simp only [hst.ids.get_none.2 hf, require, if_true] at hc
          simp only [← he, if_true, bind_ok] at hc
          obtain ⟨_, _, _, hcl, _⟩ := hc
          unfold closeSubproof at hcl
          split at hcl
          · simp at hcl
          · simp [Command.isStep, bind_ok] at hcl
        obtain ⟨ids', hadd, hok⟩ := addCommand_normal (n := n) hst.ids (c := .assume id t) rfl hf he
        rw [hadd] at hc
        simp only [ok_inj] at hc
        subst hc
        have hst' : StOK ({ f with commands := f.commands ++ [.assume id t] } :: outer) ids' := by
          refine ⟨hok, ?_⟩
          intro g hg
          rcases List.mem_cons.1 hg with rfl | hg
          · exact (hst.saw f (by simp)).add rfl
          · exact hst.saw g (by simp [hg])
        obtain ⟨g1, g2⟩ := ih rs hlen _ outer ids' n proof hst' h
        constructor
        · intro ho
          obtain ⟨cs, n', e, hp⟩ := g1 ho
          subst ho
          exact ⟨.assume id t :: cs, n', by simp [e], .assume he hf hcond hp⟩
        · intro o os ho
          obtain ⟨inner, sub, r, s, rest, n', ids'', e1, e2, hp, hne, h3, h4, h5, h6⟩ := g2 o os ho
          simp only [List.append_assoc, List.singleton_append] at hne h3 h4 h5 h6
          exact ⟨.assume id t :: inner, .assume id t :: sub, r, s, rest, n', ids'', by simp [e1], e2,
            .assume he hf hcond hp, hne, h3, h4, by simpa using h5, by simpa using h6⟩
      | step r =>
        simp only [parseCommand, bind_ok] at hc
        obtain ⟨s, hs, hc⟩ := hc
        have hres := (parseStep_ok hst.ids).1 hs
        have hid : r.id = s.id := hres.1.symm
        have hst0 : IdsOK (levels ({ f with sawStep := true } :: outer)).reverse ids.scopes := hst.ids
        by_cases hf : FreshId (levels ({ f with sawStep := true } :: outer)) r.id
        swap
        · rw [addCommand_repeated hst0 hf] at hc; simp at hc
        by_cases he : r.id = f.endStep
        · cases outer with
          | nil =>
            exfalso
            unfold addCommand at hc
            simp only [hst0.get_none.2 hf, require, if_true] at hc
            simp only [← he, if_true, bind_ok] at hc
            obtain ⟨_, _, _, hcl, _⟩ := hc
            simp [closeSubproof] at hcl
          | cons o os =>
            refine ⟨by simp, ?_⟩
            rintro _ _ ⟨⟩
            by_cases hne : f.commands = []
            · exfalso
              unfold addCommand at hc
              simp only [hst0.get_none.2 hf, require, if_true] at hc
              simp only [← he, if_true, bind_ok] at hc
              obtain ⟨_, _, _, hcl, _⟩ := hc
              simp [closeSubproof, bind_ok, hne] at hcl
            · obtain ⟨ids', hadd, hok⟩ := addCommand_close (n := n) (f := { f with sawStep := true }) hst0
                (hid ▸ hf) (hid ▸ he) hne
              rw [hid, hadd] at hc
              simp only [ok_inj] at hc
              subst hc
              refine ⟨[], [], r, s, rs, n, ids', rfl, he, .nil, by simpa using hne, by rw [List.append_nil]; exact hf,
                by rw [List.append_nil]; exact hres, ⟨by simpa using hok, ?_⟩, by simpa using h⟩
              intro g hg
              rcases List.mem_cons.1 hg with rfl | hg
              · exact (hst.saw o (by simp)).add rfl
              · exact hst.saw g (by simp [hg])
        · obtain ⟨ids', hadd, hok⟩ := addCommand_normal (n := n) (f := { f with sawStep := true }) hst0
            (c := .step s) (id := r.id) (by simp [Command.id, hid]) hf he
          rw [hadd] at hc
          simp only [ok_inj] at hc
          subst hc
          have hst' : StOK ({ f with sawStep := true, commands := f.commands ++ [.step s] } :: outer) ids' := by
            refine ⟨hok, ?_⟩
            intro g hg
            rcases List.mem_cons.1 hg with rfl | hg
            · simp only [SawOK, true_iff]
              exact ⟨.step s, by simp, rfl⟩
            · exact hst.saw g (by simp [hg])
          obtain ⟨g1, g2⟩ := ih rs hlen _ outer ids' n proof hst' h
          constructor
          · intro ho
            obtain ⟨cs, n', e, hp⟩ := g1 ho
            subst ho
            exact ⟨.step s :: cs, n', by simp [e], .step he hf hres hp⟩
          · intro o os ho
            obtain ⟨inner, sub, r', s', rest, n', ids'', e1, e2, hp, hne, h3, h4, h5, h6⟩ := g2 o os ho
            simp only [List.append_assoc, List.singleton_append] at hne h3 h4 h5 h6
            exact ⟨.step r :: inner, .step s :: sub, r', s', rest, n', ids'', by simp [e1], e2,
              .step he hf hres hp, hne, h3, h4, by simpa using h5, by simpa using h6⟩
      | anchor e as =>
        simp only [parseCommand, ok_inj] at hc
        subst hc
        have hst' : StOK ({ args := as, contextId := n, endStep := e } :: f :: outer) ids.pushScope := by
          refine ⟨?_, ?_⟩
          · have := hst.ids.push
            simpa [levels, HashMapStack.pushScope] using this
          · intro g hg
            rcases List.mem_cons.1 hg with rfl | hg
            · simp [SawOK]
            · exact hst.saw g hg
        obtain ⟨-, g2⟩ := ih rs hlen _ (f :: outer) ids.pushScope (n + 1) proof hst' h
        obtain ⟨inner, sub, r, s, rest, n', ids', e1, e2, hp, hne, h3, h4, h5, h6⟩ := g2 f outer rfl
        simp only [List.nil_append] at hne h3 h4 h5 h6
        simp only at e2
        subst e2
        obtain ⟨k1, k2⟩ := ih rest (by rw [e1] at hlen; simp at hlen; omega) _ outer ids' n' proof h5 h6
        subst e1
        constructor
        · intro ho
          obtain ⟨cs, n'', e, hp'⟩ := k1 ho
          subst ho
          exact ⟨Command.subproof (sub ++ [Command.step s]) as n :: cs, n'', by simp [e], .subproof hp hne h3 h4 hp'⟩
        · intro o os ho
          obtain ⟨inner', sub', r', s', rest', n'', ids'', e1', e2', hp', hne', h3', h4', h5', h6'⟩ := k2 o os ho
          simp only [List.append_assoc, List.singleton_append] at hne' h3' h4' h5' h6'
          refine ⟨.anchor r.id as :: inner ++ .step r :: inner', Command.subproof (sub ++ [Command.step s]) as n :: sub', r', s',
            rest', n'', ids'', by simp [e1'], e2', .subproof hp hne h3 h4 hp', hne', h3', h4', by simpa using h5',
            by simpa using h6'⟩

/-- The parser accepts everything the grammar describes. -/
theorem Parses.complete {V e pre n raws cs n'} (h : Parses V e pre n raws cs n') :
    ∀ (f : PFrame) (outer : List PFrame) (ids : HashMapStack String Nat) (rest : List RawCommand),
    StOK (f :: outer) ids → levels outer = V → f.commands = pre → f.endStep = e →
    ∃ f' ids', parseLoop ⟨f :: outer, ids, n⟩ (raws ++ rest) = parseLoop ⟨f' :: outer, ids', n'⟩ rest ∧
      StOK (f' :: outer) ids' ∧ f'.commands = pre ++ cs ∧ f'.endStep = e ∧ f'.args = f.args ∧
      f'.contextId = f.contextId := by
  induction h with
  | nil =>
    intro f outer ids rest hst hV hp he
    exact ⟨f, ids, rfl, hst, by simp [hp], he, rfl, rfl⟩
  | @assume V e pre n id t rs cs n' hne hf hcond hrest ih =>
    intro f outer ids rest hst hV hp he
    subst hV hp he
    obtain ⟨ids', hadd, hok⟩ := addCommand_normal (n := n) hst.ids (c := .assume id t) rfl hf hne
    have hst' : StOK ({ f with commands := f.commands ++ [.assume id t] } :: outer) ids' := by
      refine ⟨hok, ?_⟩
      intro g hg
      rcases List.mem_cons.1 hg with rfl | hg
      · exact (hst.saw f (by simp)).add rfl
      · exact hst.saw g (by simp [hg])
    obtain ⟨f', ids'', h1, h2, h3, h4, h5, h6⟩ := ih _ outer ids' rest hst' rfl rfl rfl
    refine ⟨f', ids'', ?_, h2, by simpa using h3, h4, h5, h6⟩
    rw [List.cons_append, parseLoop, parseCommand]
    have := (assume_cond (outer := outer) (hst.saw f (by simp))).2 hcond
    simp only [this, Bool.false_eq_true, if_false, hadd]
    exact h1
  | @step V e pre n r s rs cs n' hne hf hres hrest ih =>
    intro f outer ids rest hst hV hp he
    subst hV hp he
    have hst0 : IdsOK (levels ({ f with sawStep := true } :: outer)).reverse ids.scopes := hst.ids
    obtain ⟨ids', hadd, hok⟩ := addCommand_normal (n := n) (f := { f with sawStep := true }) hst0
      (c := .step s) (id := r.id) (by simp [Command.id, hres.1]) hf hne
    have hst' : StOK ({ f with sawStep := true, commands := f.commands ++ [.step s] } :: outer) ids' := by
      refine ⟨hok, ?_⟩
      intro g hg
      rcases List.mem_cons.1 hg with rfl | hg
      · simp only [SawOK, true_iff]
        exact ⟨.step s, by simp, rfl⟩
      · exact hst.saw g (by simp [hg])
    obtain ⟨f', ids'', h1, h2, h3, h4, h5, h6⟩ := ih _ outer ids' rest hst' rfl rfl rfl
    refine ⟨f', ids'', ?_, h2, by simpa using h3, h4, h5, h6⟩
    rw [List.cons_append, parseLoop, parseCommand]
    have hs : parseStep ids r = .ok s := (parseStep_ok hst.ids).2 hres
    simp only [hs]
    change (addCommand ⟨{ f with sawStep := true } :: outer, ids, n⟩ r.id (.step s) >>= fun st => _) = _
    rw [hadd]
    exact h1
  | @subproof V e pre n as r s inner sub n₁ rs cs n' hinner hne hf hres hrest ih1 ih2 =>
    intro f outer ids rest hst hV hp he
    subst hV hp he
    have hst1 : StOK ({ args := as, contextId := n, endStep := r.id } :: f :: outer) ids.pushScope := by
      refine ⟨?_, ?_⟩
      · have := hst.ids.push
        simpa [levels, HashMapStack.pushScope] using this
      · intro g hg
        rcases List.mem_cons.1 hg with rfl | hg
        · simp [SawOK]
        · exact hst.saw g hg
    obtain ⟨g, ids1, h1, h2, h3, h4, h5, h6⟩ :=
      ih1 _ (f :: outer) ids.pushScope (.step r :: (rs ++ rest)) hst1 rfl rfl rfl
    simp only [List.nil_append] at h3
    have hst2 : IdsOK (levels ({ g with sawStep := true } :: f :: outer)).reverse ids1.scopes := h2.ids
    have hlev : levels ({ g with sawStep := true } :: f :: outer) = sub :: f.commands :: levels outer := by
      simp [levels, h3]
    obtain ⟨ids2, hadd, hok⟩ := addCommand_close (n := n₁) (s := s) (f := { g with sawStep := true }) hst2
      (by rw [hlev, hres.1]; exact hf) (by rw [hres.1]; exact h4.symm) (by simpa [h3] using hne)
    have hst3 : StOK ({ f with commands := f.commands ++
        [.subproof (g.commands ++ [.step s]) g.args g.contextId] } :: outer) ids2 := by
      refine ⟨hok, ?_⟩
      intro g' hg
      rcases List.mem_cons.1 hg with rfl | hg
      · exact (hst.saw f (by simp)).add rfl
      · exact hst.saw g' (by simp [hg])
    obtain ⟨f', ids3, k1, k2, k3, k4, k5, k6⟩ := ih2 _ outer ids2 rest hst3 rfl (by simp [h3, h5, h6]) rfl
    refine ⟨f', ids3, ?_, k2, by simpa using k3, k4, k5, k6⟩
    rw [← k1]
    have e1 : RawCommand.anchor r.id as :: inner ++ RawCommand.step r :: rs ++ rest =
        RawCommand.anchor r.id as :: (inner ++ RawCommand.step r :: (rs ++ rest)) := by simp
    rw [e1, parseLoop, parseCommand]
    change parseLoop ⟨_ :: f :: outer, ids.pushScope, n + 1⟩ _ = _
    rw [h1, parseLoop, parseCommand]
    have hs : parseStep ids1 r = .ok s := by
      refine (parseStep_ok h2.ids).2 ?_
      have : levels (g :: f :: outer) = sub :: f.commands :: levels outer := by simp [levels, h3]
      rw [this]; exact hres
    simp only [hs]
    change (addCommand ⟨{ g with sawStep := true } :: f :: outer, ids1, n₁⟩ r.id (.step s) >>= fun st => _) = _
    rw [← hres.1, hadd]
    rfl

theorem stOK_start : StOK [{}] HashMapStack.new := by
  refine ⟨⟨rfl, ?_, ?_⟩, by simp [SawOK]⟩
  · rintro k ⟨d, i⟩
    simp only [IdEntry, DenotesR, HashMapStack.new, levels]
    cases d <;> simp [mapGet]
  · rintro k ⟨d, i⟩ q ⟨L, c, h1, h2, -⟩
    simp only [levels] at h1
    cases d with
    | zero => simp at h1; subst h1; simp at h2
    | succ d => simp at h1

/-- The parser and the grammar describe the same proofs. -/
theorem parseProof_iff {rs : List RawCommand} {proof : List Command} :
    parseProof rs = .ok proof ↔ ∃ n, Parses [] "" [] 0 rs proof n := by
  constructor
  · intro h
    obtain ⟨cs, n', e, hp⟩ := (parseLoop_sound _ rs (Nat.le_refl _) {} [] _ 0 proof stOK_start h).1 rfl
    simp only [List.nil_append] at e
    subst e
    exact ⟨n', hp⟩
  · rintro ⟨n, h⟩
    obtain ⟨f', ids', h1, h2, h3, -⟩ := h.complete {} [] HashMapStack.new [] stOK_start rfl rfl rfl
    rw [List.append_nil] at h1
    rw [parseProof, h1, parseLoop]
    simp [h3]

/-! ## Consequences for the positions of the tree -/

theorem idLast_concat (l : List Command) (s : Step) : Command.idLast (l ++ [.step s]) = .ok s.id := by
  induction l with
  | nil => rfl
  | cons a l ih =>
    cases l with
    | nil => simp [Command.idLast, Command.id]
    | cons b l => rw [List.cons_append, List.cons_append, Command.idLast]; exact ih; simp

theorem positionsL_append (F : Frames) (Γ : List (List AnchorArg)) (cs : List Command) :
    ∀ (l l' : List Command) (i : Nat),
    positionsL F Γ cs i (l ++ l') = positionsL F Γ cs i l ++ positionsL F Γ cs (i + l.length) l'
  | [], l', i => by simp [positionsL]
  | c :: l, l', i => by
    rw [List.cons_append, positionsL, positionsL, positionsL_append F Γ cs l l' (i + 1), List.append_assoc]
    congr 3
    simp; omega

/-- No identifier occurs twice among the visible commands. -/
def UniqueIds (V : List (List Command)) : Prop := ∀ k p q, Denotes V k p → Denotes V k q → p = q

theorem denotes_cons {V : List (List Command)} {L : List Command} {k : String} {p : Nat × Nat} :
    Denotes (L :: V) k p ↔ Denotes V k p ∨ (p.1 = V.length ∧ ∃ c, L[p.2]? = some c ∧ c.id = .ok k) := by
  have := denotesR_concat (R := V.reverse) (L := L) (k := k) (p := p)
  simpa [Denotes, DenotesR] using this

theorem UniqueIds.push {V : List (List Command)} (h : UniqueIds V) : UniqueIds ([] :: V) := by
  intro k p q h1 h2
  rw [denotes_cons] at h1 h2
  simp only [List.getElem?_nil, reduceCtorEq, false_and, exists_false, and_false, or_false] at h1 h2
  exact h k p q h1 h2

theorem UniqueIds.pop {L : List Command} {V : List (List Command)} (h : UniqueIds (L :: V)) : UniqueIds V :=
  fun k p q h1 h2 => h k p q (denotes_cons.2 (Or.inl h1)) (denotes_cons.2 (Or.inl h2))

theorem FreshId.pop {L : List Command} {V : List (List Command)} {k : String} (h : FreshId (L :: V) k) :
    FreshId V k := fun p hp => h p (denotes_cons.2 (Or.inl hp))

theorem UniqueIds.add {L : List Command} {V : List (List Command)} (h : UniqueIds (L :: V)) {c : Command}
    {k : String} (hc : c.id = .ok k) (hf : FreshId (L :: V) k) : UniqueIds ((L ++ [c]) :: V) := by
  have hD : ∀ k' p, Denotes ((L ++ [c]) :: V) k' p →
      Denotes (L :: V) k' p ∨ (k' = k ∧ p = (V.length, L.length)) := by
    rintro k' ⟨d, i⟩
    simp only [denotes_cons, getElem?_concat, Prod.mk.injEq]
    rintro (h | ⟨rfl, c', h | ⟨h, rfl⟩, hid⟩)
    · exact Or.inl (Or.inl h)
    · exact Or.inl (Or.inr ⟨rfl, c', h, hid⟩)
    · rw [hc] at hid; cases hid; exact Or.inr ⟨rfl, rfl, h⟩
  intro k' p q h1 h2
  rcases hD _ _ h1 with g1 | ⟨rfl, rfl⟩ <;> rcases hD _ _ h2 with g2 | ⟨e, rfl⟩
  · exact h _ _ _ g1 g2
  · subst e; exact absurd g1 (hf _)
  · exact absurd g2 (hf _)
  · rfl

theorem take_prefix {α : Type} (pre post : List α) : (pre ++ post).take pre.length = pre := by simp

/-- The written commands describe the positions of the tree one by one. -/
theorem Parses.positions {V e pre n raws cs n'} (h : Parses V e pre n raws cs n') :
    ∀ (F : Frames) (Γ : List (List AnchorArg)) (post : List Command), F.visible = V → UniqueIds (pre :: V) →
    List.Forall₂ (fun raw o => raw.describes o.frames o.cmd ∧ UniqueIds o.frames.visible) raws
      (positionsL F Γ (pre ++ cs ++ post) pre.length cs) := by
  induction h with
  | nil => intro F Γ post _ _; exact .nil
  | @assume V e pre n id t rs cs n' hne hf hcond hrest ih =>
    intro F Γ post hV hu
    have := ih F Γ post hV (hu.add rfl hf)
    rw [positionsL]
    simp only [List.length_append, List.length_singleton, List.append_assoc, List.singleton_append] at this ⊢
    refine .cons ⟨rfl, ?_⟩ this
    simpa [Frames.visible, ← hV] using hu
  | @step V e pre n r s rs cs n' hne hf hres hrest ih =>
    intro F Γ post hV hu
    have := ih F Γ post hV (hu.add (c := .step s) (by simp [Command.id, hres.1]) hf)
    rw [positionsL]
    simp only [List.length_append, List.length_singleton, List.append_assoc, List.singleton_append] at this ⊢
    have hvis : Frames.visible ((pre.length, pre ++ (Command.step s :: cs ++ post)) :: F) = pre :: V := by
      simp [Frames.visible, ← hV]
    refine .cons ⟨?_, ?_⟩ this
    · change Resolves (Frames.visible _) r s
      rw [hvis]; exact hres
    · change UniqueIds (Frames.visible _)
      rw [hvis]; exact hu
  | @subproof V e pre n as r s inner sub n₁ rs cs n' hinner hne hf hres hrest ih1 ih2 =>
    intro F Γ post hV hu
    have hvis : ∀ l, Frames.visible ((pre.length, pre ++ l) :: F) = pre :: V := by
      intro l; simp [Frames.visible, ← hV]
    have hlast : Command.id (.subproof (sub ++ [.step s]) as n) = .ok r.id := by
      rw [Command.id, idLast_concat, hres.1]
    have h2 := ih2 F Γ post hV (hu.add hlast hf.pop)
    have h1 := ih1 ((pre.length, pre ++ (Command.subproof (sub ++ [.step s]) as n :: cs) ++ post) :: F) (Γ ++ [as])
      [.step s] (by rw [List.append_assoc]; exact hvis _) hu.push
    have hul : UniqueIds (sub :: pre :: V) := by
      have key : ∀ {V e pre n raws cs n'}, Parses V e pre n raws cs n' → UniqueIds (pre :: V) →
          UniqueIds ((pre ++ cs) :: V) := by
        intro V e pre n raws cs n' h
        induction h with
        | nil => intro hu; simpa using hu
        | assume _ hf _ _ ih => intro hu; simpa using ih (hu.add rfl hf)
        | @step V e pre n r s rs cs n' _ hf hres _ ih =>
          intro hu; simpa using ih (hu.add (c := .step s) (by simp [Command.id, hres.1]) hf)
        | @subproof V e pre n as r s inner sub n₁ rs cs n' _ _ hf hres _ _ ih =>
          intro hu
          simpa using ih (hu.add (c := .subproof (sub ++ [.step s]) as n)
            (by rw [Command.id, idLast_concat, hres.1]) hf.pop)
      simpa using key hinner hu.push
    simp only [List.nil_append, List.length_nil] at h1
    rw [positionsL, Carcara.positions, positionsL_append]
    simp only [List.length_append, List.length_singleton, List.append_assoc, List.singleton_append,
      List.cons_append, Nat.zero_add, List.nil_append, positionsL, Carcara.positions] at h1 h2 ⊢
    refine .cons ⟨⟨rfl, ?_⟩, ?_⟩ ?_
    · simpa [Command.id] using hlast
    · change UniqueIds (Frames.visible _)
      rw [hvis]; exact hu
    · refine List.rel_append h1 (.cons ⟨?_, ?_⟩ h2)
      · change Resolves (Frames.visible _) r s
        have : Frames.visible ((sub.length, sub ++ [Command.step s]) ::
            (pre.length, pre ++ Command.subproof (sub ++ [.step s]) as n :: (cs ++ post)) :: F) = sub :: pre :: V := by
          simp [Frames.visible, ← hV]
        rw [this]; exact hres
      · change UniqueIds (Frames.visible _)
        have : Frames.visible ((sub.length, sub ++ [Command.step s]) ::
            (pre.length, pre ++ Command.subproof (sub ++ [.step s]) as n :: (cs ++ post)) :: F) = sub :: pre :: V := by
          simp [Frames.visible, ← hV]
        rw [this]; exact hul

theorem wfL_append (l l' : List Command) : Command.wfL (l ++ l') = (Command.wfL l && Command.wfL l') := by
  induction l with
  | nil => simp [Command.wfL]
  | cons a l ih => simp [Command.wfL, ih, Bool.and_assoc]

theorem Parses.wf {V e pre n raws cs n'} (h : Parses V e pre n raws cs n') : Command.wfL cs = true := by
  induction h with
  | nil => rfl
  | assume _ _ _ _ ih => simp [Command.wfL, Command.wf, ih]
  | step _ _ _ _ ih => simp [Command.wfL, Command.wf, ih]
  | @subproof V e pre n as r s inner sub n₁ rs cs n' _ hne _ _ _ ih1 ih2 =>
    have : 1 ≤ sub.length := List.length_pos_iff.2 hne
    simp [Command.wfL, Command.wf, ih1, ih2, wfL_append, Command.isStep, this]

theorem Denotes.scoped {F : Frames} {k : String} {p : Nat × Nat} (h : Denotes F.visible k p) :
    ∃ j cs c, F.reverse[p.1]? = some (j, cs) ∧ p.2 < j ∧ cs[p.2]? = some c ∧ c.id = .ok k := by
  obtain ⟨L, c, h1, h2, h3⟩ := h
  simp only [Frames.visible, ← List.map_reverse, List.getElem?_map, Option.map_eq_some_iff] at h1
  obtain ⟨⟨j, cs⟩, h1, rfl⟩ := h1
  refine ⟨j, cs, c, h1, ?_, ?_, h3⟩
  · have := (List.getElem?_eq_some_iff.1 h2).1
    simp at this; omega
  · rw [List.getElem?_take] at h2
    split at h2
    · exact h2
    · cases h2

/-! ## Panics -/

/-- The identifier a command registers. -/
def RawCommand.ident : RawCommand → Option String
  | .assume id _ => some id
  | .step r => some r.id
  | .anchor _ _ => none

/-- The state is as expected and its outermost frame is the root frame. -/
def RootOK (st : PState) : Prop :=
  StOK st.stack st.ids ∧ ∃ inner root, st.stack = inner ++ [root] ∧ root.endStep = ""

theorem RootOK.step {st : PState} (h : RootOK st) {c : RawCommand} (hc : c.ident ≠ some "") :
    parseCommand st c = err ∨ ∃ st', parseCommand st c = .ok st' ∧ RootOK st' := by
  obtain ⟨stack, ids, n⟩ := st
  obtain ⟨hst, inner, root, hstack, hroot⟩ := h
  simp only at hst hstack
  obtain ⟨f, outer, rfl⟩ : ∃ f outer, stack = f :: outer := by
    cases inner with
    | nil => exact ⟨_, _, hstack⟩
    | cons f l => exact ⟨_, _, hstack⟩
  have hrootf : outer = [] → f.endStep = "" := by
    rintro rfl
    cases inner with
    | nil => simp at hstack; rw [hstack]; exact hroot
    | cons g l => simp at hstack
  have hlast : ∀ g : PFrame, g.endStep = f.endStep →
      ∃ inner root, g :: outer = inner ++ [root] ∧ root.endStep = "" := by
    intro g hg
    cases inner with
    | nil =>
      simp only [List.nil_append, List.cons.injEq] at hstack
      exact ⟨[], g, by simp [hstack.2], by rw [hg]; exact hrootf hstack.2⟩
    | cons f' l =>
      simp only [List.cons_append, List.cons.injEq] at hstack
      exact ⟨g :: l, root, by simp [hstack.2], hroot⟩
  cases c with
  | anchor e as =>
    refine Or.inr ⟨_, rfl, ⟨?_, ?_⟩, { args := as, contextId := n, endStep := e } :: inner, root, ?_, hroot⟩
    · have := hst.ids.push
      simpa [levels, HashMapStack.pushScope] using this
    · intro g hg
      rcases List.mem_cons.1 hg with rfl | hg
      · simp [SawOK]
      · exact hst.saw g hg
    · simp [hstack]
  | assume id t =>
    have hid : id ≠ "" := by rintro rfl; exact hc rfl
    simp only [parseCommand]
    split
    · exact Or.inl rfl
    by_cases hf : FreshId (levels (f :: outer)) id
    swap
    · rw [addCommand_repeated hst.ids hf]; exact Or.inl rfl
    by_cases he : id = f.endStep
    · left
      unfold addCommand
      simp only [hst.ids.get_none.2 hf, require, if_true]
      simp only [← he, if_true]
      cases outer with
      | nil => exact absurd (he.trans (hrootf rfl)) hid
      | cons o os =>
        have hlen : ids.scopes.length = os.length + 2 := by simpa [levels] using hst.ids.len
        unfold closeSubproof
        have hpop : ids.popScope = .ok ⟨ids.scopes.dropLast⟩ := by
          unfold HashMapStack.popScope; rw [if_neg (by omega)]
        simp only [hpop, require]
        by_cases hl : 1 ≤ f.commands.length <;> simp [Command.isStep, bind, Except.bind, hl, err]
    · obtain ⟨ids', hadd, hok⟩ := addCommand_normal (n := n) hst.ids (c := .assume id t) rfl hf he
      refine Or.inr ⟨_, hadd, ⟨hok, ?_⟩, hlast _ rfl⟩
      intro g hg
      rcases List.mem_cons.1 hg with rfl | hg
      · exact (hst.saw f (by simp)).add rfl
      · exact hst.saw g (by simp [hg])
  | step r =>
    have hid : r.id ≠ "" := by intro e; exact hc (by simp [RawCommand.ident, e])
    have hps : parseStep ids r = err ∨ ∃ s, parseStep ids r = .ok s := by
      have hp : ∀ (f : String → Res (Nat × Nat)), (∀ k, f k = err ∨ ∃ p, f k = .ok p) →
          ∀ l, mapRes f l = err ∨ ∃ ps, mapRes f l = .ok ps := by
        intro f hf l
        induction l with
        | nil => exact Or.inr ⟨[], rfl⟩
        | cons a l ih =>
          rcases hf a with h | ⟨p, h⟩
          · left; simp [mapRes, h, bind, Except.bind, err]
          · rcases ih with h' | ⟨ps, h'⟩
            · left; simp [mapRes, h, h', bind, Except.bind, err]
            · right; exact ⟨p :: ps, by simp [mapRes, h, h', bind, Except.bind]⟩
      have ho : ∀ (o : Option (Nat × Nat)), orErr o = err ∨ ∃ p, orErr o = .ok p := by
        intro o; cases o with
        | none => exact Or.inl rfl
        | some p => exact Or.inr ⟨p, rfl⟩
      rcases hp (parsePremise ids) (fun k => ho _) r.premises with h | ⟨ps, h⟩
      · left; simp [parseStep, h, bind, Except.bind, err]
      · rcases hp (parseDischarge ids r.id) (fun k => by
          unfold parseDischarge
          split
          · exact Or.inr ⟨_, rfl⟩
          · exact ho _) r.discharge with h' | ⟨ds, h'⟩
        · left; simp [parseStep, h, h', bind, Except.bind, err]
        · right; exact ⟨_, by simp [parseStep, h, h', bind, Except.bind]; rfl⟩
    rcases hps with hps | ⟨s, hs⟩
    · left; simp [parseCommand, hps, bind, Except.bind, err]
    have hres := (parseStep_ok hst.ids).1 hs
    have hsid : r.id = s.id := hres.1.symm
    have hst0 : IdsOK (levels ({ f with sawStep := true } :: outer)).reverse ids.scopes := hst.ids
    have hpc : parseCommand ⟨f :: outer, ids, n⟩ (.step r) =
        addCommand ⟨{ f with sawStep := true } :: outer, ids, n⟩ r.id (.step s) := by
      simp [parseCommand, hs, bind, Except.bind]
    rw [hpc]
    by_cases hf : FreshId (levels ({ f with sawStep := true } :: outer)) r.id
    swap
    · rw [addCommand_repeated hst0 hf]; exact Or.inl rfl
    by_cases he : r.id = f.endStep
    · cases outer with
      | nil => exact absurd (he.trans (hrootf rfl)) hid
      | cons o os =>
        by_cases hne : f.commands = []
        · left
          unfold addCommand
          simp only [hst0.get_none.2 hf, require, if_true]
          simp only [← he, if_true]
          have hlen : ids.scopes.length = os.length + 2 := by simpa [levels] using hst.ids.len
          unfold closeSubproof
          have hpop : ids.popScope = .ok ⟨ids.scopes.dropLast⟩ := by
            unfold HashMapStack.popScope; rw [if_neg (by omega)]
          simp [hpop, require, hne, bind, Except.bind, err]
        · obtain ⟨ids', hadd, hok⟩ := addCommand_close (n := n) (f := { f with sawStep := true }) hst0
            (hsid ▸ hf) (hsid ▸ he) hne
          rw [hsid]
          refine Or.inr ⟨_, hadd, ⟨hok, ?_⟩, ?_⟩
          · intro g hg
            rcases List.mem_cons.1 hg with rfl | hg
            · exact (hst.saw o (by simp)).add rfl
            · exact hst.saw g (by simp [hg])
          · cases inner with
            | nil => simp at hstack
            | cons f' l =>
              simp only [List.cons_append, List.cons.injEq] at hstack
              cases l with
              | nil =>
                simp only [List.nil_append, List.cons.injEq] at hstack
                exact ⟨[], _, by rw [hstack.2.2]; rfl, by simp only [hstack.2.1]; exact hroot⟩
              | cons g l =>
                simp only [List.cons_append, List.cons.injEq] at hstack
                exact ⟨_ :: l, root, by simp only [hstack.2.2, List.cons_append]; rfl, hroot⟩
    · obtain ⟨ids', hadd, hok⟩ := addCommand_normal (n := n) (f := { f with sawStep := true }) hst0
        (c := .step s) (id := r.id) (by simp [Command.id, hsid]) hf he
      refine Or.inr ⟨_, hadd, ⟨hok, ?_⟩, hlast _ rfl⟩
      intro g hg
      rcases List.mem_cons.1 hg with rfl | hg
      · simp only [SawOK, true_iff]
        exact ⟨.step s, by simp, rfl⟩
      · exact hst.saw g (by simp [hg])

theorem parseLoop_no_panic : ∀ (rs : List RawCommand) (st : PState), RootOK st →
    (∀ c ∈ rs, c.ident ≠ some "") → parseLoop st rs ≠ panic
  | [], st, _, _ => by
    rw [parseLoop]
    split <;> simp [panic, err]
  | c :: rs, st, h, hc => by
    rw [parseLoop]
    rcases h.step (hc c (by simp)) with h1 | ⟨st', h1, h2⟩
    · rw [h1]; simp [bind, Except.bind, err, panic]
    · rw [h1]
      exact parseLoop_no_panic rs st' h2 (fun c hc' => hc c (by simp [hc']))

theorem rootOK_start : RootOK { stack := [{}], ids := HashMapStack.new, nextId := 0 } :=
  ⟨stOK_start, [], {}, rfl, rfl⟩

end Carcara
