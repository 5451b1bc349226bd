import Verif.Spec.Slice
import Verif.Lemmas.SliceFold

/-!
# Occurrences and their identifiers
-/

namespace Carcara

theorem Occ.ne_nil {proof : List Command} {F Γ c} (h : Occ proof F Γ c) : F ≠ [] := by cases h <;> simp

theorem Occ.head {proof : List Command} {i cs F Γ c} (h : Occ proof ((i, cs) :: F) Γ c) : cs[i]? = some c := by
  cases h with
  | top h => exact h
  | sub _ h => exact h

theorem Occ.sibling {proof : List Command} {i cs F Γ c} (h : Occ proof ((i, cs) :: F) Γ c) {k : Nat} {c' : Command} (hk : cs[k]? = some c') :
    Occ proof ((k, cs) :: F) Γ c' := by
  cases h with
  | top h => exact .top hk
  | sub ho h => exact .sub ho hk

theorem Occ.parent {proof : List Command} {i cs f F Γ c} (h : Occ proof ((i, cs) :: f :: F) Γ c) :
    ∃ Γ' as n, Γ = Γ' ++ [as] ∧ Occ proof (f :: F) Γ' (.subproof cs as n) := by
  cases h with
  | sub ho h => exact ⟨_, _, _, rfl, ho⟩

theorem Occ.last {proof : List Command} {F Γ c} (h : Occ proof F Γ c) : ∃ i, F.getLast? = some (i, proof) := by
  induction h with
  | top _ => exact ⟨_, rfl⟩
  | @sub F _ _ _ _ _ _ ho _ ih =>
    obtain ⟨i, hi⟩ := ih
    refine ⟨i, ?_⟩
    cases F with
    | nil => simp at hi
    | cons f F => simpa using hi

theorem Occ.suffix {proof : List Command} {F Γ c} (h : Occ proof F Γ c) {G : Frames} (hG : G <:+ F) (hne : G ≠ []) :
    ∃ Γ' c', Occ proof G Γ' c' := by
  induction h with
  | top h =>
    rcases List.suffix_cons_iff.1 hG with rfl | hG
    · exact ⟨_, _, .top h⟩
    · exact absurd (List.suffix_nil.1 hG) hne
  | sub ho h ih =>
    rcases List.suffix_cons_iff.1 hG with rfl | hG
    · exact ⟨_, _, .sub ho h⟩
    · exact ih hG

theorem Occ.path_inj {proof : List Command} {F Γ c} (h : Occ proof F Γ c) : ∀ {F' Γ' c'}, Occ proof F' Γ' c' → F.path = F'.path →
    F = F' ∧ c = c' := by
  induction h with
  | @top i c hi =>
    intro F' Γ' c' h' hp
    cases h' with
    | top hj =>
      simp only [Frames.path, List.map_cons, List.map_nil, List.reverse_cons, List.reverse_nil, List.nil_append, List.cons.injEq, and_true] at hp
      subst hp; rw [hi] at hj; cases hj; exact ⟨rfl, rfl⟩
    | @sub F _ _ _ _ _ _ ho hj =>
      have := congrArg List.length hp
      cases F with
      | nil => cases ho
      | cons f F => simp [Frames.path] at this
  | @sub F Γ cs as n j c ho hj ih =>
    intro F' Γ' c' h' hp
    cases h' with
    | top hj' =>
      have := congrArg List.length hp
      cases F with
      | nil => cases ho
      | cons f F => simp [Frames.path] at this
    | @sub F' _ cs' _ _ j' _ ho' hj' =>
      have hp' : F.path = F'.path ∧ j = j' := by
        simp only [Frames.path, List.map_cons, List.reverse_cons] at hp
        have := List.append_inj' hp rfl
        exact ⟨this.1, by simpa using this.2⟩
      obtain ⟨rfl, e⟩ := ih ho' hp'.1
      cases e
      obtain ⟨-, rfl⟩ := hp'
      rw [hj] at hj'; cases hj'; exact ⟨rfl, rfl⟩

theorem Occ.cmd_inj {proof : List Command} {F Γ c Γ' c'} (h : Occ proof F Γ c) (h' : Occ proof F Γ' c') : c = c' := (h.path_inj h' rfl).2

/-- Nothing is inside a step. -/
theorem Occ.step_prefix {proof : List Command} {F Γ s} (h : Occ proof F Γ (.step s)) {F' Γ' c'} (h' : Occ proof F' Γ' c') {r : List Nat}
    (hp : F'.path = F.path ++ r) : r = [] := by
  have hlen : F'.length = F.length + r.length := by
    have := congrArg List.length hp
    simpa [Frames.path] using this
  have hsplit : F' = F'.take r.length ++ F'.drop r.length := (List.take_append_drop _ _).symm
  have hd : (F'.drop r.length).length = F.length := by rw [List.length_drop]; omega
  have hpath : Frames.path (F'.drop r.length) = F.path := by
    have : F'.path = Frames.path (F'.drop r.length) ++ Frames.path (F'.take r.length) := by
      conv => lhs; rw [hsplit]
      simp only [Frames.path, List.map_append, List.reverse_append]
    rw [this] at hp
    exact (List.append_inj hp (by simp only [Frames.path, List.length_reverse, List.length_map]; exact hd)).1
  obtain ⟨Γ1, c1, h1⟩ := h'.suffix (List.drop_suffix r.length F') (by
    intro e; rw [e] at hd; exact h.ne_nil (List.length_eq_zero_iff.1 hd.symm))
  obtain ⟨e1, e2⟩ := h1.path_inj h hpath
  cases r with
  | nil => rfl
  | cons a r =>
    exfalso
    obtain ⟨f, hf⟩ : ∃ f, F'.drop r.length = f :: F := by
      have hl : r.length < F'.length := by simp only [List.length_cons] at hlen; omega
      refine ⟨F'[r.length], ?_⟩
      rw [← e1, List.length_cons, ← List.drop_eq_getElem_cons hl]
    obtain ⟨Γ2, c2, h2⟩ := h'.suffix (List.drop_suffix r.length F') (by rw [hf]; simp)
    rw [hf] at h2
    obtain ⟨k, ds⟩ := f
    cases F with
    | nil => exact h.ne_nil rfl
    | cons g F =>
      obtain ⟨_, _, _, _, h3⟩ := h2.parent
      exact absurd (h3.cmd_inj h) (by simp)

/-! ## Identifiers -/

/-- The identifier of a command. -/
def Command.name (c : Command) : String := match c.id with
  | .ok i => i
  | .error _ => ""

@[simp] theorem Command.name_assume (i : String) (t : Term) : (Command.assume i t).name = i := rfl
@[simp] theorem Command.name_step (s : Step) : (Command.step s).name = s.id := rfl

theorem idLast_snoc (c : Command) : ∀ l : List Command, Command.idLast (l ++ [c]) = c.id
  | [] => rfl
  | [a] => rfl
  | a :: b :: l => by
    have := idLast_snoc c (b :: l)
    simpa [Command.idLast] using this

theorem clauseLast_snoc (c : Command) : ∀ l : List Command, Command.clauseLast (l ++ [c]) = c.clause
  | [] => rfl
  | [a] => rfl
  | a :: b :: l => by
    have := clauseLast_snoc c (b :: l)
    simpa [Command.clauseLast] using this

theorem id_subproof_snoc (init : List Command) (c : Command) (as : List AnchorArg) (n : Nat) :
    (Command.subproof (init ++ [c]) as n).id = c.id := by rw [Command.id, idLast_snoc]

theorem name_subproof_snoc (init : List Command) (c : Command) (as : List AnchorArg) (n : Nat) :
    (Command.subproof (init ++ [c]) as n).name = c.name := by rw [Command.name, id_subproof_snoc]; rfl

theorem Command.id_name {c : Command} (h : c.wf = true) : c.id = .ok c.name := by
  cases c with
  | assume => rfl
  | step => rfl
  | subproof ds as n =>
    obtain ⟨init, s, rfl, -, -⟩ := wf_split h
    rw [name_subproof_snoc, id_subproof_snoc]; rfl

/-- Where the identifier of a command is written. -/
def leafFrames (F : Frames) : Command → Frames
  | .subproof ds _ _ => (ds.length - 1, ds) :: F
  | _ => F

theorem leaf_occ {proof : List Command} (hwf : Command.wfL proof = true) {F Γ c} (h : Occ proof F Γ c) :
    ∃ Γ' c', Occ proof (leafFrames F c) Γ' c' ∧ c'.isLeaf = true ∧ c'.id = .ok c.name := by
  cases c with
  | assume i t => exact ⟨_, _, h, rfl, rfl⟩
  | step s => exact ⟨_, _, h, rfl, rfl⟩
  | subproof ds as n =>
    obtain ⟨init, s, hds, -, -⟩ := wf_split (h.wf hwf)
    refine ⟨_, .step s, .sub h (j := ds.length - 1) (c := .step s) ?_, rfl, ?_⟩
    · rw [hds]; simp
    · rw [hds, name_subproof_snoc]; rfl

theorem name_leaf {proof : List Command} (hwf : Command.wfL proof = true) (hu : IdsUsedOnce proof) {F Γ c F' Γ' c'} (h : Occ proof F Γ c)
    (h' : Occ proof F' Γ' c') (hn : c.name = c'.name) : leafFrames F c = leafFrames F' c' := by
  obtain ⟨_, d, h1, h2, h3⟩ := leaf_occ hwf h
  obtain ⟨_, d', h1', h2', h3'⟩ := leaf_occ hwf h'
  exact hu _ _ _ _ _ _ _ h1 h1' h2 h2' h3 (by rw [h3', hn])

theorem isEnd_leaf {proof : List Command} (hwf : Command.wfL proof = true) {F Γ ds as n} (h : Occ proof F Γ (.subproof ds as n)) :
    Frames.isEnd ((ds.length - 1, ds) :: F) := by
  obtain ⟨init, s, hds, hl, -⟩ := wf_split (h.wf hwf)
  cases F with
  | nil => exact absurd rfl h.ne_nil
  | cons f F => simp only [Frames.isEnd, hds, List.length_append, List.length_cons, List.length_nil]; omega

/-- Commands that do not close a subproof are determined by their identifiers. -/
theorem name_inj {proof : List Command} (hwf : Command.wfL proof = true) (hu : IdsUsedOnce proof) {F Γ c F' Γ' c'} (h : Occ proof F Γ c)
    (h' : Occ proof F' Γ' c') (he : ¬ F.isEnd) (he' : ¬ F'.isEnd) (hn : c.name = c'.name) : F = F' ∧ c = c' := by
  have hl := name_leaf hwf hu h h' hn
  have hF : F = F' := by
    cases c with
    | subproof ds as n =>
      cases c' with
      | subproof ds' as' n' => simp only [leafFrames, List.cons.injEq] at hl; exact hl.2
      | _ => simp only [leafFrames] at hl; exact absurd (hl ▸ isEnd_leaf hwf h) he'
    | _ =>
      cases c' with
      | subproof ds' as' n' => simp only [leafFrames] at hl; exact absurd (hl.symm ▸ isEnd_leaf hwf h') he
      | _ => exact hl
  subst hF
  exact ⟨rfl, h.cmd_inj h'⟩

/-- A subproof does not close a subproof. -/
theorem sub_not_end {proof : List Command} (hwf : Command.wfL proof = true) {F Γ ds as n} (h : Occ proof F Γ (.subproof ds as n)) :
    ¬ F.isEnd := by
  intro he
  obtain ⟨i, cs, f, F', rfl, hl⟩ := h.two_le hwf he
  obtain ⟨_, _, _, _, hp⟩ := h.parent
  obtain ⟨init, s, hcs, -, -⟩ := wf_split (hp.wf hwf)
  have := h.head
  have hi : i + 1 = init.length := by rw [hcs] at hl; simp at hl; omega
  rw [hcs, hi] at this
  simp at this

/-- The step a subproof ends with. -/
theorem sub_close {proof : List Command} (hwf : Command.wfL proof = true) {F Γ ds as n} (h : Occ proof F Γ (.subproof ds as n)) :
    ∃ s, Occ proof ((ds.length - 1, ds) :: F) (Γ ++ [as]) (.step s) ∧ s.id = (Command.subproof ds as n).name ∧
      (Command.subproof ds as n).clause = .ok s.clause ∧ 2 ≤ ds.length := by
  obtain ⟨init, s, hds, hl, -⟩ := wf_split (h.wf hwf)
  refine ⟨s, .sub h (by rw [hds]; simp), ?_, ?_, ?_⟩
  · rw [hds, name_subproof_snoc]; rfl
  · rw [hds, Command.clause, clauseLast_snoc]; rfl
  · rw [hds]; simp; omega

/-- A step that closes a subproof has the identifier of that subproof. -/
theorem close_name {proof : List Command} (hwf : Command.wfL proof = true) {j ds f F Γ s} (h : Occ proof ((j, ds) :: f :: F) Γ (.step s))
    (he : j + 1 = ds.length) : ∃ Γ' as n, Γ = Γ' ++ [as] ∧ Occ proof (f :: F) Γ' (.subproof ds as n) ∧ (Command.subproof ds as n).name = s.id := by
  obtain ⟨Γ', as, n, hΓ, hp⟩ := h.parent
  obtain ⟨init, s', hds, -, -⟩ := wf_split (hp.wf hwf)
  refine ⟨Γ', as, n, hΓ, hp, ?_⟩
  have := h.head
  have hj : j = init.length := by rw [hds] at he; simp at he; omega
  rw [hds, hj] at this
  simp at this
  subst this
  rw [hds, name_subproof_snoc]; rfl

/-! ## References -/

theorem reverse_getElem? {α : Type} {F : List α} {d : Nat} {f : α} (h : F.reverse[d]? = some f) :
    ∃ A B, F = A ++ f :: B ∧ B.length = d := by
  obtain ⟨hd, he⟩ := List.getElem?_eq_some_iff.1 h
  refine ⟨(F.reverse.drop (d + 1)).reverse, (F.reverse.take d).reverse, ?_, ?_⟩
  · have : F.reverse = F.reverse.take d ++ f :: F.reverse.drop (d + 1) := by
      rw [← he, ← List.drop_eq_getElem_cons hd, List.take_append_drop]
    have := congrArg List.reverse this
    simpa using this
  · simp only [List.length_reverse] at hd
    simp; omega

theorem reverse_getElem?_of {α : Type} (A B : List α) (f : α) : (A ++ f :: B).reverse[B.length]? = some f := by
  rw [List.reverse_append, List.reverse_cons, List.append_assoc, List.getElem?_append_right (by simp)]
  simp

/-- What a reference of a well scoped step denotes. -/
theorem ref_occ {proof : List Command} {F Γ s} (h : Occ proof F Γ (.step s)) (hs : s.wellScoped F) {p : Nat × Nat}
    (hp : p ∈ s.premises ++ s.discharge) :
    ∃ A j cs B Γ' c, F = A ++ (j, cs) :: B ∧ B.length = p.1 ∧ p.2 < j ∧ cs[p.2]? = some c ∧ F.lookup p = some c ∧
      Occ proof ((p.2, cs) :: B) Γ' c ∧ ¬ Frames.isEnd ((p.2, cs) :: B) := by
  obtain ⟨j, cs, c, h1, h2, h3⟩ := hs p hp
  obtain ⟨A, B, rfl, hB⟩ := reverse_getElem? h1
  obtain ⟨Γ', c', h4⟩ := h.suffix (List.suffix_append A ((j, cs) :: B)) (by simp)
  refine ⟨A, j, cs, B, Γ', c, rfl, hB, h2, h3, ?_, h4.sibling h3, ?_⟩
  · rw [Frames.lookup, h1]; exact h3
  · cases B with
    | nil => simp [Frames.isEnd]
    | cons f B =>
      simp only [Frames.isEnd]
      have := (List.getElem?_eq_some_iff.1 h4.head).1
      omega

end Carcara
