import Verif.Lemmas.SliceKeep

/-!
# The loop that copies
-/

namespace Carcara

/-! ## Placed commands -/

/-- The command at a place; the innermost list is the head. -/
def lookupV (V : List (List Command)) (p : Nat × Nat) : Option Command := do
  let l ← V.reverse[p.1]?
  l[p.2]?

theorem lookupV_frames (F : Frames) (p : Nat × Nat) : lookupV (F.map (·.2)) p = F.lookup p := by
  simp only [lookupV, Frames.lookup, ← List.map_reverse, List.getElem?_map]
  cases F.reverse[p.1]? <;> rfl

theorem lookupV_of (A : List (List Command)) (p : List Command) (B : List (List Command)) (k : Nat) :
    lookupV (A ++ p :: B) (B.length, k) = p[k]? := by
  simp only [lookupV, reverse_getElem?_of]; rfl

/-- Lists that only grew at the end. -/
def Grown (V V' : List (List Command)) : Prop := List.Forall₂ (· <+: ·) V V'

theorem Grown.refl : ∀ V : List (List Command), Grown V V
  | [] => .nil
  | p :: V => .cons (List.prefix_refl p) (Grown.refl V)

theorem lookupV_grown {V V' : List (List Command)} (h : Grown V V') {p : Nat × Nat} {c : Command} (hl : lookupV V p = some c) :
    lookupV V' p = some c := by
  simp only [lookupV, Option.bind_eq_bind, Option.bind_eq_some_iff] at hl
  obtain ⟨l, h1, h2⟩ := hl
  obtain ⟨A, B, rfl, hB⟩ := reverse_getElem? h1
  obtain ⟨A', V2, h3, h4, rfl⟩ : ∃ A' V2, Grown A A' ∧ Grown (l :: B) V2 ∧ V' = A' ++ V2 := by
    have : ∀ {A B V' : List (List Command)}, Grown (A ++ B) V' → ∃ A' V2, Grown A A' ∧ Grown B V2 ∧ V' = A' ++ V2 := by
      intro A
      induction A with
      | nil => intro B V' h; exact ⟨[], V', .nil, h, rfl⟩
      | cons a A ih =>
        intro B V' h
        cases h with
        | cons h1 h2 =>
          obtain ⟨A', V2, h3, h4, rfl⟩ := ih h2
          exact ⟨_, V2, .cons h1 h3, h4, rfl⟩
    exact this h
  cases h4 with
  | @cons _ l' _ B' h5 h6 =>
    have hlen : B'.length = B.length := by
      have : ∀ {A B : List (List Command)}, Grown A B → B.length = A.length := by
        intro A B h
        induction h with
        | nil => rfl
        | cons _ _ ih => simp [ih]
      exact this h6
    obtain ⟨d, k⟩ := p
    simp only at hB h2
    subst hB
    rw [← hlen, lookupV_of]
    obtain ⟨r, rfl⟩ := h5
    rw [List.getElem?_append_left (List.getElem?_eq_some_iff.1 h2).1, h2]

section
variable (proof : List Command) (keep : KeepMap)

/-- A placed step comes from a step of the proof. -/
def Copied (V : List (List Command)) (s' : Step) : Prop :=
  ∃ F Γ s, Occ proof F Γ (.step s) ∧ s'.id = s.id ∧ s'.clause = s.clause ∧
    ((keep.lookup s.id = some true ∧ s'.rule = s.rule ∧ s'.args = s.args ∧
        List.Forall₂ (fun p p' => ∃ c c', F.lookup p = some c ∧ lookupV V p' = some c' ∧ SameCommand c c') s.premises s'.premises) ∨
      (keep.lookup s.id = some false ∧ s'.rule = "hole" ∧ s'.args = [trustTerm] ∧ ∀ p ∈ s'.premises, ∃ c, lookupV V p = some c))

mutual
/-- All steps of a placed command come from steps of the proof; `V` are the commands before it, level by level. -/
def OkC (V : List (List Command)) : Command → Prop
  | .assume _ _ => True
  | .step s => Copied proof keep V s
  | .subproof cs _ _ => OkL V [] cs
/-- All steps of a list of placed commands come from steps of the proof; `pre` are the commands before the list. -/
def OkL (V : List (List Command)) (pre : List Command) : List Command → Prop
  | [] => True
  | c :: cs => OkC (pre :: V) c ∧ OkL V (pre ++ [c]) cs
end

variable {proof keep}

theorem OkL.snoc {V : List (List Command)} {c : Command} : ∀ {cs pre : List Command}, OkL proof keep V pre cs →
    OkC proof keep ((pre ++ cs) :: V) c → OkL proof keep V pre (cs ++ [c])
  | [], pre, _, h => by
    rw [List.nil_append, OkL, OkL]
    exact ⟨by simpa using h, trivial⟩
  | a :: cs, pre, ha, h => by
    rw [List.cons_append]
    rw [OkL] at ha ⊢
    exact ⟨ha.1, OkL.snoc ha.2 (by simpa using h)⟩

theorem OkL.get {V : List (List Command)} {c : Command} : ∀ {cs pre : List Command} {i : Nat}, OkL proof keep V pre cs → cs[i]? = some c →
    OkC proof keep ((pre ++ cs.take i) :: V) c
  | [], _, _, _, hc => by simp at hc
  | a :: cs, pre, 0, h, hc => by
    rw [OkL] at h
    simp only [List.getElem?_cons_zero, Option.some.injEq] at hc
    subst hc
    simpa using h.1
  | a :: cs, pre, i + 1, h, hc => by
    rw [OkL] at h
    have := OkL.get h.2 (by simpa using hc)
    simpa using this

/-- All placed commands are in order. -/
def OkLevels (proof : List Command) (keep : KeepMap) : List (List Command) → Prop
  | [] => True
  | p :: V => OkL proof keep V [] p ∧ OkLevels proof keep V

/-! ## The relation between the proof and what has been placed -/

/-- The kept commands of one level have been placed. -/
def LevelOK (keep : KeepMap) (idx : List (String × (Nat × Nat))) (d i : Nat) (cs p : List Command) : Prop :=
  ∀ j, j < i → ∀ c, cs[j]? = some c → (keep.lookup c.name).isSome = true →
    ∃ k c', idx.lookup c.name = some (d, k) ∧ p[k]? = some c' ∧ SameCommand c c'

/-- The kept commands of all levels have been placed. -/
def Levels (keep : KeepMap) (idx : List (String × (Nat × Nat))) : Frames → List (List Command) → Prop
  | [], [] => True
  | (i, cs) :: F, p :: V => LevelOK keep idx F.length i cs p ∧ Levels keep idx F V
  | _, _ => False

/-- The subproofs that are being copied. -/
def Holders (idx : List (String × (Nat × Nat))) : Frames → List (List Command × List AnchorArg × Nat) → Prop
  | [_], [] => True
  | (_, ds) :: (i, cs) :: G, (p, as, n) :: L =>
    cs[i]? = some (.subproof ds as n) ∧ idx.lookup (endName ds) = some (G.length, p.length) ∧ Holders idx ((i, cs) :: G) L
  | _, _ => False

/-- The stack. -/
def stackOf (p : List Command) (L : List (List Command × List AnchorArg × Nat)) : List SliceFrame :=
  ⟨p.length, p⟩ :: L.map fun l => ⟨l.1.length + 1, l.1 ++ [.subproof [] l.2.1 l.2.2]⟩

/-- The levels that are being copied. -/
def OpenPart (keep : KeepMap) (F G : Frames) : Prop :=
  IsOpen keep G ∧ G ≠ [] ∧ (F = G ∨ ∃ A f, F = A ++ f :: G ∧ keep.lookup (endName f.2) ≠ some true)

theorem OpenPart.eq {F G : Frames} (h : OpenPart keep F G) (ho : IsOpen keep F) : G = F := by
  obtain ⟨-, hne, rfl | ⟨A, f, rfl, hf⟩⟩ := h
  · rfl
  · obtain ⟨g, G, rfl⟩ := List.exists_cons_of_ne_nil hne
    exact absurd ho.suffix.1 hf

theorem OpenPart.next {i : Nat} {cs : List Command} {F G : Frames} (h : OpenPart keep ((i, cs) :: F) G) :
    (G = (i, cs) :: F ∧ OpenPart keep ((i + 1, cs) :: F) ((i + 1, cs) :: F)) ∨ OpenPart keep ((i + 1, cs) :: F) G := by
  obtain ⟨h1, h2, h3⟩ := h
  rcases h3 with rfl | ⟨A, f, e, hf⟩
  · exact .inl ⟨rfl, h1.head, by simp, .inl rfl⟩
  · right
    refine ⟨h1, h2, .inr ?_⟩
    cases A with
    | nil =>
      simp only [List.nil_append, List.cons.injEq] at e
      obtain ⟨rfl, rfl⟩ := e
      exact ⟨[], (i + 1, cs), rfl, hf⟩
    | cons a A =>
      simp only [List.cons_append, List.cons.injEq] at e
      obtain ⟨rfl, rfl⟩ := e
      exact ⟨(i + 1, cs) :: A, f, rfl, hf⟩

theorem OpenPart.push {i : Nat} {ds : List Command} {F G : Frames} (h : OpenPart keep F G) (hk : keep.lookup (endName ds) ≠ some true) :
    OpenPart keep ((i, ds) :: F) G := by
  obtain ⟨h1, h2, h3⟩ := h
  refine ⟨h1, h2, .inr ?_⟩
  rcases h3 with rfl | ⟨A, f, rfl, hf⟩
  · exact ⟨[], (i, ds), rfl, hk⟩
  · exact ⟨(i, ds) :: A, f, rfl, hf⟩

theorem OpenPart.pop {j : Nat} {ds : List Command} {F G : Frames} (h : OpenPart keep ((j, ds) :: F) G) (hF : F ≠ [])
    (hk : keep.lookup (endName ds) ≠ some true) : OpenPart keep F G := by
  obtain ⟨h1, h2, h3⟩ := h
  refine ⟨h1, h2, ?_⟩
  rcases h3 with rfl | ⟨A, f, e, hf⟩
  · obtain ⟨g, F, rfl⟩ := List.exists_cons_of_ne_nil hF
    exact absurd h1.1 hk
  · cases A with
    | nil =>
      simp only [List.nil_append, List.cons.injEq] at e
      exact .inl e.2
    | cons a A =>
      simp only [List.cons_append, List.cons.injEq] at e
      exact .inr ⟨A, f, e.2, hf⟩

theorem LevelOK.insert {idx : List (String × (Nat × Nat))} {d i : Nat} {cs p : List Command} (h : LevelOK keep idx d i cs p) {x : String}
    {v : Nat × Nat} (hx : ∀ j < i, ∀ c, cs[j]? = some c → c.name ≠ x) : LevelOK keep ((x, v) :: idx) d i cs p := by
  intro j hj c hc hk
  obtain ⟨k, c', h1, h2, h3⟩ := h j hj c hc hk
  refine ⟨k, c', ?_, h2, h3⟩
  rw [List.lookup_cons]
  have : (c.name == x) = false := by simpa using hx j hj c hc
  rw [this]; exact h1

theorem Levels.insert {idx : List (String × (Nat × Nat))} {x : String} {v : Nat × Nat} : ∀ {F : Frames} {V : List (List Command)},
    Levels keep idx F V → (∀ A i cs B, F = A ++ (i, cs) :: B → ∀ j < i, ∀ c, cs[j]? = some c → c.name ≠ x) →
    Levels keep ((x, v) :: idx) F V
  | [], [], _, _ => trivial
  | (i, cs) :: F, p :: V, h, hx => by
    refine ⟨h.1.insert (hx [] i cs F rfl), Levels.insert h.2 fun A i' cs' B e => hx ((i, cs) :: A) i' cs' B (by rw [e]; rfl)⟩
  | [], _ :: _, h, _ => h.elim
  | _ :: _, [], h, _ => h.elim

theorem Holders.insert {idx : List (String × (Nat × Nat))} {x : String} {v : Nat × Nat} : ∀ {G : Frames} {L : List (List Command × List AnchorArg × Nat)},
    Holders idx G L → (∀ A j ds g B, G = A ++ (j, ds) :: g :: B → endName ds ≠ x) → Holders ((x, v) :: idx) G L
  | [_], [], _, _ => trivial
  | (j, ds) :: (i, cs) :: G, (p, as, n) :: L, h, hx => by
    refine ⟨h.1, ?_, Holders.insert h.2.2 fun A j' ds' g B e => hx ((j, ds) :: A) j' ds' g B (by rw [e]; rfl)⟩
    have : (endName ds == x) = false := by simpa using hx [] j ds (i, cs) G rfl
    rw [List.lookup_cons, this]; exact h.2.1
  | [], _, h, _ => h.elim
  | [_], _ :: _, h, _ => h.elim
  | _ :: _ :: _, [], h, _ => h.elim

theorem Holders.head {idx : List (String × (Nat × Nat))} {i j : Nat} {cs : List Command} {G : Frames}
    {L : List (List Command × List AnchorArg × Nat)} (h : Holders idx ((i, cs) :: G) L) : Holders idx ((j, cs) :: G) L := by
  match G, L, h with
  | [], [], _ => trivial
  | g :: G, (p, as, n) :: L, h => exact h

theorem Holders.length {idx : List (String × (Nat × Nat))} : ∀ {G : Frames} {L : List (List Command × List AnchorArg × Nat)},
    Holders idx G L → G.length = L.length + 1
  | [_], [], _ => rfl
  | (j, ds) :: (i, cs) :: G, (p, as, n) :: L, h => by simpa using Holders.length h.2.2
  | [], _, h => h.elim
  | [_], _ :: _, h => h.elim
  | _ :: _ :: _, [], h => h.elim

/-- What is known about one level. -/
theorem Levels.level {idx : List (String × (Nat × Nat))} : ∀ {A : Frames} {i : Nat} {cs : List Command} {B : Frames} {V : List (List Command)},
    Levels keep idx (A ++ (i, cs) :: B) V → ∃ VA p VB, V = VA ++ p :: VB ∧ VB.length = B.length ∧ LevelOK keep idx B.length i cs p
  | [], i, cs, B, p :: V, h => by
    refine ⟨[], p, V, rfl, ?_, h.1⟩
    have : ∀ {F : Frames} {V : List (List Command)}, Levels keep idx F V → V.length = F.length := by
      intro F
      induction F with
      | nil => intro V h; cases V with
        | nil => rfl
        | cons _ _ => exact h.elim
      | cons f F ih => intro V h; cases V with
        | nil => exact h.elim
        | cons p V => simp [ih h.2]
    exact this h.2
  | a :: A, i, cs, B, p :: V, h => by
    obtain ⟨VA, q, VB, rfl, h1, h2⟩ := Levels.level (A := A) h.2
    exact ⟨p :: VA, q, VB, rfl, h1, h2⟩
  | [], _, _, _, [], h => h.elim
  | _ :: _, _, _, _, [], h => h.elim

end

/-! ## Different identifiers -/

section
variable {proof : List Command} (hwf : Command.wfL proof = true) (hu : IdsUsedOnce proof)
include hwf hu

theorem leafFrames_append (F : Frames) (c : Command) : ∃ A, leafFrames F c = A ++ F ∧ (A = [] ∨ c.isLeaf = false) := by
  cases c with
  | subproof ds as n => exact ⟨[(ds.length - 1, ds)], rfl, .inr rfl⟩
  | assume => exact ⟨[], rfl, .inl rfl⟩
  | step => exact ⟨[], rfl, .inl rfl⟩

theorem visible_name_ne {F Γ c0} (h : Occ proof F Γ c0) {A : Frames} {i : Nat} {cs : List Command} {B : Frames} (hF : F = A ++ (i, cs) :: B)
    {j : Nat} (hj : j < i) {c : Command} (hc : cs[j]? = some c) : c.name ≠ c0.name := by
  intro e
  obtain ⟨Γ', c', ho⟩ := h.suffix (G := (i, cs) :: B) (by rw [hF]; exact List.suffix_append ..) (by simp)
  have hl := name_leaf hwf hu (ho.sibling hc) h e
  obtain ⟨A1, e1, -⟩ := leafFrames_append hwf hu ((j, cs) :: B) c
  obtain ⟨A2, e2, -⟩ := leafFrames_append hwf hu F c0
  rw [e1, e2, hF, ← List.append_assoc] at hl
  have := (List.append_inj' hl (by simp)).2
  simp only [List.cons.injEq, Prod.mk.injEq, and_true] at this
  omega

theorem ancestor_name_ne {F Γ c0} (h : Occ proof F Γ c0) (hne : ¬ F.isEnd) {A : Frames} {j : Nat} {ds : List Command}
    {g : Nat × List Command} {B : Frames} (hF : F = A ++ (j, ds) :: g :: B) : endName ds ≠ c0.name := by
  intro e
  obtain ⟨Γ', c', ho⟩ := h.suffix (G := (j, ds) :: g :: B) (by rw [hF]; exact List.suffix_append ..) (by simp)
  obtain ⟨Γ'', as, n, -, hp⟩ := ho.parent
  have hl := name_leaf hwf hu hp h (by rw [endName_eq]; exact e)
  obtain ⟨A2, e2, h2⟩ := leafFrames_append hwf hu F c0
  change (ds.length - 1, ds) :: g :: B = leafFrames F c0 at hl
  rw [e2, hF, ← List.append_assoc] at hl
  have hlen := congrArg List.length hl
  have hnil : A2 ++ A = [] := by
    rw [List.length_append] at hlen
    simp only [List.length_cons] at hlen
    exact List.length_eq_zero_iff.1 (by omega)
  obtain ⟨rfl, rfl⟩ := List.append_eq_nil_iff.1 hnil
  simp only [List.nil_append, List.cons.injEq, Prod.mk.injEq, and_true] at hl
  obtain ⟨s, -, -, -, h4⟩ := sub_close hwf hp
  refine hne ?_
  rw [hF]
  simp only [List.nil_append, Frames.isEnd]
  omega

end

/-! ## The invariant -/

mutual
/-- A step with the identifier occurs. -/
def Command.has (id : String) : Command → Bool
  | .assume _ _ => false
  | .step s => s.id == id
  | .subproof cs _ _ => Command.hasL id cs
/-- A step with the identifier occurs. -/
def Command.hasL (id : String) : List Command → Bool
  | [] => false
  | c :: cs => c.has id || Command.hasL id cs
end

theorem hasL_append (id : String) (a b : List Command) : Command.hasL id (a ++ b) = (Command.hasL id a || Command.hasL id b) := by
  induction a with
  | nil => rfl
  | cons c a ih => simp [Command.hasL, ih, Bool.or_assoc]

/-- The first `nA` commands are the assumptions. -/
def AssumesUpTo (proof : List Command) (nA : Nat) : Prop :=
  (∀ j < nA, ∀ c, proof[j]? = some c → c.isAssume = true) ∧ ∀ j, nA ≤ j → ∀ c, proof[j]? = some c → c.isAssume = false

/-- The assumptions come first. -/
def AssumesSorted (p : List Command) : Prop := p.Pairwise fun a b => b.isAssume = true → a.isAssume = true

/-- What holds of the placed commands `p :: L.map (·.1)`. -/
structure Placed (proof : List Command) (keep : KeepMap) (target : String) (pre : List Pos) (F : Frames) (st : SliceState) (G : Frames)
    (p : List Command) (L : List (List Command × List AnchorArg × Nat)) : Prop where
  isOpen : OpenPart keep F G
  stack : st.stack = stackOf p L
  holders : Holders st.index G L
  levels : Levels keep st.index G (p :: L.map (·.1))
  ok : OkLevels proof keep (p :: L.map (·.1))
  keys : ∀ i v, st.index.lookup i = some v → ∃ o ∈ pre, o.cmd.name = i ∧ (o.cmd.isLeaf = true ∨ keep.lookup i = some true)
  child : ∀ ch, st.child = some ch → ∃ c, lookupV (p :: L.map (·.1)) ch = some c
  seen : st.seen = st.child.isSome
  target : (∃ o ∈ pre, ∃ s, o.cmd = .step s ∧ s.id = target) → st.seen = true ∧ ∃ q ∈ p :: L.map (·.1), Command.hasL target q = true
  sorted : ∀ nA, AssumesUpTo proof nA → ∀ q, (p :: L.map (·.1)).getLast? = some q →
    AssumesSorted q ∧ (topIdx F ≤ nA → ∀ c ∈ q, c.isAssume = true)

/-- The invariant. -/
def SliceInv (proof : List Command) (keep : KeepMap) (target : String) (pre : List Pos) (F : Frames) (st : SliceState) : Prop :=
  ∃ G p L, Placed proof keep target pre F st G p L

theorem place_stackOf (p : List Command) (L : List (List Command × List AnchorArg × Nat)) (c : Command) :
    place (stackOf p L) c = .ok ((L.length, p.length), stackOf (p ++ [c]) L) := by
  simp [place, stackOf]

section
variable {proof : List Command} {keep : KeepMap} {target : String} {prem : PremiseMap} {pre : List Pos} {st : SliceState} {p : List Command}
  {L : List (List Command × List AnchorArg × Nat)}

/-- A command is placed. -/
theorem Placed.add (hwf : Command.wfL proof = true) (hu : IdsUsedOnce proof) {F : Frames} {i : Nat} {cs : List Command} {F0 : Frames} {Γ c0}
    (h : Placed proof keep target pre F st ((i, cs) :: F0) p L) (htop : topIdx F = topIdx ((i, cs) :: F0))
    (ho : Occ proof ((i, cs) :: F0) Γ c0) (hne : ¬ Frames.isEnd ((i, cs) :: F0)) {c' : Command} (hsame : SameCommand c0 c')
    (hok : OkC proof keep (p :: L.map (·.1)) c') {o : Pos} (hon : o.cmd.name = c0.name) (hol : o.cmd.isLeaf = true)
    {child' : Option (Nat × Nat)} (hch : child' = some (L.length, p.length) ∨ child' = st.child)
    (htgt : ∀ s, o.cmd = .step s → s.id = target → child' = some (L.length, p.length) ∧ c'.has target = true)
    (hasm : c'.isAssume = c0.isAssume) :
    Placed proof keep target (pre ++ [o]) ((i + 1, cs) :: F0)
      { stack := stackOf (p ++ [c']) L, index := (c0.name, (L.length, p.length)) :: st.index, seen := child'.isSome, child := child' }
      ((i + 1, cs) :: F0) (p ++ [c']) L := by
  have hgr : Grown (p :: L.map (·.1)) ((p ++ [c']) :: L.map (·.1)) := .cons (List.prefix_append _ _) (Grown.refl _)
  have hlen : F0.length = L.length := by have := h.holders.length; simpa using this
  have hvis : ∀ A i' cs' B, (i, cs) :: F0 = A ++ (i', cs') :: B → ∀ j < i', ∀ c, cs'[j]? = some c → c.name ≠ c0.name :=
    fun A i' cs' B e j hj c hc => visible_name_ne hwf hu ho e hj hc
  refine ⟨⟨h.isOpen.1.head, by simp, .inl rfl⟩, rfl, ?_, ?_, ?_, ?_, ?_, rfl, ?_, ?_⟩
  · exact (h.holders.insert fun A j ds g B e => ancestor_name_ne hwf hu ho hne e).head
  · refine ⟨?_, (h.levels.insert hvis).2⟩
    intro j hj c hc hk
    by_cases hji : j = i
    · subst hji
      have := ho.head
      rw [hc] at this
      cases this
      refine ⟨p.length, c', ?_, by simp, hsame⟩
      simp [hlen]
    · obtain ⟨k, d, h1, h2, h3⟩ := (h.levels.1.insert (v := (L.length, p.length)) (hvis [] i cs F0 rfl)) j (by omega) c hc hk
      refine ⟨k, d, h1, ?_, h3⟩
      rw [List.getElem?_append_left (List.getElem?_eq_some_iff.1 h2).1, h2]
  · exact ⟨h.ok.1.snoc (by simpa using hok), h.ok.2⟩
  · intro x v hx
    rw [List.lookup_cons] at hx
    split at hx
    · next he => exact ⟨o, by simp, by rw [hon]; exact (beq_iff_eq.1 he).symm, .inl hol⟩
    · obtain ⟨o', h1, h2⟩ := h.keys x v hx
      exact ⟨o', List.mem_append_left _ h1, h2⟩
  · intro ch hc
    rcases hch with e | e
    · rw [e] at hc; cases hc
      have := lookupV_of [] (p ++ [c']) (L.map (·.1)) p.length
      simp only [List.nil_append, List.length_map] at this
      exact ⟨c', by rw [this]; simp⟩
    · obtain ⟨c, hcc⟩ := h.child ch (by rw [← e]; exact hc)
      exact ⟨c, lookupV_grown hgr hcc⟩
  · rintro ⟨o', ho', s, hs, hid⟩
    rcases List.mem_append.1 ho' with h1 | h1
    · obtain ⟨h2, q, hq, hh⟩ := h.target ⟨o', h1, s, hs, hid⟩
      constructor
      · rcases hch with e | e
        · simp [e]
        · simp only [e, ← h.seen, h2]
      · rcases List.mem_cons.1 hq with rfl | hq
        · exact ⟨q ++ [c'], List.mem_cons_self .., by simp [hasL_append, hh]⟩
        · exact ⟨q, List.mem_cons_of_mem _ hq, hh⟩
    · obtain rfl := List.mem_singleton.1 h1
      obtain ⟨e, hh⟩ := htgt s hs hid
      exact ⟨by simp [e], _, List.mem_cons_self .., by simp [hasL_append, Command.hasL, hh]⟩
  · intro nA hA q hq
    cases L with
    | nil =>
      have hF0 : F0 = [] := List.length_eq_zero_iff.1 (by simpa using hlen)
      subst hF0
      obtain ⟨h1, h2⟩ := h.sorted nA hA p (by simp)
      have hcs : cs = proof := by
        obtain ⟨k, hk⟩ := ho.last
        simp at hk; exact hk.2
      subst hcs
      simp only [List.map_nil, List.getLast?_singleton, Option.some.injEq] at hq
      subst hq
      rw [htop] at h2
      have ht : topIdx [(i, cs)] = i := rfl
      rw [ht] at h2
      refine ⟨List.pairwise_append.2 ⟨h1, by simp, ?_⟩, ?_⟩
      · intro a ha b hb hba
        rw [List.mem_singleton.1 hb, hasm] at hba
        refine h2 ?_ a ha
        apply Nat.le_of_not_lt
        intro hlt
        rw [hA.2 i (by omega) c0 ho.head] at hba
        simp at hba
      · intro hle c hc
        have ht' : topIdx [(i + 1, cs)] = i + 1 := rfl
        rw [ht'] at hle
        rcases List.mem_append.1 hc with hc | hc
        · exact h2 (by omega) c hc
        · rw [List.mem_singleton.1 hc, hasm]; exact hA.1 i (by omega) c0 ho.head
    | cons l L =>
      obtain ⟨g, F0, rfl⟩ := List.exists_cons_of_ne_nil (l := F0) (by rintro rfl; simp at hlen)
      have := h.sorted nA hA q (by simpa using hq)
      rw [topIdx_head (i + 1) i, ← htop]
      exact this

/-- Nothing is placed. -/
theorem Placed.skip {F F' G G' : Frames} (h : Placed proof keep target pre F st G p L) {o : Pos}
    (hopen : OpenPart keep F' G') (hh : Holders st.index G' L) (hl : Levels keep st.index G' (p :: L.map (·.1)))
    (htop : topIdx F ≤ topIdx F') (hne : ∀ s, o.cmd = .step s → s.id ≠ target) : Placed proof keep target (pre ++ [o]) F' st G' p L := by
  refine ⟨hopen, h.stack, hh, hl, h.ok, ?_, h.child, h.seen, ?_, ?_⟩
  · intro x v hx
    obtain ⟨o', h1, h2⟩ := h.keys x v hx
    exact ⟨o', List.mem_append_left _ h1, h2⟩
  · rintro ⟨o', ho', s, hs, hid⟩
    rcases List.mem_append.1 ho' with h1 | h1
    · exact h.target ⟨o', h1, s, hs, hid⟩
    · obtain rfl := List.mem_singleton.1 h1
      exact absurd hid (hne s hs)
  · intro nA hA q hq
    obtain ⟨h1, h2⟩ := h.sorted nA hA q hq
    exact ⟨h1, fun hle => h2 (by omega)⟩

theorem isPenult_ok (hwf : Command.wfL proof = true) {F Γ c} (ho : Occ proof F Γ c) (id : String) : ∃ b, isPenult F.iter id = .ok b := by
  match F, ho with
  | [(i, cs)], ho => exact ⟨false, by simp [isPenult, Iter.isInSubproof, Iter.depth, Frames.iter]⟩
  | (i, cs) :: f :: F, ho =>
    obtain ⟨Γ', as, n, -, hp⟩ := ho.parent
    obtain ⟨init, s, hds, hl, hwl⟩ := wf_split (hp.wf hwf)
    have hlen : cs.length = init.length + 1 := by rw [hds]; simp
    obtain ⟨pen, hpen⟩ : ∃ pen, cs[cs.length - 2]? = some pen := ⟨_, List.getElem?_eq_getElem (by omega)⟩
    have hin : Iter.isInSubproof (Frames.iter ((i, cs) :: f :: F)) = true := by simp [Iter.isInSubproof, Iter.depth, Frames.iter]
    refine ⟨id == pen.name, ?_⟩
    simp only [isPenult, hin, if_true, if_neg (show ¬ cs.length < 2 by omega)]
    refine bind_ok.2 ⟨cs, ?_, ?_⟩
    · have hcur : Iter.currentSubproof (Frames.iter ((i, cs) :: f :: F)) = some cs := by
        simp [Iter.currentSubproof, Iter.isInSubproof, Iter.depth, Frames.iter]
      rw [hcur]; rfl
    · simp only [if_neg (show ¬ cs.length < 2 by omega)]
      exact bind_ok.2 ⟨pen, by rw [hpen]; rfl, bind_ok.2 ⟨pen.name, Command.id_name (wfL_getElem hwl hpen), rfl⟩⟩

theorem mapRes_forall₂ {α β : Type} {f : α → Res β} {R : α → β → Prop} : ∀ {l : List α}, (∀ a ∈ l, ∃ b, f a = .ok b ∧ R a b) →
    ∃ l', mapRes f l = .ok l' ∧ List.Forall₂ R l l'
  | [], _ => ⟨[], rfl, .nil⟩
  | a :: l, h => by
    obtain ⟨b, h1, h2⟩ := h a (List.mem_cons_self ..)
    obtain ⟨l', h3, h4⟩ := mapRes_forall₂ (l := l) fun a' ha' => h a' (List.mem_cons_of_mem _ ha')
    exact ⟨b :: l', bind_ok.2 ⟨b, h1, bind_ok.2 ⟨l', h3, rfl⟩⟩, .cons h2 h4⟩

theorem mapRes_map {α β γ : Type} (f : β → Res γ) (g : α → β) : ∀ l : List α, mapRes f (l.map g) = mapRes (fun a => f (g a)) l
  | [] => rfl
  | a :: l => by simp only [List.map_cons, mapRes, mapRes_map f g l]

theorem entries_premises (F : Frames) (s : Step) :
    ((entries F s).filter fun p => p.2 == PremiseType.premise).map (·.1) = s.premises.map (nameAt F) := by
  simp only [entries, List.filter_append, List.map_append, List.filter_map, List.map_map]
  have h1 : List.filter ((fun p : String × PremiseType => p.2 == PremiseType.premise) ∘ fun p => (nameAt F p, PremiseType.premise)) s.premises =
      s.premises := by
    rw [List.filter_eq_self]; intro a _; rfl
  have h2 : List.filter ((fun p : String × PremiseType => p.2 == PremiseType.premise) ∘ fun p => (nameAt F p, PremiseType.discharge))
      s.discharge = [] := by
    rw [List.filter_eq_nil_iff]; intro a _; simp
  have h3 : List.filter (fun p : String × PremiseType => p.2 == PremiseType.premise)
      (if F.iter.isEndStep then [(prevName F, PremiseType.subproofEnd)] else []) = [] := by
    rw [List.filter_eq_nil_iff]; intro a ha
    split at ha
    · rw [List.mem_singleton.1 ha]; simp
    · simp at ha
  rw [h1, h2, h3]
  simp [Function.comp_def]

/-- The step that is added. -/
theorem copyStep_ok (hsc : ∀ F Γ s, Occ proof F Γ (.step s) → s.wellScoped F) (hk : KeepOK proof prem keep target) {F G : Frames} {Γ s}
    (h : Placed proof keep target pre F st G p L) (ho : Occ proof F Γ (.step s)) {need : Bool} (hn : keep.lookup s.id = some need)
    (hG : need = true → G = F) (penult : Bool) :
    ∃ s', copyStep prem st s need (st.seen || s.id == target) penult = .ok s' ∧ s'.id = s.id ∧ s'.clause = s.clause ∧
      Copied proof keep (p :: L.map (·.1)) s' := by
  cases need with
  | true =>
    obtain rfl := hG rfl
    obtain ⟨hpl, hpk⟩ := hk.prem G Γ s ho hn
    have hrefs : ∀ r ∈ s.premises, ∃ r', orPanic (st.index.lookup (nameAt G r)) = .ok r' ∧
        ∃ c c', G.lookup r = some c ∧ lookupV (p :: L.map (·.1)) r' = some c' ∧ SameCommand c c' := by
      intro r hr
      obtain ⟨A, j, cs, B, Γ', c, hF, hB, hlt, hc, hlk, hoc, -⟩ := ref_occ ho (hsc _ _ _ ho) (List.mem_append_left _ hr)
      have hkc := hpk r hr
      have hnm : nameAt G r = c.name := by rw [nameAt, hlk]
      rw [hnm] at hkc ⊢
      have hlv := h.levels
      rw [hF] at hlv
      obtain ⟨VA, q, VB, hV, hVB, hlev⟩ := hlv.level
      obtain ⟨k, c', h1, h2, h3⟩ := hlev r.2 hlt c hc hkc
      refine ⟨(B.length, k), by rw [h1]; rfl, c, c', hlk, ?_, h3⟩
      rw [hV, ← hVB, lookupV_of, h2]
    obtain ⟨ps, e, hps⟩ := mapRes_forall₂ hrefs
    refine ⟨{ s with premises := ps }, ?_, rfl, rfl, G, Γ, s, ho, rfl, rfl, .inl ⟨hn, rfl, rfl, hps⟩⟩
    simp only [copyStep, if_true, keptStep, hpl, entries_premises, mapRes_map]
    exact bind_ok.2 ⟨ps, e, rfl⟩
  | false =>
    have hne : s.id ≠ target := by
      rintro e; rw [e, hk.target] at hn; simp at hn
    have hseen : (st.seen || s.id == target) = st.seen := by
      have : (s.id == target) = false := by simpa using hne
      simp [this]
    by_cases hp : (st.seen && penult) = true
    · have hs : st.child.isSome = true := by rw [← h.seen]; exact (Bool.and_eq_true_iff.1 hp).1
      obtain ⟨ch, hch⟩ := Option.isSome_iff_exists.1 hs
      refine ⟨{ id := s.id, clause := s.clause, rule := "hole", premises := [ch], args := [trustTerm] }, ?_, rfl, rfl, F, Γ, s, ho, rfl, rfl,
        .inr ⟨hn, rfl, rfl, ?_⟩⟩
      · simp only [copyStep, Bool.false_eq_true, if_false, holeStep, hseen, hp, if_true, hch, orPanic]
        rfl
      · intro r hr
        rw [List.mem_singleton.1 hr]
        exact h.child ch hch
    · refine ⟨{ id := s.id, clause := s.clause, rule := "hole", premises := [], args := [trustTerm] }, ?_, rfl, rfl, F, Γ, s, ho, rfl, rfl,
        .inr ⟨hn, rfl, rfl, by simp⟩⟩
      simp only [copyStep, Bool.false_eq_true, if_false, holeStep, hseen, hp]
      rfl

end

theorem sameCommand_of {c c' : Command} {i : String} {cl : List Term} (h1 : c.id = .ok i) (h2 : c'.id = .ok i) (h3 : c.clause = .ok cl)
    (h4 : c'.clause = .ok cl) : SameCommand c c' := ⟨i, cl, h1, h2, h3, h4⟩

end Carcara
