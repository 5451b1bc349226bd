import Verif.Lemmas.ProofParser
import Verif.Props.C03

/-!
# C04: references, from their names in the proof text to the commands they denote

(The part of C04 about `ProofIter::get_premise` is in `Verif.Props.C03`.)
-/

namespace Carcara

variable {rs : List RawCommand} {proof : List Command}

/-- **C04.** `parse_proof` accepts exactly the command sequences the grammar `Parses` describes, and builds the tree
the grammar gives. -/
theorem c04_parse_iff_grammar : parseProof rs = .ok proof ↔ ∃ n, Parses [] "" [] 0 rs proof n :=
  parseProof_iff

/-- **C04.** Subproofs of parsed proofs have at least two commands and end with a step (the hypothesis of the theorems
about the checking loop). -/
theorem c04_parse_wf (h : parseProof rs = .ok proof) : Command.wfL proof = true := by
  obtain ⟨n, hp⟩ := parseProof_iff.1 h
  exact hp.wf

theorem parse_positions (h : parseProof rs = .ok proof) :
    List.Forall₂ (fun raw o => raw.describes o.frames o.cmd ∧ UniqueIds o.frames.visible) rs
      (allPositions proof) := by
  obtain ⟨n, hp⟩ := parseProof_iff.1 h
  have := hp.positions [] [] [] rfl (by
    intro k p q h1
    rw [denotes_cons] at h1
    rcases h1 with ⟨L, c, h1, -⟩ | ⟨-, c, h1, -⟩ <;> simp at h1)
  simpa [allPositions] using this

/-- **C04.** The commands of the proof text describe, one by one and in order, what the iterator visits: an `anchor`
the subproof it opens, and a `step` a step whose references resolve to visible commands with the names written. -/
theorem c04_parse_describes (h : parseProof rs = .ok proof) :
    ∃ os : List Pos, (Iter.start proof).visits = os.map (fun o => (o.cmd, o.iter)) ∧
      (∀ F Γ c, ⟨F, Γ, c⟩ ∈ os ↔ Occ proof F Γ c) ∧
      List.Forall₂ (fun raw o => raw.describes o.frames o.cmd) rs os :=
  ⟨allPositions proof, visits_start proof, fun _ _ _ => allPositions_iff, (parse_positions h).imp fun _ _ h => h.1⟩

/-- **C04.** A name never has two meanings: at any position of a parsed proof the visible commands have different
identifiers. -/
theorem c04_names_unique (h : parseProof rs = .ok proof) {F : Frames} {Γ c} (ho : Occ proof F Γ c)
    {k : String} {p q : Nat × Nat} (hp : Denotes F.visible k p) (hq : Denotes F.visible k q) : p = q := by
  have hm : (⟨F, Γ, c⟩ : Pos) ∈ allPositions proof := allPositions_iff.2 ho
  obtain ⟨i, hi, e⟩ := List.mem_iff_getElem.1 hm
  have hall := parse_positions h
  have hlen := hall.length_eq
  have := (hall.get (i := i) (by omega) hi).2
  rw [List.get_eq_getElem, e] at this
  exact this k p q hp hq

/-- **C04.** Every premise and every discharged assumption of every step of a parsed proof is a command that comes
before the step in the same or in an enclosing subproof. In particular `get_premise` does not panic, no step refers to
itself or to a later step, and no step refers into a subproof that has been closed. -/
theorem c04_parse_scoped (h : parseProof rs = .ok proof) {F : Frames} {Γ} {s : Step}
    (ho : Occ proof F Γ (.step s)) : s.wellScoped F := by
  have hm : (⟨F, Γ, .step s⟩ : Pos) ∈ allPositions proof := allPositions_iff.2 ho
  obtain ⟨i, hi, e⟩ := List.mem_iff_getElem.1 hm
  have hall := parse_positions h
  have hlen := hall.length_eq
  have := (hall.get (i := i) (by omega) hi).1
  rw [List.get_eq_getElem, List.get_eq_getElem, e] at this
  generalize rs[i] = raw at this
  cases raw with
  | assume id t => cases this
  | anchor e as => exact absurd this (by simp [RawCommand.describes])
  | step r =>
    obtain ⟨-, -, -, -, hp, hd⟩ := this
    intro p hmem
    rcases List.mem_append.1 hmem with hmem | hmem
    · obtain ⟨k, -, hk⟩ : ∃ k ∈ r.premises, Denotes F.visible k p := by
        obtain ⟨j, hj, rfl⟩ := List.mem_iff_getElem.1 hmem
        have hl := hp.length_eq
        exact ⟨r.premises[j], List.getElem_mem _, hp.get (i := j) (by omega) hj⟩
      obtain ⟨j, cs, c, h1, h2, h3, -⟩ := hk.scoped
      exact ⟨j, cs, c, h1, h2, h3⟩
    · obtain ⟨k, hk⟩ : ∃ k, Denotes F.visible k p := by
        obtain ⟨j, hj, rfl⟩ := List.mem_iff_getElem.1 hmem
        have hl := hd.length_eq
        rcases hd.get (i := j) (by omega) hj with h | h
        · exact ⟨_, h⟩
        · exact ⟨_, h.2⟩
      obtain ⟨j, cs, c, h1, h2, h3, -⟩ := hk.scoped
      exact ⟨j, cs, c, h1, h2, h3⟩

/-- **C40.** `parse_proof` does not panic on proofs without empty identifiers. -/
theorem c40_parse_proof_no_panic (h : ∀ c ∈ rs, c.ident ≠ some "") : parseProof rs ≠ panic :=
  parseLoop_no_panic rs _ rootOK_start h

/-- **C40 fails.** A command at the top level with the identifier `||` closes the root frame, which panics. -/
theorem c40_parse_proof_fails : ∃ rs, parseProof rs = panic :=
  ⟨[.assume "" (.var "p" .bool)], by decide⟩

/-! ## Examples -/

section
private abbrev p : Term := .var "p" .bool
private def text : List RawCommand :=
  [.assume "h" p, .anchor "t1" [], .assume "t1.h1" p, .step ⟨"t1.t2", [p], "r", ["t1.h1", "h"], [], []⟩,
   .step ⟨"t1", [.neg p, p], "subproof", [], [], ["h1"]⟩, .step ⟨"t2", [p], "r", ["h", "t1"], [], []⟩]

/-- A nested proof, with a discharge written relative to the step. -/
example : parseProof text = .ok
  [.assume "h" p,
   .subproof [.assume "t1.h1" p, .step ⟨"t1.t2", [p], "r", [(1, 0), (0, 0)], [], []⟩,
    .step ⟨"t1", [.neg p, p], "subproof", [], [], [(1, 0)]⟩] [] 0,
   .step ⟨"t2", [p], "r", [(0, 0), (0, 1)], [], []⟩] := by decide
/-- A reference into a closed subproof is an error. -/
example : parseProof (text ++ [.step ⟨"t3", [p], "r", ["t1.h1"], [], []⟩]) = err := by decide
/-- So are references to the step itself, repeated identifiers, late assumptions and unclosed subproofs. -/
example : parseProof [.step ⟨"t1", [p], "r", ["t1"], [], []⟩] = err := by decide
example : parseProof [.assume "h" p, .anchor "t1" [], .assume "h" p] = err := by decide
example : parseProof [.anchor "t1" [], .step ⟨"a", [p], "r", [], [], []⟩, .assume "h" p,
  .step ⟨"t1", [p], "r", [], [], []⟩] = err := by decide
example : parseProof [.anchor "t1" [], .step ⟨"a", [p], "r", [], [], []⟩] = err := by decide
/-- The identifiers of a closed subproof may be used again. -/
example : ∃ q, parseProof (text ++ [.step ⟨"t1.h1", [p], "r", [], [], []⟩]) = .ok q := ⟨_, rfl⟩
end

end Carcara
