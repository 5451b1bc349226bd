import Verif.Spec.ProofParser

/-!
# What a slice has to contain
-/

namespace Carcara

/-- Not a subproof. -/
def Command.isLeaf : Command → Bool
  | .subproof _ _ _ => false
  | _ => true

/-- Commands at different places have different identifiers; the identifier of a subproof is the one of its last step. -/
def IdsUsedOnce (proof : List Command) : Prop :=
  ∀ F Γ c F' Γ' c' i, Occ proof F Γ c → Occ proof F' Γ' c' → c.isLeaf = true → c'.isLeaf = true → c.id = .ok i → c'.id = .ok i → F = F'

/-- Two commands have the same identifier and the same conclusion. -/
def SameCommand (c c' : Command) : Prop := ∃ i cl, c.id = .ok i ∧ c'.id = .ok i ∧ c.clause = .ok cl ∧ c'.clause = .ok cl

/-- The references `p` at one position and `p'` at another one denote commands with the same identifier and the same conclusion. -/
def SameRef (F F' : Frames) (p p' : Nat × Nat) : Prop := ∃ c c', F.lookup p = some c ∧ F'.lookup p' = some c' ∧ SameCommand c c'

/-- A step `s'` is the step `s`, with references that denote the same. -/
def KeptStep (F F' : Frames) (s s' : Step) : Prop :=
  s'.id = s.id ∧ s'.clause = s.clause ∧ s'.rule = s.rule ∧ s'.args = s.args ∧ List.Forall₂ (SameRef F F') s.premises s'.premises

/-- A step `s'` states what `s` states, and asks to be trusted. -/
def TrustedStep (F' : Frames) (s s' : Step) : Prop :=
  s'.id = s.id ∧ s'.clause = s.clause ∧ s'.rule = "hole" ∧ s'.args = [.const (.str "trust")] ∧
    ∀ p ∈ s'.premises, ∃ c, F'.lookup p = some c

/-- The step a slice ends with. -/
def SliceEnd (F' : Frames) (s' : Step) : Prop :=
  s'.id = "slice_end" ∧ s'.clause = [] ∧ s'.rule = "hole" ∧ s'.args = [.const (.str "trust")] ∧ ∀ p ∈ s'.premises, ∃ c, F'.lookup p = some c

/-- The premises of a step come before it. -/
def Step.premisesScoped (F : Frames) (s : Step) : Prop :=
  ∀ p ∈ s.premises, ∃ j cs c, F.reverse[p.1]? = some (j, cs) ∧ p.2 < j ∧ cs[p.2]? = some c

/-- What slicing at a step `s` that occurs at `F` promises about steps: the step is there, all steps come from the proof, and their
premises come before them. -/
structure SliceSteps (proof : List Command) (F : Frames) (s : Step) (out : List Command) : Prop where
  target : ∃ F' Γ' s', Occ out F' Γ' (.step s') ∧ KeptStep F F' s s'
  steps : ∀ F' Γ' s', Occ out F' Γ' (.step s') →
    (∃ F Γ s, Occ proof F Γ (.step s) ∧ (KeptStep F F' s s' ∨ TrustedStep F' s s')) ∨ SliceEnd F' s'
  premises : ∀ F' Γ' s', Occ out F' Γ' (.step s') → s'.premisesScoped F'

/-- What slicing at a step promises; all top-level assumptions are asserted. -/
structure IsSlice (proof : List Command) (F : Frames) (s : Step) (out : List Command) (asserts : List Term) : Prop
    extends SliceSteps proof F s out where
  assumes : ∀ i t, .assume i t ∈ out → t ∈ asserts

/-- The assumptions come first. -/
def AssumesFirst (proof : List Command) : Prop := ∃ n : Nat, ∀ j c, proof[j]? = some c → (c.isAssume = true ↔ j < n)

/-- The steps that close the subproofs around a position have no premises, except for the step itself. -/
def EndsHaveNoPremises (F : Frames) (s : Step) : Prop :=
  ∀ f ∈ F.dropLast, ∀ e, f.2.getLast? = some (.step e) → e.id ≠ s.id → e.premises = []

end Carcara
