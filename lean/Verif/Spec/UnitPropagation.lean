import Verif.Model.Resolution

/-! # Specification of unit propagation -/

namespace Carcara.Spec

/-- The literals derivable by unit propagation: all other literals of some clause are refuted. -/
inductive Unit (cs : List (List PLit)) : PLit → Prop
  | mk (c : List PLit) (l : PLit) (hc : c ∈ cs) (hl : l ∈ c)
      (h : ∀ k ∈ c, k ≠ l → Unit cs k.neg) : Unit cs l

/-- Unit propagation refutes all literals of some clause. -/
def Conflict (cs : List (List PLit)) : Prop := ∃ c ∈ cs, ∀ k ∈ c, Unit cs k.neg

/-- Truth of a literal under a valuation of the atoms. -/
def HoldsV (v : Term → Prop) (l : PLit) : Prop := if l.1 then v l.2 else ¬ v l.2

/-- Some literal is true. -/
def SatV (v : Term → Prop) (c : List PLit) : Prop := ∃ l ∈ c, HoldsV v l

end Carcara.Spec
