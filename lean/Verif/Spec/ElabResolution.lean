import Verif.Model.Term

/-! # Specification: what a pivot with a polarity takes out of two clauses -/

namespace Carcara.Spec

/-- The literal that is taken out of the clause obtained so far: the pivot itself if the polarity is positive, its negation otherwise. -/
def removedBy (e : Term × Bool) : Term := if e.2 then e.1 else .op .not [e.1]

/-- The literal that is taken out of the next premise. -/
def removedFrom (e : Term × Bool) : Term := if e.2 then .op .not [e.1] else e.1

end Carcara.Spec
