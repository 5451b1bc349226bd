import Lean.Meta.Tactic.Simp.RegisterCommand

/-! # The simp set for panics -/

/-- Facts `x = panic ↔ …`. -/
register_simp_attr nopanic
