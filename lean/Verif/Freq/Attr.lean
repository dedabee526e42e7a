import Lean.Meta.Tactic.Simp.RegisterCommand

/-! A simp set for the entries of the Wigner matrices. -/

/-- The entries of the Wigner matrices. -/
register_simp_attr wentry
