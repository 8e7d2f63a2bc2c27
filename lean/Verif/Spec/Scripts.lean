import Mathlib.Data.List.Basic

/-! # Specification of what the scripts print -/

namespace Verif.Spec

/-- The numbers of the lines in which a file differs from another one, as far as both go. -/
def differing {α : Type} [DecidableEq α] (original lines : List α) : List Nat :=
  (List.range (min original.length lines.length)).filter fun k => decide (original[k]? ≠ lines[k]?)

end Verif.Spec
