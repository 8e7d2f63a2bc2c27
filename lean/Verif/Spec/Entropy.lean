import Mathlib.Analysis.SpecialFunctions.Log.Base

/-! # The information of a message -/

namespace Verif.Spec

/-- The information of a message: an occurrence of a symbol with share `p` carries
`log₂ (1 / p)` bits (its length times the entropy of its symbols). -/
noncomputable def information (message : List Int) : ℝ :=
  (message.map fun s => Real.logb 2 ((message.length : ℝ) / (message.count s : ℝ))).sum

end Verif.Spec
