import Mathlib.Data.Rat.Floor

/-! # Specification: rounding a quotient -/

namespace Verif.Spec

/-- `m` is `a / b` rounded to the nearest whole number, to the even one of two. -/
def Rounds (a b m : Int) : Prop :=
  b ≠ 0 ∧ |(m : Rat) - (a : Rat) / (b : Rat)| ≤ 1 / 2 ∧ (|(m : Rat) - (a : Rat) / (b : Rat)| = 1 / 2 → m % 2 = 0)

end Verif.Spec
