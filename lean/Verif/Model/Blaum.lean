import Verif.Model.Basic
import Mathlib.Data.Rat.Floor

/-!
# `build_2d_interleave_matrix_blaum` of `semantic_codec/interleaver/interleaver2d.py`

Sizes are integers.  The floating-point square root is a parameter: `isqrt n`
is `round(sqrt(n))`, about which nothing is assumed.  `fmod` on whole numbers
is exact and keeps the sign of its first argument (`Int.tmod`).
-/

namespace Verif

/-- Python's `round(x)`: to nearest, ties to even. -/
def pyRound (q : Rat) : Int :=
  let d := q - q.floor
  if d < 1 / 2 then q.floor
  else if 1 / 2 < d then q.floor + 1
  else if q.floor % 2 = 0 then q.floor else q.floor + 1

/-- `round(a / b)`; division by zero raises. -/
def roundDiv (a b : Int) : Py Int :=
  if b = 0 then .error .zeroDiv else .ok (pyRound ((a : Rat) / (b : Rat)))

/-- The rows built by interleaver2d.py line 162. -/
def blaumRows (m b width height : Int) : List (List Int) :=
  (List.range height.toNat).map fun y : Nat =>
    (List.range width.toNat).map fun x : Nat => |((x : Int) - (y : Int) * b).tmod m|

/-- `build_2d_interleave_matrix_blaum`, interleaver2d.py lines 125-162.  The
square root of a negative number raises `ValueError`. -/
def blaum (isqrt : Int → Int) (message packet width height : Int) : Py (List (List Int)) := do
  let (w, h) ←
    if width ≠ -1 ∧ height = -1 then do
      let h ← roundDiv message width
      pure (width, h)
    else if height ≠ -1 ∧ width = -1 then do
      let w ← roundDiv message height
      pure (w, height)
    else if height = -1 ∧ width = -1 then Except.error Err.runtime
    else pure (width, height)
  let m ← roundDiv message packet
  if 2 * m - 1 < 0 then .error .value
  else pure (blaumRows m (isqrt (2 * m - 1)) w h)

end Verif
