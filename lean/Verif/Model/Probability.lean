import Verif.Model.Basic
import Mathlib.Algebra.Order.Ring.Rat
import Mathlib.Algebra.Field.Rat

/-!
# `semantic_codec/probability/probabilities.py`

Floating-point numbers are exact rationals; rounding is outside the model.
-/

namespace Verif

/-- `indep_intersection`, probabilities.py lines 7-14. -/
def indepIntersection (ps : List Rat) : Rat := ps.foldl (fun p r => p * r) 1

/-- `uniform`, probabilities.py lines 4-5. -/
def uniform (a b : Rat) : Py Rat := if b - a = 0 then .error .zeroDiv else .ok (1 / (b - a))

/-- State of the loop: the result so far and the stack of indexes. -/
structure UnionState where
  result : Rat
  e : List Nat

/-- Lines 28-30: the product over the stack; an index out of range would raise. -/
def stackProduct (ps : List Rat) : List Nat → Rat → Py Rat
  | [], p => .ok p
  | j :: js, p => do
      let x ← pyGet ps j
      stackProduct ps js (p * x)

/-- One turn of the loop, probabilities.py lines 27-41.  `e[len(e) - 1]` raises
for an empty stack, which the loop condition excludes. -/
def unionTurn (ps : List Rat) (s : UnionState) : Py UnionState := do
  let p ← stackProduct ps s.e 1
  let result := if s.e.length % 2 = 1 then s.result + p else s.result - p
  let last ← pyGet s.e ((s.e.length : Int) - 1)
  let i := last + 1
  if i < ps.length then pure ⟨result, s.e ++ [i]⟩
  else
    let e := s.e.dropLast
    if e ≠ [] then
      let l ← pyGet e ((e.length : Int) - 1)
      let e ← pySet e ((e.length : Int) - 1) (l + 1)
      pure ⟨result, e⟩
    else pure ⟨result, e⟩

/-- `indep_events_union`, probabilities.py lines 17-43. -/
def indepEventsUnion (fuel : Nat) (ps : List Rat) : Option (Py Rat) :=
  if ps.length = 0 then some (.error .runtime)
  else (whileLoop (fun s => decide (s.e ≠ [])) (unionTurn ps) fuel ⟨0, [0]⟩).map
    fun r => r.map (·.result)

end Verif
