import Verif.Model.Blaum

/-!
# `semantic_codec/report/print_progress.py` and `semantic_codec/distributed/qos_functions.py`

Percentages are exact rationals; prefix, suffix and the number of decimals,
which only decorate the printed text, are left out.
-/

namespace Verif

/-- The attributes of `TextProgressBar` that its behaviour depends on,
print_progress.py lines 6-15. -/
structure Bar where
  iteration : Int
  total : Int
  barLength : Int := 100
  dist : Int := 10
  prev : Option Rat := none
  deriving DecidableEq

/-- What is printed: a bar of two kinds of characters with a percentage, or the
final line. -/
inductive BarOut
  | line (full : Int) (empty : Int) (percent : Rat)
  | last
  deriving DecidableEq

/-- `_go_to_end`, print_progress.py lines 17-20. -/
def Bar.goToEnd (b : Bar) : Bar × List BarOut :=
  ({ b with iteration := b.total, prev := some 100 }, [.last])

/-- `progress`, print_progress.py lines 38-59. -/
def Bar.progress (b : Bar) : Py (Bar × List BarOut) :=
  if b.prev.isSome ∧ b.iteration = b.total then .ok (b, [])
  else if b.iteration + b.dist ≥ b.total then .ok b.goToEnd
  else if b.total = 0 then .error .zeroDiv
  else
    let p : Rat := 100 * ((b.iteration : Rat) / b.total)
    let b := { b with iteration := b.iteration + 1 }
    if b.prev.any (fun q => decide (p - q < b.dist)) then .ok (b, [])
    else
      let filled := pyRound ((b.barLength : Rat) * b.iteration / b.total)
      let out := BarOut.line filled (b.barLength - filled) p
      if b.iteration + b.dist ≥ b.total then
        .ok ({ b.goToEnd.1 with prev := some p }, out :: b.goToEnd.2)
      else .ok ({ b with prev := some p }, [out])

/-- Several calls of `progress` and all they print. -/
def Bar.run : Nat → Bar → Py (Bar × List BarOut)
  | 0, b => .ok (b, [])
  | n + 1, b => do
      let (b, o) ← b.progress
      let (b, o') ← Bar.run n b
      pure (b, o ++ o')

/-- `MockQoSFunction.run`, qos_functions.py lines 8-14: the new counter and the
answer. -/
def qosRun (counter : Nat) : Nat × Bool :=
  if counter = 2 then (0, true) else (counter + 1, false)

/-- The counter after some calls, qos_functions.py lines 5-6 and 8-14. -/
def qosCounter : Nat → Nat
  | 0 => 0
  | n + 1 => (qosRun (qosCounter n)).1

/-- The answer of the call number `n` (from 0). -/
def qosAnswer (n : Nat) : Bool := (qosRun (qosCounter n)).2

end Verif
