import Verif.Model.Metadata
import Mathlib.Algebra.Order.Field.Rat

/-!
# `semantic_codec/solution/solution_quality.py`

Floating point numbers are rationals; `log(k, 2)` is a parameter `lg` with
values in any type that has sums and multiples.  The lines printed by
`evaluate` and `report` are in `QualityReport.lean`.
-/

namespace Verif

/-- What the measures ask a candidate for; `score` is what `score()` returns. -/
structure SInst where
  enc : Nat
  str : Nat
  ignore : Bool
  score : Rat
  deriving DecidableEq, Repr

/-- The attributes of a `SolutionQuality` object, solution_quality.py lines
13-31. `_solution_count` holds a number or `None`. -/
structure Quality (R : Type) where
  program : List (Nat × List SInst)
  original : List (Nat × SInst)
  count : Option Int := some (-1)
  bins : Option (List (Nat × Nat)) := none
  size : Option R := none
  depth : Option Rat := none
  depthBins : List (Nat × Rat) := []

variable {R : Type} [AddCommMonoid R]

/-- The bins: how many addresses have so many candidates, solution_quality.py
lines 60-69. -/
def lengthBins (program : List (Nat × List SInst)) : List (Nat × Nat) :=
  program.foldl (fun bins p => incKey bins p.2.length) []

/-- `_count_solutions`, solution_quality.py lines 59-82; it returns `None`. -/
def countSolutions (lg : Nat → R) (q : Quality R) : Quality R :=
  let bins := lengthBins q.program
  { q with
    count := some (bins.foldl (fun amount b => amount + (b.1 : Int) ^ b.2) 0)
    bins := some bins
    size := some (bins.foldl (fun s b => if b.1 > 1 then s + b.2 • lg b.1 else s) 0) }

/-- `solution_size`, solution_quality.py lines 33-39: the answer (0 written as
`some 0`, `None` as `none`) and the object. Comparing `None` with a number
raises `TypeError`. -/
def solutionSize (lg : Nat → R) (q : Quality R) : Py (Option R × Quality R) :=
  match q.count with
  | none => .error .type
  | some c =>
      let q := if c ≤ -1 then countSolutions lg q else q
      if q.count = some 0 then .ok (some 0, q) else .ok (q.size, q)

/-- `solution_count`, solution_quality.py lines 53-57. -/
def solutionCount (lg : Nat → R) (q : Quality R) : Option Int × Quality R :=
  let q := if q.count = some (-1) then countSolutions lg q else q
  (q.count, q)

/-- `solution_count_bins`, solution_quality.py lines 47-51; an empty dictionary
counts as false. -/
def solutionBins (lg : Nat → R) (q : Quality R) : Option (List (Nat × Nat)) × Quality R :=
  let q := match q.bins with
    | none => countSolutions lg q
    | some [] => countSolutions lg q
    | some _ => q
  (q.bins, q)

/-- The smallest encoding, starting at `sys.maxsize`, solution_quality.py lines 97-100. -/
def minEncoding (v : List SInst) : Nat :=
  v.foldl (fun m i => if i.enc < m then i.enc else m) (2 ^ 63 - 1)

/-- The key of the sort, solution_quality.py line 101. No encoding is zero when
the smallest is not. -/
def depthKey (minE : Nat) (x : SInst) : Rat :=
  if minE = 0 then 0 else x.score * 1000000000 + (minE : Rat) / (x.enc : Rat)

/-- `v.sort(key=..., reverse=True)`, solution_quality.py lines 97-101; the sort
is stable. -/
def depthSort (v : List SInst) : List SInst :=
  v.insertionSort fun a b => depthKey (minEncoding v) b ≤ depthKey (minEncoding v) a

/-- State of the loop of `evaluate`. -/
structure DepthSt where
  program : List (Nat × List SInst)
  depth : Rat
  bins : List (Nat × Rat)

/-- One turn of the loop, solution_quality.py lines 92-121; an address without
candidates raises `ZeroDivisionError` on line 114. -/
def qualityTurn (s : DepthSt) (o : Nat × SInst) : Py DepthSt :=
  if o.2.ignore then .ok s
  else match dictGet s.program o.1 with
    | none => .error .key
    | some v =>
        let v := depthSort v
        let i := v.findIdx fun c => c.str = o.2.str
        if v.length = 0 then .error .zeroDiv
        else
          let r : Rat := ((i + 1 : Nat) : Rat) / (v.length : Rat)
          let old := (dictGet s.bins v.length).getD 0
          .ok { program := dictSet s.program o.1 v
                depth := if r > s.depth then r else s.depth
                bins := dictSet s.bins v.length (if r > old then r else old) }

/-- `evaluate`, solution_quality.py lines 84-124: line 85 stores the `None`
returned by `_count_solutions`. -/
def evaluateQ (lg : Nat → R) (q : Quality R) : Py (Quality R) := do
  let q := countSolutions lg q
  let s ← q.original.foldlM qualityTurn ⟨q.program, 0, []⟩
  .ok { q with count := none, program := s.program, depth := some s.depth, depthBins := s.bins }

/-- `highest_depth`, solution_quality.py lines 41-45. -/
def highestDepth (lg : Nat → R) (q : Quality R) : Py (Option Rat × Quality R) :=
  match q.depth with
  | some d => .ok (some d, q)
  | none => do
      let q ← evaluateQ lg q
      .ok (q.depth, q)

end Verif
