import Verif.Model.Metadata

/-!
# The script `collect_metrics.py`

The program comes from a reader (`Verif.Model.Readers`) and is any list of instructions
here.  The three printed dictionaries are those of the collector.  `numpy` and
`matplotlib` are external: a chart is the list of its bars.
-/

namespace Verif

/-- A printed line `encoding; gap; instruction`, collect_metrics.py lines 19-25. -/
def spaceRows : Option MInst → List MInst → List (Nat × Nat × MInst)
  | _, [] => []
  | none, i :: rest => (i.encoding, 0, i) :: spaceRows (some i) rest
  | some p, i :: rest =>
      (i.encoding, ((p.encoding : Int) - (i.encoding : Int)).natAbs, i) :: spaceRows (some i) rest

/-- `[0 if i not in c else c[i] for i in range(0, n)]`, collect_metrics.py lines 27, 34
and 41. -/
def barsOf {α : Type} [DecidableEq α] (key : Nat → α) (d : List (α × Nat)) (n : Nat) : List Nat :=
  (List.range n).map fun i => (dictGet d (key i)).getD 0

/-- The lines and the three charts of `collect_and_print`, collect_metrics.py lines
12-47. -/
structure Metrics where
  rows : List (Nat × Nat × MInst)
  registers : List Nat
  conditions : List Nat
  instructions : List Nat

/-- `collect_and_print`, collect_metrics.py lines 12-47. -/
def collectAndPrint (insts : List MInst) : Metrics :=
  let c := collectMeta {} insts
  { rows := spaceRows none c.emptySpaces
    registers := barsOf id c.storageCnt 18
    conditions := barsOf (fun i => (i : Int)) c.conditionCnt 15
    instructions := barsOf id c.instructionCnt 200 }

end Verif
