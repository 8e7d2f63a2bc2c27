import Verif.Model.SolutionQuality

/-!
# What `evaluate` and `report` of `semantic_codec/solution/solution_quality.py` print

The numbers in the lines; their text is left out.
-/

namespace Verif

/-- The loop of `evaluate` with `max_addr` and `max_addr_bin`. -/
structure WorstSt where
  st : DepthSt
  addr : Nat := 0
  binAddrs : List (Nat × Nat) := []

/-- One turn of the loop, solution_quality.py lines 92-121. -/
def worstTurn (s : WorstSt) (o : Nat × SInst) : Py WorstSt :=
  if o.2.ignore then .ok s
  else match dictGet s.st.program o.1 with
    | none => .error .key
    | some v =>
        let v := depthSort v
        let i := v.findIdx fun c => c.str = o.2.str
        if v.length = 0 then .error .zeroDiv
        else
          let r : Rat := ((i + 1 : Nat) : Rat) / (v.length : Rat)
          let old := (dictGet s.st.bins v.length).getD 0
          .ok { st := { program := dictSet s.st.program o.1 v
                        depth := if r > s.st.depth then r else s.st.depth
                        bins := dictSet s.st.bins v.length (if r > old then r else old) }
                addr := if r > s.st.depth then o.1 else s.addr
                binAddrs := if r > old then dictSet s.binAddrs v.length o.1 else s.binAddrs }

/-- The three lines of `evaluate`, solution_quality.py lines 122-124. -/
structure WorstLines where
  addr : Nat
  binAddrs : List (Nat × Nat)
  bins : List (Nat × Rat)

/-- The lines that `evaluate` prints, solution_quality.py lines 84-124; nothing when it raises. -/
def evaluateLines (program : List (Nat × List SInst)) (original : List (Nat × SInst)) : Py WorstLines := do
  let s ← original.foldlM worstTurn { st := ⟨program, 0, []⟩ }
  .ok ⟨s.addr, s.binAddrs, s.st.bins⟩

/-- A line of `report`. -/
inductive ReportLine (R : Type)
  | bins (b : Option (List (Nat × Nat)))
  | size (r : Option R)
  | count (n : Option Int)
  deriving DecidableEq

variable {R : Type} [AddCommMonoid R]

/-- `report`, solution_quality.py lines 126-130: what it has printed when it returns or raises, and
the object. -/
def reportQ (lg : Nat → R) (q : Quality R) : List (ReportLine R) × Py (Quality R) :=
  let b := solutionBins lg q
  match solutionSize lg b.2 with
  | .error e => ([.bins b.1], .error e)
  | .ok s =>
      let c := solutionCount lg s.2
      ([.bins b.1, .size s.1, .count c.1], .ok c.2)

end Verif
