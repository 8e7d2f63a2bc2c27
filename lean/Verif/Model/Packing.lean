import Verif.Model.Basic
import Mathlib.Data.Rat.Floor

/-!
# `semantic_codec/interleaver/interleaver2d.py`, interleaving orders

The entries of the numpy arrays are non-negative whole numbers (stored as
floats); they are `Nat` here.
-/

namespace Verif

/-- A numpy array indexed by row and column. -/
abbrev Mat := Nat → Nat → Nat

/-- `matrix[r, c] = v`. -/
def matSet (M : Mat) (r c v : Nat) : Mat := fun i j => if i = r ∧ j = c then v else M i j

/-- The rows of the first `n` by `n` cells. -/
def matRows (M : Mat) (n : Nat) : List (List Nat) :=
  (List.range n).map fun r => (List.range n).map fun c => M r c

/-- Lines 17-22: the array of zeros with the 2 by 2 seed in its corner. -/
def spSeed : Mat :=
  matSet (matSet (matSet (matSet (fun _ _ => 0) 0 0 0) 0 1 2) 1 0 3) 1 1 1

/-- One turn of the loop of lines 24-46: the four quadrant loops, in order,
updating the array in place. -/
def spStep (M : Mat) (n : Nat) : Mat :=
  let w := 2 ^ n
  -- lines 29-31, upper right
  let M := forRange w (w + w) (fun M i =>
    forRange 0 w (fun M j => matSet M j i (M j (i - w) * 4 + 2)) M) M
  -- lines 34-36, lower left
  let M := forRange 0 w (fun M i =>
    forRange w (w + w) (fun M j => matSet M j i (M (j - w) i * 4 + 3)) M) M
  -- lines 39-41, lower right
  let M := forRange w (w + w) (fun M i =>
    forRange w (w + w) (fun M j => matSet M j i (M (j - w) (i - w) * 4 + 1)) M) M
  -- lines 44-46, upper left
  forRange 0 w (fun M i =>
    forRange 0 w (fun M j => matSet M j i (4 * M j i)) M) M

/-- `sucesive_packing`, interleaver2d.py lines 7-48, as the list of its rows. -/
def sucesivePacking (m : Int) : List (List Nat) :=
  if m ≤ 0 then [[0]]
  else matRows (forRange 1 m.toNat spStep spSeed) (2 ^ m.toNat)

/-- Adding an offset to each cell (interleaver2d.py lines 86-88 and 100-102). -/
def shiftRows (rows : List (List Nat)) (d : Nat) : List (List Nat) :=
  rows.map fun r => r.map (· + d)

/-- State of the loop of lines 69-106: packets still to be placed, first free
packet number, matrices built. -/
structure SpState where
  packets : Rat
  index : Nat
  matrices : List (List (List Nat))

/-- `math.fmod(x, y)` for `x ≥ 0`, `y > 0`; `fmod(x, 0)` raises `ValueError`. -/
def fmodPos (x y : Rat) : Py Rat :=
  if y = 0 then .error .value else .ok (x - y * ⌊x / y⌋)

/-- One turn of the loop, interleaver2d.py lines 72-106.  `lg p` stands for
`floor(log(p, 4))`.  When `lg p` is negative (possible only for a fraction of a
packet) `matrix_size` is 0, `sucesive_packing` gives `[[0]]`, no offset is
added, and a second copy makes `numpy.zeros` raise `TypeError` because its
shape is fractional; `current_package_index` grows by a fraction that is never
used again because `lg` only goes down, so it is left unchanged. -/
def spTurn (lg : Rat → Int) (s : SpState) : Py SpState := do
  let n := lg s.packets
  if 0 ≤ n then
    let inMatrix := 4 ^ n.toNat
    let count := ⌊s.packets / (inMatrix : Nat)⌋.toNat
    let m1 := shiftRows (sucesivePacking n) s.index
    let new := if count > 0 then
        m1 :: (List.range (count - 1)).map fun k => shiftRows m1 (inMatrix * (k + 1))
      else []
    let rest ← fmodPos s.packets ((inMatrix * count : Nat) : Rat)
    pure { packets := rest, index := s.index + inMatrix * count,
           matrices := s.matrices ++ new }
  else
    let inMatrix : Rat := (4 : Rat) ^ n
    let count := ⌊s.packets / inMatrix⌋.toNat
    if count > 1 then .error .type
    else
      let new := if count > 0 then [sucesivePacking n] else []
      let rest ← fmodPos s.packets (inMatrix * count)
      pure { packets := rest, index := s.index, matrices := s.matrices ++ new }

/-- Lines 109-113: taking the rows of all matrices in turn. -/
def weaveRows (matrices : List (List (List Nat))) (width : Nat) : List (List Nat) :=
  (List.range width).flatMap fun n =>
    matrices.filterMap fun m => m[n]?

/-- `build_2d_interleave_sp(packets, flat=True)`, interleaver2d.py lines 51-122.
With no packets `matrices[0]` raises `IndexError`. -/
def buildInterleaveSp (lg : Rat → Int) (fuel : Nat) (packets : Rat) :
    Option (Py (List Nat)) :=
  (whileLoop (fun s => decide (s.packets > 0)) (spTurn lg) fuel
      { packets := packets, index := 0, matrices := [] }).map fun r => do
    let s ← r
    let m0 ← pyGet s.matrices 0
    let r0 ← pyGet m0 0
    pure (weaveRows s.matrices r0.length).flatten

end Verif
