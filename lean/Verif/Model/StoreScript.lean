import Verif.Model.StorePackets
import Verif.Model.Compressor
import Mathlib.Data.Rat.Floor

/-!
# The script `store_packets.py`

The number of packets is a float, a quarter of a whole number, and so may be the
positions computed from it, which are halves of whole numbers.  All of these are exact.
The program is the list of the encodings read (lines 33-37); reading the arguments and
opening the files (lines 19-31) are not modelled.
-/

namespace Verif

/-- The tuples made for the group starting at position `b`, corruption.py lines 251-259:
`math.floor(b / 32)` and `int(math.fmod(b, 32))`. -/
def errTuplesQ (bpi : Nat) (b : Rat) : List ErrT :=
  let bte := (b / 32).floor.toNat
  let bit := (b - 32 * (b / 32).floor).floor.toNat
  if bit + bpi ≥ 32 then [(bte, bit, some (32 - 1 - bit)), (bte + 1, 0, some (bpi + 1 + bit - 32))]
  else [(bte, bit, none)]

/-- State of the loop: the next position of each lost packet, and the errors. -/
structure PCStateQ where
  b : List Rat
  errors : List ErrT

/-- One turn of the loop, corruption.py lines 249-265. -/
def predictTurnQ (bpi : Nat) (jump : Rat) (total : Nat) (s : PCStateQ) : PCStateQ :=
  { b := s.b.map (· + jump)
    errors := s.b.foldl (fun (es : List ErrT) (x : Rat) =>
      if x < (total : Rat) then (errTuplesQ bpi x).foldl addErr es else es) s.errors }

/-- `b[0] < total_bits`, corruption.py line 248. -/
def firstBelowQ (total : Nat) (s : PCStateQ) : Bool :=
  match s.b with
  | [] => false
  | x :: _ => decide (x < total)

/-- `predict_corruption`, corruption.py lines 220-267, with a number of packets that need
not be whole. -/
def predictCorruptionQ (fuel : Nat) (packetCount : Rat) (bpi dataSize : Nat) (order lost : List Nat) :
    Option (Py (List ErrT)) :=
  match startBits bpi order lost with
  | .error e => some (.error e)
  | .ok [] => some (.error .index)
  | .ok (x :: b) =>
      (whileLoop (firstBelowQ (dataSize * 32))
        (fun s => .ok (predictTurnQ bpi (bpi * packetCount) (dataSize * 32) s)) fuel
        { b := (x :: b).map (fun n : Nat => (n : Rat)), errors := [] }).map fun r => r.map fun s => s.errors

/-- The script, store_packets.py lines 43-72: the contents of the two files it writes.
Whatever raises does so before the first file is opened. -/
def storePackets (lg : Rat → Int) (fuel : Nat) (program : List Nat) : Option (Py (Bytes × Bytes)) :=
  let packetCount : Rat := ((program.length * 4 : Nat) : Rat) / 16
  match buildInterleaveSp lg fuel packetCount with
  | none => none
  | some (.error e) => some (.error e)
  | some (.ok m) =>
      let lost := List.range (packetCount / 5).floor.toNat
      match predictCorruptionQ fuel packetCount 2 (program.length * 4) m lost with
      | none => none
      | some (.error e) => some (.error e)
      | some (.ok errors) => some do
          let data := program.map fun x : Nat => (x : Int)
          let out ← swapCompress errors data 2
          let buf ← packWords data
          pure (out, bytesOfBits (bitsOfBytes buf))

end Verif
