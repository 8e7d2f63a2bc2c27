import Verif.Model.Packing

/-!
# `store_packets.py` and `address_sorting.py`
-/

namespace Verif

/-- The interleaving order computed by `store_packets.py`, lines 43-48: the
number of packets is `len(original_program) * 4 / packet_size`, a float. -/
def storeOrder (lg : Rat → Int) (fuel : Nat) (programLength : Nat) : Option (Py (List Nat)) :=
  buildInterleaveSp lg fuel (((programLength * 4 : Nat) : Rat) / 16)

/-- `hi_in_hi`, address_sorting.py lines 4-5. -/
def hiInHi (x y z : Nat) : Nat := x * 32 * 4 + y * 4 + z

/-- `low_in_hi`, address_sorting.py lines 8-9. -/
def lowInHi (x y z : Nat) : Nat := x * 32 * 64 + y * 64 + z

/-- What `print_hi_first_start_loosing_low_bit` prints, address_sorting.py lines
19-24. -/
def printHiLow : List Nat :=
  (List.range 64).flatMap fun x => (List.range 32).flatMap fun y => (List.range 4).map fun z =>
    hiInHi x y z

/-- What `print_hi_first_start_loosing_hi_bit` prints, address_sorting.py lines
26-31. -/
def printHiHi : List Nat :=
  (List.range 4).flatMap fun z => (List.range 32).flatMap fun y => (List.range 64).map fun x =>
    hiInHi x y z

/-- What `print_lo_first_loose_high_bit` prints, address_sorting.py lines 12-17. -/
def printLoHi : List Nat :=
  (List.range 4).flatMap fun z => (List.range 32).flatMap fun y => (List.range 64).map fun x =>
    lowInHi x y z

end Verif
