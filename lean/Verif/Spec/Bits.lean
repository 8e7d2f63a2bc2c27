/-!
# Specification vocabulary for bits

Nothing here mentions the model.
-/

namespace Verif.Spec

/-- The `w` bits of `v` starting at bit `lo`, least significant first. -/
def bitsAt (v lo w : Nat) : List Bool := (List.range w).map fun i => v.testBit (lo + i)

/-- The number written by a list of bits, least significant first. -/
def ofBits : List Bool → Nat
  | [] => 0
  | b :: bs => b.toNat + 2 * ofBits bs

/-- `v` with the bits from `lo` on replaced by `bs`. -/
def overlay (v lo : Nat) (bs : List Bool) : Nat :=
  v % 2 ^ lo + 2 ^ lo * (ofBits bs + 2 ^ bs.length * (v / 2 ^ (lo + bs.length)))

/-- All the bits of a list of 32-bit words, least significant bit first. -/
def stream (ws : List Nat) : List Bool := ws.flatMap fun w => bitsAt w 0 32

end Verif.Spec
