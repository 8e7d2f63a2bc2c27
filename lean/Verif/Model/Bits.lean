import Verif.Model.Basic

/-!
# `semantic_codec/architecture/bits.py`

Values are non-negative Python integers (`Nat`, unbounded); bit positions are
arbitrary Python integers (`Int`).
-/

namespace Verif

/-- `Bits.check_range`, bits.py lines 83-88. -/
def checkRange (lo hi : Int) : Py Unit :=
  if lo > hi then .error .runtime
  else if lo < 0 ∨ hi ≥ 32 then .error .runtime
  else .ok ()

/-- `Bits.set`, bits.py lines 130-133. -/
def bitsSet (higher lower : Int) : Py Nat := do
  checkRange lower higher
  pure ((2 ^ (higher + 1).toNat - 1) ^^^ (2 ^ lower.toNat - 1))

/-- `v & ~m` on non-negative integers (bits.py line 106): `v` with the bits of
`m` cleared. -/
def andNot (v m : Nat) : Nat := v ^^^ (v &&& m)

/-- `Bits.copy_bits`, bits.py lines 90-112. -/
def copyBits (valueFrom valueTo : Nat) (srcFrom srcTo destFrom : Int) : Py Nat := do
  let destTo := destFrom + (srcTo - srcFrom)
  checkRange srcFrom srcTo
  checkRange destFrom destTo
  let mask ← bitsSet destTo destFrom
  let cleared := andNot valueTo mask
  if srcFrom > destFrom then
    pure (cleared ||| (mask &&& (valueFrom >>> (srcFrom - destFrom).toNat)))
  else
    pure (cleared ||| (mask &&& (valueFrom <<< (destFrom - srcFrom).toNat)))

/-- `Bits.are_on`, bits.py lines 114-124. -/
def areOn (value : Nat) (higher lower : Int) : Py Bool := do
  let m ← bitsSet higher lower
  pure (decide (value &&& m ≠ 0))

/-- `Bits.on`, bits.py lines 135-138.  Simplification: the exponent is
non-negative (a negative one makes Python produce a float). -/
def bitsOn (k : Nat) : Nat := 2 ^ k

/-- `Bits.is_on`, bits.py lines 126-128.  Simplification: the position is
non-negative (with a negative one `2**bit` is a float and `&` raises). -/
def isOn (value : Nat) (bit : Nat) : Bool := decide (value &&& (2 ^ bit) ≠ 0)

end Verif
