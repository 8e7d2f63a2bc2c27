import Verif.Model.SolutionIO
import Verif.Model.Predict
import Mathlib.Data.List.Sort

/-!
# `semantic_codec/compressor/shiftcompressor.py`

Positions are the tuples made by `predict_corruption` (`ErrT`: word, bit and
perhaps a length), all non-negative; the number of bits of a group is a natural
number.  `struct.pack` with `I` is four bytes, least significant first;
`bitarray` with `endian='big'` lists the bits of each byte from the highest.
-/

namespace Verif

/-- `struct.pack('%sI' % len(data), *data)`: `struct.error` when a value does not
fit, shiftcompressor.py lines 30 and 53. -/
def packWords (data : List Int) : Py Bytes :=
  if data.all (fun x => decide (0 ≤ x ∧ x < 2 ^ 32)) then .ok (data.flatMap fun x => leBytes 4 x.toNat)
  else .error .struct

/-- `bitarray(endian='big').frombytes`, lines 31-32 and 54-55. -/
def bitsOfBytes (bs : Bytes) : List Bool :=
  bs.flatMap fun b => (List.range 8).map fun j => b.toNat.testBit (7 - j)

/-- The byte with the given bits, highest first. -/
def byteOf (b7 b6 b5 b4 b3 b2 b1 b0 : Bool) : UInt8 :=
  UInt8.ofNat (128 * b7.toNat + 64 * b6.toNat + 32 * b5.toNat + 16 * b4.toNat + 8 * b3.toNat
    + 4 * b2.toNat + 2 * b1.toNat + b0.toNat)

/-- `tobytes`, lines 38 and 70: the last byte is filled with zeros. -/
def bytesOfBits (a : List Bool) : Bytes :=
  (List.range ((a.length + 7) / 8)).map fun i =>
    let g := fun j => (a[8 * i + j]?).getD false
    byteOf (g 0) (g 1) (g 2) (g 3) (g 4) (g 5) (g 6) (g 7)

/-- The key of line 13. -/
def sortKey (r : ErrT) : Nat := r.1 * 10000 + r.2.1

/-- `_remove_bits`, lines 12-13. -/
def sortedRemove (remove : List ErrT) : List ErrT :=
  remove.insertionSort fun a b => sortKey a ≤ sortKey b

/-- The position of lines 35 and 60. -/
def posOf (r : ErrT) : Nat := r.1 * 32 + r.2.1

/-- `del a[k:k + n]`, line 36. -/
def delSlice (a : List Bool) (k n : Nat) : List Bool := a.take k ++ a.drop (k + n)

/-- `ShiftCompressor.compress`, lines 29-38: the elements from the last down to
the one with index 1. -/
def shiftCompress (remove : List ErrT) (data : List Int) (shift : Nat) : Py Bytes := do
  let buf ← packWords data
  let a := ((sortedRemove remove).drop 1).reverse.foldl (fun a r => delSlice a (posOf r) shift)
    (bitsOfBytes buf)
  pure (bytesOfBits a)

/-- One turn of the loop, lines 57-64. -/
def swapTurn (shift : Nat) (a : List Bool) (r : ErrT) : List Bool :=
  if r.2.2.isSome then a
  else if posOf r ≥ a.length then a
  else (List.range shift).foldl (fun a _ => a.set (posOf r) false) a

/-- `SwapCompressor.compress`, lines 52-70. -/
def swapCompress (remove : List ErrT) (data : List Int) (shift : Nat) : Py Bytes := do
  let buf ← packWords data
  let a := ((sortedRemove remove).drop 1).reverse.foldl (swapTurn shift) (bitsOfBytes buf)
  pure (bytesOfBits a)

end Verif
