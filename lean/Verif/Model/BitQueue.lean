import Verif.Model.Bits
import Verif.Spec.BitQueue

/-!
# `BitQueue` of `semantic_codec/architecture/bits.py`

`_eq_bit`, `_dq_bit` and `word_size` are never negative in the code, so they
are `Nat`; `_eq_word` can become `-1` and is an `Int`.
-/

namespace Verif

/-- The fields of a `BitQueue` object, bits.py lines 5-10. -/
structure BitQueue where
  bytes : List Nat
  eqWord : Int
  eqBit : Nat
  dqBit : Nat
  wordSize : Nat
  deriving DecidableEq, Repr

namespace BitQueue

/-- `BitQueue.__init__`, bits.py lines 5-10. -/
def new (wordSize : Nat) : BitQueue :=
  { bytes := [0], eqWord := 0, eqBit := 0, dqBit := 0, wordSize := wordSize }

/-- `self._bytes[i] = Bits.copy_bits(value, self._bytes[i], a, b, d)`, the
statement used three times in `enqueue` (bits.py lines 22, 29, 33). -/
def store (bytes : List Nat) (i : Int) (value : Nat) (a b d : Int) : Py (List Nat) := do
  let old ← pyGet bytes i
  let new ← copyBits value old a b d
  pySet bytes i new

/-- The tail of `enqueue`, bits.py lines 36-40. -/
def bumpEq (q : BitQueue) : BitQueue :=
  let e := q.eqBit + q.wordSize
  if e > 31 then
    { q with eqBit := e - 32, eqWord := q.eqWord + 1, bytes := q.bytes ++ [0] }
  else { q with eqBit := e }

/-- `BitQueue.enqueue`, bits.py lines 12-40. -/
def enqueue (q : BitQueue) (value : Nat) (fromBit : Int) : Py BitQueue := do
  checkRange 0 fromBit
  if (q.eqBit : Int) + q.wordSize - 1 > 31 then
    let w := max 0 (32 - (q.eqBit : Int) - 1)
    let b1 ← store q.bytes q.eqWord value fromBit (fromBit + w) q.eqBit
    let eqWord := q.eqWord + 1
    let b2 := b1 ++ [0]
    let w2 := max 0 ((q.eqBit : Int) + q.wordSize - 32 - 1)
    let b3 ← store b2 eqWord value fromBit (fromBit + w2) 0
    pure (bumpEq { q with bytes := b3, eqWord := eqWord, eqBit := 0 })
  else
    let w := max 0 (fromBit + q.wordSize - 1)
    let b1 ← store q.bytes q.eqWord value fromBit w q.eqBit
    pure (bumpEq { q with bytes := b1 })

/-- `BitQueue.empty`, bits.py lines 42-47. -/
def empty (q : BitQueue) : Bool :=
  if q.eqWord < 0 then true
  else if q.eqWord = 0 ∧ q.eqBit ≤ q.dqBit then true
  else false

/-- The tail of `dequeue`, bits.py lines 66-69, after `_dq_bit` was advanced. -/
def bumpDq (q : BitQueue) : Py BitQueue :=
  if q.dqBit > 31 then do
    let b ← pyPop0 q.bytes
    pure { q with dqBit := q.dqBit - 32, bytes := b, eqWord := q.eqWord - 1 }
  else pure q

/-- `BitQueue.dequeue`, bits.py lines 49-71: the new value and the new queue. -/
def dequeue (q : BitQueue) (value : Nat) (toBit : Int) : Py (Nat × BitQueue) := do
  checkRange 0 toBit
  if (q.dqBit : Int) + q.wordSize - 1 > 31 then
    let w := 32 - (q.dqBit : Int)
    let h ← pyGet q.bytes 0
    let v1 ← copyBits h value q.dqBit (q.dqBit + w - 1) toBit
    let b ← pyPop0 q.bytes
    let w2 := q.dqBit + q.wordSize - 32
    let h2 ← pyGet b 0
    let v2 ← copyBits h2 v1 0 (0 + (w2 : Int) - 1) toBit
    let q' ← bumpDq { q with bytes := b, eqWord := q.eqWord - 1, dqBit := 0 + w2 }
    pure (v2, q')
  else
    let h ← pyGet q.bytes 0
    let v1 ← copyBits h value q.dqBit (q.dqBit + (q.wordSize : Int) - 1) toBit
    let q' ← bumpDq { q with dqBit := q.dqBit + q.wordSize }
    pure (v1, q')

/-- `BitQueue.get_bytes`, bits.py lines 73-74. -/
def getBytes (q : BitQueue) : List Nat := q.bytes

end BitQueue

/-- A history of calls on a queue: the values returned by the dequeues, in
order, and the final queue; the first exception ends the history. -/
def runQueue (q : BitQueue) : List QOp → Py (List Nat × BitQueue)
  | [] => .ok ([], q)
  | .enq v f :: ops => do
      let q' ← q.enqueue v f
      runQueue q' ops
  | .deq v t :: ops => do
      let (r, q') ← q.dequeue v t
      let (rs, q'') ← runQueue q' ops
      pure (r :: rs, q'')

end Verif
