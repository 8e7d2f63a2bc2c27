import Verif.Model.BitQueue
import Verif.Spec.Interleave

/-!
# `interleave` and `deinterleave` of `semantic_codec/interleaver/interleaver2d.py`

The order is a list of packet numbers (`Nat`; floats equal to whole numbers in
the code, which index the dictionary just as well).
-/

namespace Verif

/-- State of the loop of `interleave`. -/
structure ILState where
  packets : List (Nat × BitQueue)
  bitIndex : Nat
  arrIndex : Nat
  k : Nat

/-- `packets = {int(index): BitQueue(word_size) for index in interleave_order}`,
interleaver2d.py line 173. -/
def newPackets (order : List Nat) (ws : Nat) : List (Nat × BitQueue) :=
  order.foldl (fun d i => dictSet d i (BitQueue.new ws)) []

/-- One turn of the loop of `interleave`, interleaver2d.py lines 179-185. -/
def interleaveTurn (data order : List Nat) (ws : Nat) (s : ILState) : Py ILState := do
  let idx ← pyGet order s.k
  let pkt ← match dictGet s.packets idx with
    | some q => Except.ok q
    | none => .error .key
  let v ← pyGet data s.arrIndex
  let pkt ← pkt.enqueue v s.bitIndex
  let packets := dictSet s.packets idx pkt
  let bitIndex := s.bitIndex + ws
  let k := if (s.k : Int) = (order.length : Int) - 1 then 0 else s.k + 1
  if bitIndex > 31 ∧ s.arrIndex < data.length then
    pure { packets := packets, bitIndex := bitIndex - 32, arrIndex := s.arrIndex + 1, k := k }
  else
    pure { packets := packets, bitIndex := bitIndex, arrIndex := s.arrIndex, k := k }

/-- `interleave`, interleaver2d.py lines 165-187. -/
def interleave (fuel : Nat) (data order : List Nat) (ws : Nat) :
    Option (Py (List (Nat × BitQueue))) :=
  (whileLoop (fun s => decide (s.arrIndex < data.length)) (interleaveTurn data order ws) fuel
    { packets := newPackets order ws, bitIndex := 0, arrIndex := 0, k := 0 }).map
    fun r => r.map fun s => s.packets

/-- The search of interleaver2d.py lines 198-200, called with `n = k + 1`: the
last position whose entry is not `None`, or -1.  A missing entry raises
`KeyError`. -/
def lastAlive (packets : List (Nat × Option BitQueue)) (order : List Nat) : Nat → Py Int
  | 0 => .ok (-1)
  | n + 1 => do
      let p ← pyGet order (n : Int)
      match dictGet packets p with
      | none => .error .key
      | some none => lastAlive packets order n
      | some (some _) => .ok n

/-- State of the loop of `deinterleave`. -/
structure DIState where
  packets : List (Nat × Option BitQueue)
  data : BitQueue
  errors : List (Int × Nat)

/-- The body of the `for` of `deinterleave`, interleaver2d.py lines 213-218. -/
def deinterleaveOne (s : DIState) (p : Nat) : Py DIState := do
  match dictGet s.packets p with
  | some (some q) => do
      let (a, q') ← q.dequeue 0 0
      let data ← s.data.enqueue a 0
      pure { packets := dictSet s.packets p (some q'), data := data, errors := s.errors }
  | _ => do
      let errors := s.errors ++ [(s.data.eqWord, s.data.eqBit)]
      let data ← s.data.enqueue 0 0
      pure { packets := s.packets, data := data, errors := errors }

/-- `for p in interleave_order`, interleaver2d.py line 212. -/
def deinterleaveRound : List Nat → DIState → Py DIState
  | [], s => .ok s
  | p :: ps, s => do
      let s' ← deinterleaveOne s p
      deinterleaveRound ps s'

/-- `not last_queue.empty()`, interleaver2d.py line 211; `last_queue` is the
object stored under key `last`. -/
def lastNotEmpty (last : Nat) (s : DIState) : Bool :=
  match dictGet s.packets last with
  | some (some q) => !q.empty
  | _ => false

/-- `deinterleave`, interleaver2d.py lines 190-220.  When every entry is `None`
the index is -1, `last_queue` is `None` and `last_queue.empty()` raises
`AttributeError`. -/
def deinterleave (fuel : Nat) (packets : List (Nat × Option BitQueue)) (order : List Nat)
    (ws : Nat) : Option (Py (List Nat × List (Int × Nat))) :=
  match lastAlive packets order order.length with
  | .error e => some (.error e)
  | .ok k =>
    if k = 0 then some (.error .runtime)
    else match pyGet order k with
      | .error e => some (.error e)
      | .ok last => match dictGet packets last with
        | none => some (.error .key)
        | some none => some (.error .attribute)
        | some (some _) =>
          (whileLoop (lastNotEmpty last) (deinterleaveRound order) fuel
            { packets := packets, data := BitQueue.new ws, errors := [] }).map
            fun r => r.map fun s => (s.data.getBytes, s.errors)

/-- The packets that reach the receiver. -/
def receive (loss : Nat → Loss) (packets : List (Nat × BitQueue)) :
    List (Nat × Option BitQueue) :=
  packets.filterMap fun p => match loss p.1 with
    | .kept => some (p.1, some p.2)
    | .nulled => some (p.1, none)
    | .deleted => none

end Verif
