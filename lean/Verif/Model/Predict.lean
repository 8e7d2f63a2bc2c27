import Verif.Model.Basic

/-!
# `predict_corruption` of `semantic_codec/corruption/corruption.py`

Error tuples have two or three entries; they are kept as
`(word, bit, none)` and `(word, bit, some n)`.  `packet_count` is a whole
number here (store_packets.py passes a float, equal to a whole number whenever
the order could be built for it).  `math.floor(b / 32)` and `math.fmod(b, 32)`
are exact on the numbers that occur.
-/

namespace Verif

/-- An error tuple. -/
abbrev ErrT := Nat × Nat × Option Nat

/-- `if not t in errors: errors.append(t)`, corruption.py lines 260-261. -/
def addErr (errors : List ErrT) (t : ErrT) : List ErrT :=
  if t ∈ errors then errors else errors ++ [t]

/-- The tuples made for the group starting at bit `b`, corruption.py lines
251-259. -/
def errTuples (bpi b : Nat) : List ErrT :=
  let bte := b / 32
  let bit := b % 32
  if bit + bpi ≥ 32 then [(bte, bit, some (32 - 1 - bit)), (bte + 1, 0, some (bpi + 1 + bit - 32))]
  else [(bte, bit, none)]

/-- State of the loop: the next position of each lost packet, and the errors. -/
structure PCState where
  b : List Nat
  errors : List ErrT

/-- One turn of the loop, corruption.py lines 249-265. -/
def predictTurn (bpi jump total : Nat) (s : PCState) : PCState :=
  { b := s.b.map (· + jump)
    errors := s.b.foldl (fun es x =>
      if x < total then (errTuples bpi x).foldl addErr es else es) s.errors }

/-- `interleave.index(p)`: `ValueError` when it is not there. -/
def pyIndex (l : List Nat) (p : Nat) : Py Nat :=
  if p ∈ l then .ok (l.idxOf p) else .error .value

/-- `[bits_per_interleave * interleave.index(p) for p in packets_lost]`,
corruption.py line 243. -/
def startBits (bpi : Nat) (order : List Nat) : List Nat → Py (List Nat)
  | [] => .ok []
  | p :: ps => do
      let i ← pyIndex order p
      let rest ← startBits bpi order ps
      pure (bpi * i :: rest)

/-- `b[0] < total_bits` when `b` is not empty, corruption.py line 248. -/
def firstBelow (total : Nat) (s : PCState) : Bool :=
  match s.b with
  | [] => false
  | x :: _ => decide (x < total)

/-- `predict_corruption`, corruption.py lines 220-267.  `b[0]` raises
`IndexError` when no packet is lost. -/
def predictCorruption (fuel packetCount bpi dataSize : Nat) (order lost : List Nat) :
    Option (Py (List ErrT)) :=
  match startBits bpi order lost with
  | .error e => some (.error e)
  | .ok [] => some (.error .index)
  | .ok (x :: b) =>
      (whileLoop (firstBelow (dataSize * 32))
        (fun s => .ok (predictTurn bpi (bpi * packetCount) (dataSize * 32) s)) fuel
        { b := x :: b, errors := [] }).map fun r => r.map fun s => s.errors

end Verif
