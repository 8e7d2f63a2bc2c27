import Verif.Spec.BitQueue

/-!
# What the words of a queue hold

A queue writes groups of bits one after the other into words of 32 bits.  Said without its
fields: the bits written so far are a list, the tape.
-/

namespace Verif.Spec

/-- A group as it is written when `p` bits of the last word are in use.  A group that does
not fit in the word is written from its beginning into both words, and as many bits as were
free are left out after it. -/
def laid (p : Nat) (g : List Bool) : List Bool :=
  if p + g.length ≤ 32 then g
  else g.take (32 - p) ++ g.take (p + g.length - 32) ++ List.replicate (32 - p) false

/-- Writing groups after the tape `S`. -/
def laidAll : List Bool → List (List Bool) → List Bool
  | S, [] => S
  | S, g :: gs => laidAll (S ++ laid (S.length % 32) g) gs

/-- What is seen of a group of `n` bits from place `d` of the tape on.  Across the end of a
word the bits from the second word come first and cover those from the first word. -/
def seen (S : List Bool) (d n : Nat) : List Bool :=
  if d % 32 + n ≤ 32 then (S.drop d).take n
  else (S.drop (d + (32 - d % 32))).take (d % 32 + n - 32) ++
    ((S.drop d).take (32 - d % 32)).drop (d % 32 + n - 32)

/-- The values handed back by a history on the tape `S` that has been read up to `d`. -/
def tape (ws : Nat) : List Bool → Nat → List QOp → List Nat
  | _, _, [] => []
  | S, d, .enq v f :: ops => tape ws (S ++ laid (S.length % 32) (bitsAt v f.toNat ws)) d ops
  | S, d, .deq v t :: ops => overlay v t.toNat (seen S d ws) :: tape ws S (d + ws) ops

/-- How many of the first bits of each group survive, for groups of the sizes `ns` when `p`
bits of the last word are in use. -/
def keptBits : Nat → List Nat → List Nat
  | _, [] => []
  | p, n :: ns =>
      if p + n ≤ 32 then n :: keptBits ((p + n) % 32) ns
      else max (32 - p) (p + n - 32) :: keptBits (n % 32) ns

end Verif.Spec
