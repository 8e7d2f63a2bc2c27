import Verif.Spec.Bits

/-! # Specification vocabulary for interleaving -/

namespace Verif

/-- What happened to a packet on the way: it arrived, its entry is `None`, or
its entry is missing. -/
inductive Loss
  | kept | nulled | deleted
  deriving DecidableEq, Repr

namespace Spec

/-- The `i`-th group of `ws` bits of the data. -/
def chunk (ws : Nat) (data : List Nat) (i : Nat) : List Bool :=
  ((stream data).drop (i * ws)).take ws

/-- How many groups of `ws` bits the data has. -/
def chunkCount (ws : Nat) (data : List Nat) : Nat := 32 * data.length / ws

/-- The groups carried by the packet in position `j` of an order of `P` packets. -/
def packetGroups (ws : Nat) (data : List Nat) (P j : Nat) : List (List Bool) :=
  ((List.range (chunkCount ws data)).filter fun i => i % P = j).map (chunk ws data)

/-- How many rounds are read back when the last surviving packet of the order
is in position `L`: one per group that it carries. -/
def rounds (N P L : Nat) : Nat := (N + P - 1 - L) / P

/-- What is read back after the losses: surviving groups, zeros elsewhere. -/
def received (ws : Nat) (data : List Nat) (kept : Nat → Bool) (P n : Nat) : List Bool :=
  ((List.range n).map fun i =>
    if kept (i % P) then chunk ws data i else List.replicate ws false).flatten

/-- The (word, bit) positions of the lost groups. -/
def lostPositions (ws : Nat) (kept : Nat → Bool) (P n : Nat) : List (Int × Nat) :=
  ((List.range n).filter fun i => !kept (i % P)).map fun i =>
    (((i * ws / 32 : Nat) : Int), i * ws % 32)

/-- Whether the packet in position `j` of the order arrived. -/
def keptAt (loss : Nat → Loss) (order : List Nat) (j : Nat) : Bool :=
  match order[j]? with
  | some p => decide (loss p = .kept)
  | none => false

end Spec
end Verif
