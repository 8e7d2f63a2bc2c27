import Verif.Spec.Bits

/-! # Specification of a queue of bit groups -/

namespace Verif

/-- One call on a queue, as made by a client. -/
inductive QOp
  | enq (value : Nat) (fromBit : Int)
  | deq (value : Nat) (toBit : Int)
  deriving DecidableEq, Repr

namespace Spec

/-- A first-in first-out queue of groups of `ws` bits.  `none`: the history
takes a group out of an empty queue (nothing is promised).  `some none`: some
offset does not leave room for a group in a 32-bit word (the call must be
rejected).  `some (some (outs, g))`: the values handed back and the groups
still waiting. -/
def fifo (ws : Nat) : List (List Bool) → List QOp →
    Option (Option (List Nat × List (List Bool)))
  | g, [] => some (some ([], g))
  | g, .enq v f :: ops =>
      if 0 ≤ f ∧ f + ws ≤ 32 then fifo ws (g ++ [bitsAt v f.toNat ws]) ops else some none
  | [], .deq _ _ :: _ => none
  | h :: t, .deq v p :: ops =>
      if 0 ≤ p ∧ p + ws ≤ 32 then
        (fifo ws t ops).map (Option.map fun r => (overlay v p.toNat h :: r.1, r.2))
      else some none

/-- How many enqueues / dequeues a history contains. -/
def enqs (ops : List QOp) : Nat := (ops.filter fun | .enq .. => true | .deq .. => false).length
def deqs (ops : List QOp) : Nat := (ops.filter fun | .enq .. => false | .deq .. => true).length

end Spec
end Verif
