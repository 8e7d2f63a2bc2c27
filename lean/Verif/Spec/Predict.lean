import Verif.Spec.Interleave

/-! # Specification of which bits are lost -/

namespace Verif.Spec

/-- Bit `x` of `size` words belongs to a group carried by a lost packet. -/
def lostBit (bpi size : Nat) (order lost : List Nat) (x : Nat) : Prop :=
  x < 32 * size ∧ ∃ p ∈ lost, order[x / bpi % order.length]? = some p

/-- The bits that an error tuple talks about: `(word, bit)` stands for `bpi`
bits, `(word, bit, n)` for `n` bits. -/
def tupleBits (bpi : Nat) (e : Nat × Nat × Option Nat) (x : Nat) : Prop :=
  32 * e.1 + e.2.1 ≤ x ∧ x < 32 * e.1 + e.2.1 + e.2.2.getD bpi

/-- The bits that a list of error tuples talks about. -/
def predictedBit (bpi : Nat) (es : List (Nat × Nat × Option Nat)) (x : Nat) : Prop :=
  ∃ e ∈ es, tupleBits bpi e x

end Verif.Spec
