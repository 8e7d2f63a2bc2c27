import Mathlib.Data.Rat.Defs
import Mathlib.Algebra.Order.Ring.Rat

/-!
# Specification: how likely the storages read were written at a known distance
-/

namespace Verif.Spec

/-- The addresses at a distance between the least and the greatest known for the storages
read. -/
def AtDistance (least greatest : Nat → Option Nat) (reads : List Nat) (position a : Int) : Prop :=
  ∃ k : Nat, a = position - 4 * k ∧ (∃ r ∈ reads, ∃ d, least r = some d ∧ d ≤ k) ∧
    ∃ r ∈ reads, ∃ d, greatest r = some d ∧ k ≤ d

/-- The candidates of an address: whether they are ignored, and the storages they write.
What one of them adds for a storage it writes: its part of the storages written, divided by
the number of candidates that are not ignored. -/
def partOf (cands : List (Bool × List Nat)) (written : List Nat) (r : Nat) : Rat :=
  (written.count r : Rat) / (written.length * (cands.countP fun c => !c.1 : Nat))

/-- The shares of a storage at some addresses; `counts` says which candidates count. -/
def ShareOf (counts : List Nat → Nat → Prop) (program : Int → Option (List (Bool × List Nat))) (at_ : Int → Prop) (r : Nat)
    (v : Rat) : Prop :=
  ∃ a cands written, at_ a ∧ program a = some cands ∧ (false, written) ∈ cands ∧ counts written r ∧ v = partOf cands written r

/-- The greatest of some numbers, to which a small constant is added; the constant if there
are none. -/
def Largest (eps : Rat) (S : Rat → Prop) (b : Rat) : Prop :=
  (b = eps ∨ ∃ v, S v ∧ b = eps + v) ∧ eps ≤ b ∧ ∀ v, S v → eps + v ≤ b

/-- The mean, but at most one. -/
def meanTo1 (reads : List Nat) (best : Nat → Rat) : Rat := min 1 ((reads.map best).sum / reads.length)

end Verif.Spec
