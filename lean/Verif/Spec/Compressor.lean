/-! # Specification of removing groups of bits -/

namespace Verif.Spec

/-- The elements of `l` whose position satisfies `p`, in order. -/
def atPositions {α : Type} (l : List α) (p : Nat → Bool) : List α :=
  (l.zipIdx.filter fun x => p x.2).map (·.1)

/-- `rest` is `l`, in any order, without the first of its elements with the least
key. -/
def WithoutLeast {α : Type} (key : α → Nat) (l rest : List α) : Prop :=
  l = [] ∧ rest = [] ∨
  ∃ a x b, l = a ++ x :: b ∧ (∀ y ∈ a, key x < key y) ∧ (∀ y ∈ b, key x ≤ key y) ∧ rest.Perm (a ++ b)

/-- The bits of 32-bit words: the bytes of a word from the lowest to the highest, each
from its highest bit to its lowest. -/
def wordBits (data : List Int) : List Bool :=
  data.flatMap fun x => (List.range 32).map fun k => x.toNat.testBit (8 * (k / 8) + (7 - k % 8))

end Verif.Spec
