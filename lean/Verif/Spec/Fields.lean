import Verif.Spec.Bits

/-! # ARM instruction fields as seen by a client of the instruction editor -/

namespace Verif

/-- The four-bit fields that can be edited. -/
inductive Field
  | cond | opcode | rn | rd | rs | rm
  deriving DecidableEq, Repr

namespace Spec

/-- Lowest bit of each field in the ARM data-processing format. -/
def fieldPos : Field → Nat
  | .cond => 28 | .opcode => 21 | .rn => 16 | .rd => 12 | .rs => 8 | .rm => 0

/-- The value of the last edit of field `f` in a list of edits. -/
def lastEdit (f : Field) : List (Field × Nat) → Option Nat
  | [] => none
  | (g, v) :: es => match lastEdit f es with
    | some w => some w
    | none => if g = f then some v else none

/-- Bit `i` belongs to some editable field. -/
def inSomeField (i : Nat) : Prop := ∃ f, fieldPos f ≤ i ∧ i < fieldPos f + 4

end Spec
end Verif
