/-! # Specification of prefix-free codes -/

namespace Verif.Spec

/-- No code word of a symbol is a prefix of the code word of another. -/
def PrefixFree (symbols : List Int) (code : Int → List Bool) : Prop :=
  ∀ a ∈ symbols, ∀ b ∈ symbols, a ≠ b → ¬ code a <+: code b

/-- The size of a message with these frequencies. -/
def totalSize (tbl : List (Int × Nat)) (code : Int → List Bool) : Nat :=
  (tbl.map fun p => p.2 * (code p.1).length).sum

/-- The bits of a message. -/
def encodeMessage (code : Int → List Bool) (message : List Int) : List Bool :=
  message.flatMap code

/-- The least number of bits of a message in a prefix-free code for its symbols. -/
def Shortest (message : List Int) (n : Nat) : Prop :=
  (∃ code, PrefixFree message code ∧ (encodeMessage code message).length = n) ∧
    ∀ code, PrefixFree message code → n ≤ (encodeMessage code message).length

end Verif.Spec
