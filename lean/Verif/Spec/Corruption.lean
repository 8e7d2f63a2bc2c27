import Verif.Model.Corruption

/-! # Specification vocabulary for corruption

Only the data type of instructions (`CInst`: an encoding and an address) is
taken from the model. -/

namespace Verif.Spec

/-- `v` and `w` agree on every bit outside `S`. -/
def agreeOutside (S : Nat → Prop) (v w : Nat) : Prop :=
  ∀ i, ¬ S i → v.testBit i = w.testBit i

/-- What random corruption may do to the candidates of one address: a single
instruction becomes itself followed by other words of 32 bits at the same
address, without repetition. -/
def corruptedFrom (bound : Nat) (cs cs' : List CInst) : Prop :=
  ∃ c l, cs = [c] ∧ cs' = c :: l ∧ l ≠ [] ∧ cs'.length ≤ bound ∧
    (cs'.map (·.encoding)).Nodup ∧
    ∀ d ∈ l, d.address = c.address ∧ agreeOutside (fun i => i ≤ 31) c.encoding d.encoding

end Verif.Spec
