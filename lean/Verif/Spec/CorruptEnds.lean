import Verif.Model.Corruption

/-! # When random program corruption can end: the addresses it can hit -/

namespace Verif
namespace Spec

/-- There is exactly one instruction. -/
def isSingle : Option (List CInst) → Bool
  | some [_] => true
  | _ => false

/-- Among the words `low`, `low + 4`, … `low + 4·n`, the number of those where the program
has exactly one instruction, `n` being the number of addresses of the program. -/
def reachable (prog : Program) (low : Nat) : Nat :=
  ((List.range (prog.length + 1)).filter fun k => isSingle (dictGet prog (low + 4 * k))).length

/-- The least address of a program. -/
def Least (prog : Program) (low : Nat) : Prop :=
  low < 2 ^ 63 ∧ (∀ p ∈ prog, low ≤ p.1) ∧ ∃ p ∈ prog, p.1 = low

end Spec
end Verif
