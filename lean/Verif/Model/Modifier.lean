import Verif.Model.Bits
import Verif.Spec.Fields

/-!
# `semantic_codec/architecture/instruction_modifier.py`

Encodings and values are non-negative integers.
-/

namespace Verif

/-- `modify_cond`, instruction_modifier.py lines 13-20. -/
def modifyCond (inst newCond : Nat) : Py Nat := copyBits newCond inst 0 3 28
/-- `modify_opcode`, instruction_modifier.py lines 22-29. -/
def modifyOpcode (inst newOp : Nat) : Py Nat := copyBits newOp inst 0 3 21
/-- `modify_rn`, instruction_modifier.py lines 31-38. -/
def modifyRn (inst rn : Nat) : Py Nat := copyBits rn inst 0 3 16
/-- `modify_rd`, instruction_modifier.py lines 40-47. -/
def modifyRd (inst rd : Nat) : Py Nat := copyBits rd inst 0 3 12
/-- `modify_rs`, instruction_modifier.py lines 49-56. -/
def modifyRs (inst rs : Nat) : Py Nat := copyBits rs inst 0 3 8
/-- `modify_rm`, instruction_modifier.py lines 58-65. -/
def modifyRm (inst rm : Nat) : Py Nat := copyBits rm inst 0 3 0

/-- `modify_immediate`, instruction_modifier.py lines 67-77. -/
def modifyImmediate (inst immediate : Nat) : Py Nat :=
  if inst &&& 0xE000000 = 0x4000000 then copyBits immediate inst 0 11 0
  else copyBits immediate inst 0 7 0

/-- `modify_register`, instruction_modifier.py lines 81-105.  Line 84 calls
`self.swap23`, which no class in the repository defines, so every call raises
`AttributeError` before looking at its arguments. -/
def modifyRegister (_encoding _register _newReg : Nat) : Py (Nat × Bool) := .error .attribute

/-- One call of an editor method. -/
def applyEdit (inst : Nat) : Field × Nat → Py Nat
  | (.cond, v) => modifyCond inst v
  | (.opcode, v) => modifyOpcode inst v
  | (.rn, v) => modifyRn inst v
  | (.rd, v) => modifyRd inst v
  | (.rs, v) => modifyRs inst v
  | (.rm, v) => modifyRm inst v

/-- A client editing an instruction several times. -/
def applyEdits (inst : Nat) : List (Field × Nat) → Py Nat
  | [] => .ok inst
  | e :: es => do
      let i ← applyEdit inst e
      applyEdits i es

end Verif
