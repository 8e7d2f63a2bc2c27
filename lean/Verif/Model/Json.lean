import Verif.Model.PacketCorruptor

/-!
# Saving and loading corrupted programs, `semantic_codec/corruption/corruption.py`

The text of the file is the business of Python's `json`, which is external: a
file is kept as the JSON object it denotes, a list of string keys with arrays
of numbers.  What `json` does with the integer keys, writing them in decimal
text, is modelled, since the loader has to undo it.
-/

namespace Verif

/-- A JSON object whose values are arrays of numbers; keys are texts. -/
abbrev JObj := List (List Char × List Nat)

/-- The decimal digit. -/
def digitChar (d : Nat) : Char := Char.ofNat (48 + d)

/-- `str(n)` for a number that is not negative. -/
def decimal (n : Nat) : List Char :=
  if n < 10 then [digitChar n] else decimal (n / 10) ++ [digitChar (n % 10)]

/-- One character of `int(k)`. -/
def readDigit (acc : Option Nat) (c : Char) : Option Nat :=
  acc.bind fun n => if 48 ≤ c.toNat ∧ c.toNat ≤ 57 then some (10 * n + (c.toNat - 48)) else none

/-- `int(k)`: `ValueError` unless the text is a number.  Signs, blanks and
underscores, which Python accepts as well, never occur in a saved file. -/
def readInt (k : List Char) : Py Nat :=
  match k with
  | [] => .error .value
  | _ => match k.foldl readDigit (some 0) with
      | some n => .ok n
      | none => .error .value

/-- `save_corrupted_program_to_json`, corruption.py lines 11-27: integer keys
become texts; an instruction is written as its encoding (lines 11-16). -/
def saveJson (prog : Program) : JObj :=
  prog.map fun q => (decimal q.1, q.2.map (·.encoding))

/-- The loop of `load_corrupted_program_from_json`, corruption.py lines 34-38.
An address found twice replaces the earlier one. -/
def loadInto (result : Program) : JObj → Py Program
  | [] => .ok result
  | (k, v) :: rest => do
      let addr ← readInt k
      let is ← v.mapM fun e => mkInst e addr
      loadInto (dictSet result addr is) rest

/-- `load_corrupted_program_from_json`, corruption.py lines 30-39. -/
def loadJson (data : JObj) : Py Program := loadInto [] data

end Verif
