/-! # Specification vocabulary for instructions -/

namespace Verif.Spec

/-- The value of a list of hexadecimal digits, most significant first. -/
def hexValue (digit : Char → Nat) (s : List Char) : Nat := s.foldl (fun n c => 16 * n + digit c) 0

/-- The digit of a character `0`-`9`, `a`-`f` or `A`-`F`. -/
def hexDigit (c : Char) : Nat :=
  if '0' ≤ c ∧ c ≤ '9' then c.toNat - '0'.toNat
  else if 'a' ≤ c ∧ c ≤ 'f' then c.toNat - 'a'.toNat + 10
  else if 'A' ≤ c ∧ c ≤ 'F' then c.toNat - 'A'.toNat + 10
  else 0

/-- A hexadecimal digit. -/
def isHex (c : Char) : Prop :=
  ('0' ≤ c ∧ c ≤ '9') ∨ ('a' ≤ c ∧ c ≤ 'f') ∨ ('A' ≤ c ∧ c ≤ 'F')

/-- The low `w` bits of `v` as a two's complement number. -/
def signed (v w : Nat) : Int :=
  if v.testBit (w - 1) then ((v % 2 ^ w : Nat) : Int) - 2 ^ w else ((v % 2 ^ w : Nat) : Int)

/-- The target of an ARM branch, B1.4 of the ARM ARM: two words after the
branch plus the signed offset in words. -/
def branchTarget (encoding address : Nat) : Int :=
  ((address : Int) + 8 + 4 * signed encoding 24) % 2 ^ 32

/-- Byte `k` of a word, 0 being the least significant. -/
def byteOf (v k : Nat) : Nat := v / 256 ^ k % 256

/-- The ARM number of a Capstone register: R0-R12, LR, PC, SP; other registers
are numbered after the storages. -/
def armNumber (r : Nat) : Nat :=
  if 66 ≤ r ∧ r ≤ 78 then r - 66
  else if r = 10 then 14
  else if r = 11 then 15
  else if r = 12 then 13
  else 20 + r

end Verif.Spec
