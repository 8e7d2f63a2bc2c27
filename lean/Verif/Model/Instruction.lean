import Verif.Model.Bits

/-!
# `semantic_codec/architecture/instruction.py` and `capstone_instruction.py`

What Capstone answers about an encoding (`CapInst`) is data of the instruction:
its text, identifier, operands.  Its numeric constants are parameters
(`CapIds`).
-/

namespace Verif

/-! ### Helpers of the base class -/

/-- The four bytes of a 32-bit word, most significant first: `struct.pack(">I", v)`.
Out of range raises `struct.error`. -/
def packBE (v : Int) : Py (List Nat) :=
  if v < 0 ∨ v ≥ 2 ^ 32 then .error .struct
  else
    let n := v.toNat
    .ok [n / 2 ^ 24 % 256, n / 2 ^ 16 % 256, n / 2 ^ 8 % 256, n % 256]

/-- `struct.unpack("<I", b)[0]`: the first byte is the least significant. -/
def unpackLE : List Nat → Py Nat
  | [a, b, c, d] => .ok (a + b * 2 ^ 8 + c * 2 ^ 16 + d * 2 ^ 24)
  | _ => .error .struct

/-- `Instruction.reverse_endianess` of an integer, instruction.py lines 112-113. -/
def reverseWord (v : Int) : Py Nat := do
  let b ← packBE v
  unpackLE b

/-- `l[a:b]` for `0 ≤ a ≤ b`. -/
def pySlice {α : Type} (l : List α) (a b : Nat) : List α := (l.drop a).take (b - a)

/-- `Instruction.reverse_endianess` of a text, instruction.py lines 107-111.
White space is what `str.split` splits at; here blanks, tabs and line ends. -/
def reverseText (s : List Char) : List Char :=
  let a := s.filter fun c => !(c = ' ' || c = '\t' || c = '\n' || c = '\r')
  pySlice a 6 8 ++ pySlice a 4 6 ++ pySlice a 2 4 ++ pySlice a 0 2

/-- `Instruction._get_register_list`, instruction.py lines 96-103; the default
`None` and an empty list are both false. The list passed is the one returned. -/
def registerList (encoding : Nat) (result : List Nat) : List Nat :=
  forRange 0 16 (fun r x => if isOn encoding x && !r.contains x then r ++ [x] else r) result

/-- The address computed by `Instruction.jumping_address` for a branch,
instruction.py lines 72-77. The address of the instruction is not negative. -/
def branchAddress (encoding address : Nat) : Py Nat := do
  let m ← bitsSet 23 0
  let a := encoding &&& m
  let a ← if isOn a 23 then (do let m' ← bitsSet 29 24; pure (a ||| m')) else pure a
  let a := a <<< 2
  let a := a + (address + 8)
  pure (a &&& 0xffffffff)

/-! ### Instructions decoded by Capstone -/

/-- An operand: `op.type` and the part of `op.value` that is looked at. -/
inductive Operand
  | reg (r : Nat)
  | mem (base index : Nat)
  | imm (v : Int)
  | other
  deriving DecidableEq, Repr

/-- What Capstone says about an encoding; `text` is the lower-case text printed
by `__str__`, capstone_instruction.py lines 24-27. -/
structure CapInst where
  text : List Char
  id : Nat
  cc : Int
  operands : List Operand
  updateFlags : Bool := false
  deriving DecidableEq, Repr

/-- The constants `ARM_INS_*` imported in capstone_instruction.py lines 4-5. -/
structure CapIds where
  str : Nat
  strbt : Nat
  b : Nat
  bx : Nat
  bl : Nat
  blx : Nat

/-- A `CAPSInstruction`: `cap` is `_cap`, the other fields are the attributes of
the base class, instruction.py lines 18-44. A cache that holds `None` or `[]`
is `[]`. -/
structure CapsInst where
  cap : Option CapInst
  encoding : Nat
  address : Nat
  usedCache : List Nat := []
  readCache : List Nat := []
  writtenCache : List Nat := []
  jumpCache : Option Int := none
  deriving DecidableEq, Repr

/-- `AReg.CAPSTONE_REGS`, arm_constants.py lines 36-54. -/
def capstoneRegs : List (Nat × Nat) :=
  [(0, 0), (66, 0), (67, 1), (68, 2), (69, 3), (70, 4), (71, 5), (72, 6), (73, 7), (74, 8),
   (75, 9), (76, 10), (77, 11), (78, 12), (10, 14), (11, 15), (12, 13)]

/-- `AReg.STORAGE_COUNT`, arm_constants.py lines 32-34. -/
def aregStorageCount : Nat := 20

/-- `str(self).lower().startswith(w)`, capstone_instruction.py lines 124-131. The
text of an undefined instruction starts with `<`, so it starts with no
mnemonic. -/
def CapsInst.isA (i : CapsInst) (w : List Char) : Bool :=
  match i.cap with
  | none => false
  | some c => w.isPrefixOf c.text

/-- `is_push_pop`, capstone_instruction.py lines 152-154. -/
def CapsInst.isPushPop (i : CapsInst) : Bool := i.isA ['p', 'u', 's', 'h'] || i.isA ['p', 'o', 'p']

/-- `if not register in result: result.append(register)`. -/
def addReg (result : List Nat) (register : Nat) : List Nat :=
  if result.contains register then result else result ++ [register]

/-- One register of a memory operand, capstone_instruction.py lines 71-73 and
74-76. -/
def addMemReg (result : List Nat) (r : Nat) : Py (List Nat) :=
  match dictGet capstoneRegs r with
  | none => .error .key
  | some register => .ok (if register ≠ 0 then addReg result register else result)

/-- The number of a register operand, capstone_instruction.py lines 64-67. -/
def operandReg (r : Nat) : Nat :=
  match dictGet capstoneRegs r with
  | none => aregStorageCount + r
  | some register => register

/-- One turn of the loop, capstone_instruction.py lines 63-76. -/
def addOperand (result : List Nat) : Operand → Py (List Nat)
  | .reg r =>
      .ok (addReg result (operandReg r))
  | .mem base index => do
      let result ← addMemReg result base
      addMemReg result index
  | .imm _ => .ok result
  | .other => .ok result

/-- `registers_used`, capstone_instruction.py lines 53-78. -/
def CapsInst.registersUsed (i : CapsInst) : Py (List Nat) :=
  match i.cap with
  | none => .error .attribute
  | some c => c.operands.foldlM addOperand (if i.isPushPop then [13] else [])

/-- `registers_written`, capstone_instruction.py lines 80-90. -/
def CapsInst.registersWritten (i : CapsInst) : Py (List Nat) :=
  if i.isA ['p', 'o', 'p'] then i.registersUsed
  else if i.isA ['p', 'u', 's', 'h'] then .ok []
  else do
    let u ← i.registersUsed
    .ok (u.take 1)

/-- The registers read before the stack pointer is added, capstone_instruction.py
lines 98-101. -/
def CapsInst.readBase (i : CapsInst) : Py (List Nat) :=
  if i.isA ['p', 'o', 'p'] then .ok []
  else do
    let u ← i.registersUsed
    .ok (u.drop 1)

/-- `registers_read`, capstone_instruction.py lines 92-106. -/
def CapsInst.registersRead (i : CapsInst) : Py (List Nat) := do
  let r ← i.readBase
  .ok (if i.isPushPop && !r.contains 13 then r ++ [13] else r)

/-- `_writes_to_memory`, capstone_instruction.py lines 133-135. -/
def CapsInst.writesMemory (ids : CapIds) (i : CapsInst) : Py Bool :=
  match i.cap with
  | none => .error .attribute
  | some c => .ok (decide (ids.str ≥ c.id ∧ c.id ≥ ids.strbt))

/-- `_read_from_memory`, capstone_instruction.py lines 137-141. -/
def CapsInst.readsMemory (ids : CapIds) (i : CapsInst) : Py Bool :=
  match i.cap with
  | none => .error .attribute
  | some c =>
      if c.operands.any (fun o => match o with | .mem _ _ => true | _ => false) then do
        let w ← i.writesMemory ids
        .ok (!w)
      else .ok false

/-- `is_branch`, capstone_instruction.py lines 144-150; `opcode_field` is
`_cap.id`, lines 39-44. -/
def CapsInst.isBranch (ids : CapIds) (i : CapsInst) : Py Bool :=
  match i.cap with
  | none => .error .attribute
  | some c =>
      if c.id = ids.b ∨ c.id = ids.bx ∨ c.id = ids.bl ∨ c.id = ids.blx then .ok true
      else do
        let w ← i.registersWritten
        .ok (w.contains 15)

/-- `jumping_address`, capstone_instruction.py lines 166-186: the answer and
the instruction with its cache. -/
def CapsInst.jumpingAddress (ids : CapIds) (i : CapsInst) : Py (Option Int × CapsInst) := do
  let b ← i.isBranch ids
  if b then
    match i.jumpCache with
    | some a => .ok (some a, i)
    | none =>
        let a := match i.cap with
          | none => none
          | some c => c.operands.findSome? fun o => match o with | .imm v => some v | _ => none
        .ok (a, { i with jumpCache := a })
  else .ok (none, i)

/-- `branch_to`, instruction.py lines 209-218; the target is asked for again at
every instruction. -/
def CapsInst.branchTo (ids : CapIds) : CapsInst → List CapsInst → Py (Option CapsInst × CapsInst)
  | i, [] => .ok (none, i)
  | i, x :: xs => do
      let (a, i) ← i.jumpingAddress ids
      if a = some (x.address : Int) then .ok (some x, i) else CapsInst.branchTo ids i xs

/-- The list `storages_used` builds, instruction.py lines 148-153. -/
def CapsInst.freshUsed (ids : CapIds) (i : CapsInst) : Py (List Nat) := do
  let u ← i.registersUsed
  let w ← i.writesMemory ids
  let r ← i.readsMemory ids
  let u := if w || r then u ++ [16] else u
  .ok (if u.isEmpty then u ++ [18] else u)

/-- The list `storages_written` builds, instruction.py lines 163-170. -/
def CapsInst.freshWritten (ids : CapIds) (i : CapsInst) : Py (List Nat) := do
  let u ← i.registersWritten
  let w ← i.writesMemory ids
  let u := if w then u ++ [16] else u
  if u.contains 15 then .ok u
  else do
    let b ← i.isBranch ids
    .ok (if b then u ++ [15] else u)

/-- The list `storages_read` builds, instruction.py lines 177-181. -/
def CapsInst.freshRead (ids : CapIds) (i : CapsInst) : Py (List Nat) := do
  let u ← i.registersRead
  let r ← i.readsMemory ids
  .ok (if r then u ++ [16] else u)

/-- The three queries. -/
inductive Storage
  | used | written | read
  deriving DecidableEq, Repr

/-- `storages_used`, `storages_written` and `storages_read`, instruction.py
lines 141-183: the answer, or the exception, and the instruction afterwards.
When an exception is raised the cache is empty, because the call that raises
comes before anything is appended. -/
def CapsInst.query (ids : CapIds) (i : CapsInst) : Storage → Py (List Nat) × CapsInst
  | .used =>
      if i.usedCache ≠ [] then (.ok i.usedCache, i)
      else match i.freshUsed ids with
        | .ok l => (.ok l, { i with usedCache := l })
        | .error e => (.error e, i)
  | .written =>
      if i.writtenCache ≠ [] then (.ok i.writtenCache, i)
      else match i.freshWritten ids with
        | .ok l => (.ok l, { i with writtenCache := l })
        | .error e => (.error e, i)
  | .read =>
      if i.readCache ≠ [] then (.ok i.readCache, i)
      else match i.freshRead ids with
        | .ok l => (.ok l, { i with readCache := l })
        | .error e => (.error e, i)

/-- `conditional_field`, capstone_instruction.py lines 32-37. -/
def CapsInst.condField (i : CapsInst) : Py Int :=
  match i.cap with
  | none => .error .attribute
  | some c => .ok (c.cc - 1)

/-- The bytes handed to Capstone by the constructor, capstone_instruction.py
line 15: `to_bytes(4, 'little')`, which raises `OverflowError` outside 32 bits. -/
def encodingBytes (encoding : Int) : Py (List Nat) :=
  if encoding < 0 ∨ encoding ≥ 2 ^ 32 then .error .overflow
  else
    let n := encoding.toNat
    .ok [n % 256, n / 2 ^ 8 % 256, n / 2 ^ 16 % 256, n / 2 ^ 24 % 256]

end Verif
