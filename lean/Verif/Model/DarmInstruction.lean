import Verif.Model.ArmInstruction

/-!
# `semantic_codec/architecture/darm_instruction.py`, lines 103-159

What the DARM library answers is data of the instruction: the registers and the name
(`Darm`), the printed text and the number of the kind of encoding.
-/

namespace Verif

/-- What DARM says about an encoding; `text` is `str(self._darm)` and `instrType` is
`self._darm.instr_type.idx`. -/
structure DarmText where
  darm : Darm
  text : List Char
  instrType : Nat

/-- A `DARMInstruction`, darm_instruction.py lines 15-17 and instruction.py lines 18-44;
`dis` is `_darm`.  A cache that holds `None` or `[]` is `[]`. -/
structure DarmInst where
  dis : Option DarmText
  encoding : Nat
  address : Nat
  usedCache : List Nat := []
  readCache : List Nat := []
  writtenCache : List Nat := []
  jumpCache : Option Nat := none

/-- `s.split(',')`. -/
def splitComma : List Char → List (List Char)
  | [] => [[]]
  | c :: t =>
      if c = ',' then [] :: splitComma t
      else match splitComma t with
        | [] => [[c]]
        | p :: ps => (c :: p) :: ps

/-- `'[' in s or ']' in s`. -/
def hasBracket (s : List Char) : Bool := s.contains '[' || s.contains ']'

/-- `_writes_to_memory`, darm_instruction.py lines 103-106; the text of `None` has no
comma. -/
def DarmInst.writesMemory (i : DarmInst) : Bool :=
  match i.dis with
  | none => false
  | some d =>
      match splitComma d.text with
      | a :: _ :: _ => hasBracket a || d.darm.instIs [['p','u','s','h']]
      | _ => false

/-- `_read_from_memory`, darm_instruction.py lines 108-111. -/
def DarmInst.readsMemory (i : DarmInst) : Bool :=
  match i.dis with
  | none => false
  | some d =>
      match splitComma d.text with
      | _ :: b :: _ => hasBracket b || d.darm.instIs [['p','o','p']]
      | _ => false

/-- `registers_written`, `registers_read` and `registers_used`, darm_instruction.py lines
43-92: of `None` there are no attributes. -/
def DarmInst.regs (f : Darm → List Nat) (i : DarmInst) : Py (List Nat) :=
  match i.dis with
  | none => .error .attribute
  | some d => .ok (f d.darm)

/-- `is_branch`, darm_instruction.py lines 113-120. -/
def DarmInst.isBranch (i : DarmInst) : Py Bool :=
  match i.dis with
  | none => .error .attribute
  | some d => .ok (d.instrType = 10 || d.instrType = 11 || d.darm.written.contains 15)

/-- `is_push_pop`, darm_instruction.py lines 122-124. -/
def DarmInst.isPushPop (i : DarmInst) : Py Bool :=
  match i.dis with
  | none => .error .attribute
  | some d => .ok (d.darm.instIs [['p','u','s','h']] || d.darm.instIs [['p','o','p']])

/-- `is_undefined`, darm_instruction.py lines 129-134. -/
def DarmInst.isUndefined (i : DarmInst) : Bool := i.dis.isNone

/-- `jumping_address`, darm_instruction.py lines 136-147: the answer and the instruction
with its cache. -/
def DarmInst.jumpingAddress (i : DarmInst) : Py (Nat × DarmInst) :=
  match i.jumpCache with
  | some a => .ok (a, i)
  | none => do
      let a ← branchAddress i.encoding i.address
      .ok (a, { i with jumpCache := some a })

/-- The list `storages_used` builds, instruction.py lines 148-153. -/
def DarmInst.freshUsed (i : DarmInst) : Py (List Nat) := do
  let u ← i.regs Darm.used
  let u := if i.writesMemory || i.readsMemory then u ++ [16] else u
  .ok (if u.isEmpty then u ++ [18] else u)

/-- The list `storages_written` builds, instruction.py lines 163-170. -/
def DarmInst.freshWritten (i : DarmInst) : Py (List Nat) := do
  let u ← i.regs Darm.written
  let u := if i.writesMemory then u ++ [16] else u
  if u.contains 15 then .ok u
  else do
    let b ← i.isBranch
    .ok (if b then u ++ [15] else u)

/-- The list `storages_read` builds, instruction.py lines 177-181. -/
def DarmInst.freshRead (i : DarmInst) : Py (List Nat) := do
  let u ← i.regs Darm.read
  .ok (if i.readsMemory then u ++ [16] else u)

/-- `storages_used`, `storages_written` and `storages_read`, instruction.py lines 141-183:
the answer, or the exception, and the instruction afterwards. -/
def DarmInst.query (i : DarmInst) : Storage → Py (List Nat) × DarmInst
  | .used =>
      if i.usedCache ≠ [] then (.ok i.usedCache, i)
      else match i.freshUsed with
        | .ok l => (.ok l, { i with usedCache := l })
        | .error e => (.error e, i)
  | .written =>
      if i.writtenCache ≠ [] then (.ok i.writtenCache, i)
      else match i.freshWritten with
        | .ok l => (.ok l, { i with writtenCache := l })
        | .error e => (.error e, i)
  | .read =>
      if i.readCache ≠ [] then (.ok i.readCache, i)
      else match i.freshRead with
        | .ok l => (.ok l, { i with readCache := l })
        | .error e => (.error e, i)

/-- `modifies_flags`, darm_instruction.py lines 149-150: the answer and the instruction
afterwards. -/
def DarmInst.modifiesFlags (i : DarmInst) : Py Bool × DarmInst :=
  ((i.query .written).1.map fun l => l.contains 17, (i.query .written).2)

/-- `encodings_to_darm`, darm_instruction.py lines 152-159: the constructor is called
without an address. -/
def encodingsToDarm : List Nat → Py (List DarmInst)
  | [] => .ok []
  | _ :: _ => .error .type

end Verif
