import Verif.Model.Instruction

/-!
# `semantic_codec/architecture/arm_instruction.py` and `darm_instruction.py`

The two older decoders.  What the DARM library answers about an encoding is
data of the instruction (`Darm`).
-/

namespace Verif

/-! ### `ARMInstruction` -/

/-- `AOpType`, arm_constants.py lines 82-91. -/
def typeLSM : Nat := 2 ^ 27
/-- `AOpType.LOAD_STORE`, arm_constants.py line 86. -/
def typeLS : Nat := 2 ^ 26
/-- `AOpType.LOAD_STORE_OFFSET`, arm_constants.py line 87: `Bits.set(26, 25)`. -/
def typeLSO : Nat := 2 ^ 26 + 2 ^ 25
/-- `AOpType.SOFT_INTERRUPT`, arm_constants.py line 88. -/
def typeSWI : Nat := 0xF000000
/-- `AOpType.BRANCH`, arm_constants.py line 89. -/
def typeBranch : Nat := 0xA000000
/-- `AOpType.DATA_PROCESSING_IMMEDIATE`, arm_constants.py line 91. -/
def typeDPI : Nat := 0x2000000

/-- `opcode_type`, arm_instruction.py lines 22-26. -/
def armType (encoding : Nat) : Nat := encoding &&& 0xE000000

/-- `conditional_field`, arm_instruction.py lines 15-20. -/
def armCond (encoding : Nat) : Nat := encoding &&& 0xF0000000

/-- `opcode_field`, arm_instruction.py lines 28-36. -/
def armOpcode (encoding : Nat) : Py Nat :=
  let t := armType encoding
  if t = typeBranch ∨ t = typeSWI then .ok t
  else do
    let m ← bitsSet 24 21
    .ok (encoding &&& m)

/-- `(self.encoding & Bits.set(h, l)) >> l`, arm_instruction.py lines 38-54. -/
def armField (encoding : Nat) (h l : Nat) : Py Nat := do
  let m ← bitsSet h l
  .ok ((encoding &&& m) >>> l)

/-- `_rn_field_`, arm_instruction.py lines 38-42. -/
def armRn (encoding : Nat) : Py Nat := armField encoding 19 16
/-- `_rd_field_`, arm_instruction.py lines 44-48. -/
def armRd (encoding : Nat) : Py Nat := armField encoding 15 12
/-- `_rs_field_`, arm_instruction.py lines 50-54. -/
def armRs (encoding : Nat) : Py Nat := armField encoding 11 8
/-- `_rm_field_`, arm_instruction.py lines 56-60. -/
def armRm (encoding : Nat) : Nat := encoding &&& 0xF

/-- The registers of a data-processing instruction, arm_instruction.py lines
72-84. `op in range(AOp.EOR, AOp.RSC)` is `1 << 21 ≤ op < 7 << 21`. -/
def armUsedDP (encoding : Nat) : Py (List Nat) := do
  let rn ← armRn encoding
  let op ← armOpcode encoding
  let rd ← armRd encoding
  let rs ← armRs encoding
  let r := [rn]
  let r := if (2 ^ 21 ≤ op ∧ op < 7 * 2 ^ 21) ∨ op = 0 ∨ op = 14 * 2 ^ 21 ∨ op = 12 * 2 ^ 21
    then r ++ [rd] else r
  let r := if armType encoding = 0 then r ++ [armRm encoding] else r
  .ok (if armType encoding = 0 ∧ isOn encoding 4 then r ++ [rs] else r)

/-- `registers_used`, arm_instruction.py lines 62-96. -/
def armUsed (encoding : Nat) : Py (List Nat) :=
  let t := armType encoding
  if t ≤ typeDPI then armUsedDP encoding
  else if t = typeLS ∨ t = typeLSO then do
    let rn ← armRn encoding
    let rd ← armRd encoding
    .ok (if t = typeLSO then [rn, rd, armRm encoding] else [rn, rd])
  else if t = typeLSM then do
    let rn ← armRn encoding
    .ok (rn :: registerList encoding [])
  else .ok []

/-- `registers_written`, arm_instruction.py lines 98-112; on line 110 the
static method is called without its argument. -/
def armWritten (encoding : Nat) : Py (List Nat) :=
  let t := armType encoding
  if t = typeDPI ∨ t = 0 ∨ t = typeLS ∨ t = typeLSO then do
    let rd ← armRd encoding
    .ok [rd]
  else if t = typeLSM then .error .type
  else .ok []

/-- `list.remove`: the first occurrence goes; `ValueError` if there is none. -/
def pyRemove (l : List Nat) (x : Nat) : Py (List Nat) :=
  if x ∈ l then .ok (l.erase x) else .error .value

/-- `registers_read`, arm_instruction.py lines 114-126. -/
def armRead (encoding : Nat) : Py (List Nat) :=
  if armType encoding = typeLSM then do
    let rn ← armRn encoding
    .ok [rn]
  else do
    let u ← armUsed encoding
    let rd ← armRd encoding
    pyRemove u rd

/-! ### `DARMInstruction` -/

/-- What DARM says about an encoding; a register is `none` when the object that
DARM returns is false. -/
structure Darm where
  name : List Char
  s : Bool
  rt : Option Nat
  rd : Option Nat
  rn : Option Nat
  rs : Option Nat
  rm : Option Nat
  reglist : Nat
  cond : Nat

/-- `inst in str_lw`, darm_instruction.py lines 94-101. -/
def hasInfix (w : List Char) : List Char → Bool
  | [] => w.isEmpty
  | c :: t => w.isPrefixOf (c :: t) || hasInfix w t

/-- `_inst_is`, darm_instruction.py lines 94-101. -/
def Darm.instIs (d : Darm) (ws : List (List Char)) : Bool := ws.any fun w => hasInfix w d.name

/-- `registers_written`, darm_instruction.py lines 52-70. When the list is not
empty `_get_register_list` extends and returns that very list, which is then
extended with itself. -/
def Darm.written (d : Darm) : List Nat :=
  let r := if d.s || d.instIs [['t','s','t'], ['t','e','q'], ['c','m','p'], ['c','m','n']]
    then [17] else []
  let r := r ++ d.rt.toList ++ d.rd.toList
  if d.reglist > 0 && !d.instIs [['p','u','s','h']] then
    (if r.isEmpty then registerList d.reglist []
     else registerList d.reglist r ++ registerList d.reglist r)
  else r

/-- `registers_read`, darm_instruction.py lines 72-92. -/
def Darm.read (d : Darm) : List Nat :=
  let r := d.rn.toList ++ d.rs.toList ++ d.rm.toList
  let r := if d.cond ≠ 14 then r ++ [17] else r
  if d.instIs [['p','u','s','h']] && decide (d.reglist > 0) then r ++ registerList d.reglist [] else r

/-- `registers_used`, darm_instruction.py lines 43-50. -/
def Darm.used (d : Darm) : List Nat := d.written ++ d.read

end Verif
